import Verif.Model.Member
/-!
# What the annotations of a member should be

The last setting of each counts, whatever else is set in between.
-/

namespace Verif

/-- A call that sets an annotation. -/
inductive Setting where
  | id (v : Int)
  | key (v : Bool)
  | optional (v : Bool)

/-- `member.id(1).key().optional(false)…` -/
def Member.sets (m : Member) : List Setting → Member
  | [] => m
  | .id v :: l => sets (m.setId v) l
  | .key v :: l => sets (m.setKey v) l
  | .optional v :: l => sets (m.setOptional v) l

/-- The last id that was set. -/
def lastId (l : List Setting) : Option Int := l.reverse.findSome? fun | .id v => some v | _ => none

/-- The last key that was set. -/
def lastKey (l : List Setting) : Option Bool := l.reverse.findSome? fun | .key v => some v | _ => none

/-- The last optional that was set. -/
def lastOptional (l : List Setting) : Option Bool := l.reverse.findSome? fun | .optional v => some v | _ => none

/-- What a program says of a member: everything but the place that it gets in a structure. -/
structure Member.Same (a b : Member) : Prop where
  name : a.name = b.name
  ty : a.ty = b.ty
  id : a.getId = b.getId
  key : a.isKey = b.isKey
  optional : a.isOptional = b.isOptional

/-- Add one member after the other, whether it is accepted or not. -/
def StructM.adds (s : StructM) : List Member → StructM
  | [] => s
  | m :: l => adds (s.addMember m).1 l

/-- The same members, the same names of them, and the same offsets, without the annotations. -/
def StructM.bare (s : StructM) : List (String × Ty × Option Nat) := s.members.map fun m => (m.name, m.ty, m.offset)

/-- A structure of `Verif.Model.Builder`, whose members have no annotations. -/
def StructM.IsBare (s : StructM) (b : StructB) : Prop :=
  s.name = b.name ∧ s.bare = (b.agg.members.map fun m => (m.name, m.ty, some m.offset)) ∧ s.indexes = b.agg.indexes ∧ s.size = b.size

/-- Add one case after the other (labels, member, default or not), whether it is accepted or not. -/
def UnionM.adds (u : UnionM) : List (List Int × Member × Bool) → UnionM
  | [] => u
  | c :: l => adds (u.addCase c.1 c.2.1 c.2.2).1 l

end Verif
