import Verif.Model.Builder
/-!
# Members with their annotations, structures with their parent

`Verif.Model.Builder` leaves out what has no influence on data: the annotations of `Member` and the parent of a structure.
Here they are.
-/

namespace Verif

/-- `Member` (Member.hpp 33-133). `id_` is an `int32_t`, here any integer; `offset_` is not initialized by the constructors. -/
structure Member where
  name : String
  ty : Ty
  id : Int
  key : Bool
  optional : Bool
  offset : Option Nat

namespace Member

/-- `Member(name, type)` (Member.hpp 42-64). -/
def new (n : String) (t : Ty) : Member := ⟨n, t, -1, false, false, none⟩

/-- `get_id()` (Member.hpp 80). -/
def getId (m : Member) : Int := m.id

/-- `has_id()` (Member.hpp 84). -/
def hasId (m : Member) : Bool := decide (m.id ≥ 0)

/-- `is_key()` (Member.hpp 88). -/
def isKey (m : Member) : Bool := m.key

/-- `is_optional()` (Member.hpp 92). -/
def isOptional (m : Member) : Bool := m.optional

/-- `id(value)` (Member.hpp 102-106). -/
def setId (m : Member) (v : Int) : Member := { m with id := v }

/-- `key(value)` (Member.hpp 111-115). -/
def setKey (m : Member) (v : Bool) : Member := { m with key := v }

/-- `optional(value)` (Member.hpp 120-124). -/
def setOptional (m : Member) (v : Bool) : Member := { m with optional := v }

end Member

/-- `StructType` (StructType.hpp 32, 292) with all of its `AggregationType` (AggregationType.hpp 84, 131-133). -/
inductive StructM where
  | mk (name : String) (parent : Option StructM) (members : List Member) (indexes : List (String × Nat)) (size : Nat)

namespace StructM

/-- `name()` (DynamicType.hpp 45). -/
def name : StructM → String
  | mk n _ _ _ _ => n

/-- `parent_` (AggregationType.hpp 84). -/
def parent? : StructM → Option StructM
  | mk _ p _ _ _ => p

/-- `members()` (AggregationType.hpp 44). -/
def members : StructM → List Member
  | mk _ _ ms _ _ => ms

/-- `indexes_` (AggregationType.hpp 132). -/
def indexes : StructM → List (String × Nat)
  | mk _ _ _ i _ => i

/-- `memory_size()` (StructType.hpp 89-92). -/
def size : StructM → Nat
  | mk _ _ _ _ z => z

/-- `has_parent()` (AggregationType.hpp 70). -/
def hasParent (s : StructM) : Bool := s.parent?.isSome

/-- `has_member(name)` (AggregationType.hpp 40). -/
def has (s : StructM) (n : String) : Bool := omHas s.indexes n

/-- `member(index)` (AggregationType.hpp 50-55); `none`: refused. -/
def at? (s : StructM) (i : Nat) : Option Member := s.members[i]?

/-- `member(name)` (AggregationType.hpp 61-66); `none`: refused. -/
def byName? (s : StructM) (n : String) : Option Member := (omGet s.indexes n).bind fun i => s.members[i]?

/-- `insert_member` (AggregationType.hpp 102-109); `false`: refused. -/
def insert (s : StructM) (m : Member) : StructM × Bool :=
  if s.has m.name then (s, false)
  else (mk s.name s.parent? (s.members ++ [m]) (omEmplace s.indexes m.name s.members.length).1 s.size, true)

/-- `add_member(member)` (StructType.hpp 55-62); the offset is written into the member inside. -/
def addMember (s : StructM) (m : Member) : StructM × Bool :=
  match s.insert m with
  | (r, false) => (r, false)
  | (r, true) =>
    (mk r.name r.parent? (r.members.modify (r.members.length - 1) fun x => { x with offset := some s.size }) r.indexes
      (s.size + m.ty.memSize), true)

/-- `StructType(name)` (StructType.hpp 38-44). -/
def new (n : String) : StructM := mk n none [] [] 0

/-- `StructType(name, &p)` (StructType.hpp 38-44, AggregationType.hpp 86-96, 113-129). -/
def child (n : String) (p : StructM) : StructM :=
  let s := p.members.foldl (fun s m => (s.insert m).1) (mk n (some p) [] [] 0)
  mk s.name s.parent? s.members s.indexes p.size

/-- Structures that programs make. (a client of StructType.hpp 38-62, no code of its own) -/
inductive Built : StructM → Prop
  | new (n) : Built (new n)
  | child (n) {p} : Built p → Built (child n p)
  | add (m) {s} : Built s → Built (s.addMember m).1

end StructM

/-- `UnionType` (UnionType.hpp 58, 1133-1140) with the annotations of its members: `Verif.Model.Builder` for everything else. Member 0 is
the discriminator. -/
structure UnionM where
  base : UnionB
  members : List Member

namespace UnionM

/-- `UnionType(name, discriminator)` (UnionType.hpp 64-79, 475-482); `none`: refused. -/
def new (n : String) (d : Ty) : Option UnionM := (UnionB.new n d).map fun u => ⟨u, [{ Member.new discName d with offset := some 0 }]⟩

/-- `add_case_member(labels, member, is_default)` (UnionType.hpp 90-149): the member is copied by `insert_member` (110,
AggregationType.hpp 102-109), which is reached just if the members of `Verif.Model.Builder` grow; then it gets its offset (114). -/
def addCase (u : UnionM) (ls : List Int) (m : Member) (isDefault : Bool) : UnionM × Bool :=
  match u.base.addCase ls m.name m.ty isDefault with
  | (b, ok) => (⟨b, if u.base.agg.members.length < b.agg.members.length
      then u.members ++ [{ m with offset := some u.base.disc.memSize }] else u.members⟩, ok)

/-- `member(index)` (AggregationType.hpp 50-55); `none`: refused. -/
def at? (u : UnionM) (i : Nat) : Option Member := u.members[i]?

/-- `member(name)` (AggregationType.hpp 61-66); `none`: refused. -/
def byName? (u : UnionM) (n : String) : Option Member := (omGet u.base.agg.indexes n).bind fun i => u.members[i]?

/-- Unions that programs make. (a client of UnionType.hpp 64-149, no code of its own) -/
inductive Built : UnionM → Prop
  | new (n d) {u} : new n d = some u → Built u
  | add (ls m b) {u} : Built u → Built (u.addCase ls m b).1

end UnionM

end Verif
