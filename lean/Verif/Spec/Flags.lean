import Verif.Model.Compat
/-!
# The kinds of difference between two types

Two types are compared position by position. Aliases stand for their types.
-/

namespace Verif

/-- The kinds of difference that can be tolerated. -/
inductive Flag where
  | sign | width | seqBounds | arrayBounds | stringBounds | memberNames | members | mapBounds
  deriving DecidableEq, Repr

/-- The `TypeConsistency` flag of a kind of difference. -/
def Flag.cons : Flag → Cons
  | .sign => Cons.sign
  | .width => Cons.width
  | .seqBounds => Cons.seqBounds
  | .arrayBounds => Cons.arrayBounds
  | .stringBounds => Cons.stringBounds
  | .memberNames => Cons.memberNames
  | .members => Cons.members
  | .mapBounds => Cons.mapBounds

/-- Unsigned integers. -/
def PK.unsigned (k : PK) : Prop := k = .u8 ∨ k = .u16 ∨ k = .u32 ∨ k = .u64

/-- What is compared one by one in two structures or in two unions: for a union, the discriminator comes first. -/
inductive Aggregates : Ty → Ty → Mems → Mems → Prop where
  | structs (n m ms os) : Aggregates (.struct n ms) (.struct m os) ms os
  | unions (n m d e ms os i j) :
    Aggregates (.union n d ms i) (.union m e os j) (.cons "discriminator" d ms) (.cons "discriminator" e os)

/-- Two types that are not aliases are of the same sort. An enumeration accepts a number, but not conversely. -/
inductive Comparable : Ty → Ty → Prop where
  | prims (k l) : Comparable (.prim k) (.prim l)
  | enums (n m w x vs us) : Comparable (.enum n w vs) (.enum m x us)
  | enumPrim (n w vs k) : Comparable (.enum n w vs) (.prim k)
  | strings (k c d) : Comparable (.str k c) (.str k d)
  | seqs (t u c d) : Comparable (.seq t c) (.seq u d)
  | arrays (n m t u c d) : Comparable (.arr n t c) (.arr m u d)
  | maps (k v l w c d) : Comparable (.map k v c) (.map l w d)
  | pairs (x y z w) : Comparable (.pair x y) (.pair z w)
  | aggregates (a b ms os) : Aggregates a b ms os → Comparable a b

/-- The corresponding parts of two types. -/
inductive Part : Ty → Ty → Ty → Ty → Prop where
  | seq (t u c d) : Part (.seq t c) (.seq u d) t u
  | arr (n m t u c d) : Part (.arr n t c) (.arr m u d) t u
  | mapKey (k v l w c d) : Part (.map k v c) (.map l w d) k l
  | mapValue (k v l w c d) : Part (.map k v c) (.map l w d) v w
  | first (x y z w) : Part (.pair x y) (.pair z w) x z
  | second (x y z w) : Part (.pair x y) (.pair z w) y w
  | member (a b ms os i x t y u) : Aggregates a b ms os → ms.get? i = some (x, t) → os.get? i = some (y, u) →
    Part a b t u

/-- The difference itself, between two types that are not aliases, their parts aside. -/
inductive Differ : Flag → Ty → Ty → Prop where
  | primWidth (k l) : k.size ≠ l.size → Differ .width (.prim k) (.prim l)
  | primSign (k l) : ¬ (k.unsigned ↔ l.unsigned) → Differ .sign (.prim k) (.prim l)
  | enumWidth (n m w x vs us) : w.size ≠ x.size → Differ .width (.enum n w vs) (.enum m x us)
  | enumPrimWidth (n w vs l) : w.size ≠ l.size → Differ .width (.enum n w vs) (.prim l)
  | enumPrimSign (n w vs l) : ¬ PK.unsigned l → Differ .sign (.enum n w vs) (.prim l)
  | string (k c d) : c ≠ d → Differ .stringBounds (.str k c) (.str k d)
  | seq (t u c d) : c ≠ d → Differ .seqBounds (.seq t c) (.seq u d)
  | arr (n m t u c d) : c ≠ d → Differ .arrayBounds (.arr n t c) (.arr m u d)
  | map (k v l w c d) : c ≠ d → Differ .mapBounds (.map k v c) (.map l w d)
  | members (a b ms os) : Aggregates a b ms os → ms.length ≠ os.length → Differ .members a b
  | names (a b ms os i x t y u) : Aggregates a b ms os → ms.get? i = some (x, t) → os.get? i = some (y, u) → x ≠ y →
    Differ .memberNames a b

/-- `At a b c d`: where `a` and `b` correspond, `c` (inside `a`) corresponds to `d` (inside `b`). -/
inductive At : Ty → Ty → Ty → Ty → Prop where
  | here (a b) : At a b a.rget b.rget
  | inside (a b x y c d) : Part a.rget b.rget x y → At x y c d → At a b c d

/-- Somewhere the two types are of different sorts. -/
def Clash (a b : Ty) : Prop := ∃ c d, At a b c d ∧ ¬ Comparable c d

/-- Somewhere there is a difference of this kind. -/
def Differs (f : Flag) (a b : Ty) : Prop := ∃ c d, At a b c d ∧ Differ f c d

mutual
/-- No structure with exactly one member: such a structure is compared as if it were its member. -/
def Ty.multi : Ty → Bool
  | .seq c _ => c.multi
  | .arr _ c _ => c.multi
  | .map k v _ => k.multi && v.multi
  | .pair a b => a.multi && b.multi
  | .alias _ t => t.multi
  | .struct _ ms => ms.length != 1 && ms.multi
  | .union _ d ms _ => d.multi && ms.multi
  | _ => true
/-- See `Ty.multi`. -/
def Mems.multi : Mems → Bool
  | .nil => true
  | .cons _ t r => t.multi && r.multi
end

mutual
/-- No alias of an enumeration. -/
def Ty.bare : Ty → Bool
  | .seq c _ => c.bare
  | .arr _ c _ => c.bare
  | .map k v _ => k.bare && v.bare
  | .pair a b => a.bare && b.bare
  | .alias _ t => !t.rget.isEnumerated && t.bare
  | .struct _ ms => ms.bare
  | .union _ d ms _ => d.bare && ms.bare
  | _ => true
/-- See `Ty.bare`. -/
def Mems.bare : Mems → Bool
  | .nil => true
  | .cons _ t r => t.bare && r.bare
end

end Verif
