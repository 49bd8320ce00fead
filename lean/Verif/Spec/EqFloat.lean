import Verif.Spec.Eq
/-!
# Values whose bytes equality settles

A `float` or `double` other than a zero is equal to one number only, itself; the two zeros are equal to each other and
have different bytes, and two equal `long double`s may differ in the six bytes that are padding.
-/

namespace Verif.Inst

/-- The number is 0.0 or -0.0: all bits but the sign are 0. -/
def isZero : PK → List Byte → Prop
  | .f32, bs => leNat bs % 2 ^ 31 = 0
  | .f64, bs => leNat bs % 2 ^ 63 = 0
  | _, _ => False

mutual
/-- No floating point number in the value is a zero or a `long double`, except as a direct element of a collection (where
elements are compared as bytes). -/
def NoZero : Ty → Val → Prop
  | .prim k, .bytes x => k ≠ .f128 ∧ ¬ isZero k x
  | .seq c _, .coll us => c.isConstructed = false ∨ ∀ u ∈ us, NoZero c u
  | .arr _ c _, .list us => c.isConstructed = false ∨ ∀ u ∈ us, NoZero c u
  | .map k w _, .coll us => (k.isConstructed = false ∧ w.isConstructed = false) ∨
    ∀ u ∈ us, ∀ a b, u = .list [a, b] → NoZero k a ∧ NoZero w b
  | .pair s t, .list [a, b] => NoZero s a ∧ NoZero t b
  | .alias _ t, u => NoZero t u
  | .struct _ ms, .list us => NoZeroAll ms us
  | .union _ _ ms _, .un _ n u => NoZeroCase ms n u
  | _, _ => True
/-- All members. -/
def NoZeroAll : Mems → List Val → Prop
  | .cons _ t r, u :: us => NoZero t u ∧ NoZeroAll r us
  | _, _ => True
/-- The member with the given name. -/
def NoZeroCase : Mems → String → Val → Prop
  | .nil, _, _ => True
  | .cons x t r, n, u => if x = n then NoZero t u else NoZeroCase r n u
end

end Verif.Inst
