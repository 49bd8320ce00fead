import Verif.Spec.Data
/-!
# When two data are equal

`Same false T u v`: the values `u` and `v` of the type `T` have the same shape and all their leaves agree, numbers
in the sense of `==` of C++ (`primEq`: a `nan` differs from itself, 0.0 equals -0.0). `Same true T u v`: the
same, except that numbers that are direct elements of a collection have to agree byte by byte.
-/

namespace Verif.Inst

mutual
/-- See above; `bw` for "byte-wise". -/
def Same (bw : Bool) : Ty → Val → Val → Prop
  | .prim k, .bytes x, .bytes y => primEq k x y = true
  | .enum _ _ _, .bytes x, .bytes y => x = y
  | .str _ _, .str us, .str vs => us = vs
  | .seq c _, .coll us, .coll vs =>
    if bw && !c.isConstructed then us = vs else us.length = vs.length ∧ ∀ (i : Nat) (u v : Val), us[i]? = some u → vs[i]? = some v → Same bw c u v
  | .arr _ c _, .list us, .list vs =>
    if bw && !c.isConstructed then us = vs else us.length = vs.length ∧ ∀ (i : Nat) (u v : Val), us[i]? = some u → vs[i]? = some v → Same bw c u v
  | .map k w _, .coll us, .coll vs =>
    if bw && !k.isConstructed && !w.isConstructed then us = vs
    else us.length = vs.length ∧ ∀ (i : Nat) (u v : Val), us[i]? = some u → vs[i]? = some v →
      ∃ a b x y, u = .list [a, b] ∧ v = .list [x, y] ∧ Same bw k a x ∧ Same bw w b y
  | .pair s t, .list [a, b], .list [x, y] => Same bw s a x ∧ Same bw t b y
  | .alias _ t, u, v => Same bw t u v
  | .struct _ ms, .list us, .list vs => SameAll bw ms us vs
  | .union _ _ _ _, .unNone d, .unNone e => d = e
  | .union _ _ ms _, .un d n u, .un e m v => d = e ∧ n = m ∧ SameCase bw ms n u v
  | _, _, _ => False
/-- All members. -/
def SameAll (bw : Bool) : Mems → List Val → List Val → Prop
  | .nil, [], [] => True
  | .cons _ t r, u :: us, v :: vs => Same bw t u v ∧ SameAll bw r us vs
  | _, _, _ => False
/-- The member with the given name. -/
def SameCase (bw : Bool) : Mems → String → Val → Val → Prop
  | .nil, _, _, _ => False
  | .cons x t r, n, u, v => if x = n then Same bw t u v else SameCase bw r n u v
end

mutual
/-- No collection has floating point numbers as its direct elements. -/
def NoFloatElems : Ty → Prop
  | .seq c _ => ¬ (∃ k, c = .prim k ∧ k.isFloat = true) ∧ NoFloatElems c
  | .arr _ c _ => ¬ (∃ k, c = .prim k ∧ k.isFloat = true) ∧ NoFloatElems c
  | .map k v _ => (k.isConstructed = false → v.isConstructed = false → NoFloats k ∧ NoFloats v) ∧ NoFloatElems k ∧ NoFloatElems v
  | .pair x y => NoFloatElems x ∧ NoFloatElems y
  | .alias _ t => NoFloatElems t
  | .struct _ ms => NoFloatElemsAll ms
  | .union _ _ ms _ => NoFloatElemsAll ms
  | _ => True
/-- All members. -/
def NoFloatElemsAll : Mems → Prop
  | .nil => True
  | .cons _ t r => NoFloatElems t ∧ NoFloatElemsAll r
/-- No floating point number anywhere. -/
def NoFloats : Ty → Prop
  | .prim k => k.isFloat = false
  | .seq c _ => NoFloats c
  | .arr _ c _ => NoFloats c
  | .map k v _ => NoFloats k ∧ NoFloats v
  | .pair x y => NoFloats x ∧ NoFloats y
  | .alias _ t => NoFloats t
  | .struct _ ms => NoFloatsAll ms
  | .union _ _ ms _ => NoFloatsAll ms
  | _ => True
/-- All members. -/
def NoFloatsAll : Mems → Prop
  | .nil => True
  | .cons _ t r => NoFloats t ∧ NoFloatsAll r
end

/-- The number is a `nan`: all bits of the exponent set and a fraction other than 0 (for `long double`: without the
integer bit). -/
def isNan : PK → List Byte → Prop
  | .f32, bs => leNat bs / 2 ^ 23 % 2 ^ 8 = 2 ^ 8 - 1 ∧ leNat bs % 2 ^ 23 ≠ 0
  | .f64, bs => leNat bs / 2 ^ 52 % 2 ^ 11 = 2 ^ 11 - 1 ∧ leNat bs % 2 ^ 52 ≠ 0
  | .f128, bs => leNat bs / 2 ^ 64 % 2 ^ 15 = 2 ^ 15 - 1 ∧ leNat bs % 2 ^ 63 ≠ 0
  | _, _ => False

mutual
/-- No number in the value is a `nan`. -/
def NoNan : Ty → Val → Prop
  | .prim k, .bytes x => ¬ isNan k x
  | .seq c _, .coll us => ∀ u ∈ us, NoNan c u
  | .arr _ c _, .list us => ∀ u ∈ us, NoNan c u
  | .map k w _, .coll us => ∀ u ∈ us, ∀ a b, u = .list [a, b] → NoNan k a ∧ NoNan w b
  | .pair s t, .list [a, b] => NoNan s a ∧ NoNan t b
  | .alias _ t, u => NoNan t u
  | .struct _ ms, .list us => NoNanAll ms us
  | .union _ _ ms _, .un _ n u => NoNanCase ms n u
  | _, _ => True
/-- All members. -/
def NoNanAll : Mems → List Val → Prop
  | .cons _ t r, u :: us => NoNan t u ∧ NoNanAll r us
  | _, _ => True
/-- The member with the given name. -/
def NoNanCase : Mems → String → Val → Prop
  | .nil, _, _ => True
  | .cons x t r, n, u => if x = n then NoNan t u else NoNanCase r n u
end

end Verif.Inst
