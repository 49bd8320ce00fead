import Verif.Spec.IdlDoc
import Verif.Spec.Inst
/-!
# The types a text can make
-/

namespace Verif
open Inst

mutual
/-- A type in which every structure has members of different names, every union is one that constructing a union and adding
cases to it gives, and every enumeration has 32 bits and enumerators of different names. -/
def Ty.Made : Ty → Prop
  | .prim _ => True
  | .enum _ w vs => w = .w4 ∧ (vs.map (·.1)).Nodup
  | .str _ _ => True
  | .seq c _ => c.Made
  | .arr _ c _ => c.Made
  | .map k v _ => k.Made ∧ v.Made
  | .pair x y => x.Made ∧ y.Made
  | .alias _ t => t.Made
  | .struct _ ms => (ms.toList.map (·.1)).Nodup ∧ ms.Made
  | .union n d ms i => (∃ u : UnionB, u.Built ∧ u.toTy = .union n d ms i) ∧ d.Made ∧ ms.Made
/-- See `Ty.Made`. -/
def Mems.Made : Mems → Prop
  | .nil => True
  | .cons _ t r => t.Made ∧ r.Made
end

mutual
/-- A type in which no union has a case for the value that the library keeps for "no case". -/
def Ty.Unreserved : Ty → Prop
  | .prim _ => True
  | .enum _ _ _ => True
  | .str _ _ => True
  | .seq c _ => c.Unreserved
  | .arr _ c _ => c.Unreserved
  | .map k v _ => k.Unreserved ∧ v.Unreserved
  | .pair x y => x.Unreserved ∧ y.Unreserved
  | .alias _ t => t.Unreserved
  | .struct _ ms => ms.Unreserved
  | .union _ _ ms i => UInfo.case i i.invalidValue = none ∧ ms.Unreserved
/-- See `Ty.Unreserved`. -/
def Mems.Unreserved : Mems → Prop
  | .nil => True
  | .cons _ t r => t.Unreserved ∧ r.Unreserved
end

end Verif
