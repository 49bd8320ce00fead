import Verif.Spec.Eq
import Verif.Model.InstHash
/-! # Types whose hash works -/

namespace Verif.Inst

mutual
/-- Every sequence is unbounded, and no hash of a discriminator of a union happens to be one of its labels. -/
def Hashable : Ty → Prop
  | .seq _ b => b = 0
  | .arr _ c _ => Hashable c
  | .map k v _ => Hashable k ∧ Hashable v
  | .pair x y => Hashable x ∧ Hashable y
  | .alias _ t => Hashable t
  | .struct _ ms => HashableAll ms
  | .union _ d _ i => ∀ bs : List Byte, bs.length = d.memSize → UInfo.case i (memHash bs).toInt = none
  | _ => True
/-- All members. -/
def HashableAll : Mems → Prop
  | .nil => True
  | .cons _ t r => Hashable t ∧ HashableAll r
end

end Verif.Inst
