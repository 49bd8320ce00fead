import Verif.Model.Ty
/-!
# The shape of an array type
-/

namespace Verif.Text

/-- Two types are the same up to the names of nested array types: same dimensions in the same order, same content. -/
inductive SameShape : Ty → Ty → Prop
  | refl (t : Ty) : SameShape t t
  | arr {c c' : Ty} (n n' : String) (d : Nat) : SameShape c c' → SameShape (.arr n c d) (.arr n' c' d)

/-- The type the dimensions end at. -/
def innermost : Ty → Ty
  | .arr _ c _ => innermost c
  | t => t

/-- Every nested array has been built dimension by dimension. -/
def Stepwise : Ty → Prop
  | .arr n c d => .arr n c d = Ty.array c d ∧ Stepwise c
  | _ => True

/-- All dimensions are below a limit. -/
def DimsBelow (m : Nat) : Ty → Prop
  | .arr _ c d => d < m ∧ DimsBelow m c
  | _ => True

end Verif.Text
