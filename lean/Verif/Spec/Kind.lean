import Verif.Model.Ty
/-!
# What there is: the sorts of types
-/

namespace Verif

/-- Two types of the same sort: the same primitive type, strings of the same characters, or of the same class. -/
inductive SameSort : Ty → Ty → Prop
  | prim (k : PK) : SameSort (.prim k) (.prim k)
  | enum {n v vs n' v' vs'} : SameSort (.enum n v vs) (.enum n' v' vs')
  | str (k : SK) {b b'} : SameSort (.str k b) (.str k b')
  | seq {c b c' b'} : SameSort (.seq c b) (.seq c' b')
  | arr {n c d n' c' d'} : SameSort (.arr n c d) (.arr n' c' d')
  | map {k v b k' v' b'} : SameSort (.map k v b) (.map k' v' b')
  | pair {x y x' y'} : SameSort (.pair x y) (.pair x' y')
  | alias {n t n' t'} : SameSort (.alias n t) (.alias n' t')
  | struct {n ms n' ms'} : SameSort (.struct n ms) (.struct n' ms')
  | union {n d ms i n' d' ms' i'} : SameSort (.union n d ms i) (.union n' d' ms' i')

/-- The unsigned numbers. -/
def Unsigned (T : Ty) : Prop := T = .prim .u8 ∨ T = .prim .u16 ∨ T = .prim .u32 ∨ T = .prim .u64

end Verif
