import Verif.Model.Text
import Verif.Model.Builder
/-!
# Cases of a union given as text
-/

namespace Verif.UnionB

open Text

/-- `add_case_member(labels, member)` with labels as text (UnionType.hpp 154-161). `none`: a label cannot be parsed, and the
union is not changed. -/
def addCaseText (u : UnionB) (ls : List Bytes) (n : String) (t : Ty) : Option (UnionB × Bool) :=
  (parseLabels u.disc ls false []).map fun r => u.addCase r.2 n t r.1

end Verif.UnionB
