import Verif.Model.Module
/-!
# Names in trees of modules

A place is the list of the names of the modules around it, innermost first; `q <:+ p` says that `q` is the place `p` or that of
a module around it.
-/

namespace Verif.Idl
variable {τ : Type}

/-- Text without a colon, and not empty: what the grammar accepts as an identifier, as far as
scopes are concerned. -/
def Ident (n : Name) : Prop := n ≠ [] ∧ ':' ∉ n

/-- The text `a::b::...::x`. -/
def joinScope : List Name → Name → Name
  | [], x => x
  | a :: r, x => a ++ ':' :: ':' :: joinScope r x

/-- `q` is the innermost place with property `P` among `p` and the places enclosing it. -/
def Innermost (P : Loc → Prop) (p q : Loc) : Prop :=
  q <:+ p ∧ P q ∧ ∀ q', q' <:+ p → P q' → q' <:+ q

/-- The module at `q` exists and declares something under the name `x`. -/
def Declares (root : Mod τ) (x : Name) (q : Loc) : Prop :=
  ∃ m, root.at q = some m ∧ m.hasSymbol x = true

/-- The module at `q` exists and has a submodule `a`. -/
def HasSub (root : Mod τ) (a : Name) (q : Loc) : Prop :=
  ∃ m, root.at q = some m ∧ m.hasSub a = true

/-- No module at the place `p` or around it declares something under the name `x`. -/
def Unseen (root : Mod τ) (p : Loc) (x : Name) : Prop := ∀ q, q <:+ p → ¬ Declares root x q

/-- No null submodule entry anywhere in the tree. -/
def NoNull (root : Mod τ) : Prop :=
  ∀ q m n, root.at q = some m → omGet m.inner n ≠ some none

end Verif.Idl
