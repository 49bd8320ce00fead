import Verif.Model.Context
/-!
# What is said of contexts

The words used in C67.
-/

namespace Verif.Contexts
open Verif.Idl.Syn (Item Ctx)

/-- What a client sees of a context: its settings, the flag, and the tree. -/
structure View where
  settings : Ctx
  clear : Bool
  success : Bool
  tree : Idl.Mod Item

/-- What a client sees of the context `c`, if there is one. -/
def view (s : State) (c : Nat) : Option View := (s.contexts c).map fun x => ⟨x.settings, x.clear, x.success, s.tree c⟩

/-- The contexts a call is given. -/
def Op.names : Op → List Nat
  | .create c _ _ | .configure c _ _ | .finish c | .clear c | .edit c _ | .parse _ c _ | .parseNew _ c _ _ => [c]
  | .copy d c | .assign d c => [d, c]
  | .types _ => []

/-- The call copies a context. -/
def Op.copies : Op → Bool
  | .copy _ _ | .assign _ _ => true
  | _ => false

/-- The call changes a module tree by other means than a text. -/
def Op.edits : Op → Bool
  | .edit _ _ => true
  | _ => false

/-- The call begins or ends the context `c`, or gives it another tree. -/
def Op.renews (c : Nat) : Op → Bool
  | .create d _ _ | .finish d | .clear d | .parseNew _ d _ _ | .copy d _ | .assign d _ => d = c
  | _ => false

/-- The call uses the parser `p` to read a text. -/
def Op.uses (p : Nat) : Op → Bool
  | .parse q _ _ | .parseNew q _ _ _ => q = p
  | _ => false

/-- Both contexts hold the same tree. -/
def Shares (s : State) (c d : Nat) : Prop :=
  ∃ x y m, s.contexts c = some x ∧ s.contexts d = some y ∧ x.module = some m ∧ y.module = some m

end Verif.Contexts
