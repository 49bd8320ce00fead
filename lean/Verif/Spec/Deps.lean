import Verif.Model.Deps
/-!
# Reading the skeleton of an IDL text
-/

namespace Verif.Idl.Dep

/-- Reads a text from inside the module `cur`; the module we are in at the end, `none` if the text is ill-formed: a scope
that is opened belongs to the module we are in, the scope that is closed is the one we are in, and a declaration stands
in the module of the element it declares. -/
def place : Loc → List Event → Option Loc
  | cur, [] => some cur
  | cur, .open p :: r => if p ≠ [] ∧ p.tail = cur then place p r else none
  | cur, .close p :: r => if p ≠ [] ∧ p = cur then place p.tail r else none
  | cur, .decl n :: r => if n.loc = cur then place cur r else none

/-- The elements declared by a text, in order. -/
def declared (t : List Event) : List Node := t.filterMap fun e => match e with | .decl n => some n | _ => none

/-- The modules opened by a text, in order. -/
def opened (t : List Event) : List Loc := t.filterMap fun e => match e with | .open p => some p | _ => none

/-- The modules closed by a text, in order. -/
def closed (t : List Event) : List Loc := t.filterMap fun e => match e with | .close p => some p | _ => none

/-- The element is a constant and its module has recorded it as standing for an enumerator (its value is written in the
declaration of the enumeration). -/
def EnumeratorConst (root : Mod Decl) (n : Node) : Prop :=
  n.kind = .const ∧ ∃ m, root.at n.loc = some m ∧ n.name ∈ m.content.fromEnum

/-- The declaration of the element `n` names `x`. -/
def Names (root : Mod Decl) (n : Node) (x : Name) : Prop := ∃ d, declOf root n = some d ∧ x ∈ depNames n.kind d

/-- The name is answered in the module of `n` itself: it is that of `n`, or its scope is that module (or it has none)
and the module has such a symbol. -/
def Local (root : Mod Decl) (n : Node) (x : Name) : Prop :=
  n.name = x ∨ (scopeMatch n.loc x = true ∧ ((root.at n.loc).map fun m => m.hasSymbol (unscoped x)) = some true)

/-- The module `a` needs its sibling `b`: an element somewhere in `a` names an element somewhere in `b`. -/
def Needs (root : Mod Decl) (a b : Loc) : Prop :=
  ∃ x y r n z m, a = x :: r ∧ b = y :: r ∧ x ≠ y ∧ a <:+ n.loc ∧ b <:+ m.loc ∧ Names root n z ∧ ¬ Local root n z ∧
    search root z = some m

end Verif.Idl.Dep
