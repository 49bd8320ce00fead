import Verif.Spec.Module
import Verif.Model.ModuleWalk
/-!
# What walking and searching a tree of modules should do

`root` is the tree; a place is the list of the names of the modules around it, innermost first.
-/

namespace Verif.Idl

variable {τ : Type}

/-- The paths from the root, in the order of dictionaries: outer modules come before what is in them, modules in the same
module in the order of their names. -/
def Precedes (q q' : Loc) : Prop := q.reverse < q'.reverse

/-- The history never asks for a submodule by `submodule` or `operator[]`. -/
def NeverAsks (calls : List (MCall τ)) : Prop := ∀ c ∈ calls, ∀ p n, c ≠ .ask p n

/-- A type declared under the name `x` in the module at `q`. (If there are several, an alias goes before a union, that before
a structure, and that before an enumeration.) -/
def typeAt (root : Mod τ) (q : Loc) (x : Name) : Option τ :=
  (root.at q).bind fun m =>
    (omGet m.content.aliases x).or ((omGet m.content.unions x).or ((omGet m.content.structs x).or (omGet m.content.enums x)))

/-- The name carried by a type that a search for `name` returns: its own (`none`), or, if `name` begins with `::`, `name`. -/
def carried (name : Name) : Option Name := if [':', ':'] <+: name then some name else none

/-- From the place `p`, the name `x` means the type `t`: the closest module around that declares something under the name
declares that type. -/
def SeesType (root : Mod τ) (x : Name) (p : Loc) (t : τ) : Prop :=
  ∃ q, Innermost (Declares root x) p q ∧ typeAt root q x = some t

/-- What the recursive search from `p` comes to: the type seen from `p`; if none is, what the search from the *last*
submodule comes to; nothing if there is no submodule. -/
inductive Finds (root : Mod τ) (x : Name) : Loc → Option τ → Prop
  | here {p : Loc} {t : τ} (h : SeesType root x p t) : Finds root x p (some t)
  | onward {p : Loc} {m : Mod τ} {n : Name} {e : Option (Mod τ)} {o : Option τ} (h : ∀ t, ¬ SeesType root x p t)
      (hm : root.at p = some m) (hn : m.inner.getLast? = some (n, e)) (hf : Finds root x (n :: p) o) : Finds root x p o
  | nowhere {p : Loc} {m : Mod τ} (h : ∀ t, ¬ SeesType root x p t) (hm : root.at p = some m) (hn : m.inner = []) :
      Finds root x p none

end Verif.Idl
