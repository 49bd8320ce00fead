import Verif.Model.TypeHeap
/-!
# What type a reference shows
-/

namespace Verif.Types

/-- A type as the client sees it: everything but who holds it. -/
inductive Tree where
  | node (kind : Kind) (name : String) (own : List (String × Nat)) (parts : List Tree)

/-- All of a list, or nothing. -/
def seq {α β : Type} (g : α → Option β) : List α → Option (List β)
  | [] => some []
  | a :: l => (g a).bind fun b => (seq g l).map (b :: ·)

/-- What an object shows, down to a depth; `none` if that depth does not suffice, or if a part of it was destroyed. -/
def view : Nat → Heap → Nat → Option Tree
  | 0, _, _ => none
  | f + 1, h, i => (h.get i).bind fun o => (seq (view f h) o.kids).map fun ts => .node o.kind o.name o.own ts

/-- The object `i` shows the type `t`: all of it is alive. -/
def Shows (h : Heap) (i : Nat) (t : Tree) : Prop := ∃ f, view f h i = some t

/-- The type behind aliases. -/
def Tree.behind : Tree → Tree
  | .node .alias _ _ (t :: _) => t.behind
  | t => t

def Tree.kind : Tree → Kind
  | .node k _ _ _ => k

/-- What can happen from `s` to `s'` in any number of steps, if each of them is allowed by `P`. -/
inductive History (P : State → Option Op → Prop) : State → State → Prop
  | refl {s} : History P s s
  | step {s s' s'' e} : History P s s' → P s' e → Step s' e s'' → History P s s''

/-- The states that a program reaches, whatever it does. -/
def Reachable (s : State) : Prop := History (fun _ _ => True) {} s

/-- The step gives the datum `d` another type, or ends it. -/
def Rebinds (d : Nat) : Option Op → Prop
  | some (.make e _ _) => e = d
  | some (.share e _) => e = d
  | some (.finish e) => e = d
  | some (.release _ e) => e = d
  | _ => False

/-- The step gives the pointer `p` another type, or ends it. -/
def Repoints (p : Nat) : Option Op → Prop
  | some (.point q _) => q = p
  | some (.copy q _) => q = p
  | some (.move q r) => q = p ∨ r = p
  | some (.drop q) => q = p
  | some (.release q _) => q = p
  | _ => False

/-- The type that the step changes in place. -/
def Changes : Option Op → Option Target
  | some (.edit t _ _) => some t
  | some (.enumerator t _ _) => some t
  | some (.addPart t _ _ _) => some t
  | _ => none

/-- Whether the step renames a primitive type. -/
def Renames (s : State) (e : Option Op) : Prop :=
  ∃ t i o, Changes e = some t ∧ s.target t = some i ∧ s.heap.get i = some o ∧ o.kind = .primitive

end Verif.Types
