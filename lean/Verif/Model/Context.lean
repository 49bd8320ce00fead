import Verif.Model.ParseString
/-!
# Contexts and parsers as objects

A `Context` has its settings, the flag `success`, and a shared pointer to a module tree, which its first use makes. A `Parser` has a
pointer to the `Context` it was last used with. Contexts are copied like any other values: the copy shares the module tree.

What is left out: the log (`Model/Log`), the pointer of a context to the parser (it keeps the parser alive and does nothing else), and
the preprocessor (`Model/ParseString`; here, a text is what reaches `Parser::parse`).
-/

namespace Verif.Contexts
open Verif.Idl.Syn (Item Ctx Out Stop)
open Verif.Pre (Bytes cString)

/-- A `Context`. (idl/parser.hpp 416-488, `clear` 437, `success` 446, `module_` 487) -/
structure Context where
  settings : Ctx := {}
  clear : Bool := true
  success : Bool := false
  module : Option Nat := none

/-- The pointer `context_` of a parser (idl/parser.hpp 667): null, to a living context, or to one that is no more. -/
inductive Pointer where
  | null
  | to (c : Nat)
  | dangling
  deriving DecidableEq

/-- The state: the module trees ever made (one that nobody holds is not used again), the living contexts and the parsers' pointers.
(no code: the memory) -/
structure State where
  modules : List (Idl.Mod Item) := []
  contexts : Nat → Option Context := fun _ => none
  parsers : Nat → Pointer := fun _ => .null

/-- (no code: an assignment) -/
def put {α : Type} (m : Nat → α) (k : Nat) (v : α) : Nat → α := fun x => if x = k then v else m x

/-- `Context::module()` (idl/parser.hpp 467-474): the module tree, made on the first use. -/
def State.module (s : State) (c : Nat) (x : Context) : State × Nat :=
  match x.module with
  | some m => (s, m)
  | none =>
    ({ s with modules := s.modules ++ [.empty], contexts := put s.contexts c (some { x with module := some s.modules.length }) },
      s.modules.length)

/-- The tree a context shows: `get_all_types` and `module()` (idl/parser.hpp 448-474); an empty one if there is none. -/
def State.tree (s : State) (c : Nat) : Idl.Mod Item :=
  (((s.contexts c).bind (·.module)).bind (s.modules[·]?)).getD .empty

/-- A pointer when a context ends. (no code: the lifetime of objects) -/
def Pointer.without (c : Nat) (p : Pointer) : Pointer := if p = .to c then .dangling else p

/-- What a client can do.
* `create`: `Context c;` (idl/parser.hpp 416-446) with settings
* `configure`: its settings (435-440)
* `copy`, `assign`: the implicit copy constructor and copy assignment (416-488; there is no move: the destructor is declared, 478-481)
* `finish`: its destructor (478-481)
* `clear`: `clear_context()` (2271-2278)
* `edit`: changes the client makes in the tree through `module()` (467-474), whatever they are
* `parse`: `Parser::parse(text, context)` (536-558), also from `parse_string` and `parse_file`
* `parseNew`: `Parser::parse(text)` (528-534) and `idl::parse(text)`: a new context; `elide`: whether the result is made in place
* `types`: `Parser::get_all_types` (609-617) -/
inductive Op where
  | create (c : Nat) (settings : Ctx) (clear : Bool)
  | configure (c : Nat) (settings : Ctx) (clear : Bool)
  | copy (d c : Nat)
  | assign (d c : Nat)
  | finish (c : Nat)
  | clear (c : Nat)
  | edit (c : Nat) (g : Idl.Mod Item → Idl.Mod Item)
  | parse (p c : Nat) (text : Bytes)
  | parseNew (p c : Nat) (text : Bytes) (elide : Bool)
  | types (p : Nat)

/-- What a call gives: nothing to speak of, the result of `parse`, an exception, or the tree whose types are given. (no code) -/
inductive Result where
  | done
  | returned (b : Bool)
  | threw
  | shown (m : Idl.Mod Item)

/-- The end of a reading: `parse` returns `false`, returns `true`, or an exception leaves it. If the reading does not end, or is
undefined, nothing comes after it. (idl/parser.hpp 544-557) -/
inductive Reading (c : Ctx) (root : Idl.Mod Item) (text : Bytes) : Result → Idl.Mod Item → Prop
  | rejected : Idl.Syn.document (cString text) = none → Reading c root text (.returned false) root
  | accepted {root'} : (∃ n, ∀ f ≥ n, Idl.Syn.parse c f root (cString text) = .built (root', none)) →
      Reading c root text (.returned true) root'
  | refused {root'} : (∃ n, ∀ f ≥ n, Idl.Syn.parse c f root (cString text) = .built (root', some .refused)) →
      Reading c root text .threw root'

/-- The flag after a reading: an exception leaves it as it was. (idl/parser.hpp 546, 554) -/
def flag (b : Bool) : Result → Bool
  | .returned r => r
  | _ => b

/-- `Parser::parse` with a context (idl/parser.hpp 536-558). The context gets a module tree if the text matches the grammar (793). -/
inductive Parses (s : State) (p c : Nat) (text : Bytes) : Result → State → Prop
  | rejected {x} : s.contexts c = some x → Reading x.settings (s.tree c) text (.returned false) (s.tree c) →
      Parses s p c text (.returned false)
        { s with contexts := put s.contexts c (some { x with success := false }), parsers := put s.parsers p (.to c) }
  | read {x r root' s' m} : s.contexts c = some x → Reading x.settings (s.tree c) text r root' → r ≠ .returned false →
      s.module c x = (s', m) →
      Parses s p c text r
        { modules := s'.modules.set m root',
          contexts := put s'.contexts c (some { x with success := flag x.success r, module := some m }),
          parsers := put s'.parsers p (.to c) }

/-- A call. (see `Op`) -/
inductive Step : State → Op → Result → State → Prop
  | create {s c k b} : s.contexts c = none →
      Step s (.create c k b) .done { s with contexts := put s.contexts c (some { settings := k, clear := b }) }
  | configure {s c k b x} : s.contexts c = some x →
      Step s (.configure c k b) .done { s with contexts := put s.contexts c (some { x with settings := k, clear := b }) }
  | copy {s d c x} : s.contexts c = some x → s.contexts d = none → Step s (.copy d c) .done { s with contexts := put s.contexts d (some x) }
  | assign {s d c x y} : s.contexts c = some x → s.contexts d = some y →
      Step s (.assign d c) .done { s with contexts := put s.contexts d (some x) }
  | finish {s c x} : s.contexts c = some x →
      Step s (.finish c) .done { s with contexts := put s.contexts c none, parsers := fun p => (s.parsers p).without c }
  | clear {s c x} : s.contexts c = some x →
      Step s (.clear c) .done { s with contexts := put s.contexts c (some (if x.clear then { x with module := none } else x)) }
  | edit {s c g x s' m} : s.contexts c = some x → s.module c x = (s', m) →
      Step s (.edit c g) .done { s' with modules := s'.modules.set m (g (s.tree c)) }
  | parse {s p c text r s'} : Parses s p c text r s' → Step s (.parse p c text) r s'
  | parseNew {s p c text b s' elide} : s.contexts c = none →
      Parses { s with contexts := put s.contexts c (some {}) } p c text (.returned b) s' →
      Step s (.parseNew p c text elide) (.returned b)
        { s' with parsers := if elide then s'.parsers else fun q => (s'.parsers q).without c }
  | parseNewThrows {s p c text s' elide} : s.contexts c = none →
      Parses { s with contexts := put s.contexts c (some {}) } p c text .threw s' →
      Step s (.parseNew p c text elide) .threw { s' with contexts := put s'.contexts c none, parsers := fun q => (s'.parsers q).without c }
  | typesNone {s p} : s.parsers p = .null → Step s (.types p) (.shown .empty) s
  | types {s p c x s' m} : s.parsers p = .to c → s.contexts c = some x → s.module c x = (s', m) → Step s (.types p) (.shown (s.tree c)) s'

/-- Calls one after the other, with their results. (no code) -/
inductive Run : State → List (Op × Result) → State → Prop
  | nil {s} : Run s [] s
  | snoc {s h m op r s'} : Run s h m → Step m op r s' → Run s (h ++ [(op, r)]) s'

end Verif.Contexts
