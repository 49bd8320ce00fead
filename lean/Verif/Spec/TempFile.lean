import Verif.Model.TempFile
import Verif.Spec.Shell
/-!
# What the system does when a text goes through a file
-/

namespace Verif.Pre

/-- A system with this preprocessor: `mkstemp` makes new names, in a directory whose name needs no quotes; and whatever command is
the preprocessor `ws` with its directories and one file, it prints what `cpp` makes of what is in the file (and of the other files,
which it may include), if `popen` succeeds. -/
structure System.Has (s : System) (c : Config) (ws : List Bytes) (cpp : Disk → Bytes → Bytes) : Prop where
  fresh : ∀ d n, s.temp d = some n → d n = none
  safe : ∀ d n, s.temp d = some n → Safe n
  prints : ∀ d cmd file t out st, shell cmd = some (preprocessor c ws [file]) → d file = some t → s.run d cmd = some (out, st) → out = cpp d t

/-- The disk takes every text, whole. -/
def System.Stores (s : System) : Prop := ∀ t, s.stored t = t

/-- `popen` does not fail. -/
def System.Opens (s : System) : Prop := ∀ d cmd, (s.run d cmd).isSome

def End.isThrow : End → Bool
  | .throws => true
  | _ => false

end Verif.Pre
