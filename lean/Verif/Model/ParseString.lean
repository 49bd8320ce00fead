import Verif.Model.IdlBuild
import Verif.Model.Preprocess
/-!
# `idl::parse` with its preprocessor
-/

namespace Verif.Pre
open Verif.Idl.Syn (Item)

/-- `Parser::parse_string` (idl/parser.hpp 594-607) with `preprocess_string` for `pipe_stdin` (359-379), `exec` (332-356) and
`parse`, which takes the text as a C string (542). `run` is what the system prints for a command; `past` as in `inner`; `f` bounds
the steps of the lookups of names. -/
def parseString (run : Bytes → Bytes) (past : Option Nat) (c : Config) (preprocess : Bool) (ctx : Idl.Syn.Ctx) (f : Nat) (root : Idl.Mod Item)
    (text : Bytes) : Outcome Idl.Syn.Parsed :=
  if preprocess then
    match stringCommand past (text.length + 1) c text with
    | .ok cmd =>
      let out := run (cString cmd)
      .ok (Idl.Syn.parse ctx f root (cString (collect (out.length + 1) out)))
    | .throws => .throws
    | .ub => .ub
    | .unfinished => .unfinished
  else .ok (Idl.Syn.parse ctx f root (cString text))

end Verif.Pre
