/-!
# How a text reaches the preprocessor

By default `idl::parse` gives the text to `cpp` through a command of the shell (idl/parser.hpp 230-395, 594-607). Characters are
numbers below 256. `EPROSIMA_PLATFORM_…` are those of Unix (idl/parser.hpp 73-79).
-/

namespace Verif.Pre

abbrev Bytes := List Nat

def bytes (s : String) : Bytes := s.toList.map Char.toNat

/-- `str.find(from, pos)`: the first place from `pos` on; `none` is `npos`. (idl/parser.hpp 316, 322, 326) -/
def find (pat : Bytes) (s : Bytes) (pos : Nat) : Option Nat :=
  (List.range (s.length + 1)).find? fun i => decide (pos ≤ i) && pat.isPrefixOf (s.drop i)

/-- `str.replace(pos, n, to)` (idl/parser.hpp 321, 325) -/
def replace (s : Bytes) (pos n : Nat) (to : Bytes) : Bytes := s.take pos ++ to ++ s.drop (pos + n)

/-- How `replace_all_string` may end: with a text; with `std::out_of_range`; with undefined behaviour; `unfinished` means that the
number of steps did not suffice. -/
inductive Outcome (α : Type) where
  | ok (v : α)
  | throws
  | ub
  | unfinished
  deriving DecidableEq

/-- `const std::string escaped = "\\\\\""` (idl/parser.hpp 317) -/
def escaped : Bytes := [92, 92, 34]

/-- The inner loop of `replace_all_string` (idl/parser.hpp 323-327). When nothing was found, `str[pos - 1]` is
`str[npos - 1]`, which is undefined behaviour (`past = none`); on a machine that goes on, it reads some character
(`past = some b`). Then `str.replace(npos, …)` throws. -/
def inner (past : Option Nat) (pat : Bytes) : Nat → Bytes → Option Nat → Outcome (Bytes × Option Nat)
  | 0, _, _ => .unfinished
  | _ + 1, s, none =>
    match past with
    | none => .ub
    | some b => if b = 92 then .throws else .ok (s, none)
  | f + 1, s, some p =>
    if s.getD (p - 1) 0 = 92 then
      let s := replace s p pat.length escaped
      inner past pat f s (find pat s (p + escaped.length))
    else .ok (s, some p)

/-- The outer loop of `replace_all_string` (idl/parser.hpp 319-329). -/
def outer (past : Option Nat) (pat to : Bytes) : Nat → Bytes → Option Nat → Outcome Bytes
  | 0, _, _ => .unfinished
  | _ + 1, s, none => .ok s
  | f + 1, s, some p =>
    let s := replace s p pat.length to
    match inner past pat (f + 1) s (find pat s (p + to.length)) with
    | .ok (s, pos) => outer past pat to f s pos
    | .throws => .throws
    | .ub => .ub
    | .unfinished => .unfinished

/-- `replace_all_string` (idl/parser.hpp 309-330), with a number of steps. -/
def replaceAll (past : Option Nat) (f : Nat) (s pat to : Bytes) : Outcome Bytes := outer past pat to f s (find pat s 0)

/-- `PreprocessorContext` (idl/parser.hpp 230-251) -/
structure Config where
  exec : Bytes := bytes "cpp -H"
  redirect : Bytes := bytes " 2>/dev/null"
  includeFlag : Bytes := bytes "-I"
  paths : List Bytes := []

/-- `args` (idl/parser.hpp 257-261, 363-367) -/
def Config.args (c : Config) : Bytes := c.paths.flatMap fun p => c.includeFlag ++ p ++ [32]

/-- The command of `preprocess_string` for `pipe_stdin` (idl/parser.hpp 359-379); `f` bounds the steps of the loops. -/
def stringCommand (past : Option Nat) (f : Nat) (c : Config) (text : Bytes) : Outcome Bytes :=
  match replaceAll past f text [34] [92, 34] with
  | .ok e => .ok (bytes "echo \"" ++ e ++ bytes "\" | " ++ c.exec ++ [32] ++ c.args ++ c.redirect)
  | .throws => .throws
  | .ub => .ub
  | .unfinished => .unfinished

/-- The command of `preprocess_file` (idl/parser.hpp 253-270) -/
def fileCommand (c : Config) (file : Bytes) : Bytes := c.exec ++ [32] ++ c.args ++ file ++ c.redirect

/-- `cmd.c_str()` and `result += buffer.data()`: the characters before the first zero. (idl/parser.hpp 336, 352) -/
def cString (s : Bytes) : Bytes := s.takeWhile (· ≠ 0)

/-- What `fgets` reads into a buffer of `n + 1` characters: at most `n`, and nothing after an end of line.
(idl/parser.hpp 350) -/
def line : Nat → Bytes → Bytes
  | 0, _ => []
  | _ + 1, [] => []
  | n + 1, c :: r => if c = 10 then [10] else c :: line n r

/-- The loop of `exec` over the output of the command (idl/parser.hpp 348-354), with a number of steps. -/
def collect : Nat → Bytes → Bytes
  | 0, _ => []
  | _ + 1, [] => []
  | f + 1, c :: r => let l := line 255 (c :: r); cString l ++ collect f ((c :: r).drop l.length)

end Verif.Pre
