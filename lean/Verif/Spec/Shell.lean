import Verif.Model.Preprocess
/-!
# What the shell does with a command

The part of the language of the shell (POSIX.1-2017, XCU 2.2, 2.3) that is needed to say what the commands of the library mean.
-/

namespace Verif.Pre

/-- A token of a command: a word, with its quotes removed; a character of an operator; or an expansion or substitution, at which
we stop, with the rest of the command: `$` and a back quote, also in double quotes, and `* ? [ ~` outside of quotes. -/
inductive Tok where
  | word (w : Bytes)
  | op (c : Nat)
  | expand (rest : Bytes)
  deriving DecidableEq

/-- The characters that the backslash quotes inside of double quotes (2.2.3): `$`, the back quote, `"` and `\`. -/
def special : List Nat := [36, 96, 34, 92]

/-- Where in a command we are: outside of quotes, in double quotes, in single quotes, in a comment. -/
inductive Mode where
  | plain | double | single | comment

/-- The word that is being read, if there is one. -/
def flush : Option Bytes → List Tok
  | none => []
  | some w => [.word w]

/-- The word that is being read, with some more characters. -/
def more (cur : Option Bytes) (w : Bytes) : Option Bytes := some (cur.getD [] ++ w)

/-- The tokens of a command; `none` if a quote is not closed. -/
def tokens : Mode → Option Bytes → Bytes → Option (List Tok)
  | .plain, cur, [] => some (flush cur)
  | .double, _, [] => none
  | .single, _, [] => none
  | .comment, _, [] => some []
  | .comment, cur, c :: r => if c = 10 then (tokens .plain none r).map (.op 10 :: ·) else tokens .comment cur r
  | .single, cur, c :: r => if c = 39 then tokens .plain cur r else tokens .single (more cur [c]) r
  | .double, cur, [92] => tokens .double (more cur [92]) []
  | .double, cur, 92 :: c :: r =>
    if c = 10 then tokens .double cur r
    else if c ∈ special then tokens .double (more cur [c]) r
    else tokens .double (more cur [92, c]) r
  | .double, cur, c :: r =>
    if c = 34 then tokens .plain cur r
    else if c = 36 ∨ c = 96 then some [.expand (c :: r)]
    else tokens .double (more cur [c]) r
  | .plain, cur, [92] => tokens .plain (more cur [92]) []
  | .plain, cur, 92 :: c :: r => if c = 10 then tokens .plain cur r else tokens .plain (more cur [c]) r
  | .plain, cur, c :: r =>
    if c = 32 ∨ c = 9 then (tokens .plain none r).map (flush cur ++ ·)
    else if c ∈ bytes "\n;|&<>()" then (tokens .plain none r).map (flush cur ++ .op c :: ·)
    else if c = 34 then tokens .double (more cur []) r
    else if c = 39 then tokens .single (more cur []) r
    else if c ∈ bytes "$`*?[~" then some (flush cur ++ [.expand (c :: r)])
    else if c = 35 ∧ cur = none then tokens .comment none r
    else tokens .plain (more cur [c]) r

/-- What the shell makes of a command. -/
def shell (s : Bytes) : Option (List Tok) := tokens .plain none s

/-- What stands in double quotes, if no expansion or substitution is in it, and what comes after the closing quote. -/
def inside : Bytes → Option (Bytes × Bytes)
  | [] => none
  | [92] => none
  | 92 :: c :: r =>
    if c = 10 then inside r
    else (inside r).map fun x => ((if c ∈ special then [c] else [92, c]) ++ x.1, x.2)
  | c :: r =>
    if c = 34 then some ([], r)
    else if c = 36 ∨ c = 96 then none
    else (inside r).map fun x => (c :: x.1, x.2)

/-- A word that needs no quotes: letters, digits and `_ - + . , / : = @ %`, at least one. -/
def Safe (w : Bytes) : Prop :=
  w ≠ [] ∧ ∀ c ∈ w, (97 ≤ c ∧ c ≤ 122) ∨ (65 ≤ c ∧ c ≤ 90) ∨ (48 ≤ c ∧ c ≤ 57) ∨ c ∈ bytes "_-+.,/:=@%"

/-- The texts that survive: no `$` and no back quote; after a backslash no backslash, no end of line and not the end of the text;
and after a backslash no quotation mark, unless there was a quotation mark before. -/
def Passes : (seen : Bool) → Bytes → Prop
  | _, [] => True
  | seen, [c] => c ≠ 36 ∧ c ≠ 96 ∧ c ≠ 92
  | seen, c :: d :: r =>
    if c = 92 then d ≠ 36 ∧ d ≠ 96 ∧ d ≠ 92 ∧ d ≠ 10 ∧ (d = 34 → seen = true) ∧ Passes seen (d :: r)
    else c ≠ 36 ∧ c ≠ 96 ∧ Passes (seen || c == 34) (d :: r)

/-- The words of a command with blanks between them. -/
def joinWords (ws : List Bytes) : Bytes := [32].intercalate ws

/-- A configuration whose parts need no quotes: the words of the preprocessor's command are `ws`. -/
structure Config.Plain (c : Config) (ws : List Bytes) : Prop where
  exec : c.exec = joinWords ws
  some : ws ≠ []
  words : ∀ w ∈ ws, Safe w
  flag : Safe c.includeFlag
  paths : ∀ p ∈ c.paths, Safe p
  redirect : c.redirect = bytes " 2>/dev/null"

/-- The command `ws` with its paths, and with its error output thrown away. -/
def preprocessor (c : Config) (ws : List Bytes) (args : List Bytes) : List Tok :=
  (ws ++ c.paths.map (c.includeFlag ++ ·) ++ args).map .word ++ [.word (bytes "2"), .op 62, .word (bytes "/dev/null")]

/-- `echo` with the text as its only argument, into the preprocessor. -/
def intended (c : Config) (ws : List Bytes) (text : Bytes) : List Tok :=
  [.word (bytes "echo"), .word text, .op 124] ++ preprocessor c ws []

/-- What a sequence with a backslash stands for in an argument of `echo`. -/
def echoEscape : Nat → Option Bytes
  | 97 => some [7]
  | 98 => some [8]
  | 102 => some [12]
  | 110 => some [10]
  | 114 => some [13]
  | 116 => some [9]
  | 118 => some [11]
  | 92 => some [92]
  | 48 => none
  | c => some [92, c]

/-- What `echo` prints for one argument, on a system with the X/Open extension (`dash`, for example): `\a \b \f \n \r \t \v \\` are
replaced, `\c` ends the output; `none` for `\0` and octal digits, which are not described here. (POSIX.1-2017, XCU, `echo`) -/
def echoed : Bytes → Option Bytes
  | [] => some [10]
  | [c] => some [c, 10]
  | c :: d :: r =>
    if c ≠ 92 then (echoed (d :: r)).map (c :: ·)
    else if d = 99 then some []
    else (echoEscape d).bind fun w => (echoed r).map (w ++ ·)

end Verif.Pre
