import Verif.Model.ParseString
/-!
# Files: `parse_file`, and the strategy that goes through a temporary file

`preprocess_strategy::temporary_file` is the one for which `PreprocessorContext::strategy` has to be set on Unix, and the default
elsewhere (idl/parser.hpp 66-79, 249).
-/

namespace Verif.Pre
open Verif.Idl.Syn (Item)

/-- The files that can be read: their contents, by their names. -/
abbrev Disk := Bytes → Option Bytes

/-- The disk with a file of that content; with `none`, without the file. -/
def Disk.put (d : Disk) (name : Bytes) (content : Option Bytes) : Disk := fun n => if n = name then content else d n

/-- What the system does: the name that `mkstemp` makes, `none` for -1 (idl/parser.hpp 298-299); what of a text the disk takes, of
which the library does not ask (387-388); what a command prints, `none` if `popen` fails (335-340). -/
structure System where
  temp : Disk → Option Bytes
  stored : Bytes → Bytes
  run : Disk → Bytes → Option (Bytes × Nat)

/-- How reading ends: with what the parser makes of a text; with an assertion of the library that does not hold; with an exception of
`exec`. -/
inductive End where
  | read (p : Idl.Syn.Parsed)
  | refused
  | throws

/-- `exec` (idl/parser.hpp 332-357): the output of the command; what `pclose` returns, the exit status, is thrown away (335-336). -/
def exec (s : System) (d : Disk) (cmd : Bytes) : Option Bytes := (s.run d (cString cmd)).map fun out => collect (out.1.length + 1) out.1

/-- `preprocess_file` (idl/parser.hpp 253-270) -/
def preprocessFile (s : System) (c : Config) (d : Disk) (file : Bytes) : Option Bytes := exec s d (fileCommand c file)

/-- `Parser::parse_file` (idl/parser.hpp 576-592). Without preprocessing a file that cannot be opened is read as an empty text: `os <<
std::ifstream(idl_file).rdbuf()` writes nothing. -/
def parseFile (s : System) (c : Config) (preprocess : Bool) (ctx : Idl.Syn.Ctx) (f : Nat) (root : Idl.Mod Item) (d : Disk) (file : Bytes) : End :=
  if preprocess then
    match preprocessFile s c d file with
    | some out => .read (Idl.Syn.parse ctx f root (cString out))
    | none => .throws
  else .read (Idl.Syn.parse ctx f root (cString ((d file).getD [])))

/-- `Parser::parse_string` (idl/parser.hpp 594-607) with preprocessing, `preprocess_string` for `temporary_file` (381-398) and
`get_temporary_file` (293-306): the file is made and filled, and removed after the preprocessor has run, but not if `exec` throws.
Simplified: `std::filesystem::remove` does not fail. -/
def parseTemp (s : System) (c : Config) (ctx : Idl.Syn.Ctx) (f : Nat) (root : Idl.Mod Item) (d : Disk) (text : Bytes) : End × Disk :=
  match s.temp d with
  | none => (.refused, d)
  | some name =>
    let d := d.put name (some (s.stored text))
    match preprocessFile s c d name with
    | some out => (.read (Idl.Syn.parse ctx f root (cString out)), d.put name none)
    | none => (.throws, d)

/-- A program that reads one text after the other this way, and goes on after an exception. -/
def parseTemps (s : System) (c : Config) (ctx : Idl.Syn.Ctx) (f : Nat) (root : Idl.Mod Item) : Disk → List Bytes → List End × Disk
  | d, [] => ([], d)
  | d, t :: ts =>
    let (e, d) := parseTemp s c ctx f root d t
    let (es, d) := parseTemps s c ctx f root d ts
    (e :: es, d)

end Verif.Pre
