/-!
# The log kept while parsing

Models `LogContext` (idl/parser.hpp 91-233).
-/

namespace Verif.Log

/-- `LogLevel` (idl/parser.hpp 93-99). -/
inductive Level where
  | error | warning | info | debug
  deriving DecidableEq, Repr

/-- The value the unscoped enumeration gives to each level (idl/parser.hpp 93-99). -/
def Level.toNat : Level → Nat
  | .error => 0 | .warning => 1 | .info => 2 | .debug => 3

/-- The position of an `Ast` node (`ast->path`, `ast->line`, `ast->column`), the only part of it
`log` reads (idl/parser.hpp 217-220). -/
structure Pos where
  path : String
  line : Nat
  column : Nat
  deriving DecidableEq, Repr

/-- `LogEntry` (idl/parser.hpp 101-124). -/
structure Entry where
  path : String
  line : Nat
  column : Nat
  level : Level
  category : String
  message : String
  deriving DecidableEq, Repr

/-- `LogEntry::to_string` (idl/parser.hpp 126-158). -/
def Entry.print (e : Entry) : String :=
  "[" ++ (match e.level with
    | .error => "ERROR" | .warning => "WARNING" | .info => "INFO" | .debug => "DEBUG")
  ++ "] " ++ e.category ++ ": " ++ e.message

/-- `LogContext` (idl/parser.hpp 163-167) with its initial values; `out` collects the lines written
to `std::cout` (line 228). -/
structure Ctx where
  log : List Entry := []
  level : Level := .warning
  print : Bool := false
  out : List String := []
  deriving DecidableEq, Repr

/-- `log(level, category, message, ast)` (idl/parser.hpp 208-231). -/
def Ctx.write (c : Ctx) (l : Level) (category message : String) (ast : Option Pos) : Ctx :=
  if c.level.toNat ≥ l.toNat then
    let e : Entry := match ast with
      | some p => ⟨p.path, p.line, p.column, l, category, message⟩
      | none => ⟨"", 0, 0, l, category, message⟩
    let c := { c with log := c.log ++ [e] }
    if c.print then { c with out := c.out ++ [e.print] } else c
  else c

/-- `log_level(level)` (idl/parser.hpp 191-195). -/
def Ctx.setLevel (c : Ctx) (l : Level) : Ctx := { c with level := l }

/-- `print_log(enable)` (idl/parser.hpp 202-206). -/
def Ctx.setPrint (c : Ctx) (b : Bool) : Ctx := { c with print := b }

/-- `log(level, strict)` (idl/parser.hpp 176-189): the loop over `log_`. -/
def query (level : Level) (strict : Bool) : List Entry → List Entry
  | [] => []
  | e :: es =>
    if e.level = level ∨ (strict = false ∧ e.level.toNat < level.toNat) then
      e :: query level strict es
    else query level strict es

/-- One call on a `LogContext`. (the client of idl/parser.hpp 163-231) -/
inductive Call where
  | setLevel (l : Level)
  | setPrint (b : Bool)
  | write (l : Level) (category message : String) (ast : Option Pos)

/-- Effect of a call. (dispatches to idl/parser.hpp 176-231) -/
def Ctx.step (c : Ctx) : Call → Ctx
  | .setLevel l => c.setLevel l
  | .setPrint b => c.setPrint b
  | .write l cat msg ast => c.write l cat msg ast

/-- Effect of a history of calls on a new context. (a client of idl/parser.hpp 163-231) -/
def run (h : List Call) : Ctx := h.foldl Ctx.step {}

end Verif.Log
