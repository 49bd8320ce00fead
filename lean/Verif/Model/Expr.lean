import Verif.Model.Ops
/-!
# Constant expressions

Models the constant expressions of IDL from their tokens on: the PEG rules `CONST_EXPR` to
`SCOPED_OR_LITERAL` (idl/grammar.hpp 69-81, 313-324) and `solve_expr` (idl/parser.hpp 1259-1378) for
constants of primitive integer type.

Simplifications: white space and the spelling of literals are abstracted (a literal is its number);
`optimize_ast` (idl/parser.hpp 552) collapses nodes with a single child, so the abstract syntax keeps
only operator nodes and leaves.
-/

namespace Verif.Expr
open Verif.Ops

/-- Tokens of a constant expression. (idl/grammar.hpp 69-81, 313-324) -/
inductive Tok where
  | lit (n : Nat)
  | name (s : String)
  | op (o : Op)
  | tilde
  | lpar
  | rpar
  deriving DecidableEq, Repr

/-- `UNARY_OP <- SUB_OP / ADD_OP / NEG_OP` (idl/grammar.hpp 324). -/
inductive UOp where
  | minus | plus | tilde
  deriving DecidableEq, Repr

/-- Syntax trees. (the nodes `solve_expr` walks, idl/parser.hpp 1259-1378) -/
inductive E where
  | lit (n : Nat)
  | name (s : String)
  | un (u : UOp) (e : E)
  | bin (o : Op) (l r : E)
  deriving DecidableEq, Repr

/-- The rule an operator belongs to: 0 `CONST_EXPR` (`|`), 1 `XOR_EXPR`, 2 `AND_EXPR`, 3 `SHIFT_EXPR`,
4 `ADD_EXPR`, 5 `MULT_EXPR` (idl/grammar.hpp 69-74, 79-81). -/
def level : Op → Nat
  | .or => 0
  | .xor => 1
  | .and => 2
  | .shl | .shr => 3
  | .add | .sub => 4
  | .mul | .div | .mod => 5

/-- A partial parser: the tree and the unread tokens. (a grammar rule, idl/grammar.hpp 69-81) -/
abbrev P := List Tok → Option (E × List Tok)

/-- Rules `CONST_EXPR` to `MULT_EXPR` (idl/grammar.hpp 69-74): `NEXT OP SELF / NEXT`. If what follows
the operator is no `SELF`, the ordered choice falls back to `NEXT` alone. -/
def binaryRule (n : Nat) (next self : P) (ts : List Tok) : Option (E × List Tok) :=
  match next ts with
  | none => none
  | some (l, .op o :: ts') =>
    if level o = n then
      match self ts' with
      | some (r, ts'') => some (.bin o l r, ts'')
      | none => some (l, .op o :: ts')
    else some (l, .op o :: ts')
  | some (l, ts') => some (l, ts')

/-- `UNARY_EXPR <- UNARY_OP PRIMARY_EXPR / PRIMARY_EXPR` (idl/grammar.hpp 75, 324). A primary cannot
start with an operator, so the choice is decided by the first token. -/
def unaryRule (prim : P) : P
  | .op .sub :: ts => (prim ts).map (fun (e, r) => (.un .minus e, r))
  | .op .add :: ts => (prim ts).map (fun (e, r) => (.un .plus e, r))
  | .tilde :: ts => (prim ts).map (fun (e, r) => (.un .tilde e, r))
  | ts => prim ts

/-- `PRIMARY_EXPR <- OPEN_PARENTHESES CONST_EXPR CLOSE_PARENTHESES / SCOPED_OR_LITERAL`
(idl/grammar.hpp 76-77). -/
def primaryRule (expr : P) : P
  | .lpar :: ts =>
    match expr ts with
    | some (e, .rpar :: r) => some (e, r)
    | _ => none
  | .lit n :: r => some (.lit n, r)
  | .name s :: r => some (.name s, r)
  | _ => none

/-- The PEG rules (idl/grammar.hpp 69-77) as a recursive descent: rules 0 to 5 are binary, 6 is
`UNARY_EXPR`, 7 `PRIMARY_EXPR`. `fuel` bounds the recursion (not code). -/
def parse : Nat → Nat → P
  | 0, _ => fun _ => none
  | fuel + 1, n =>
    if n ≤ 5 then binaryRule n (parse fuel (n + 1)) (parse fuel n)
    else if n = 6 then unaryRule (parse fuel 7)
    else primaryRule (parse fuel 0)

/-- Parsing a whole expression: the declaration ends after it (`CONST_DCL`, idl/grammar.hpp 51, is
followed by a semicolon). -/
def parseAll (ts : List Tok) : Option E :=
  match parse (9 * ts.length + 9) 0 ts with
  | some (e, []) => some e
  | _ => none

/-- `static_cast<T>(std::strtoll(..))` and `static_cast<T>(std::strtoull(..))` (idl/parser.hpp
1040-1120): the C functions saturate at the limits of 64-bit integers. -/
def literal (k : PK) (n : Nat) : BitVec (bits k) :=
  if signed k then conv k (min n (2 ^ 63 - 1)) else conv k (min n (2 ^ 64 - 1))

/-- `solve_expr` (idl/parser.hpp 1259-1378) for a primitive integer type `k`; `env` is
`outer->constant(name)` (Module.hpp 392-409). `result = constant` is refused when its type differs
(`DynamicData::operator=`, DynamicData.hpp 1384-1393). The unary operators `+` and `~` leave the
operand as it is (1284-1294). -/
def solve (k : PK) (env : String → Num) : E → Out Num
  | .lit n => .ok ⟨k, literal k n⟩
  | .name s => if (env s).k = k then .ok (env s) else .refused
  | .un u e =>
    match solve k env e with
    | .ok x => if u = .minus then neg x else .ok x
    | o => o
  | .bin op l r =>
    match solve k env l with
    | .ok x =>
      match solve k env r with
      | .ok y => binop op x y
      | o => o
    | o => o

/-- The value of a constant declared with type `k` and the given expression.
(idl/parser.hpp 1259-1378, with `CONST_DCL`, idl/grammar.hpp 51) -/
def constant (k : PK) (env : String → Num) (ts : List Tok) : Option (Out Num) :=
  (parseAll ts).map (solve k env)

end Verif.Expr
