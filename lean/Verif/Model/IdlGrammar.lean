import Verif.Model.Text
import Verif.Model.Expr
/-!
# The grammar of IDL (include/xtypes/idl/grammar.hpp)

The grammar is a parsing expression grammar, run by cpp-peglib. A rule is modelled as the function that reads it from the
front of a text: `none` when the rule does not match, otherwise what the rule yields and the rest of the text. Sequence,
ordered choice (the second alternative is tried only when the first fails, and once an alternative has matched no other is
tried), `?`, `*`, `+` and `!` are those of parsing expression grammars.

What a rule yields is the part of the syntax tree that `Parser::build_on_ast` looks at (idl/parser.hpp), after
`optimize_ast`, which replaces a node that has one child by the child.

All rules are modelled. Of what the parser ignores only the text that is read matters: annotations, the bodies of bit sets, of
bit masks and of declarations of annotations, and preprocessor lines yield nothing. Simplification: `.` is one byte (in
cpp-peglib it is one UTF-8 character).
-/

namespace Verif.Idl.Syn

open Text

/-- A rule of the grammar. (idl/grammar.hpp 33-328) -/
def P (α : Type) := Bytes → Option (α × Bytes)

/-- Sequence. (idl/grammar.hpp 33-328) -/
instance : Monad P where
  pure a := fun s => some (a, s)
  bind p f := fun s => (p s).bind fun x => f x.1 x.2

/-- Ordered choice `/`. (idl/grammar.hpp 33-328) -/
def P.or {α} (p q : P α) : P α := fun s => match p s with | some r => some r | none => q s

/-- `p?` (idl/grammar.hpp 33-328) -/
def P.opt {α} (p : P α) : P (Option α) := fun s => match p s with | some r => some (some r.1, r.2) | none => some (none, s)

/-- `!p` (idl/grammar.hpp 33-328) -/
def P.not {α} (p : P α) : P Unit := fun s => match p s with | some _ => none | none => some ((), s)

/-- `p*` with a bound on the number of repetitions. (idl/grammar.hpp 33-328) -/
def P.upTo {α} (p : P α) : Nat → P (List α)
  | 0 => fun s => some ([], s)
  | n + 1 => fun s => match p s with | some r => (p.upTo n r.2).map fun x => (r.1 :: x.1, x.2) | none => some ([], s)

/-- `p*`; every rule repeated in the grammar reads at least one character. (idl/grammar.hpp 33-328) -/
def P.star {α} (p : P α) : P (List α) := fun s => p.upTo s.length s

/-- `p+` (idl/grammar.hpp 33-328) -/
def P.plus {α} (p : P α) : P (List α) := do let x ← p; let r ← p.star; pure (x :: r)

/-- A character class. (idl/grammar.hpp 33-328) -/
def one (f : Nat → Bool) : P Nat
  | [] => none
  | c :: r => if f c then some (c, r) else none

/-- The rest of a text that begins with the first one. (a literal of idl/grammar.hpp 33-328) -/
def strip : Bytes → Bytes → Option Bytes
  | [], s => some s
  | _ :: _, [] => none
  | k :: ks, c :: r => if k = c then strip ks r else none

/-- A literal. (idl/grammar.hpp 33-328) -/
def lit (w : String) : P Unit := fun s => (strip (bytes w) s).map fun r => ((), r)

/-- End of the text, `!.` (idl/grammar.hpp 42) -/
def eot : P Unit
  | [] => some ((), [])
  | _ :: _ => none

/-- `EOL` (idl/grammar.hpp 42) -/
def eol : P Unit := (lit "\r\n").or ((lit "\n").or ((lit "\r").or eot))

/-- `NL_ESCAPE` (idl/grammar.hpp 43) -/
def nlEscape : P Unit := do lit "\\"; eol

/-- `[ \n]*`, the space before a comment. (idl/grammar.hpp 46-47) -/
def lead : P (List Nat) := (one fun c => c = 32 || c = 10).star

/-- `[ \t\r\n]` (idl/grammar.hpp 297) -/
def blank (c : Nat) : Bool := c = 32 || c = 9 || c = 13 || c = 10

/-- `WS`, with `COMMENT`, `LINE_COMMENT` and `BLOCK_COMMENT` (idl/grammar.hpp 45-47, 293-297). The number bounds how many
comments follow each other. -/
def ws : Nat → P Unit
  | 0 => fun _ => none
  | f + 1 => P.or
    (P.or (do let _ ← lead; lit "//"; let _ ← (nlEscape.or (do eol.not; let _ ← one fun _ => true; pure ())).star; eol
              let _ ← (ws f).opt; pure ())
      (do let _ ← lead; lit "/*"; let _ ← (do (lit "*/").not; one fun _ => true).star; lit "*/"
          let _ ← (ws f).opt; pure ()))
    (do let _ ← (one blank).plus; pure ())

/-- `WS?` (idl/grammar.hpp 297) -/
def wsOpt : P Unit := fun s => (do let _ ← (ws (s.length + 1)).opt; pure () : P Unit) s

/-- `[a-zA-Z_]` (idl/grammar.hpp 49) -/
def idStart (c : Nat) : Bool := (97 ≤ c && c ≤ 122) || (65 ≤ c && c ≤ 90) || c = 95

/-- `[0-9]` (idl/grammar.hpp 326) -/
def isDigit (c : Nat) : Bool := 48 ≤ c && c ≤ 57

/-- `[0-9a-zA-Z_]` (idl/grammar.hpp 49) -/
def idChar (c : Nat) : Bool := idStart c || isDigit c

/-- `IDENTIFIER` (idl/grammar.hpp 49) -/
def identifier : P Bytes := do let c ← one idStart; let r ← (one idChar).star; pure (c :: r)

/-- `SCOPED_NAME` (idl/grammar.hpp 39): its token. The number bounds the parts of the name. -/
def scopedIdFrom : Nat → P Bytes
  | 0 => fun _ => none
  | f + 1 => P.or
    (do let a ← identifier; lit "::"; let b ← scopedIdFrom f; pure (a ++ bytes "::" ++ b))
    (P.or (do lit "::"; let b ← scopedIdFrom f; pure (bytes "::" ++ b)) identifier)

/-- `SCOPED_NAME` (idl/grammar.hpp 39) -/
def scopedId : P Bytes := fun s => scopedIdFrom (s.length + 1) s

/-- `END_KW` (idl/grammar.hpp 250) -/
def endKw : P Unit := identifier.not

/-- A keyword: `WS? < "…" > END_KW WS?` (idl/grammar.hpp 252-291) -/
def kw (w : String) : P Unit := do wsOpt; lit w; endKw; wsOpt

/-- `WS` between the words of a keyword. (idl/grammar.hpp 275, 278-280, 292) -/
def wsReq : P Unit := fun s => ws (s.length + 1) s

/-- A keyword of two words. (idl/grammar.hpp 275, 278, 280, 292) -/
def kw2 (v w : String) : P Unit := do wsOpt; lit v; wsReq; lit w; endKw; wsOpt

/-- A keyword of three words. (idl/grammar.hpp 279) -/
def kw3 (u v w : String) : P Unit := do wsOpt; lit u; wsReq; lit v; wsReq; lit w; endKw; wsOpt

/-- A symbol: `WS? < '…' > WS?` (idl/grammar.hpp 298-310) -/
def sym (w : String) : P Unit := do wsOpt; lit w; wsOpt

/-- A number where a size is expected, as written: a literal or the name of a constant. (idl/grammar.hpp 92) -/
inductive Dim where
  | literal (t : Bytes)
  | name (t : Bytes)
  deriving DecidableEq

/-- `INTEGER_LITERAL` (idl/grammar.hpp 192-195, 326-328) -/
def integerLiteral : P Bytes :=
  P.or (do lit "0"; let r ← (one fun c => 48 ≤ c && c ≤ 55).plus; pure (48 :: r))
  (P.or (do lit "0"; let x ← one (fun c => c = 120 || c = 88); let r ← (one fun c => digit c < 16).plus; pure (48 :: x :: r))
  (P.or (do let d ← one (fun c => 49 ≤ c && c ≤ 57); let r ← (one isDigit).star; pure (d :: r))
    (do lit "0"; pure [48])))

/-- `POSITIVE_INT_CONST` (idl/grammar.hpp 92) -/
def positiveInt : P Dim := P.or (do let t ← integerLiteral; pure (.literal t)) (do let t ← scopedId; pure (.name t))

/-- A type, as written: the node `Parser::type_spec` sees. (idl/parser.hpp 1883-2020) -/
inductive TSpec where
  /-- a keyword type; `k` is the type `type_spec` gives it in the default context -/
  | prim (k : PK)
  /-- `ANY_TYPE`, and the definition of a type inside of a `typedef`: nodes for which `type_spec` has no case -/
  | any
  /-- `FIXED_PT_TYPE` -/
  | fixed
  /-- `SCOPED_NAME` -/
  | name (t : Bytes)
  /-- `STRING_TYPE`, or `STRING_SIZE` with the text of the size -/
  | string (size : Option Bytes)
  /-- `WIDE_STRING_TYPE`, or `WSTRING_SIZE` with the text of the size -/
  | wstring (size : Option Bytes)
  /-- `SEQUENCE_TYPE` -/
  | seq (t : TSpec) (size : Option Dim)
  /-- `MAP_TYPE` -/
  | map (k v : TSpec) (size : Option Dim)
  deriving DecidableEq

/-- A choice between rules. (idl/grammar.hpp 97-106) -/
def choice {α} : List (P α) → P α
  | [] => fun _ => none
  | p :: r => p.or (choice r)

/-- `SIGNED_INT` (idl/grammar.hpp 111, 113-115, 119) -/
def signedInt : P TSpec := choice [
  do (kw "short").or (kw "int16"); pure (.prim .i16),
  do (kw2 "long" "long").or (kw "int64"); pure (.prim .i64),
  do (kw "long").or (kw "int32"); pure (.prim .i32),
  do kw "int8"; pure (.prim .i8)]

/-- `UNSIGNED_INT` (idl/grammar.hpp 112, 116-118, 120) -/
def unsignedInt : P TSpec := choice [
  do (kw2 "unsigned" "short").or (kw "uint16"); pure (.prim .u16),
  do (kw3 "unsigned" "long" "long").or (kw "uint64"); pure (.prim .u64),
  do (kw2 "unsigned" "long").or (kw "uint32"); pure (.prim .u32),
  do kw "uint8"; pure (.prim .u8)]

/-- `BASE_TYPE_SPEC` (idl/grammar.hpp 97-110, 121-125) -/
def baseType : P TSpec := choice [
  do kw "float"; pure (.prim .f32),
  do kw "double"; pure (.prim .f64),
  do kw2 "long" "double"; pure (.prim .f128),
  signedInt.or unsignedInt,
  do kw "char"; pure (.prim .c8),
  do kw "wchar"; pure (.prim .wc),
  do kw "boolean"; pure (.prim .bool),
  do kw "octet"; pure (.prim .u8),
  do kw "any"; pure .any]

/-- `SIMPLE_TYPE_SPEC` (idl/grammar.hpp 96) -/
def simpleType : P TSpec := baseType.or (do let t ← scopedId; pure (.name t))

/-- The token of a size: `< POSITIVE_INT_CONST >` (idl/grammar.hpp 135-136) -/
def sizeText : P Bytes := do let d ← positiveInt; pure (match d with | .literal t => t | .name t => t)

/-- `STRING_SIZE`, `WSTRING_SIZE` (idl/grammar.hpp 135-136) -/
def stringSize : P Bytes := do sym "<"; let t ← sizeText; sym ">"; pure t

/-- `STRING_TYPE` (idl/grammar.hpp 130) -/
def stringType : P TSpec := do kw "string"; let t ← stringSize.opt; pure (.string t)

/-- `WIDE_STRING_TYPE` (idl/grammar.hpp 131) -/
def wstringType : P TSpec := do kw "wstring"; let t ← stringSize.opt; pure (.wstring t)

/-- `FIXED_PT_TYPE` (idl/grammar.hpp 132) -/
def fixedType : P TSpec := do
  kw "fixed"; sym "<"; let _ ← positiveInt; sym ","; let _ ← positiveInt; sym ">"; pure .fixed

/-- `COLLECTION_SIZE` (idl/grammar.hpp 137) -/
def collectionSize : P Dim := do sym ","; positiveInt

/-- `TEMPLATE_TYPE_SPEC` (idl/grammar.hpp 126-129, 168-171); `inner` is `TYPE_SPEC`. -/
def templateType (inner : P TSpec) : P TSpec := choice [
  do kw "map"; sym "<"; let k ← inner; sym ","; let v ← inner; let n ← collectionSize.opt; sym ">"; pure (.map k v n),
  do kw "sequence"; sym "<"; let t ← inner; let n ← collectionSize.opt; sym ">"; pure (.seq t n),
  stringType, wstringType, fixedType]

/-- `TYPE_SPEC` (idl/grammar.hpp 95). The number bounds the depth. -/
def typeSpecFrom : Nat → P TSpec
  | 0 => fun _ => none
  | f + 1 => do wsOpt; let t ← (templateType (typeSpecFrom f)).or simpleType; wsOpt; pure t

/-- `TYPE_SPEC` (idl/grammar.hpp 95): a type inside another is written in fewer characters than the other. -/
def typeSpec : P TSpec := fun s => typeSpecFrom (s.length + 1) s

/-- A declarator: a name with dimensions, none for a plain name. (idl/grammar.hpp 156-157, 159, 164-165) -/
structure Declr where
  name : Bytes
  dims : List Dim
  deriving DecidableEq

/-- `FIXED_ARRAY_SIZE` (idl/grammar.hpp 157) -/
def arraySize : P Dim := do sym "["; let d ← positiveInt; sym "]"; pure d

/-- `DECLARATOR` (idl/grammar.hpp 156, 159, 165) -/
def declarator : P Declr :=
  P.or (do let n ← identifier; let ds ← arraySize.plus; pure ⟨n, ds⟩) (do let n ← identifier; pure ⟨n, []⟩)

/-- `DECLARATORS` (idl/grammar.hpp 164) -/
def declarators : P (List Declr) := do
  let d ← declarator; let r ← (do sym ","; declarator).star; pure (d :: r)

/-! ## Constant expressions -/

/-- `< … >`: the text that is read. (idl/grammar.hpp 151, 190-209) -/
def token {α} (p : P α) : P Bytes := fun s => (p s).map fun x => (s.take (s.length - x.2.length), x.2)

/-- A literal as `get_literal_value` sees it: its token; or, for a string written in several parts, a node without a token whose
children have the tokens. (idl/parser.hpp 1013-1020, 1156-1190) -/
inductive Lit where
  | text (t : Bytes)
  | parts (ts : List Bytes)
  deriving DecidableEq

/-- A constant expression as `solve_expr` sees it (idl/parser.hpp 1259-1378). -/
inductive CExpr where
  | lit (l : Lit)
  | name (t : Bytes)
  | un (u : Expr.UOp) (e : CExpr)
  | bin (o : Ops.Op) (l r : CExpr)
  deriving DecidableEq

/-- `EXP_OR_SUFFIX` (idl/grammar.hpp 211-213) -/
def expOrSuffix : P Unit := P.or
  (do let _ ← one (fun c => c = 101 || c = 69); let _ ← (one fun c => c = 45 || c = 43).opt; let _ ← (one isDigit).plus; pure ())
  (do let _ ← one (fun c => c = 100 || c = 68); pure ())

/-- `FLOAT_LITERAL` and `FIXED_PT_LITERAL` (idl/grammar.hpp 204-209) -/
def floatLiteral : P Unit := choice [
  do let _ ← (one isDigit).plus; lit "."; let _ ← (one isDigit).star; let _ ← expOrSuffix.opt; pure (),
  do lit "."; let _ ← (one isDigit).plus; let _ ← expOrSuffix.opt; pure (),
  do let _ ← (one isDigit).plus; expOrSuffix]

/-- `ESCAPE_SEQUENCE` (idl/grammar.hpp 216-247, 327-328) -/
def escape : P Unit := do
  lit "\\"
  choice [
    do let _ ← one (fun c => c ∈ bytes "ntvbrfa\\?'\""); pure (),
    do let _ ← one oct; let _ ← (one oct).opt; let _ ← (one oct).opt; pure (),
    do lit "x"; let _ ← one hex; let _ ← (one hex).opt; pure (),
    do lit "u"; let _ ← one hex; let _ ← (one hex).opt; let _ ← (one hex).opt; let _ ← (one hex).opt; pure ()]
where
  /-- `OCTAL_DIGIT` (idl/grammar.hpp 327) -/
  oct (c : Nat) : Bool := 48 ≤ c && c ≤ 55
  /-- `HEX_DIGIT` (idl/grammar.hpp 328) -/
  hex (c : Nat) : Bool := digit c < 16

/-- `CHAR_LITERAL` (idl/grammar.hpp 196) -/
def charLiteral : P Unit := P.or
  (do lit "'"; let _ ← (one fun c => c ≠ 34 && c ≠ 39 && c ≠ 92).plus; lit "'")
  (do lit "'"; escape; lit "'")

/-- A text between two quotes. (idl/grammar.hpp 200) -/
def quotedText (q : Nat) : P Unit := do
  let _ ← one (fun c => c = q)
  let _ ← (escape.or (do let _ ← one (fun c => c ≠ q && c ≠ 92); pure ())).star
  let _ ← one (fun c => c = q)
  pure ()

/-- `SUBSTRING_LITERAL` with `STRING_WS` (idl/grammar.hpp 200-201) -/
def substringLiteral : P Bytes := do
  let t ← token ((quotedText 34).or (quotedText 39))
  P.or (do lit "\""; wsOpt; lit "\"") wsOpt
  pure t

/-- `STRING_LITERAL`, `WIDE_STRING_LITERAL` (idl/grammar.hpp 199, 202): `optimize_ast` replaces a node that has one child by the
child (idl/parser.hpp 552). -/
def Lit.ofParts : List Bytes → Lit
  | [t] => .text t
  | ts => .parts ts

/-- `SCOPED_OR_LITERAL` with `LITERAL` (idl/grammar.hpp 77, 83-90, 190-203) -/
def scopedOrLiteral : P CExpr := choice [
  do let t ← token floatLiteral; pure (.lit (.text t)),
  do let t ← integerLiteral; pure (.lit (.text t)),
  do let t ← token charLiteral; pure (.lit (.text t)),
  do let t ← token (do lit "L"; charLiteral : P Unit); pure (.lit (.text t)),
  do let t ← token ((lit "TRUE").or (lit "FALSE")); pure (.lit (.text t)),
  do let ts ← substringLiteral.plus; pure (.lit (.ofParts ts)),
  do let ts ← (do lit "L"; token substringLiteral : P Bytes).plus; pure (.lit (.ofParts ts)),
  do let t ← scopedId; pure (.name t)]

/-- `X <- NEXT OP X / NEXT`, the form of `CONST_EXPR` to `MULT_EXPR` (idl/grammar.hpp 69-74). The number bounds the number of
operators. -/
def binary (next : P CExpr) (op : P Ops.Op) : Nat → P CExpr
  | 0 => fun _ => none
  | f + 1 => P.or (do let l ← next; let o ← op; let r ← binary next op f; pure (.bin o l r)) next

/-- `UNARY_EXPR` (idl/grammar.hpp 75, 322-324) -/
def unaryExpr (prim : P CExpr) : P CExpr := P.or
  (do let u ← choice [do sym "-"; pure .minus, do sym "+"; pure .plus, do sym "~"; pure .tilde]; let e ← prim; pure (.un u e))
  prim

/-- `PRIMARY_EXPR` (idl/grammar.hpp 76) -/
def primaryExpr (expr : P CExpr) : P CExpr := P.or (do sym "("; let e ← expr; sym ")"; pure e) scopedOrLiteral

/-- An operator (idl/grammar.hpp 313-321). -/
def opSym (w : String) (o : Ops.Op) : P Ops.Op := do sym w; pure o

/-- `CONST_EXPR` (idl/grammar.hpp 69-81, 313-324). The number bounds the depth of the parentheses and the number of operators. -/
def constExpr : Nat → P CExpr
  | 0 => fun _ => none
  | f + 1 =>
    binary (binary (binary (binary (binary (binary (unaryExpr (primaryExpr (constExpr f)))
      (choice [opSym "*" .mul, opSym "/" .div, opSym "%" .mod]) (f + 1))
      (choice [opSym "+" .add, opSym "-" .sub]) (f + 1))
      (choice [opSym "<<" .shl, opSym ">>" .shr]) (f + 1))
      (opSym "&" .and) (f + 1))
      (opSym "^" .xor) (f + 1))
      (opSym "|" .or) (f + 1)

/-- `CONST_EXPR` (idl/grammar.hpp 69) -/
def expression : P CExpr := fun s => constExpr (s.length + 1) s

/-! ## Annotations -/

/-- `ANNOTATION_APPL_PARAM` (idl/grammar.hpp 188) -/
def annotParam : P Unit := P.or
  (do let _ ← identifier; sym "="; let _ ← expression; pure ())
  (do let _ ← expression; pure ())

/-- `ANNOTATION_APPL_PARAMS` (idl/grammar.hpp 187): the second alternative matches only where the first one does. -/
def annotParams : P Unit := do annotParam; let _ ← (do sym ","; annotParam).star; pure ()

/-- `ANNOTATION_APPL` (idl/grammar.hpp 186): the `@` comes first, and no white space is read after a name without
parameters. -/
def annot : P Unit := do
  lit "@"; let _ ← scopedId; let _ ← (do sym "("; annotParams; sym ")" : P Unit).opt; pure ()

/-- `(ANNOTATION_APPL)*` (idl/grammar.hpp 37, 139, 143, 152, 155, 173): how many there are. -/
def annots : P Nat := do let l ← annot.star; pure l.length

/-- `MEMBER` (idl/grammar.hpp 143): `member_def` ignores the annotations (idl/parser.hpp 1866-1880). -/
def member : P (TSpec × List Declr) := do
  let _ ← annots; let t ← typeSpec; let ds ← declarators; sym ";"; pure (t, ds)

/-- `SWITCH_TYPE_SPEC` (idl/grammar.hpp 148) -/
def switchType : P TSpec := choice [
  signedInt.or unsignedInt,
  do kw "char"; pure (.prim .c8),
  do kw "boolean"; pure (.prim .bool),
  do kw "wchar"; pure (.prim .wc),
  do kw "octet"; pure (.prim .u8),
  do let t ← scopedId; pure (.name t)]

/-- `CASE_LABEL` (idl/grammar.hpp 151): a label is its text. The token of `default` is what `KW_DEFAULT` reads, white space
included. -/
def caseLabel : P Bytes := P.or
  (do kw "case"; let t ← token expression; sym ":"; pure t)
  (do let t ← token (kw "default"); sym ":"; pure t)

/-- A case as written: its labels, and its member. (idl/grammar.hpp 150, 152) -/
structure Case where
  labels : List Bytes
  type : TSpec
  name : Declr

/-- `CASE` with `ELEMENT_SPEC` (idl/grammar.hpp 150, 152): `case_member_def` ignores the annotations (idl/parser.hpp
1676-1687). -/
def unionCase : P Case := do
  let ls ← caseLabel.plus; let _ ← annots; let t ← typeSpec; let d ← declarator; sym ";"; pure ⟨ls, t, d⟩

/-! ## Declarations -/

/-- A declaration, as written. (idl/grammar.hpp 35, 37, 94) -/
inductive Def where
  /-- `STRUCT_DEF` -/
  | struct (name : Bytes) (parent : Option Bytes) (ms : List (TSpec × List Declr))
  /-- `STRUCT_FORWARD_DCL` -/
  | forward (name : Bytes)
  /-- `UNION_DEF` -/
  | union (name : Bytes) (disc : TSpec) (cs : List Case)
  /-- `UNION_FORWARD_DCL` -/
  | unionForward (name : Bytes)
  /-- `ENUM_DCL` -/
  | enum (name : Bytes) (ids : List Bytes)
  /-- `CONST_DCL` -/
  | const (t : TSpec) (name : Bytes) (e : CExpr)
  /-- `TYPEDEF_DLC`; a declarator may be empty -/
  | typedef (t : TSpec) (ds : List (Option Declr))
  /-- `BITSET_DCL` and `BITMASK_DCL`: only the name is looked at (idl/parser.hpp 1765-1856) -/
  | ignored (name : Bytes)
  /-- `ANNOTATION_DCL` and `PREPROCESSOR_DIRECTIVE`: nothing is looked at (idl/parser.hpp 1718-1763, 834-839) -/
  | skip
  /-- `MODULE_DCL` -/
  | module (name : Bytes) (ds : List Def)

/-- `CONST_TYPE` (idl/grammar.hpp 53-64, 133) -/
def constType : P TSpec := choice [
  do kw "float"; pure (.prim .f32),
  do kw "double"; pure (.prim .f64),
  do kw2 "long" "double"; pure (.prim .f128),
  do kw "fixed"; pure .fixed,
  signedInt.or unsignedInt,
  do kw "char"; pure (.prim .c8),
  do kw "wchar"; pure (.prim .wc),
  do kw "boolean"; pure (.prim .bool),
  stringType,
  wstringType,
  do let t ← scopedId; pure (.name t)]

/-- `CONST_DCL` (idl/grammar.hpp 51) -/
def constDcl : P Def := do
  kw "const"; let t ← constType; wsOpt; let n ← identifier; sym "="; let e ← expression; pure (.const t n e)

/-- `STRUCT_DEF` (idl/grammar.hpp 141-142) -/
def structDef : P Def := do
  kw "struct"; let n ← identifier; let p ← (do sym ":"; scopedId : P Bytes).opt; sym "{"; let ms ← member.star; sym "}"
  pure (.struct n p ms)

/-- `STRUCT_FORWARD_DCL` (idl/grammar.hpp 144) -/
def structForward : P Def := do kw "struct"; let n ← identifier; pure (.forward n)

/-- `UNION_DEF` with `SWITCH_BODY` (idl/grammar.hpp 146-149) -/
def unionDef : P Def := do
  kw "union"; let n ← identifier; kw "switch"; sym "("; let t ← switchType; sym ")"; sym "{"; let cs ← unionCase.plus; sym "}"
  pure (.union n t cs)

/-- `UNION_FORWARD_DCL` (idl/grammar.hpp 153) -/
def unionForward : P Def := do kw "union"; let n ← identifier; pure (.unionForward n)

/-- `ENUMERATOR` (idl/grammar.hpp 155), as `enum_dcl` sees it (idl/parser.hpp 1392-1396): the node of an identifier with
annotations is no token, and has an empty one. -/
def enumerator : P Bytes := do let n ← annots; let x ← identifier; pure (if n = 0 then x else [])

/-- `ENUM_DCL` (idl/grammar.hpp 154) -/
def enumDcl : P Def := do
  kw "enum"; let n ← identifier; sym "{"; let x ← enumerator; let r ← (do sym ","; enumerator : P Bytes).star; sym "}"
  pure (.enum n (x :: r))

/-- `BITFIELD` with `BITFIELD_SPEC` and `DESTINATION_TYPE` (idl/grammar.hpp 173-175) -/
def bitfield : P Unit := do
  let _ ← annots; kw "bitfield"; sym "<"; let _ ← positiveInt
  let _ ← (do sym ","; choice [do kw "boolean"; pure (.prim .bool), do kw "octet"; pure (.prim .u8), signedInt.or unsignedInt]
    : P TSpec).opt
  sym ">"; let _ ← identifier.star; sym ";"

/-- `BITSET_DCL` (idl/grammar.hpp 172). The node of a bit set without parent and fields has only the identifier as child and is
replaced by it, which `build_on_ast` takes for an empty structure (idl/parser.hpp 552, 806-809). -/
def bitsetDcl : P Def := do
  kw "bitset"; let n ← identifier; let p ← (do sym ":"; scopedId : P Bytes).opt; sym "{"; let fs ← bitfield.star; sym "}"
  pure (if p = none ∧ fs = [] then .struct n none [] else .ignored n)

/-- `BIT_VALUE` (idl/grammar.hpp 177) -/
def bitValue : P Unit := do let _ ← (do annot; wsOpt : P Unit).star; let _ ← identifier; pure ()

/-- `BITMASK_DCL` (idl/grammar.hpp 176) -/
def bitmaskDcl : P Def := do
  kw "bitmask"; let n ← identifier; sym "{"; bitValue; let _ ← (do sym ","; bitValue : P Unit).star; sym "}"
  pure (.ignored n)

/-- `STRUCT_DCL / UNION_DCL / ENUM_DCL / BITSET_DCL / BITMASK_DCL` (idl/grammar.hpp 139-140, 145) -/
def constrDcl : P Def :=
  choice [structDef, structForward, unionDef, unionForward, enumDcl, bitsetDcl, bitmaskDcl]

/-- `CONSTR_TYPE_DLC` (idl/grammar.hpp 139): `build_on_ast` ignores the annotations (idl/parser.hpp 797-799, 834-839). -/
def constrType : P Def := do let _ ← annots; constrDcl

/-- `NATIVE_DCL` (idl/grammar.hpp 158-159): the node has only the identifier as child and is replaced by it, which `build_on_ast`
takes for an empty structure (idl/parser.hpp 552, 806-809). -/
def nativeDcl : P Def := do kw "native"; let n ← identifier; pure (.struct n none [])

/-- `CONSTR_TYPE_DLC` inside of a `typedef` (idl/grammar.hpp 161), as `type_spec` sees it (idl/parser.hpp 1892-1906, 2015-2016):
an empty structure without annotations has been replaced by its identifier, for the others there is no case. -/
def constrSpec : P TSpec := do
  let n ← annots; let d ← constrDcl
  pure (match n, d with
    | 0, .struct x none [] => .name x
    | _, _ => .any)

/-- The type in a `typedef`. (idl/grammar.hpp 161) -/
def typedefSpec : P TSpec := fun s => (constrSpec.or ((templateType (typeSpecFrom s.length)).or simpleType)) s

/-- `ANY_DECLARATOR` (idl/grammar.hpp 163): the last alternative is empty. -/
def anyDeclarator : P (Option Declr) := declarator.opt

/-- `TYPEDEF_DLC` (idl/grammar.hpp 160-163) -/
def typedefDcl : P Def := do
  kw "typedef"; let t ← typedefSpec; wsOpt
  let d ← anyDeclarator; let r ← (do sym ","; anyDeclarator).star; pure (.typedef t (d :: r))

/-- `ANNOTATION_MEMBER` with `ANNOTATION_MEMBER_TYPE` (idl/grammar.hpp 183-185): `any` is read as a name. -/
def annotMember : P Unit := do
  wsOpt; let _ ← constType; wsOpt; let _ ← identifier
  let _ ← (do kw "default"; expression : P CExpr).opt; sym ";"

/-- `ANNOTATION_DCL` with `ANNOTATION_HEADER` and `ANNOTATION_BODY` (idl/grammar.hpp 180-182) -/
def annotationDcl : P Def := do
  kw "@annotation"; let _ ← identifier; sym "{"
  let _ ← (choice [annotMember, do let _ ← enumDcl; sym ";", do let _ ← constDcl; sym ";", do let _ ← typedefDcl; sym ";"]).star
  sym "}"; pure .skip

/-- `PREPROCESSOR_DIRECTIVE` (idl/grammar.hpp 41) -/
def directive : P Def := do
  wsOpt; lit "#"; let _ ← (nlEscape.or (do eol.not; let _ ← one fun _ => true; pure ())).star; eol; pure .skip

/-- `DEFINITION` (idl/grammar.hpp 35, 94) with the rule for modules passed in; each but the last ends with `SEMICOLON` -/
def definitionWith (inner : P Def) : P Def := P.or
  (do let d ← choice [inner, constDcl, constrType, nativeDcl, typedefDcl, annotationDcl]; sym ";"; pure d)
  directive

/-- `MODULE_DCL` (idl/grammar.hpp 37): `module_dcl` ignores the annotations (idl/parser.hpp 921-963). -/
def moduleDcl (defn : P Def) : P Def := do
  let _ ← annots; kw "module"; let n ← identifier; sym "{"; let ds ← defn.plus; sym "}"; pure (.module n ds)

/-- `DEFINITION` (idl/grammar.hpp 35). The number bounds the depth of modules. -/
def definition : Nat → P Def
  | 0 => fun _ => none
  | f + 1 => definitionWith (moduleDcl (definition f))

/-- `DOCUMENT` (idl/grammar.hpp 33-34); cpp-peglib refuses a text of which something is left (idl/parser.hpp 542). -/
def document (s : Bytes) : Option (List Def) :=
  ((do wsOpt; let ds ← (definition (s.length + 1)).plus; wsOpt; eot; pure ds : P (List Def)) s).map (·.1)

end Verif.Idl.Syn
