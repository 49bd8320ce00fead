import Verif.Model.IdlGrammar
import Verif.Model.ArrayText
import Verif.Model.Module
import Verif.Model.UnionText
/-!
# From the syntax tree to the module (include/xtypes/idl/parser.hpp)

`Parser::build_on_ast` and the functions it calls, on the syntax trees of `Model/IdlGrammar`. The declarations are entered
into the module tree of `Model/Module`.
-/

namespace Verif.Idl.Syn

open Text

/-- The settings of a `Context` that have an influence here (idl/parser.hpp 416-437). -/
structure Ctx where
  /-- `char_translation`: `char`, `uint8_t` or `int8_t` -/
  char : PK := .c8
  /-- `wchar_type == CHAR16_T` -/
  wide16 : Bool := false
  /-- `allow_keyword_identifiers` -/
  keywords : Bool := false
  /-- `ignore_redefinition` -/
  ignoreRedef : Bool := false

/-- An entry of a table of a module: a type; a constant of a primitive type that is no floating point type; or a constant of
type `string` with a bound (0: none). (idl/Module.hpp 660-668) -/
inductive Item where
  | ty (t : Ty)
  | const (k : PK) (v : Int)
  | text (bound : Nat) (s : Bytes)
  deriving DecidableEq

/-- The type of an entry. (idl/Module.hpp 660-668, DynamicData.hpp 110-115) -/
def Item.type : Item → Ty
  | .ty t => t
  | .const k _ => .prim k
  | .text b _ => .str .s8 b

/-- Why the parser stops: an exception or a failed assertion; a recursion without end; a null pointer or an undefined
conversion; the lookup of a name has not ended within the number of steps considered; or what happens is outside of this model.
(idl/parser.hpp 625-645) -/
inductive Stop where
  | refused | diverges | ub | unfinished | outside
  deriving DecidableEq

/-- A text as a `std::string` of the types. (idl/parser.hpp 1883-1890) -/
def str (b : Bytes) : String := String.ofList (b.map Char.ofNat)

/-- A text as a name in a module. (idl/parser.hpp 1883-1890) -/
def nm (b : Bytes) : Name := b.map Char.ofNat

/-- The first words of the rules `KW_…` (idl/grammar.hpp 252-292), `"@annotation"` excepted. -/
def keywordList : List String := [
  "const", "module", "sequence", "string", "wstring", "fixed", "union", "struct", "enum", "switch", "case", "default",
  "native", "typedef", "any", "map", "bitset", "bitfield", "bitmask", "short", "int16", "long", "int32", "int64", "unsigned",
  "uint16", "uint32", "uint64", "int8", "uint8", "char", "wchar", "boolean", "octet", "float", "double"]

/-- `is_token(identifier)` (idl/parser.hpp 898-919) for `ignore_case = false`: one of the rules `KW_…` matches the whole
identifier, which has no white space. (`"unsigned"` alone is no such rule.) -/
def isToken (b : Bytes) : Bool := (keywordList.filter (· ≠ "unsigned")).any fun w => bytes w = b

/-- `resolve_identifier` (idl/parser.hpp 844-885): a leading underscore is removed, a keyword and (unless it is said to
ignore it) a name that is in use are refused. -/
def resolveId (c : Ctx) (root : Mod Item) (p : Loc) (b : Bytes) (ignoreUsed : Bool) : Except Stop Bytes :=
  match b with
  | 95 :: r => .ok r
  | _ =>
    if isToken b && !c.keywords then .error .refused
    else if symbolCount root p (nm b) ≠ 0 && !ignoreUsed then .error .refused
    else .ok b

/-- `resolve_scope` within a number of steps. (idl/Module.hpp 684-688) -/
def look (root : Mod Item) (p : Loc) (f : Nat) (x : Name) : Except Stop Res :=
  match resolve root f p x x true with
  | none => .error .unfinished
  | some .ub => .error .ub
  | some r => .ok r

/-- `constant(name)`, `has_constant(name)` (idl/Module.hpp 392-428) -/
def constant (root : Mod Item) (p : Loc) (f : Nat) (b : Bytes) : Except Stop (Option Item) :=
  (look root p f (nm b)).map (fetch root .const)

/-- `get_dimension(value, outer, node)` (idl/parser.hpp 2029-2069): the value of a constant of an integer type as `size_t`. -/
def constDim (root : Mod Item) (p : Loc) (f : Nat) (b : Bytes) : Except Stop Nat :=
  (constant root p f b).bind fun
    | some (.const k v) =>
      if k ∈ [PK.i8, .u8, .i16, .u16, .i32, .u32, .i64, .u64] then .ok (v % 2 ^ 64).toNat else .error .refused
    | _ => .error .refused

/-- `get_dimension(outer, node)` (idl/parser.hpp 2071-2089); the `size_t` becomes a `uint32_t` (SequenceType.hpp 41,
MapType.hpp 43). Also the dimensions of a member (2203-2253), which are read alike and become `uint32_t`s
(ArrayType.hpp 42). -/
def dimension (root : Mod Item) (p : Loc) (f : Nat) : Dim → Except Stop Nat
  | .literal t => match stoul t with | some v => .ok (v % 2 ^ 32) | none => .error .refused
  | .name t => (constDim root p f t).map (· % 2 ^ 32)

/-- `std::atoi(token)` as bound of a string or dimension of an alias, an `int` that becomes a `uint32_t`
(idl/parser.hpp 987, 1967, 1988-1996; StringType.hpp 42). -/
def intBound (t : Bytes) : Except Stop Nat :=
  match atoi t with | some v => .ok (v % 2 ^ 32).toNat | none => .error .ub

/-- `outer->type(token)` (idl/Module.hpp 596-653, idl/parser.hpp 1892-1906); a null type is an exception. -/
def typeByName (root : Mod Item) (p : Loc) (f : Nat) (b : Bytes) : Except Stop Ty :=
  (look root p f (nm b)).bind fun r =>
    match typeOf root ((bytes "::").isPrefixOf b) r with
    | some (some (.ty t)) => .ok t
    | some _ => .error .refused
    | none => .error .ub

/-- The string type a `wstring` stands for. (idl/parser.hpp 1968-1995) -/
def Ctx.wstr (c : Ctx) : SK := if c.wide16 then .s16 else .ws

/-- `type_spec(node, outer)` (idl/parser.hpp 1883-2024). `any` and `fixed` have no case: the default case calls the function
again with the same node (2015-2016). -/
def evalType (c : Ctx) (root : Mod Item) (p : Loc) (f : Nat) : TSpec → Except Stop Ty
  | .prim .c8 => .ok (.prim c.char)
  | .prim .wc => .ok (.prim (if c.wide16 then .c16 else .wc))
  | .prim k => .ok (.prim k)
  | .any => .error .diverges
  | .fixed => .error .diverges
  | .name t => typeByName root p f t
  | .string none => .ok (.str .s8 0)
  | .string (some t) => (constant root p f t).bind fun
      | some _ => (constDim root p f t).map fun v => .str .s8 (v % 2 ^ 32)
      | none => (intBound t).map fun v => .str .s8 v
  | .wstring none => .ok (.str c.wstr 0)
  | .wstring (some t) => (intBound t).map fun v => .str c.wstr v
  | .seq t n => (evalType c root p f t).bind fun t =>
      match n with
      | none => .ok (.seq t 0)
      | some d => (dimension root p f d).map fun b => .seq t b
  | .map k v n => (evalType c root p f k).bind fun k => (evalType c root p f v).bind fun v =>
      match n with
      | none => .ok (.map k v 0)
      | some d => (dimension root p f d).map fun b => .map k v b

/-- A loop over nodes that stops at the first failure, an exception. (idl/parser.hpp 2121-2130, 2203-2253) -/
def forAll {α β} (g : α → Except Stop β) : List α → Except Stop (List β)
  | [] => .ok []
  | x :: r => (g x).bind fun y => (forAll g r).map (y :: ·)

/-- `identifier(node, outer, list)` (idl/parser.hpp 2188-2268) -/
def declr (c : Ctx) (root : Mod Item) (p : Loc) (f : Nat) (d : Declr) : Except Stop (String × List Nat) :=
  (resolveId c root p d.name false).bind fun n => (forAll (dimension root p f) d.dims).map fun ds => (str n, ds)

/-- The type of a declarator: `get_array_type`, or the type itself if there are no dimensions. (idl/parser.hpp 2112-2161) -/
def declType (t : Ty) (ds : List Nat) : Ty := (getArrayType ds t).getD t

/-- The loop of `members` (idl/parser.hpp 2132-2161): a name that is already in the list is refused. -/
def addDeclrs (t : Ty) (acc : List (String × Ty)) : List (String × List Nat) → Except Stop (List (String × Ty))
  | [] => .ok acc
  | (n, ds) :: r =>
    if acc.any (·.1 == n) then .error .refused else addDeclrs t (acc ++ [(n, declType t ds)]) r

/-- `member_def` for every member of a structure, in order (idl/parser.hpp 1488-1490, 1858-1881, 2121-2186). -/
def members (c : Ctx) (root : Mod Item) (p : Loc) (f : Nat) :
    List (String × Ty) → List (TSpec × List Declr) → Except Stop (List (String × Ty))
  | acc, [] => .ok acc
  | acc, (t, ds) :: r =>
    (evalType c root p f t).bind fun t =>
      (forAll (declr c root p f) ds).bind fun ds =>
        (addDeclrs t acc ds).bind fun acc => members c root p f acc r

/-- `add_member` for every member, in order (StructType.hpp 55-62, AggregationType.hpp 102-109): the members afterwards, and
whether all were accepted. -/
def addAll (ms : List (String × Ty)) : List (String × Ty) → List (String × Ty) × Bool
  | [] => (ms, true)
  | e :: r => if ms.any (·.1 == e.1) then (ms, false) else addAll (ms ++ [e]) r

/-- The state after a declaration and, if it was not accepted, the reason. (idl/parser.hpp 785-842) -/
abbrev Out := Mod Item × Option Stop

/-- Going on with a value, or stopping with the module as it is: an exception leaves what was already entered.
(idl/parser.hpp 536-558, 785-842) -/
def orStop {α} (root : Mod Item) (x : Except Stop α) (k : α → Out) : Out :=
  match x with
  | .ok a => k a
  | .error e => (root, some e)

/-- Writing a structure over the one of that name, the effect of changing it through the reference `structure(name)`
returns. (idl/parser.hpp 1501-1536, idl/Module.hpp 205-217) -/
def putStruct (root : Mod Item) (p : Loc) (x : Name) (ms : List (String × Ty)) : Mod Item :=
  (register root p .struct x (.ty (.struct (String.ofList (scopedName p x)) (Mems.ofList ms))) true).1

/-- The members of the structure a name stands for: `structure(name)` (idl/Module.hpp 192-217). -/
def structMembers (root : Mod Item) (p : Loc) (f : Nat) (x : Name) : Except Stop (List (String × Ty)) :=
  (look root p f x).bind fun r =>
    match fetch root .struct r with
    | some (.ty (.struct _ ms)) => .ok ms.toList
    | _ => .error .refused

/-- The members of the parent that is named, if one is. (idl/parser.hpp 1474-1487, 1524-1530) -/
def parentMembers (root : Mod Item) (p : Loc) (f : Nat) : Option Bytes → Except Stop (Option (List (String × Ty)))
  | none => .ok none
  | some q => (structMembers root p f (nm q)).map some

/-- `struct_def` (idl/parser.hpp 1455-1536). -/
def buildStruct (c : Ctx) (root : Mod Item) (p : Loc) (f : Nat) (name : Bytes) (parent : Option Bytes)
    (ms : List (TSpec × List Declr)) : Out :=
  orStop root (resolveId c root p name true) fun n =>
    let x := nm n
    let root := (register root p .struct x (.ty (.struct (String.ofList (scopedName p x)) .nil))).1
    -- 1474-1487
    orStop root (parentMembers root p f parent) fun pm =>
    orStop root (members c root p f [] ms) fun ms =>
    -- 1501-1517
    orStop root (structMembers root p f x) fun old =>
      if old ≠ [] then (root, if c.ignoreRedef then none else some .refused)
      else
        let r := addAll (pm.getD []) ms
        (putStruct root p x r.1, if r.2 then none else some .refused)

/-- `struct_fw_dcl` (idl/parser.hpp 1410-1429), `union_fw_dcl` (1431-1453): both enter a structure. -/
def buildForward (c : Ctx) (root : Mod Item) (p : Loc) (name : Bytes) : Out :=
  orStop root (resolveId c root p name false) fun n =>
    if ((root.at p).map (·.hasSymbol (nm n))).getD false then (root, some .refused)
    else ((register root p .struct (nm n) (.ty (.struct (String.ofList (scopedName p (nm n))) .nil))).1, none)

/-- `std::to_string` of an integer (DynamicDataImpl.hpp 230-234) -/
def number (v : Int) : Bytes := if v < 0 then 45 :: dec (-v).toNat else dec v.toNat

/-- A label: if the text is the name of a constant, the value of the constant as text (idl/parser.hpp 1637-1648). -/
def label (root : Mod Item) (p : Loc) (f : Nat) (t : Bytes) : Except Stop Bytes :=
  (constant root p f t).bind fun
    | none => .ok t
    | some (.text _ s) => .ok s
    | some (.const _ v) => .ok (number v)
    | some (.ty _) => .error .refused

/-- `switch_case` with `case_member_def` (idl/parser.hpp 1622-1716) -/
def caseOf (c : Ctx) (root : Mod Item) (p : Loc) (f : Nat) (x : Case) : Except Stop (List Bytes × String × Ty) :=
  (forAll (label root p f) x.labels).bind fun ls =>
    (evalType c root p f x.type).bind fun t => (declr c root p f x.name).map fun d => (ls, d.1, declType t d.2)

/-- The cases `switch_body` finds (idl/parser.hpp 1598-1620). The node of a body with a single case has been replaced by the
node of the case (552), whose children are not cases and are ignored. -/
def bodyOf : List Case → List Case
  | [_] => []
  | cs => cs

/-- `add_case_member` for every case, in order (idl/parser.hpp 1588-1595): the union afterwards, and whether all were
accepted. -/
def addCases : UnionB → List (List Bytes × String × Ty) → UnionB × Bool
  | u, [] => (u, true)
  | u, (ls, n, t) :: r =>
    match u.addCaseText ls n t with
    | none => (u, false)
    | some (u', false) => (u', false)
    | some (u', true) => addCases u' r

/-- The union a name stands for, `union_switch(name)` (idl/Module.hpp 288-301): its name, its discriminator and its cases. -/
def unionNamed (root : Mod Item) (p : Loc) (f : Nat) (x : Name) : Except Stop (String × Ty × List (String × Ty)) :=
  (look root p f x).bind fun r =>
    match fetch root .union r with
    | some (.ty (.union n d ms _)) => .ok (n, d, ms.toList)
    | _ => .error .refused

/-- Writing a union over the one of that name. (idl/parser.hpp 1566-1594, idl/Module.hpp 288-301) -/
def putUnion (root : Mod Item) (p : Loc) (x : Name) (u : UnionB) : Mod Item :=
  (register root p .union x (.ty u.toTy) true).1

/-- `union_def` (idl/parser.hpp 1538-1596). A union of that name which has no cases is as it was when it was created; the cases
are added to it. -/
def buildUnion (c : Ctx) (root : Mod Item) (p : Loc) (f : Nat) (name : Bytes) (disc : TSpec) (cs : List Case) : Out :=
  orStop root (resolveId c root p name true) fun n =>
  orStop root (evalType c root p f disc) fun d =>
    let x := nm n
    match UnionB.new (String.ofList (scopedName p x)) d with
    | none => (root, some .refused)
    | some u =>
      let root := (register root p .union x (.ty u.toTy)).1
      orStop root (forAll (caseOf c root p f) (bodyOf cs)) fun cs =>
      orStop root (unionNamed root p f x) fun old =>
        if old.2.2 ≠ [] then (root, if c.ignoreRedef then none else some .refused)
        else
          match UnionB.new old.1 old.2.1 with
          | none => (root, some .refused)
          | some u =>
            let r := addCases u cs
            (putUnion root p x r.1, if r.2 then none else some .refused)

/-- The loop of `enum_dcl` (idl/parser.hpp 1392-1406). The constant `name::token` contains `"::"` and is refused by
`create_constant` (idl/Module.hpp 442-445). -/
def enumLoop (p : Loc) : EnumB → Mod Item → List Bytes → EnumB × Mod Item × Bool
  | e, root, [] => (e, root, true)
  | e, root, t :: r =>
    match e.addImplicit (str t) with
    | (e, false) => (e, root, false)
    | (e', true) =>
      let q := register root p .const (nm t) (.const .u32 (e.next % 2 ^ 32))
      enumLoop p e' (if q.2 then q.1.modify p (noteFromEnum (nm t)) else q.1) r

/-- `enum_dcl` (idl/parser.hpp 1380-1408): the name is taken as it is. -/
def buildEnum (root : Mod Item) (p : Loc) (name : Bytes) (ids : List Bytes) : Out :=
  match enumLoop p (EnumB.new .w4) root ids with
  | (e, root, true) =>
    ((register root p .enum (nm name) (.ty (.enum (String.ofList (scopedName p (nm name))) .w4 e.vals))).1, none)
  | (_, root, false) => (root, some .refused)

/-! ## Constants -/

/-- A text without the quotes: `substr(find("\"") + 1, rfind("\"") - 1)` (idl/parser.hpp 1158, 1162). Without a quote `find` is
`npos` and the whole text is taken. -/
def unquote (t : Bytes) : Bytes :=
  match t.idxOf? 34 with
  | none => t
  | some i =>
    let last := t.length - 1 - t.reverse.idxOf 34
    if last = 0 then t.drop (i + 1) else (t.drop (i + 1)).take (last - 1)

/-- A string cut to its bound, as copying it does (StringType.hpp 63-73, DynamicData.hpp 1384-1393). -/
def bounded (b : Nat) (s : Bytes) : Bytes := if b = 0 then s else s.take b

/-- `get_literal_value` (idl/parser.hpp 1013-1257), for the types of which constants are modelled. The kind of the literal has
no influence but for a warning. A node without a token has a null pointer as `literal.data()`. -/
def literalValue : Ty → Lit → Except Stop Item
  | .prim .bool, .text t => .ok (.const .bool (if t = bytes "TRUE" then 1 else 0))
  | .prim .bool, .parts _ => .ok (.const .bool 0)
  | .prim .c8, .text (x :: _) => .ok (.const .c8 (Ops.val .c8 (Ops.conv .c8 x)))
  | .prim .c8, _ => .error .refused
  | .prim .c16, .text t => match utf16 t with | some u => .ok (.const .c16 (u.headD 0)) | none => .error .refused
  | .prim .c16, .parts _ => .ok (.const .c16 0)
  | .prim .wc, .text t => match utf16 t with | some u => .ok (.const .wc (u.headD 0)) | none => .error .refused
  | .prim .wc, .parts _ => .ok (.const .wc 0)
  | .prim k, .text t =>
    if Ops.isInt k then
      .ok (.const k (Ops.val k (Ops.conv k (if Ops.signed k then strtoll (labelBase t) t else strtoull (labelBase t) t))))
    else .error .outside
  | .prim k, .parts _ => .error (if Ops.isInt k then .ub else .outside)
  | .str .s8 b, .text t => .ok (.text b (bounded b (unquote t)))
  | .str .s8 b, .parts ts => .ok (.text b (bounded b (ts.map unquote).flatten))
  | _, _ => .error .outside

/-- The datum an operator yields. (DynamicDataImpl.hpp 295-457) -/
def ofNum : Ops.Out Ops.Num → Except Stop Item
  | .ok x => .ok (.const x.k (Ops.val x.k x.v))
  | .refused => .error .refused
  | .undefined => .error .ub
  | .float => .error .outside

/-- A constant of a primitive type as operand. (DynamicData.hpp 148) -/
def toNum : Item → Option Ops.Num
  | .const k v => some ⟨k, Ops.conv k v⟩
  | _ => none

/-- Unary `-` on a constant (idl/parser.hpp 1289-1293). -/
def negItem (x : Item) : Except Stop Item :=
  match toNum x with
  | some a => ofNum (Ops.neg a)
  | none => .error .refused

/-- A binary operator on two constants (idl/parser.hpp 1296-1374). -/
def binItem (o : Ops.Op) (x y : Item) : Except Stop Item :=
  match toNum x, toNum y with
  | some a, some b => ofNum (Ops.binop o a b)
  | _, _ => .error .refused

/-- `result = outer->constant(name)` (idl/parser.hpp 1281-1283): without a constant of that name the value is `false` of type
`bool` (idl/Module.hpp 392-409); a value of another type is refused (DynamicData.hpp 1384-1393). -/
def namedValue (t : Ty) : Option Item → Except Stop Item
  | some i => if i.type = t then .ok i else .error .refused
  | none => if t = .prim .bool then .ok (.const .bool 0) else .error .refused

/-- `solve_expr(type, node, outer)` (idl/parser.hpp 1259-1378) -/
def solveExpr (root : Mod Item) (p : Loc) (f : Nat) (t : Ty) : CExpr → Except Stop Item
  | .lit l => literalValue t l
  | .name x => (constant root p f x).bind (namedValue t)
  | .un u e => (solveExpr root p f t e).bind fun x => if u = .minus then negItem x else .ok x
  | .bin o l r => (solveExpr root p f t l).bind fun x => (solveExpr root p f t r).bind fun y => binItem o x y

/-- The types of which constants are modelled: `DynamicData` replaces an alias by its type (DynamicData.hpp 633-638).
Simplification: constants of floating point types, of wide strings, of enumerations and of types that are built of others are
outside of this model. (idl/parser.hpp 995-1003) -/
def constKind (t : Ty) : Except Stop Ty :=
  match t.rget with
  | .prim k => if k.isFloat then .error .outside else .ok (.prim k)
  | .str .s8 b => .ok (.str .s8 b)
  | _ => .error .outside

/-- `expr.to_string()`, whose result is only logged (idl/parser.hpp 1005-1007; DynamicDataImpl.hpp 144-154): a `wchar_t` is read as
`char16_t`, which is refused; half of a pair of UTF-16 makes the conversion throw or not return (`utf8`). -/
def logged : Item → Except Stop Unit
  | .const .wc _ => .error .refused
  | .const .c16 v =>
    if (utf8 v.toNat).isSome then .ok () else if v < 0xDC00 then .error .diverges else .error .refused
  | _ => .ok ()

/-- `const_dcl` (idl/parser.hpp 995-1011): the name is taken as it is, and a constant of that name that is already there stays. -/
def buildConst (c : Ctx) (root : Mod Item) (p : Loc) (f : Nat) (t : TSpec) (name : Bytes) (e : CExpr) : Out :=
  orStop root (evalType c root p f t) fun t =>
  orStop root (constKind t) fun t =>
  orStop root (solveExpr root p f t e) fun i =>
  orStop root (logged i) fun _ => ((register root p .const (nm name) i).1, none)

/-- A dimension of an alias: the token is read as a number, whether it is one or not. (idl/parser.hpp 985-988) -/
def aliasDim : Dim → Except Stop Nat
  | .literal s => intBound s
  | .name s => intBound s

/-- `alias_dcl` (idl/parser.hpp 967-993). With more than one declarator, or with an empty one, the name stays empty and no
dimension is read (975-991). -/
def buildAlias (c : Ctx) (root : Mod Item) (p : Loc) (f : Nat) (t : TSpec) (ds : List (Option Declr)) :
    Out :=
  orStop root (evalType c root p f t) fun t =>
    orStop root (match ds with
      | [some d] => (resolveId c root p d.name c.ignoreRedef).bind fun n =>
          (forAll aliasDim d.dims).map fun ds => (n, declType t ds)
      | _ => .ok ([], t)) fun (n, t) =>
    orStop root (look root p f (nm n)) fun r =>
      ((createAlias root p (nm n) (.ty (.alias (String.ofList (scopedName p (nm n))) t)) r).1, none)

mutual
/-- `build_on_ast` on a declaration (idl/parser.hpp 785-842) and `module_dcl` (921-963). -/
def build (c : Ctx) (f : Nat) (p : Loc) (root : Mod Item) : Def → Out
  | .struct n q ms => buildStruct c root p f n q ms
  | .forward n => buildForward c root p n
  | .union n d cs => buildUnion c root p f n d cs
  | .unionForward n => buildForward c root p n
  | .enum n ids => buildEnum root p n ids
  | .const t n e => buildConst c root p f t n e
  | .typedef t ds => buildAlias c root p f t ds
  | .ignored n => orStop root (resolveId c root p n true) fun _ => (root, none)
  | .skip => (root, none)
  | .module n ds =>
    orStop root (resolveId c root p n true) fun n =>
      match (root.at p).bind (createSubCore (nm n)) with
      | none => (root, some .ub)
      | some m => buildAll c f (nm n :: p) (root.modify p fun _ => m) ds
/-- The loop over the nodes (idl/parser.hpp 834-839). -/
def buildAll (c : Ctx) (f : Nat) (p : Loc) (root : Mod Item) : List Def → Out
  | [] => (root, none)
  | d :: r =>
    match build c f p root d with
    | (root, none) => buildAll c f p root r
    | (root, some e) => (root, some e)
end

/-- What a call of `parse` does: the text does not match the grammar and nothing happens (`parse` returns `false`), or the
declarations are entered one after the other. (idl/parser.hpp 536-558) -/
inductive Parsed where
  | rejected
  | built (o : Out)

/-- `Parser::parse(idl_string, context)` (idl/parser.hpp 536-558), without the preprocessor; `f` bounds the steps of the
lookups of names. -/
def parse (c : Ctx) (f : Nat) (root : Mod Item) (text : Bytes) : Parsed :=
  match document text with
  | none => .rejected
  | some ds => .built (buildAll c f [] root ds)

end Verif.Idl.Syn
