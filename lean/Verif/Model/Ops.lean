import Verif.Model.Ty
/-!
# Operators on primitive data

Models the operators of `DynamicData` (DynamicDataImpl.hpp 295-514) on integer, character and
boolean data. Floating point operands are not modelled (`Out.float`).

Every operator is a C++ expression on two operands of one arithmetic type `T`, so the rules of the
language are modelled too: integer promotion to `int`, evaluation in the promoted type, undefined
behaviour for signed overflow, zero divisors and bad shift counts (C++17, the standard the project
compiles with), conversion of the result back to `T` modulo `2^width`.
-/

namespace Verif.Ops

/-- Integer kinds with sign (PrimitiveType.hpp 45-59): `char` and `wchar_t` are signed on the modelled
platform. -/
def signed : PK → Bool
  | .i8 | .i16 | .i32 | .i64 | .c8 | .wc => true
  | _ => false

/-- Width in bits of a kind. (PrimitiveType.hpp 45-59, 112-115) -/
def bits (k : PK) : Nat := 8 * k.size

/-- A datum of primitive type: its kind and the bits of its instance (little endian memory).
(PrimitiveType.hpp 80-115) -/
structure Num where
  k : PK
  v : BitVec (bits k)
  deriving DecidableEq

/-- The value `*reinterpret_cast<T*>(instance_)` (DynamicData.hpp 148) denotes. -/
def val (k : PK) (v : BitVec (bits k)) : Int := if signed k then v.toInt else v.toNat

/-- Conversion of an integer to `T`: modulo `2^width` (implementation-defined for signed targets
before C++20, and this on every supported compiler). (the initialisation of `res`, DynamicDataImpl.hpp 390) -/
def conv (k : PK) (z : Int) : BitVec (bits k) := BitVec.ofInt (bits k) z

/-- What a call can do: yield a value, be refused (`xtypes_assert` or the exceptions of line 432),
be undefined by the C++ standard, or be a floating point operation (not modelled). -/
inductive Out (α : Type) where
  | ok (a : α)
  | refused
  | undefined
  | float
  deriving DecidableEq

/-- The operators `* / % + - << >> & ^ |` (DynamicDataImpl.hpp 439-457). -/
inductive Op where
  | mul | div | mod | add | sub | shl | shr | and | xor | or
  deriving DecidableEq, Repr

/-- Width of the type `T` is promoted to: `int` when `T` is narrower, `T` itself otherwise.
(language rule for the expression in DynamicDataImpl.hpp 390) -/
def pbits (k : PK) : Nat := if bits k < 32 then 32 else bits k

/-- Whether the promoted type is signed: narrow types of either sign become `int`.
(language rule for the expression in DynamicDataImpl.hpp 390) -/
def psigned (k : PK) : Bool := if bits k < 32 then true else signed k

/-- Value of an arithmetic result in the promoted type: reduced modulo `2^width` when unsigned,
undefined when signed and not representable. (language rule for the expression in DynamicDataImpl.hpp 390) -/
def inPromoted (k : PK) (z : Int) : Out Int :=
  if psigned k then
    if -(2 ^ (pbits k - 1)) ≤ z ∧ z < 2 ^ (pbits k - 1) then .ok z else .undefined
  else .ok (z % 2 ^ pbits k)

/-- A promoted operand as bits. (language rule for the expression in DynamicDataImpl.hpp 390) -/
def pvec (k : PK) (v : BitVec (bits k)) : BitVec (pbits k) := BitVec.ofInt (pbits k) (val k v)

/-- The value of promoted bits. (language rule for the expression in DynamicDataImpl.hpp 390) -/
def pval (k : PK) (v : BitVec (pbits k)) : Int := if psigned k then v.toInt else v.toNat

/-- `lho OPERATOR rho` for two operands of type `T` (DynamicDataImpl.hpp 390: the right-hand side of
the initialisation of `res`), before conversion back to `T`. C++17 rules: [expr.mul] (truncating
division, zero divisor and unrepresentable quotient undefined), [expr.shift] (count negative or not
below the promoted width undefined; a signed left operand of `<<` must be non-negative and its
shifted value fit the unsigned promoted type), `&`, `^`, `|` on the promoted bits. -/
def eval (op : Op) (k : PK) (a b : BitVec (bits k)) : Out Int :=
  let x := val k a
  let y := val k b
  match op with
  | .mul => inPromoted k (x * y)
  | .add => inPromoted k (x + y)
  | .sub => inPromoted k (x - y)
  | .div => if y = 0 then .undefined else inPromoted k (x.tdiv y)
  | .mod =>
    if y = 0 then .undefined else
    match inPromoted k (x.tdiv y) with
    | .ok _ => .ok (x.tmod y)
    | _ => .undefined
  | .shl =>
    if y < 0 ∨ y ≥ pbits k then .undefined
    else if psigned k then
      if x < 0 then .undefined
      else if x * 2 ^ y.toNat < 2 ^ pbits k then .ok (x * 2 ^ y.toNat) else .undefined
    else .ok (x * 2 ^ y.toNat % 2 ^ pbits k)
  | .shr => if y < 0 ∨ y ≥ pbits k then .undefined else .ok (x / 2 ^ y.toNat)
  | .and => .ok (pval k (pvec k a &&& pvec k b))
  | .xor => .ok (pval k (pvec k a ^^^ pvec k b))
  | .or => .ok (pval k (pvec k a ||| pvec k b))

/-- Operators that also take floating point data (DynamicDataImpl.hpp 439-447). -/
def Op.takesFloat : Op → Bool
  | .mul | .div | .add | .sub => true
  | _ => false

/-- Kinds the integer switch accepts (DynamicDataImpl.hpp 28-62). -/
def isInt : PK → Bool
  | .i8 | .u8 | .i16 | .u16 | .i32 | .u32 | .i64 | .u64 => true
  | _ => false

/-- `*this OPERATOR other` (DynamicDataImpl.hpp 386-457): the switch on the kind of `*this`; `TYPE rho
= other` is `other.value<TYPE>()` (DynamicData.hpp 104-107, 126-149), refused when the kind of `other`
differs (enumerated operands, accepted there when their size matches, are not modelled); the result
has type `T`. Characters and booleans are refused by `+` with an exception (419-437) and by the others
through the default of the switch. -/
def binop (op : Op) (x y : Num) : Out Num :=
  if x.k.isFloat then (if op.takesFloat then .float else .refused)
  else if isInt x.k then
    if h : y.k = x.k then
      match eval op x.k x.v (h ▸ y.v) with
      | .ok z => .ok ⟨x.k, conv x.k z⟩
      | .refused => .refused
      | .undefined => .undefined
      | .float => .float
    else .refused
  else .refused

/-- `x OPERATOR= other` with data on the right (DynamicDataImpl.hpp 459-463, 476-480): evaluate, then assign the
result to `*this`, whose type is that of the result. Yields the new `*this`. -/
def assignOp (op : Op) (x y : Num) : Out Num := binop op x y

/-- `x OPERATOR= t` with a C++ value on the right (DynamicDataImpl.hpp 465-472, 482-486): `value<T>()` requires
`T` to be the type of `*this`; the promoted result is converted by the parameter of
`value(const T&)`. -/
def assignOpVal (op : Op) (x : Num) (k : PK) (t : BitVec (bits k)) : Out Num :=
  match k with
  | .bool | .c8 | .wc | .c16 => .refused
  | k =>
    if k.isFloat then (if x.k = k then .float else .refused) else
    if h : x.k = k then
      match eval op x.k x.v (h ▸ t) with
      | .ok z => .ok ⟨x.k, conv x.k z⟩
      | .refused => .refused
      | .undefined => .undefined
      | .float => .float
    else .refused

/-- Unary `-` (DynamicDataImpl.hpp 295-305): signed integers and floats only. -/
def neg (x : Num) : Out Num :=
  if x.k.isFloat then .float
  else match x.k, x.v with
  | .i8, v => (match inPromoted .i8 (-(val .i8 v)) with | .ok z => .ok ⟨.i8, conv .i8 z⟩ | _ => .undefined)
  | .i16, v => (match inPromoted .i16 (-(val .i16 v)) with | .ok z => .ok ⟨.i16, conv .i16 z⟩ | _ => .undefined)
  | .i32, v => (match inPromoted .i32 (-(val .i32 v)) with | .ok z => .ok ⟨.i32, conv .i32 z⟩ | _ => .undefined)
  | .i64, v => (match inPromoted .i64 (-(val .i64 v)) with | .ok z => .ok ⟨.i64, conv .i64 z⟩ | _ => .undefined)
  | _, _ => .refused

/-- Unary `~` (DynamicDataImpl.hpp 307-310): signed integers only. -/
def not (x : Num) : Out Num :=
  match x.k, x.v with
  | .i8, v => .ok ⟨.i8, conv .i8 (pval .i8 (~~~ (pvec .i8 v)))⟩
  | .i16, v => .ok ⟨.i16, conv .i16 (pval .i16 (~~~ (pvec .i16 v)))⟩
  | .i32, v => .ok ⟨.i32, conv .i32 (pval .i32 (~~~ (pvec .i32 v)))⟩
  | .i64, v => .ok ⟨.i64, conv .i64 (pval .i64 (~~~ (pvec .i64 v)))⟩
  | _, _ => .refused

/-- `++pre` / `--pre` on a variable of type `T`: `pre = T(pre + d)`. (DynamicDataImpl.hpp 320) -/
def stepVar (d : Int) (k : PK) (v : BitVec (bits k)) : Out (BitVec (bits k)) :=
  match inPromoted k (val k v + d) with
  | .ok z => .ok (conv k z)
  | _ => .undefined

/-- `operator++(int)` (`d = 1`) and `operator--(int)` (`d = -1`) (DynamicDataImpl.hpp 317-327,
336-339): returns the new state of `*this` and the returned datum, a copy of `*this` made after the
update. -/
def post (d : Int) (x : Num) : Out (Num × Num) :=
  if isInt x.k then
    match stepVar d x.k x.v with
    | .ok v => .ok (⟨x.k, v⟩, ⟨x.k, v⟩)
    | .refused => .refused
    | .undefined => .undefined
    | .float => .float
  else .refused

/-- `operator++()` and `operator--()` (DynamicDataImpl.hpp 329-334, 341-346): assigns to `*this` what
the postfix operator returned; returns the new state of `*this` and the datum referred to by the
result. -/
def pre (d : Int) (x : Num) : Out (Num × Num) :=
  match post d x with
  | .ok (_, r) => .ok (r, r)
  | .refused => .refused
  | .undefined => .undefined
  | .float => .float

/-- The operators with a boolean result (DynamicDataImpl.hpp 374-384). -/
inductive Cmp where
  | land | lor | lt | gt | le | ge
  deriving DecidableEq, Repr

/-- `*this OPERATOR other` for `&& || < > <= >=` (DynamicDataImpl.hpp 363-384): `other.value<T>()`
refuses other types; operands are promoted, which keeps their values. -/
def cmp (op : Cmp) (x y : Num) : Out Bool :=
  if x.k.isFloat then .float
  else if h : y.k = x.k then
    let a := val x.k x.v
    let b := val x.k (h ▸ y.v)
    .ok (match op with
      | .land => decide (a ≠ 0) && decide (b ≠ 0)
      | .lor => decide (a ≠ 0) || decide (b ≠ 0)
      | .lt => decide (a < b)
      | .gt => decide (a > b)
      | .le => decide (a ≤ b)
      | .ge => decide (a ≥ b))
  else .refused

/-- `!data` on primitive data (DynamicDataImpl.hpp 312-315, 348-361): `BASICTYPE_INT_SWITCH` does not list the
floats. -/
def lnot (x : Num) : Out Bool :=
  if x.k.isFloat then .refused else .ok (decide (val x.k x.v = 0))

end Verif.Ops
