import Verif.Model.Ty
/-!
# Numbers and characters as text

The library functions by which the generator and the parser turn numbers into text and back. A text is the list of its
bytes (`std::string`).
-/

namespace Verif.Text

/-- A `std::string`: its bytes. (idl/generator.hpp 218-260) -/
abbrev Bytes := List Nat

/-- The bytes of a literal. (e.g. UnionType.hpp 967, 990, 994) -/
def bytes (s : String) : Bytes := s.toList.map Char.toNat

/-- `std::to_string` of an unsigned number: decimal digits without leading zeros. (idl/generator.hpp 102, 254, 385) -/
def dec (n : Nat) : Bytes := if n < 10 then [48 + n] else dec (n / 10) ++ [48 + n % 10]

/-- The value of a digit, 36 for any other byte. (`strtoull`, used in UnionType.hpp 1006-1054) -/
def digit (c : Nat) : Nat :=
  if 48 ≤ c ∧ c ≤ 57 then c - 48
  else if 65 ≤ c ∧ c ≤ 90 then c - 55
  else if 97 ≤ c ∧ c ≤ 122 then c - 87
  else 36

/-- The digits of a base at the front of a text. (`strtoull`, used in UnionType.hpp 1006-1054) -/
def scan (base acc : Nat) : Bytes → Nat
  | [] => acc
  | c :: r => if digit c < base then scan base (acc * base + digit c) r else acc

/-- `isspace` in the "C" locale. (`strtoull`, used in UnionType.hpp 1006-1054) -/
def space (c : Nat) : Bool := c = 32 || (9 ≤ c && c ≤ 13)

/-- A sign at the front of a text. (`strtoull`, used in UnionType.hpp 1006-1054) -/
def sign : Bytes → Bool × Bytes
  | [] => (false, [])
  | c :: r => if c = 45 then (true, r) else if c = 43 then (false, r) else (false, c :: r)

/-- The prefix of a number in base 16. (`strtoull`, used in UnionType.hpp 1006-1054) -/
def prefix16 : Bytes → Bytes
  | c :: x :: d :: r => if c = 48 ∧ (x = 120 ∨ x = 88) ∧ digit d < 16 then d :: r else c :: x :: d :: r
  | s => s

/-- The sign and the magnitude read by the `strto…` functions: leading white space, a sign, for base 16 a prefix, digits.
(used in UnionType.hpp 1006-1054) -/
def magnitude (base : Nat) (s : Bytes) : Bool × Nat :=
  let p := sign (s.dropWhile space)
  (p.1, scan base 0 (if base = 16 then prefix16 p.2 else p.2))

/-- `std::strtoull` (used in UnionType.hpp 1012, 1024, 1036, 1048, 1105) -/
def strtoull (base : Nat) (s : Bytes) : Nat :=
  let (neg, v) := magnitude base s
  if 2 ^ 64 ≤ v then 2 ^ 64 - 1 else if neg then (2 ^ 64 - v) % 2 ^ 64 else v

/-- `std::strtoll` (used in UnionType.hpp 1006, 1018, 1030, 1042) -/
def strtoll (base : Nat) (s : Bytes) : Int :=
  let (neg, v) := magnitude base s
  if neg then (if 2 ^ 63 ≤ v then -2 ^ 63 else -(v : Int)) else (if 2 ^ 63 ≤ v then 2 ^ 63 - 1 else (v : Int))

/-- `std::stoul` in base 10; `none` is the exception for a text that is no number or too large.
(used in idl/parser.hpp 2086, 2214) -/
def stoul (s : Bytes) : Option Nat :=
  let (neg, v) := magnitude 10 s
  if 10 ≤ digit ((sign (s.dropWhile space)).2.headD 0) then none
  else if 2 ^ 64 ≤ v then none else some (if neg then (2 ^ 64 - v) % 2 ^ 64 else v)

/-- `std::atoi`; `none` where its behaviour is undefined, when the number is not an `int`.
(used in idl/parser.hpp 987) -/
def atoi (s : Bytes) : Option Int :=
  let v := strtoll 10 s
  if -2 ^ 31 ≤ v ∧ v < 2 ^ 31 then some v else none

/-! ## UTF-8 and UTF-16 -/

/-- One UTF-16 code unit as UTF-8; `none` for half of a pair, for which `code_conversion_tool` throws (second half) or does
not return (first half, see `C53_diverges_out`). (StringConversion.hpp 84-152) -/
def utf8 (u : Nat) : Option Bytes :=
  if u < 0x80 then some [u]
  else if u < 0x800 then some [0xC0 + u / 0x40, 0x80 + u % 0x40]
  else if 0xD800 ≤ u ∧ u ≤ 0xDFFF then none
  else some [0xE0 + u / 0x1000, 0x80 + u / 0x40 % 0x40, 0x80 + u % 0x40]

/-- A continuation byte. (StringConversion.hpp 84-152) -/
def cont (b : Nat) : Bool := 0x80 ≤ b && b ≤ 0xBF

/-- UTF-8 to UTF-16 code units; `none` for an ill-formed text, which makes `code_conversion_tool` throw.
(StringConversion.hpp 84-152) -/
def utf16 : Bytes → Option (List Nat)
  | [] => some []
  | b :: r =>
    if b < 0x80 then (utf16 r).map (b :: ·)
    else if 0xC2 ≤ b ∧ b ≤ 0xDF then
      match r with
      | c :: r => if cont c then (utf16 r).map (((b - 0xC0) * 0x40 + (c - 0x80)) :: ·) else none
      | _ => none
    else if 0xE0 ≤ b ∧ b ≤ 0xEF then
      match r with
      | c :: d :: r =>
        let u := (b - 0xE0) * 0x1000 + (c - 0x80) * 0x40 + (d - 0x80)
        if cont c ∧ cont d ∧ 0x800 ≤ u ∧ ¬ (0xD800 ≤ u ∧ u ≤ 0xDFFF) then (utf16 r).map (u :: ·) else none
      | _ => none
    else if 0xF0 ≤ b ∧ b ≤ 0xF4 then
      match r with
      | c :: d :: e :: r =>
        let u := (b - 0xF0) * 0x40000 + (c - 0x80) * 0x1000 + (d - 0x80) * 0x40 + (e - 0x80)
        if cont c ∧ cont d ∧ cont e ∧ 0x10000 ≤ u ∧ u ≤ 0x10FFFF then
          (utf16 r).map ([0xD800 + (u - 0x10000) / 0x400, 0xDC00 + (u - 0x10000) % 0x400] ++ ·)
        else none
      | _ => none
    else none

/-! ## Union labels -/

/-- `T value = …` for a signed type of `n` bits: the value modulo 2^n. (UnionType.hpp 1006, 1018, 1030) -/
def signed (n : Nat) (v : Int) : Int := Int.bmod v (2 ^ n)

/-- `label_value(value, type)`: the text of a case label; the label, an `int64_t`, is passed as `size_t`. `none`: an
exception, a failed assertion, or a cast of the discriminator to `EnumerationType<uint32_t>` when it is not one.
(idl/generator.hpp 218-270, 348-349) -/
def labelValue (v : Int) (disc : Ty) : Option Bytes :=
  let n : Nat := (v % 2 ^ 64).toNat
  match disc.rget with
  | .prim .bool => some (if n = 0 then bytes "FALSE" else bytes "TRUE")
  | .prim .c8 => some (bytes "'" ++ [n % 256] ++ bytes "'")
  | .prim .c16 | .prim .wc => (utf8 (n % 2 ^ 16)).map fun u => bytes "L'" ++ u ++ bytes "'"
  | .prim .i8 | .prim .u8 | .prim .i16 | .prim .u16 | .prim .i32 | .prim .u32 | .prim .i64 | .prim .u64 => some (dec n)
  | .enum _ .w4 vals =>
    match disc with
    | .enum _ _ _ => some (((vals.find? fun e => e.2 = n % 2 ^ 32).map fun e => bytes e.1).getD [])
    | _ => none
  | _ => none

/-- The labels printed before a case member: its values in order, then `default` for the default member
(idl/generator.hpp 343-356). Simplification: the words `case`, the colons and the layout are left out. -/
def caseLabels (disc : Ty) (isDefault : Bool) (vs : List Int) : Option (List Bytes) :=
  (vs.mapM fun v => labelValue v disc).map fun ss => if isDefault then ss ++ [bytes "default"] else ss

/-- The base of a label (UnionType.hpp 974-982). -/
def labelBase (s : Bytes) : Nat :=
  if (bytes "0x").isPrefixOf s ∨ (bytes "0X").isPrefixOf s then 16
  else if (bytes "0").isPrefixOf s then 8
  else 10

/-- The character after the first apostrophe of a text that is not a single character; `find` gives `npos` when there is
none, and `npos + 1` is 0; the character at the end of a string is 0 (UnionType.hpp 1063, 1080, 1098). -/
def quoted (s : List Nat) : Nat := match s.dropWhile (· ≠ 39) with
  | [] => s.headD 0
  | _ :: r => r.headD 0

/-- One label that is not `default`; `none`: an exception, a failed assertion or an unchecked cast (UnionType.hpp
984-1123). -/
def parseLabel (disc : Ty) (s : Bytes) : Option Int :=
  let b := labelBase s
  match disc.rget with
  | .prim .bool => if s = bytes "TRUE" then some 1 else if s = bytes "FALSE" then some 0 else none
  | .prim .i8 => some (signed 8 (strtoll b s))
  | .prim .u8 => some ((strtoull b s % 2 ^ 8 : Nat) : Int)
  | .prim .i16 => some (signed 16 (strtoll b s))
  | .prim .u16 => some ((strtoull b s % 2 ^ 32 : Nat) : Int)
  | .prim .i32 => some (signed 32 (strtoll b s))
  | .prim .u32 => some ((strtoull b s % 2 ^ 32 : Nat) : Int)
  | .prim .i64 => some (strtoll b s)
  | .prim .u64 => some (signed 64 (strtoull b s))
  | .prim .c8 => some (signed 8 (if s.length = 1 then s.headD 0 else quoted s : Nat))
  | .prim .c16 | .prim .wc =>
    (utf16 s).map fun u => ((if s.length = 1 then u.headD 0 else quoted u : Nat) : Int)
  | .enum _ .w4 vals =>
    let v := strtoull b s % 2 ^ 32
    if v = 0 ∧ s.any (fun c => c = 95 || (65 ≤ c && c ≤ 90) || (97 ≤ c && c ≤ 122) || c = 42) then
      match disc with
      | .enum _ _ _ => (vals.find? fun e => bytes e.1 = s).map fun e => (e.2 : Int)
      | _ => none
    else some (v : Int)
  | _ => none

/-- `parse_labels(labels, result)`: whether `default` is among them, and the values in order (UnionType.hpp
953-1128). -/
def parseLabels (disc : Ty) : List Bytes → Bool → List Int → Option (Bool × List Int)
  | [], d, r => some (d, r)
  | s :: l, d, r =>
    if s = bytes "default" then (if d then none else parseLabels disc l true r)
    else match parseLabel disc s with
      | some v => parseLabels disc l d (r ++ [v])
      | none => none

end Verif.Text
