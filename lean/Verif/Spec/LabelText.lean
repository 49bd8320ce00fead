import Verif.Model.Text
import Mathlib.Data.List.Forall2
/-!
# What a number given as a label should mean

Decimal numbers with a sign and with white space before them, octal numbers with a 0 before them, hexadecimal numbers with 0x or 0X.
-/

namespace Verif.Text

/-- The byte `c` is the digit `d`: 0 to 9, a to z or A to Z for 10 to 35. -/
def IsDigit (c d : Nat) : Prop := (d < 10 ∧ c = 48 + d) ∨ (10 ≤ d ∧ d < 36 ∧ (c = 97 + (d - 10) ∨ c = 65 + (d - 10)))

/-- The bytes are digits of the base `b` (the most significant one first) of the number `n`. -/
def Digits (b : Nat) (cs : Bytes) (n : Nat) : Prop :=
  ∃ ds : List Nat, List.Forall₂ IsDigit cs ds ∧ (∀ d ∈ ds, d < b) ∧ n = ds.foldl (fun v d => b * v + d) 0

/-- The text is a number with the value `v`. -/
inductive IsNumberText : Bytes → Int → Prop where
  /-- `12`, `+12`, ` 12`; a number that begins with 0 is no decimal one, unless there is something before it. -/
  | dec (w g : Bytes) {cs n} (hw : ∀ c ∈ w, c ∈ [32, 9, 10, 11, 12, 13]) (hg : g = [] ∨ g = [43]) (hd : Digits 10 cs n) (hne : cs ≠ [])
      (h0 : w ++ g = [] → cs.head? ≠ some 48) : IsNumberText (w ++ g ++ cs) n
  /-- `-12` -/
  | neg (w : Bytes) {cs n} (hw : ∀ c ∈ w, c ∈ [32, 9, 10, 11, 12, 13]) (hd : Digits 10 cs n) (hne : cs ≠ []) :
      IsNumberText (w ++ [45] ++ cs) (-n)
  /-- `0`, `012` -/
  | oct {cs n} (hd : Digits 8 cs n) : IsNumberText (48 :: cs) n
  /-- `0x1f`, `0X1F` -/
  | hex {x cs n} (hx : x = 120 ∨ x = 88) (hd : Digits 16 cs n) (hne : cs ≠ []) : IsNumberText (48 :: x :: cs) n

/-- The values of an integer type that a label, an `int64_t`, can have. -/
def IntRange : PK → Int → Prop
  | .i8, v => -2 ^ 7 ≤ v ∧ v < 2 ^ 7
  | .u8, v => 0 ≤ v ∧ v < 2 ^ 8
  | .i16, v => -2 ^ 15 ≤ v ∧ v < 2 ^ 15
  | .u16, v => 0 ≤ v ∧ v < 2 ^ 16
  | .i32, v => -2 ^ 31 ≤ v ∧ v < 2 ^ 31
  | .u32, v => 0 ≤ v ∧ v < 2 ^ 32
  | .i64, v => -2 ^ 63 ≤ v ∧ v < 2 ^ 63
  | .u64, v => 0 ≤ v ∧ v < 2 ^ 63
  | _, _ => False

end Verif.Text
