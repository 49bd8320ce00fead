import Verif.Model.Codec
/-!
# Encodings and what a conversion should give

`utf8` and `utf16` are the encodings of Unicode; a text is a list of scalar values.
-/

namespace Verif.Codec

/-- A Unicode scalar value: a code point that is no surrogate. -/
def Scalar (c : Nat) : Prop := c < 0xD800 ∨ (0xE000 ≤ c ∧ c < 0x110000)

/-- The bits of a number below position `n`, and from `n` on. -/
def lowBits (n c : Nat) : Nat := c % 2 ^ n

/-- UTF-8 (RFC 3629, section 3). -/
def utf8 (c : Nat) : List Nat :=
  if c < 2 ^ 7 then [c]
  else if c < 2 ^ 11 then [192 + c / 2 ^ 6, 128 + lowBits 6 c]
  else if c < 2 ^ 16 then [224 + c / 2 ^ 12, 128 + lowBits 6 (c / 2 ^ 6), 128 + lowBits 6 c]
  else [240 + c / 2 ^ 18, 128 + lowBits 6 (c / 2 ^ 12), 128 + lowBits 6 (c / 2 ^ 6), 128 + lowBits 6 c]

/-- UTF-16 (RFC 2781, section 2.1). -/
def utf16 (c : Nat) : List Nat :=
  if c < 2 ^ 16 then [c] else [0xD800 + (c - 2 ^ 16) / 2 ^ 10, 0xDC00 + lowBits 10 (c - 2 ^ 16)]

/-- The conversion of `inp` ends and returns `out`. -/
def Converts (k : Codec) (inp : List Nat) (out : List (Option Nat)) : Prop := ∃ n, run k n (start inp) = .returns out

/-- The conversion of `inp` ends with an exception. -/
def Throws (k : Codec) (inp : List Nat) : Prop := ∃ n, run k n (start inp) = .throws

/-- The conversion of `inp` does not end. -/
def Diverges (k : Codec) (inp : List Nat) : Prop := ∀ n, ∃ s, run k n (start inp) = .goesOn s

/-- The input is a text in the encoding `enc`. -/
def WellFormed (enc : Nat → List Nat) (inp : List Nat) : Prop := ∃ cs : List Nat, (∀ c ∈ cs, Scalar c) ∧ inp = cs.flatMap enc

/-- The input is a text followed by some, but not all, units of a further character. -/
def Truncated (enc : Nat → List Nat) (inp : List Nat) : Prop := ∃ (cs : List Nat) (c n : Nat), (∀ x ∈ cs, Scalar x) ∧
  Scalar c ∧ 0 < n ∧ n < (enc c).length ∧ inp = cs.flatMap enc ++ (enc c).take n

/-- The text in the encoding `enc` can be cut between characters into pieces of exactly 64 units and a rest of at most
64 units. -/
inductive Aligned (enc : Nat → List Nat) : List Nat → Prop where
  | last {cs : List Nat} : (cs.flatMap enc).length ≤ 64 → Aligned enc cs
  | piece {a b : List Nat} : (a.flatMap enc).length = 64 → Aligned enc b → Aligned enc (a ++ b)

end Verif.Codec
