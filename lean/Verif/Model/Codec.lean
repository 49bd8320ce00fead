/-!
# Conversion between UTF-8 and UTF-16

`code_conversion_tool` (StringConversion.hpp 84-152), used by `to_string`, by the IDL generator and by the IDL parser.

Not code of this repository: the facet `std::codecvt<char16_t, char8_t, mbstate_t>` it calls. `translate` is what the C++
standard requires of it, in the way libstdc++ does it: convert character by character until the input is exhausted, the
next character does not fit into the buffer, is incomplete or is ill-formed.

Code units and code points are natural numbers.
-/

namespace Verif.Codec

/-- What is found at the front of the input. (the facet behind StringConversion.hpp 44-78) -/
inductive Read where
  /-- a character and the number of its code units -/
  | char (c len : Nat)
  /-- the first part of a character -/
  | incomplete
  | invalid
  deriving DecidableEq, Repr

/-- First half of a surrogate pair. (the facet behind StringConversion.hpp 63-78) -/
def high (u : Nat) : Prop := 0xD800 ≤ u ∧ u ≤ 0xDBFF

/-- Second half. (the facet behind StringConversion.hpp 63-78) -/
def low (u : Nat) : Prop := 0xDC00 ≤ u ∧ u ≤ 0xDFFF

instance (u : Nat) : Decidable (high u) := inferInstanceAs (Decidable (_ ∧ _))
instance (u : Nat) : Decidable (low u) := inferInstanceAs (Decidable (_ ∧ _))

/-- The first character of a UTF-16 text. (the facet behind StringConversion.hpp 63-78) -/
def read16 : List Nat → Read
  | [] => .incomplete
  | u :: r =>
    if high u then
      match r with
      | [] => .incomplete
      | v :: _ => if low v then .char (0x10000 + (u - 0xD800) * 0x400 + (v - 0xDC00)) 2 else .invalid
    else if low u then .invalid
    else .char u 1

/-- A continuation byte. (the facet behind StringConversion.hpp 44-61) -/
def cont (b : Nat) : Prop := 0x80 ≤ b ∧ b ≤ 0xBF

instance (b : Nat) : Decidable (cont b) := inferInstanceAs (Decidable (_ ∧ _))

/-- The first character of a UTF-8 text. (the facet behind StringConversion.hpp 44-61) -/
def read8 : List Nat → Read
  | [] => .incomplete
  | b :: r =>
    if b < 0x80 then .char b 1
    else if b < 0xC2 then .invalid
    else if b < 0xE0 then
      match r with
      | [] => .incomplete
      | c :: _ => if cont c then .char ((b - 0xC0) * 0x40 + (c - 0x80)) 2 else .invalid
    else if b < 0xF0 then
      match r with
      | [] => .incomplete
      | c :: r =>
        if ¬ cont c ∨ (b = 0xE0 ∧ c < 0xA0) ∨ (b = 0xED ∧ 0xA0 ≤ c) then .invalid
        else
          match r with
          | [] => .incomplete
          | d :: _ => if cont d then .char ((b - 0xE0) * 0x1000 + (c - 0x80) * 0x40 + (d - 0x80)) 3 else .invalid
    else if b < 0xF5 then
      match r with
      | [] => .incomplete
      | c :: r =>
        if ¬ cont c ∨ (b = 0xF0 ∧ c < 0x90) ∨ (b = 0xF4 ∧ 0x90 ≤ c) then .invalid
        else
          match r with
          | [] => .incomplete
          | d :: r =>
            if ¬ cont d then .invalid
            else
              match r with
              | [] => .incomplete
              | e :: _ =>
                if cont e then
                  .char ((b - 0xF0) * 0x40000 + (c - 0x80) * 0x1000 + (d - 0x80) * 0x40 + (e - 0x80)) 4
                else .invalid
    else .invalid

/-- The UTF-8 code units of a character. (the facet behind StringConversion.hpp 63-78) -/
def write8 (c : Nat) : List Nat :=
  if c < 0x80 then [c]
  else if c < 0x800 then [0xC0 + c / 0x40, 0x80 + c % 0x40]
  else if c < 0x10000 then [0xE0 + c / 0x1000, 0x80 + c / 0x40 % 0x40, 0x80 + c % 0x40]
  else [0xF0 + c / 0x40000, 0x80 + c / 0x1000 % 0x40, 0x80 + c / 0x40 % 0x40, 0x80 + c % 0x40]

/-- The UTF-16 code units of a character. (the facet behind StringConversion.hpp 44-61) -/
def write16 (c : Nat) : List Nat :=
  if c < 0x10000 then [c] else [0xD800 + (c - 0x10000) / 0x400, 0xDC00 + (c - 0x10000) % 0x400]

/-- A direction of conversion. `stops`: the input is not looked at when the buffer is full. (StringConversion.hpp 44-78) -/
structure Codec where
  read : List Nat → Read
  write : Nat → List Nat
  stops : Bool

/-- `codecvt::out`: UTF-16 to UTF-8 (StringConversion.hpp 63-78). -/
def out8 : Codec := ⟨read16, write8, false⟩

/-- `codecvt::in`: UTF-8 to UTF-16 (StringConversion.hpp 44-61). -/
def in16 : Codec := ⟨read8, write16, true⟩

/-- The result of a call of the facet: the input was converted, or there is more (`ok` with some input left, or
`partial`), or `error`. (the cases of StringConversion.hpp 118-143) -/
inductive Status where
  | done | more | error
  deriving DecidableEq, Repr

/-- A call of the facet: the input left, the units written, the status; `room` is the space left in the buffer. `fuel`
bounds the number of characters, the length of the input is enough. (StringConversion.hpp 108-116) -/
def translate (k : Codec) : (fuel room : Nat) → List Nat → List Nat × List Nat × Status
  | 0, _, inp => (inp, [], if inp.isEmpty then .done else .error)
  | fuel + 1, room, inp =>
    if inp.isEmpty then (inp, [], .done)
    else if k.stops && decide (room = 0) then (inp, [], .more)
    else
      match k.read inp with
      | .invalid => (inp, [], .error)
      | .incomplete => (inp, [], .more)
      | .char c len =>
        if (k.write c).length ≤ room then
          let r := translate k fuel (room - (k.write c).length) (inp.drop len)
          (r.1, k.write c ++ r.2.1, r.2.2)
        else (inp, [], .more)

/-- `buffer_size` (StringConversion.hpp 95). -/
def bufferSize : Nat := 64

/-- The variables of the loop: the input left, the buffer (`none`: a unit that was never written) and the output.
(StringConversion.hpp 95-103) -/
structure St where
  inp : List Nat
  buffer : List (Option Nat)
  output : List (Option Nat)

/-- How an iteration of the loop ends. (StringConversion.hpp 106-144) -/
inductive Outcome where
  | goesOn (s : St)
  | returns (output : List (Option Nat))
  | throws

/-- One iteration (StringConversion.hpp 106-144). `noconv` does not occur. -/
def step (k : Codec) (s : St) : Outcome :=
  let r := translate k s.inp.length bufferSize s.inp
  let buffer := r.2.1.map some ++ s.buffer.drop r.2.1.length
  match r.2.2 with
  | .done => .returns (s.output ++ buffer.take r.2.1.length)
  | .more => .goesOn ⟨r.1, buffer, s.output ++ buffer.take bufferSize⟩
  | .error => .throws

/-- At most `n` iterations. (StringConversion.hpp 104-145) -/
def run (k : Codec) : Nat → St → Outcome
  | 0, s => .goesOn s
  | n + 1, s =>
    match step k s with
    | .goesOn s => run k n s
    | r => r

/-- The state before the loop (StringConversion.hpp 91-104). -/
def start (inp : List Nat) : St := ⟨inp, List.replicate bufferSize none, []⟩

end Verif.Codec
