import Verif.Model.Expr
import Verif.Spec.Idl
/-!
# How constant expressions are written

The texts of the tokens of an expression, and of a sequence of tokens with white space and comments between them. A text is the
list of its characters' codes.
-/

namespace Verif.Expr
open Verif.Idl

/-- The number with these digits. -/
def value (b : Nat) (ds : List Nat) : Nat := ds.foldl (fun a d => a * b + d) 0

/-- A digit in base 16 and its character: 0 to 9, A to F or a to f. -/
def HexDigit (d c : Nat) : Prop := d < 10 ∧ c = 48 + d ∨ 10 ≤ d ∧ d < 16 ∧ (c = 55 + d ∨ c = 87 + d)

/-- The ways to write a number: in base 10 without zeros in front; in base 8 after a zero; in base 16 after `0x` or `0X`. -/
inductive Numeral : Nat → List Nat → Prop
  | zero : Numeral 0 [48]
  | dec {d ds} : 1 ≤ d → (∀ x ∈ d :: ds, x < 10) → Numeral (value 10 (d :: ds)) ((d :: ds).map (48 + ·))
  | oct {ds} : ds ≠ [] → (∀ x ∈ ds, x < 8) → Numeral (value 8 ds) (48 :: ds.map (48 + ·))
  | hex {x} {l : List (Nat × Nat)} : x = 120 ∨ x = 88 → l ≠ [] → (∀ p ∈ l, HexDigit p.1 p.2) →
      Numeral (value 16 (l.map (·.1))) (48 :: x :: l.map (·.2))

/-- A name, possibly scoped, that does not begin like a Boolean literal. -/
def ConstName (s : String) : Prop :=
  (∃ l : List String, l ≠ [] ∧ s.toList = joined l ∧ ∀ a ∈ l, Identifier a) ∧
  (∀ r, s.toList ≠ "TRUE".toList ++ r) ∧ ∀ r, s.toList ≠ "FALSE".toList ++ r

/-- The characters of a text. -/
def codes (s : String) : List Nat := s.toList.map Char.toNat

/-- The text of an operator. -/
def opText : Ops.Op → String
  | .mul => "*"
  | .div => "/"
  | .mod => "%"
  | .add => "+"
  | .sub => "-"
  | .shl => "<<"
  | .shr => ">>"
  | .and => "&"
  | .xor => "^"
  | .or => "|"

/-- The texts of a token. -/
inductive Spells : Tok → List Nat → Prop
  | lit {n t} : Numeral n t → Spells (.lit n) t
  | name {s} : ConstName s → Spells (.name s) (codes s)
  | op (o) : Spells (.op o) (codes (opText o))
  | tilde : Spells .tilde (codes "~")
  | lpar : Spells .lpar (codes "(")
  | rpar : Spells .rpar (codes ")")

/-- No comment begins with the slash before this text. -/
def NoComment : List Nat → Prop
  | c :: _ => c ≠ 47 ∧ c ≠ 42
  | [] => True

/-- A text of several tokens: any layout between two tokens, but after a division sign nothing that would make it the beginning
of a comment. -/
inductive Spelled : List Tok → List Nat → Prop
  | one {k t} : Spells k t → Spelled [k] t
  | cons {k t w ts u} : Spells k t → Layout w → (k = .op .div → NoComment (w ++ u)) → Spelled ts u → Spelled (k :: ts) (t ++ (w ++ u))

/-- The ways to write an integer type. -/
inductive TypeText : PK → List Nat → Prop
  | int8 : TypeText .i8 (codes "int8")
  | uint8 : TypeText .u8 (codes "uint8")
  | int16 : TypeText .i16 (codes "int16")
  | uint16 : TypeText .u16 (codes "uint16")
  | int32 : TypeText .i32 (codes "int32")
  | uint32 : TypeText .u32 (codes "uint32")
  | int64 : TypeText .i64 (codes "int64")
  | uint64 : TypeText .u64 (codes "uint64")
  | short : TypeText .i16 (codes "short")
  | long : TypeText .i32 (codes "long")
  | longLong {w} : Layout w → w ≠ [] → TypeText .i64 (codes "long" ++ (w ++ codes "long"))
  | unsignedShort {w} : Layout w → w ≠ [] → TypeText .u16 (codes "unsigned" ++ (w ++ codes "short"))
  | unsignedLong {w} : Layout w → w ≠ [] → TypeText .u32 (codes "unsigned" ++ (w ++ codes "long"))
  | unsignedLongLong {w w'} : Layout w → w ≠ [] → Layout w' → w' ≠ [] →
      TypeText .u64 (codes "unsigned" ++ (w ++ (codes "long" ++ (w' ++ codes "long"))))

/-- A declaration of a constant: its type, its name and the tokens of the expression. -/
structure Line where
  kind : PK
  name : String
  tokens : List Tok

/-- The texts of a declaration. -/
inductive Written : Line → List Nat → Prop
  | mk {k n ts b0 t b1 b2 b3 x b4} : Usable n → TypeText k t → Spelled ts x → Layout b0 → b0 ≠ [] → Layout b1 → b1 ≠ [] → Layout b2 →
      Layout b3 → Layout b4 →
      Written ⟨k, n, ts⟩ (codes "const" ++ (b0 ++ (t ++ (b1 ++ (codes n ++ (b2 ++ 61 :: (b3 ++ (x ++ (b4 ++ [59])))))))))

/-- The texts of several declarations. -/
inductive Lines : List Line → List Nat → Prop
  | nil {e} : Layout e → Lines [] e
  | cons {g d t r u} : Layout g → Written d t → Lines r u → Lines (d :: r) (g ++ (t ++ u))

end Verif.Expr
