import Verif.Model.Ty
/-!
# Names and types that can be written in IDL

What a declaration has to look like for its text to be read back, in terms of characters and types only.
-/

namespace Verif.Idl

/-- Blanks and new lines. -/
def Blanks (b : List Nat) : Prop := ∀ c ∈ b, c = 32 ∨ c = 10

/-- What may stand between the words of a text: white space; or comments, each after any number of blanks and new lines, and
white space after the last one. A comment `// …` goes to the end of its line and does not end with a backslash; a comment
`/* … */` goes to the first `*/`. -/
inductive Layout : List Nat → Prop
  | space {b} : (∀ c ∈ b, c = 32 ∨ c = 9 ∨ c = 13 ∨ c = 10) → Layout b
  | line {b t e r} : Blanks b → (∀ c ∈ t, c ≠ 10 ∧ c ≠ 13) → t.getLast? ≠ some 92 → e = [10] ∨ e = [13, 10] → Layout r →
      Layout (b ++ (47 :: 47 :: (t ++ (e ++ r))))
  | block {b t r} : Blanks b → (∀ x y, t ≠ x ++ 42 :: 47 :: y) → Layout r → Layout (b ++ (47 :: 42 :: (t ++ (42 :: 47 :: r))))

/-- An identifier of IDL that does not begin with an underscore. -/
def Identifier (s : String) : Prop :=
  ∃ c r, s.toList = c :: r ∧ c.isAlpha = true ∧ ∀ x ∈ r, x.isAlphanum = true ∨ x = '_'

/-- The keywords of IDL. -/
def keywords : List String := [
  "const", "module", "sequence", "string", "wstring", "fixed", "union", "struct", "enum", "switch", "case", "default",
  "native", "typedef", "any", "map", "bitset", "bitfield", "bitmask", "short", "int16", "long", "int32", "int64", "unsigned",
  "uint16", "uint32", "uint64", "int8", "uint8", "char", "wchar", "boolean", "octet", "float", "double"]

/-- An identifier that is neither a keyword nor a keyword followed by a digit (such as `float3`). -/
def Usable (s : String) : Prop :=
  Identifier s ∧ ∀ w ∈ keywords, ∀ r, s.toList = w.toList ++ r → ∃ c t, r = c :: t ∧ c.isDigit = false

/-- The identifiers of a scoped name, written with `::` between them. -/
def joined : List String → List Char
  | [] => []
  | [a] => a.toList
  | a :: r => a.toList ++ ':' :: ':' :: joined r

/-- A name, possibly scoped. -/
def TypeName (s : String) : Prop := ∃ l : List String, l ≠ [] ∧ s.toList = joined l ∧ ∀ a ∈ l, Usable a

/-- How the reader understands `char`, `wchar` and `wstring`. -/
structure Reading where
  char : PK
  wide16 : Bool

/-- A type whose text stands for it: without arrays inside, its characters are those the reader uses, bounds fit, and every
named type in it is the one its name `stands` for. -/
def Writable (r : Reading) (stands : String → Ty → Prop) : Ty → Prop
  | .prim k => (k = .c8 → r.char = .c8) ∧ (k = .c16 → r.wide16 = true) ∧ (k = .wc → r.wide16 = false)
  | .str k b => b < 2 ^ 31 ∧ (k = .ws → r.wide16 = false) ∧ (k = .s16 → r.wide16 = true)
  | .seq c b => Writable r stands c ∧ b < 2 ^ 32
  | .map k v b => Writable r stands k ∧ Writable r stands v ∧ b < 2 ^ 32
  | .alias n t => TypeName n ∧ stands n (.alias n t)
  | .enum n w vs => TypeName n ∧ stands n (.enum n w vs)
  | .struct n ms => TypeName n ∧ stands n (.struct n ms)
  | .union n d ms i => TypeName n ∧ stands n (.union n d ms i)
  | .arr _ _ _ => False
  | .pair _ _ => False

end Verif.Idl
