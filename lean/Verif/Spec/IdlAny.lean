import Verif.Spec.IdlDoc
import Verif.Props.Module
/-!
# Reading any text

The vocabulary for statements about what the parser does with a text of which nothing is known.
-/

namespace Verif.Idl
open Syn Text

/-- The text has no four colons in a row. -/
def NoQuad (s : Bytes) : Prop := ¬ [58, 58, 58, 58] <:+: s

/-- The text of a comment that ends with its line: a line is continued by a backslash before its end. -/
inductive LineText : Bytes → Prop
  | nil : LineText []
  | char {c t} : c ≠ 10 → c ≠ 13 → LineText t → LineText (c :: t)
  | continued {e t} : e ∈ [[13, 10], [10], [13], []] → LineText t → LineText (92 :: (e ++ t))

/-- White space and comments. -/
inductive Filler : Bytes → Prop
  | nil : Filler []
  | blank {c l} : c ∈ [32, 9, 13, 10] → Filler l → Filler (c :: l)
  | line {t e l} : LineText t → e ∈ [[13, 10], [10], [13], []] → Filler l → Filler (47 :: 47 :: (t ++ (e ++ l)))
  | block {t l} : ¬ [42, 47] <:+: t → Filler l → Filler (47 :: 42 :: (t ++ (42 :: 47 :: l)))

/-- No type is defined inside of a `typedef`: what follows a `typedef` begins with none of these. -/
def NoInline (s : Bytes) : Prop :=
  ∀ l, Filler l → ∀ w ∈ ["struct", "union", "enum", "bitset", "bitmask", "@"], ¬ bytes "typedef" ++ (l ++ bytes w) <:+: s

/-- A structure without members: what a declaration in advance leaves. -/
def Hollow : Item → Prop
  | .ty (.struct _ .nil) => True
  | .ty (.union _ _ .nil _) => True
  | _ => False

/-- A structure or union and what it may become: one of the same name, and for a union with the same discriminator. -/
def Completes : Item → Item → Prop
  | .ty (.struct n _), .ty (.struct n' _) => n' = n
  | .ty (.union n d _ _), .ty (.union n' d' _ _) => n' = n ∧ d' = d
  | _, _ => False

/-- Structures and unions have the full name of the place where they are found. -/
def WellNamed (root : Mod Item) : Prop :=
  (∀ p x i, entry root p .struct x = some i → ∃ ms, i = .ty (.struct (String.ofList (scopedName p x)) ms)) ∧
  (∀ p x i, entry root p .union x = some i → ∃ d ms u, i = .ty (.union (String.ofList (scopedName p x)) d ms u)) ∧
  (∀ p x i, entry root p .enum x = some i → ∃ w vs, i = .ty (.enum (String.ofList (scopedName p x)) w vs)) ∧
  ∀ p x i, entry root p .alias x = some i → ∃ t, i = .ty (.alias (String.ofList (scopedName p x)) t)

/-- Nothing is lost from one module tree to the other: the modules are there; every entry is as it was, or was a structure or
union without members that has got some; and the constants of enumerators are still known as such. -/
structure Keeps (root root' : Mod Item) : Prop where
  modules : ∀ p, (root.at p).isSome → (root'.at p).isSome
  entries : ∀ p k x i, entry root p k x = some i → entry root' p k x = some i ∨ Hollow i ∧ ∃ j, entry root' p k x = some j ∧ Completes i j
  marks : ∀ p m m' x, root.at p = some m → root'.at p = some m' → x ∈ m.content.fromEnum → x ∈ m'.content.fromEnum

end Verif.Idl
