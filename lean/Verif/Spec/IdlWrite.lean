import Verif.Spec.IdlDoc
import Verif.Spec.ExprText
/-!
# How declarations are written

A declaration is written in pieces: words, signs and annotations. A text has white space and comments between them.
-/

namespace Verif.Idl
open Syn Text

/-- A piece of a text: a word (a keyword, a name, a literal), a sign, the `@` and the name of an annotation, or a line for the
preprocessor with its end. -/
inductive Piece where
  | word (t : Bytes)
  | sign (c : Nat)
  | mark (t : Bytes)
  | line (t : Bytes)

/-- The characters of a piece. -/
def Piece.text : Piece → Bytes
  | .word t => t
  | .sign c => [c]
  | .mark t => 64 :: t
  | .line t => 35 :: t

/-- A keyword. -/
def kword (w : String) : Piece := .word (bytes w)

/-- The signs `; , : = { } ( ) < > [ ]`. -/
def signs : List Nat := [59, 44, 58, 61, 123, 125, 40, 41, 60, 62, 91, 93]

/-- A word does not begin with white space or a slash; a sign is one of those of the language; a line for the preprocessor has
one end of line, after something else than a backslash. -/
def Piece.Proper : Piece → Prop
  | .word t => ∃ c r, t = c :: r ∧ c ∉ [32, 9, 13, 10, 47]
  | .sign c => c ∈ signs
  | .mark _ => True
  | .line t => ∃ u e, t = u ++ e ∧ (∀ c ∈ u, c ≠ 10 ∧ c ≠ 13) ∧ u.getLast? ≠ some 92 ∧ (e = [10] ∨ e = [13, 10])

/-- What must be between a piece and the next one: something before a word, except after a sign; nothing between an annotation
without parameters, or a line for the preprocessor, and an annotation; and nothing between `default` and its colon. -/
def Between (p : Piece) (l : Bytes) (q : Option Piece) : Prop :=
  match p, q with
  | .word _, some (.word _) => l ≠ []
  | .mark _, some (.word _) => l ≠ []
  | .mark _, some (.mark _) => l = []
  | .line _, some (.mark _) => l = []
  | .word t, some (.sign c) => t = bytes "default" → c = 58 → l = []
  | _, _ => True

/-- The texts of a sequence of pieces: after each piece there may be white space and comments. -/
inductive Spaced : List Piece → Bytes → Prop
  | nil : Spaced [] []
  | cons {p ps l s} : p.Proper → Layout l → Between p l ps.head? → Spaced ps s → Spaced (p :: ps) (p.text ++ (l ++ s))

/-- The texts of a document: white space and comments come first. -/
def Document (ps : List Piece) (text : Bytes) : Prop := ∃ l s, Layout l ∧ text = l ++ s ∧ Spaced ps s

/-- Lists of pieces with a comma between two of them. -/
def commas : List (List Piece) → List Piece
  | [] => []
  | [a] => a
  | a :: r => a ++ .sign 44 :: commas r

/-! ## Values and types -/

/-- A number. -/
def Number (t : Bytes) : Prop := ∃ n, Expr.Numeral n t

/-- The words for a value that is no string, and how they are read. -/
inductive Value : CExpr → Bytes → Prop
  | number {t} : Number t → Value (.lit (.text t)) t
  | negative {t} : Number t → Value (.un .minus (.lit (.text t))) (45 :: t)
  | name {n} : Expr.ConstName n → Value (.name (bytes n)) (bytes n)
  | bool {w} : w = "TRUE" ∨ w = "FALSE" → Value (.lit (.text (bytes w))) (bytes w)
  | char {c} : c ≠ 34 ∧ c ≠ 39 ∧ c ≠ 92 → Value (.lit (.text [39, c, 39])) [39, c, 39]
  | wide {c} : c ≠ 34 ∧ c ≠ 39 ∧ c ≠ 92 → Value (.lit (.text [76, 39, c, 39])) [76, 39, c, 39]

/-- The words for a value of a constant: a string has quotes around it, and none and no backslash in it. -/
inductive ConstValue : CExpr → Bytes → Prop
  | plain {e t} : Value e t → ConstValue e t
  | string {t} : (∀ c ∈ t, c ≠ 34 ∧ c ≠ 92) → ConstValue (.lit (.text (34 :: (t ++ [34])))) (34 :: (t ++ [34]))

/-- The words for a basic type. -/
def spellings : PK → List (List String)
  | .f32 => [["float"]]
  | .f64 => [["double"]]
  | .f128 => [["long", "double"]]
  | .i8 => [["int8"]]
  | .i16 => [["short"], ["int16"]]
  | .i32 => [["long"], ["int32"]]
  | .i64 => [["long", "long"], ["int64"]]
  | .u8 => [["uint8"], ["octet"]]
  | .u16 => [["unsigned", "short"], ["uint16"]]
  | .u32 => [["unsigned", "long"], ["uint32"]]
  | .u64 => [["unsigned", "long", "long"], ["uint64"]]
  | .c8 => [["char"]]
  | .c16 => []
  | .wc => [["wchar"]]
  | .bool => [["boolean"]]

/-- A size: a number, or the name of a constant. -/
inductive Size : Dim → Bytes → Prop
  | number {t} : Number t → Size (.literal t) t
  | name {n} : TypeName n → Size (.name (bytes n)) (bytes n)

/-- The size of a string: only its text is kept. -/
def TextSize (t : Bytes) : Prop := ∃ d, Size d t

/-- The size of a collection, if there is one, after a comma. -/
inductive MaybeSize : Option Dim → List Piece → Prop
  | none : MaybeSize none []
  | some {d t} : Size d t → MaybeSize (some d) [.sign 44, .word t]

/-- The pieces of a type. -/
inductive TypePieces : TSpec → List Piece → Prop
  | prim {k ws} : ws ∈ spellings k → TypePieces (.prim k) (ws.map kword)
  | name {n} : TypeName n → TypePieces (.name (bytes n)) [.word (bytes n)]
  | string : TypePieces (.string none) [kword "string"]
  | stringSize {t} : TextSize t → TypePieces (.string (some t)) [kword "string", .sign 60, .word t, .sign 62]
  | wstring : TypePieces (.wstring none) [kword "wstring"]
  | wstringSize {t} : TextSize t → TypePieces (.wstring (some t)) [kword "wstring", .sign 60, .word t, .sign 62]
  | seq {t ps d qs} : TypePieces t ps → MaybeSize d qs →
      TypePieces (.seq t d) (kword "sequence" :: .sign 60 :: (ps ++ (qs ++ [.sign 62])))
  | map {k ps v rs d qs} : TypePieces k ps → TypePieces v rs → MaybeSize d qs →
      TypePieces (.map k v d) (kword "map" :: .sign 60 :: (ps ++ .sign 44 :: (rs ++ (qs ++ [.sign 62]))))

/-- The pieces of the type a union switches over. -/
inductive SwitchPieces : TSpec → List Piece → Prop
  | prim {k ws} : ws ∈ spellings k → k ∉ [.f32, .f64, .f128] → SwitchPieces (.prim k) (ws.map kword)
  | name {n} : TypeName n → SwitchPieces (.name (bytes n)) [.word (bytes n)]

/-- The pieces of the type of a constant: `octet` is not one of them. -/
inductive ConstTypePieces : TSpec → List Piece → Prop
  | prim {k ws} : ws ∈ spellings k → ws ≠ ["octet"] → ConstTypePieces (.prim k) (ws.map kword)
  | name {n} : TypeName n → ConstTypePieces (.name (bytes n)) [.word (bytes n)]
  | string : ConstTypePieces (.string none) [kword "string"]
  | stringSize {t} : TextSize t → ConstTypePieces (.string (some t)) [kword "string", .sign 60, .word t, .sign 62]
  | wstring : ConstTypePieces (.wstring none) [kword "wstring"]
  | wstringSize {t} : TextSize t → ConstTypePieces (.wstring (some t)) [kword "wstring", .sign 60, .word t, .sign 62]

/-! ## Annotations -/

/-- A parameter of an annotation: a value, or a name, `=` and a value. -/
inductive ParamPieces : List Piece → Prop
  | value {e t} : Value e t → ParamPieces [.word t]
  | named {n e t} : Identifier n → Value e t → ParamPieces [.word (bytes n), .sign 61, .word t]

/-- An annotation. -/
inductive AnnotPieces : List Piece → Prop
  | plain {n} : TypeName n → AnnotPieces [.mark (bytes n)]
  | params {n l} : TypeName n → l ≠ [] → (∀ p ∈ l, ParamPieces p) → AnnotPieces (.mark (bytes n) :: .sign 40 :: (commas l ++ [.sign 41]))

/-- Any number of annotations. -/
def Annots (ps : List Piece) : Prop := ∃ l : List (List Piece), ps = l.flatten ∧ ∀ a ∈ l, AnnotPieces a

/-! ## Declarations -/

/-- The pieces of a declarator: a name, and dimensions in brackets. -/
inductive DeclrPieces : Declr → List Piece → Prop
  | mk {n} {l : List (Dim × Bytes)} : Usable n → (∀ d ∈ l, Size d.1 d.2) →
      DeclrPieces ⟨bytes n, l.map (·.1)⟩ (.word (bytes n) :: l.flatMap fun d => [.sign 91, .word d.2, .sign 93])

/-- The pieces of a member. -/
inductive MemberPieces : TSpec × List Declr → List Piece → Prop
  | mk {a t ps} {l : List (Declr × List Piece)} : Annots a → TypePieces t ps → l ≠ [] → (∀ d ∈ l, DeclrPieces d.1 d.2) →
      MemberPieces (t, l.map (·.1)) (a ++ (ps ++ (commas (l.map (·.2)) ++ [.sign 59])))

/-- The pieces of a label; what is kept of a label is its text. -/
inductive LabelPieces : Bytes → List Piece → Prop
  | value {e t} : Value e t → LabelPieces t [kword "case", .word t, .sign 58]
  | default : LabelPieces (bytes "default") [kword "default", .sign 58]

/-- The pieces of a case. -/
inductive CasePieces : Case → List Piece → Prop
  | mk {l : List (Bytes × List Piece)} {a t ps d qs} : l ≠ [] → (∀ x ∈ l, LabelPieces x.1 x.2) → Annots a → TypePieces t ps →
      DeclrPieces d qs → CasePieces ⟨l.map (·.1), t, d⟩ (l.flatMap (·.2) ++ (a ++ (ps ++ (qs ++ [.sign 59]))))

/-- The parent of a structure, after a colon. -/
inductive ParentPieces : Option Bytes → List Piece → Prop
  | none : ParentPieces none []
  | some {n} : TypeName n → ParentPieces (some (bytes n)) [.sign 58, .word (bytes n)]

/-- The pieces of a member of a declaration of an annotation: a type, a name and perhaps a default value. -/
inductive AnnotMemberPieces : List Piece → Prop
  | plain {t ps n} : ConstTypePieces t ps → Usable n → AnnotMemberPieces (ps ++ [.word (bytes n), .sign 59])
  | default {t ps n e v} : ConstTypePieces t ps → Usable n → ConstValue e v →
      AnnotMemberPieces (ps ++ [.word (bytes n), kword "default", .word v, .sign 59])

/-- The pieces of a field of a bit set: its size, perhaps its type, and perhaps its name. -/
inductive FieldPieces : List Piece → Prop
  | mk {a d t qs ns} : Annots a → Size d t →
      (qs = [] ∨ ∃ k ws, ws ∈ spellings k ∧ k ∉ [.f32, .f64, .f128, .c8, .wc] ∧ qs = .sign 44 :: ws.map kword) →
      (ns = [] ∨ ∃ n, Identifier n ∧ ns = [.word (bytes n)]) →
      FieldPieces (a ++ kword "bitfield" :: .sign 60 :: .word t :: (qs ++ .sign 62 :: (ns ++ [.sign 59])))

/-- The pieces of a declaration. Structures, unions, enumerations and modules may have annotations before them, and so may the
members of structures and unions. -/
inductive DefPieces : Def → List Piece → Prop
  | struct {a n p ps} {l : List ((TSpec × List Declr) × List Piece)} : Annots a → Usable n → ParentPieces p ps →
      (∀ m ∈ l, MemberPieces m.1 m.2) →
      DefPieces (.struct (bytes n) p (l.map (·.1)))
        (a ++ kword "struct" :: .word (bytes n) :: (ps ++ .sign 123 :: (l.flatMap (·.2) ++ [.sign 125, .sign 59])))
  | forward {a n} : Annots a → Usable n → DefPieces (.forward (bytes n)) (a ++ [kword "struct", .word (bytes n), .sign 59])
  | union {a n t ps} {l : List (Case × List Piece)} : Annots a → Usable n → SwitchPieces t ps → l ≠ [] →
      (∀ c ∈ l, CasePieces c.1 c.2) →
      DefPieces (.union (bytes n) t (l.map (·.1)))
        (a ++ kword "union" :: .word (bytes n) :: kword "switch" :: .sign 40 ::
          (ps ++ .sign 41 :: .sign 123 :: (l.flatMap (·.2) ++ [.sign 125, .sign 59])))
  | unionForward {a n} : Annots a → Usable n →
      DefPieces (.unionForward (bytes n)) (a ++ [kword "union", .word (bytes n), .sign 59])
  | enum {a n} {l : List String} : Annots a → Usable n → l ≠ [] → (∀ x ∈ l, Identifier x) →
      DefPieces (.enum (bytes n) (l.map bytes))
        (a ++ kword "enum" :: .word (bytes n) :: .sign 123 :: (commas (l.map fun x => [.word (bytes x)]) ++ [.sign 125, .sign 59]))
  | const {t ps n e v} : ConstTypePieces t ps → Usable n → ConstValue e v →
      DefPieces (.const t (bytes n) e) (kword "const" :: (ps ++ [.word (bytes n), .sign 61, .word v, .sign 59]))
  | typedef {t ps} {l : List (Declr × List Piece)} : TypePieces t ps → l ≠ [] → (∀ d ∈ l, DeclrPieces d.1 d.2) →
      DefPieces (.typedef t (l.map fun d => some d.1)) (kword "typedef" :: (ps ++ (commas (l.map (·.2)) ++ [.sign 59])))
  | module {a n} {l : List (Def × List Piece)} : Annots a → Usable n → l ≠ [] → (∀ d ∈ l, DefPieces d.1 d.2) →
      DefPieces (.module (bytes n) (l.map (·.1)))
        (a ++ kword "module" :: .word (bytes n) :: .sign 123 :: (l.flatMap (·.2) ++ [.sign 125, .sign 59]))
  | line {t} : DefPieces .skip [.line t]
  | annotation {n} {l : List (List Piece)} : Usable n → (∀ m ∈ l, AnnotMemberPieces m) →
      DefPieces .skip (.mark (bytes "annotation") :: .word (bytes n) :: .sign 123 :: (l.flatten ++ [.sign 125, .sign 59]))
  | bitset {a n p ps} {l : List (List Piece)} : Annots a → Usable n → ParentPieces p ps → (∀ x ∈ l, FieldPieces x) →
      p ≠ none ∨ l ≠ [] →
      DefPieces (.ignored (bytes n))
        (a ++ kword "bitset" :: .word (bytes n) :: (ps ++ .sign 123 :: (l.flatten ++ [.sign 125, .sign 59])))
  | bitmask {a n} {l : List (List Piece × String)} : Annots a → Usable n → l ≠ [] → (∀ x ∈ l, Annots x.1 ∧ Identifier x.2) →
      DefPieces (.ignored (bytes n))
        (a ++ kword "bitmask" :: .word (bytes n) :: .sign 123 ::
          (commas (l.map fun x => x.1 ++ [.word (bytes x.2)]) ++ [.sign 125, .sign 59]))

/-- The text writes the declarations. -/
def Writes (ds : List Def) (text : Bytes) : Prop :=
  ∃ l : List (Def × List Piece), l ≠ [] ∧ (∀ d ∈ l, DefPieces d.1 d.2) ∧ ds = l.map (·.1) ∧ Document (l.flatMap (·.2)) text

end Verif.Idl
