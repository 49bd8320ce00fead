import Verif.Spec.IdlDoc
import Verif.Lemmas.IdlLabels
/-!
# Reading a declaration the generator prints
-/

namespace Verif.Idl.Syn
open Text Gen

theorem spaces_indent (t : Nat) : Blanks (indent t) := by
  intro c hc; left; exact (List.mem_replicate.mp hc).2

theorem blanks_indent (t : Nat) : Layout (indent t) := blanks_layout (spaces_indent t)

theorem blanks_nl : Blanks [10] := by intro c hc; simp at hc; omega

theorem bytes_cons (w : String) : bytes w = w.toList.map Char.toNat := rfl

/-! ## Declarators -/

theorem sym_front {w : String} {c : Nat} (hw : bytes w = [c]) (hc : blank c = false ∧ c ≠ 47) {a b s : Bytes}
    (ha : Layout a) (hb : Layout b) (hs : Clean s) : sym w (a ++ c :: (b ++ s)) = some ((), s) := by
  have e := sym_at hw hc ha hb hs
  rw [hw, List.cons_append, List.nil_append] at e
  exact e

theorem sym_front0 {w : String} {c : Nat} (hw : bytes w = [c]) (hc : blank c = false ∧ c ≠ 47) {b s : Bytes}
    (hb : Layout b) (hs : Clean s) : sym w (c :: (b ++ s)) = some ((), s) := by
  have e := sym_front hw hc blanks_nil hb hs
  rwa [List.nil_append] at e

theorem sym_front1 {w : String} {c : Nat} (hw : bytes w = [c]) (hc : blank c = false ∧ c ≠ 47) {s : Bytes}
    (hs : Clean s) : sym w (c :: s) = some ((), s) := by
  have e := sym_front0 hw hc blanks_nil hs
  rwa [List.nil_append] at e

theorem arraySize_ok (d : Nat) {s : Bytes} (hs : Clean s) : arraySize (91 :: (dec d ++ 93 :: s)) = some (.literal (dec d), s) := by
  unfold arraySize
  rw [bind_ok (sym_front1 (w := "[") (c := 91) rfl (by decide) (dec_clean d _)),
    bind_ok (positive_ok d (by exact (by decide : idChar 93 = false))),
    bind_ok (sym_front1 (w := "]") (c := 93) rfl (by decide) hs)]
  rfl

/-- What follows the dimensions of a declarator. -/
def Closed (s : Bytes) : Prop := Head (fun c => c ≠ 91 ∧ idChar c = false ∧ blank c = false ∧ c ≠ 47) s

theorem Closed.clean {s : Bytes} (h : Closed s) : Clean s := by
  cases s with
  | nil => trivial
  | cons c s => exact h.2.2

theorem printDims_cons (d : Nat) (ds : List Nat) (s : Bytes) :
    printDims (d :: ds) ++ s = 91 :: (dec d ++ 93 :: (printDims ds ++ s)) := by
  simp [printDims]

theorem dims_clean (ds : List Nat) {s : Bytes} (hs : Closed s) : Clean (printDims ds ++ s) := by
  cases ds with
  | nil => exact hs.clean
  | cons d ds => rw [printDims_cons]; exact (by decide : blank 91 = false ∧ 91 ≠ 47)

theorem dims_chain : ∀ (ds : List Nat) {s : Bytes}, Closed s →
    Chain arraySize (printDims ds ++ s) (ds.map fun d => Dim.literal (dec d)) s
  | [], s, hs => by
    refine .nil (bind_no (sym_no' (w := "[") rfl hs.clean ?_))
    cases s with
    | nil => trivial
    | cons c s => exact hs.1
  | d :: ds, s, hs => by
    rw [printDims_cons]
    refine .cons (arraySize_ok d (dims_clean ds hs)) ?_ (dims_chain ds hs)
    simp only [List.length_cons, List.length_append]; omega

theorem dims_word (ds : List Nat) {s : Bytes} (hs : Closed s) : Head (fun c => idChar c = false) (printDims ds ++ s) := by
  cases ds with
  | nil => cases s with
    | nil => trivial
    | cons c s => exact hs.2.1
  | cons d ds => rw [printDims_cons]; exact (by decide : idChar 91 = false)

theorem declarator_ok {n : Bytes} (hn : IsId n) (ds : List Nat) {s : Bytes} (hs : Closed s) :
    declarator (n ++ (printDims ds ++ s)) = some (⟨n, ds.map fun d => Dim.literal (dec d)⟩, s) := by
  unfold declarator
  cases ds with
  | nil =>
    rw [or_second, bind_ok (isId_read hn (dims_word [] hs))]
    · rfl
    · rw [bind_ok (isId_read hn (dims_word [] hs))]
      refine bind_no ?_
      unfold P.plus
      exact bind_no (by
        have := dims_chain [] hs
        cases this with
        | nil h => exact h)
  | cons d ds =>
    refine or_first ?_
    rw [bind_ok (isId_read hn (dims_word _ hs)), printDims_cons,
      bind_ok (plus_chain (arraySize_ok d (dims_clean ds hs)) (dims_chain ds hs))]
    rfl

theorem declarators_ok {n : Bytes} (hn : IsId n) (ds : List Nat) (s : Bytes) :
    declarators (n ++ (printDims ds ++ 59 :: s)) = some ([⟨n, ds.map fun d => Dim.literal (dec d)⟩], 59 :: s) := by
  have hs : Closed (59 :: s) := (by decide : (59 ≠ 91 ∧ idChar 59 = false ∧ blank 59 = false ∧ 59 ≠ 47))
  unfold declarators
  rw [bind_ok (declarator_ok hn ds hs), bind_ok (star_chain (.nil (bind_no (sym_no' (w := ",") rfl hs.clean ?_))))]
  · rfl
  · exact (by decide : 59 ≠ 44)

/-! ## Members -/

/-- What is read in a member. -/
def memberOf (e : String × Ty) : TSpec × List Declr :=
  (specOf e.2, [⟨bytes e.1, (arrayDimensions e.2).map fun d => Dim.literal (dec d)⟩])

/-- The text of the declarator of a member, or of an alias, with the type. -/
theorem typed_ok {n : String} (hn : Identifier n) {T : Ty} (hT : Named T) (s : Bytes) :
    (do let t ← typeSpec; let ds ← declarators; pure (t, ds) : P _)
      (typeName T ++ bytes " " ++ bytes n ++ printDims (arrayDimensions T) ++ 59 :: s) = some (memberOf (n, T), 59 :: s) := by
  have hi := ident_is hn
  have e : typeName T ++ bytes " " ++ bytes n ++ printDims (arrayDimensions T) ++ 59 :: s =
      typeName T ++ ([32] ++ (bytes n ++ (printDims (arrayDimensions T) ++ 59 :: s))) := by
    have e1 : bytes " " = [32] := rfl
    rw [e1]; simp only [List.append_assoc]
  have ha : After [32] (bytes n ++ (printDims (arrayDimensions T) ++ 59 :: s)) := by
    refine ⟨blank_space, isId_clean hi _, (by decide : idChar 32 = false), ?_⟩
    obtain ⟨c, r, e, hc, _⟩ := hi
    rw [e]
    show c ≠ 60 ∧ c ≠ 58
    constructor <;> rintro rfl <;> exact absurd hc (by decide)
  rw [e, bind_ok (typeSpec_ok T hT ha), bind_ok (declarators_ok hi _ s)]
  rfl

/-! ## No annotation -/

theorem choice_first {p : P α} {r : List (P α)} {s : Bytes} {x : α × Bytes} (h : p s = some x) : choice (p :: r) s = some x :=
  or_first h
theorem choice_next {p : P α} {r : List (P α)} {s : Bytes} {x : Option (α × Bytes)} (h : p s = none) (h' : choice r s = x) :
    choice (p :: r) s = x := (or_second h).trans h'

/-- No `@` comes first. -/
abbrev NoAt (s : Bytes) : Prop := Head (fun c => c ≠ 64) s

theorem annot_none {s : Bytes} (h : NoAt s) : annot s = none := by
  refine bind_no (lit_no (strip_head (c := 64) (by rfl) h))

theorem annots_none {s : Bytes} (h : NoAt s) : annots s = some (0, s) := by
  unfold annots
  rw [bind_ok (star_chain (.nil (annot_none h)))]
  rfl

theorem noAt_layout {a s : Bytes} (ha : Layout a) (h : NoAt s) : NoAt (a ++ s) := by
  have := layout_head ha
  cases a with
  | nil => exact h
  | cons c a =>
    intro e
    have h : c = 32 ∨ c = 9 ∨ c = 13 ∨ c = 10 ∨ c = 47 := this
    omega

theorem noAt_id {n : Bytes} (h : IsId n) (s : Bytes) : NoAt (n ++ s) := by
  obtain ⟨c, r, rfl, hc, _⟩ := h
  show c ≠ 64
  rintro rfl
  exact absurd hc (by decide)

theorem noAt_word {w : String} (h : Word w) (s : Bytes) : NoAt (bytes w ++ s) := by
  obtain ⟨h1, h2⟩ := h
  cases e : bytes w with
  | nil => exact absurd e h2
  | cons c r =>
    rw [e] at h1
    have h1 : idStart c = true := h1
    show c ≠ 64
    rintro rfl
    exact absurd h1 (by decide)

theorem noAt_type (T : Ty) (h : Named T) (s : Bytes) : NoAt (typeName T ++ s) := by
  have key : ∀ {n : String}, TypeName n → NoAt (bytes n ++ s) := by
    intro n hn
    obtain ⟨a, r, ha, e, _⟩ := typeName_front hn
    rw [e, List.append_assoc]
    exact noAt_id (ident_is ha.1) _
  induction T using Ty.ind with
  | prim k => rw [typeName]; cases k <;> exact fun e => absurd e (by decide)
  | enum n w vs => rw [typeName]; exact key h
  | str k b =>
    rw [typeName]
    split <;> exact fun e => absurd e (by decide)
  | seq c b ih => rw [typeName]; exact fun e => absurd e (by decide)
  | arr n c d ih => rw [typeName]; exact ih h
  | map k v b ih1 ih2 => rw [typeName]; exact fun e => absurd e (by decide)
  | pair x y ih1 ih2 => exact absurd h id
  | als n t ih => rw [typeName]; exact key h
  | struct n ms ih => rw [typeName]; exact key h
  | union n d ms i ih1 ih2 => rw [typeName]; exact key h

theorem noAt_member {n : String} {T : Ty} (hT : Named T) (s : Bytes) : NoAt (memberText n T ++ s) := by
  rw [memberText]; simp only [List.append_assoc]; exact noAt_type T hT _

theorem member_ok {n : String} (hn : Identifier n) {T : Ty} (hT : Named T) {b s : Bytes} (hb : Layout b) (hs : Clean s) :
    member (memberText n T ++ (b ++ s)) = some (memberOf (n, T), s) := by
  have h := typed_ok hn hT (b ++ s)
  have e : memberText n T ++ (b ++ s) = typeName T ++ bytes " " ++ bytes n ++ printDims (arrayDimensions T) ++ 59 :: (b ++ s) := by
    have e1 : bytes ";" = [59] := rfl
    rw [memberText, e1, List.append_assoc]; rfl
  rw [e]
  unfold member
  have hat : NoAt (typeName T ++ bytes " " ++ bytes n ++ printDims (arrayDimensions T) ++ 59 :: (b ++ s)) := by
    simp only [List.append_assoc]; exact noAt_type T hT _
  rw [bind_ok (annots_none hat)]
  rw [bind_run] at h ⊢
  cases h1 : typeSpec (typeName T ++ bytes " " ++ bytes n ++ printDims (arrayDimensions T) ++ 59 :: (b ++ s)) with
  | none => rw [h1] at h; cases h
  | some x =>
    rw [h1] at h
    simp only [Option.bind_some] at h ⊢
    rw [bind_run] at h ⊢
    cases h2 : declarators x.2 with
    | none => rw [h2] at h; cases h
    | some y =>
      rw [h2] at h
      simp only [Option.bind_some, pure_run, Option.some.injEq, Prod.mk.injEq] at h ⊢
      rw [h.2, bind_ok (sym_front0 (w := ";") (c := 59) rfl (by decide) hb hs), pure_run, h.1]

theorem memberText_clean {n : String} {T : Ty} (hT : Named T) (s : Bytes) : Clean (memberText n T ++ s) := by
  rw [memberText]; simp only [List.append_assoc]; exact text_clean T hT _

theorem word_no {c : Nat} {s : Bytes} (hc : idStart c = false) {w : String} (hw : w ∈ keywords) : NotAt w (c :: s) := by
  refine notAt_none ?_
  have h : (keywords.all fun w => match bytes w with | x :: _ => idStart x | [] => false) = true := by decide +kernel
  have h := List.all_eq_true.mp h w hw
  cases e : bytes w with
  | nil => rw [e] at h; cases h
  | cons x t =>
    rw [e] at h
    rw [strip, if_neg]
    rintro rfl
    simp only at h
    rw [hc] at h; cases h

theorem typeSpec_no {c : Nat} {s : Bytes} (hc : idStart c = false) (h1 : blank c = false ∧ c ≠ 47) (h2 : c ≠ 58) :
    typeSpec (c :: s) = none := by
  have hcl : Clean (c :: s) := h1
  have hid : Head (fun c => idStart c = false) (c :: s) := hc
  have hco : Head (fun c => c ≠ 58) (c :: s) := h2
  unfold typeSpec
  rw [typeSpecFrom_succ, bind_ok (wsOpt_clean hcl)]
  refine bind_no ?_
  rw [or_second (template_no hcl (fun w hw => word_no hc (template_keyword_subset w (List.mem_append_left _ hw))) _)]
  unfold simpleType
  rw [or_second (base_no hcl (fun w hw => word_no hc (template_keyword_subset w (List.mem_append_right _ hw))))]
  refine bind_no ?_
  unfold scopedId
  rw [scopedIdFrom_succ, or_second (bind_no (identifier_no hid)), or_second (bind_no (lit_no (strip_colon hco)))]
  exact identifier_no hid

theorem members_chain (tabs : Nat) {i s : Bytes} (hi : Layout i) : ∀ (ms : List (String × Ty)),
    (∀ e ∈ ms, Identifier e.1 ∧ Named e.2) →
    ∃ b q, memberLines tabs ms ++ (i ++ 125 :: s) = b ++ q ∧ Layout b ∧ Clean q ∧
      Chain member q (ms.map memberOf) (125 :: s)
  | [], _ => by
    refine ⟨i, 125 :: s, rfl, hi, (by decide : blank 125 = false ∧ 125 ≠ 47), .nil ?_⟩
    unfold member
    rw [bind_ok (annots_none (by exact (by decide : 125 ≠ 64)))]
    exact bind_no (typeSpec_no (by decide) (by decide) (by decide))
  | (n, T) :: ms, h => by
    obtain ⟨hn, hT⟩ := h (n, T) (by simp)
    obtain ⟨b, q, e, hb, hq, hc⟩ := members_chain tabs hi ms (fun e he => h e (List.mem_cons_of_mem _ he))
    refine ⟨indent (tabs + 1), memberText n T ++ ((10 :: b) ++ q), ?_, blanks_indent _, memberText_clean hT _,
      .cons (member_ok hn hT (blanks_append (a := [10]) blanks_nl hb) hq) ?_ hc⟩
    · have e1 : bytes "\n" = [10] := rfl
      rw [memberLines, e1, List.append_assoc, List.append_assoc, List.append_assoc, e]; rfl
    · simp only [List.length_append, List.length_cons]; omega

/-! ## Structures -/

/-- The members a structure prints: those after the members of the parent. -/
def ownMembers (parent : Option (String × Nat)) (ms : List (String × Ty)) : List (String × Ty) :=
  ms.drop ((parent.map (·.2)).getD 0)

/-- The texts of the labels of a case. -/
def labelsOf (u : UnionB) (n : String) : List Bytes :=
  (u.getLabels n).map (labelText u) ++ if u.isDefault n then [bytes "default"] else []

/-- What is read in a case. -/
def caseOfMember (u : UnionB) (e : String × Ty) : Case :=
  ⟨labelsOf u e.1, specOf e.2, ⟨bytes e.1, (arrayDimensions e.2).map fun d => Dim.literal (dec d)⟩⟩

/-- What is read in the value of a constant. -/
def exprOf (i : Item) : CExpr :=
  match i with
  | .const _ v => if v < 0 then .un .minus (.lit (.text (dec (-v).toNat))) else .lit (.text (dec v.toNat))
  | .text _ s => .lit (.text (34 :: (s ++ [34])))
  | .ty _ => .lit (.text [])

/-- What is read in a declaration. -/
def defOf : Decl → Def
  | .struct n p ms => .struct (bytes n) (p.map fun x => bytes x.1) ((ownMembers p ms).map memberOf)
  | .union n u => .union (bytes n) (specOf u.disc) ((caseMembers u).map (caseOfMember u))
  | .enum n vs => .enum (bytes n) ((sortByValue vs).map fun e => bytes e.1)
  | .alias n t => .typedef (specOf t) [some ⟨bytes n, (arrayDimensions t).map fun d => Dim.literal (dec d)⟩]
  | .const n i => .const (specOf i.type) (bytes n) (exprOf i)

/-- The words with which definitions begin. -/
def defWords : List String := ["module", "const", "struct", "union", "enum", "typedef", "bitset", "bitmask", "native"]

theorem dkw_words : ∀ v ∈ defWords, Word v ∧
    ∀ w ∈ defWords, w ≠ v → clash (bytes w) (bytes v) = true := by
  have h : (defWords.all fun v => (match bytes v with | c :: _ => idStart c | [] => false) &&
    defWords.all fun w => w == v || clash (bytes w) (bytes v)) = true := by decide +kernel
  intro v hv
  have h1 := List.all_eq_true.mp h v hv
  rw [Bool.and_eq_true] at h1
  refine ⟨word_of h1.1, fun w hw hne => ?_⟩
  have h2 := List.all_eq_true.mp h1.2 w hw
  simpa [hne] using h2

theorem dkw_no {v w : String} (hv : v ∈ defWords) (hw : w ∈ defWords)
    (h : w ≠ v) {a : Bytes} (ha : Layout a) (s : Bytes) : kw w (a ++ (bytes v ++ s)) = none :=
  kw_no ha (word_clean (dkw_words v hv).1 _) (notAt_none (clash_strip ((dkw_words v hv).2 w hw h) _))

theorem dkw_ok {v : String} (hv : v ∈ defWords) {a s : Bytes} (ha : Layout a) (hs : Clean s) :
    kw v (a ++ (bytes v ++ ([32] ++ s))) = some ((), s) :=
  kw_ok (dkw_words v hv).1 ha blank_space hs (by decide : idStart 32 = false)

theorem structDef_ok {n : String} (hn : Identifier n) {p : Option (String × Nat)} (hp : ∀ x, p = some x → TypeName x.1)
    {ms : List (String × Ty)} (hms : ∀ e ∈ ownMembers p ms, Identifier e.1 ∧ Named e.2) (tabs : Nat) (s : Bytes) :
    ∃ q, structDef (structText n p ms tabs ++ s) = some (defOf (.struct n p ms), 59 :: (10 :: s)) ∧
      structText n p ms tabs ++ s = indent tabs ++ (bytes "struct" ++ q) := by
  have hid := ident_is hn
  obtain ⟨b, q, e, hb, hq, hc⟩ := members_chain tabs (i := indent tabs) (s := 59 :: (10 :: s)) (blanks_indent tabs) _ hms
  let par : Bytes := match p with | some p => bytes " : " ++ bytes p.1 | none => []
  refine ⟨[32] ++ (bytes n ++ (par ++ ((10 :: indent tabs) ++ 123 :: ((10 :: b) ++ q)))), ?_, ?_⟩
  rotate_left
  · have e1 : bytes "\n" = [10] := rfl
    have e2 : bytes "struct " = bytes "struct" ++ [32] := rfl
    have e3 : bytes "{" = [123] := rfl
    have e4 : bytes "};" = [125, 59] := rfl
    have e5 : memberLines tabs (ownMembers p ms) ++ (indent tabs ++ ([125, 59] ++ ([10] ++ s))) = b ++ q := e
    unfold structText
    rw [e1, e2, e3, e4]
    simp only [List.append_assoc]
    rw [show (ms.drop ((p.map (·.2)).getD 0)) = ownMembers p ms from rfl, e5]
    cases p <;> rfl
  · have e0 : structText n p ms tabs ++ s = indent tabs ++ (bytes "struct" ++
        ([32] ++ (bytes n ++ (par ++ ((10 :: indent tabs) ++ 123 :: ((10 :: b) ++ q)))))) := by
      have e1 : bytes "\n" = [10] := rfl
      have e2 : bytes "struct " = bytes "struct" ++ [32] := rfl
      have e3 : bytes "{" = [123] := rfl
      have e4 : bytes "};" = [125, 59] := rfl
      have e5 : memberLines tabs (ownMembers p ms) ++ (indent tabs ++ ([125, 59] ++ ([10] ++ s))) = b ++ q := e
      unfold structText
      rw [e1, e2, e3, e4]
      simp only [List.append_assoc]
      rw [show (ms.drop ((p.map (·.2)).getD 0)) = ownMembers p ms from rfl, e5]
      cases p <;> rfl
    rw [e0]
    unfold structDef
    have hbl : Layout (10 :: indent tabs) := blanks_append (a := [10]) blanks_nl (blanks_indent tabs)
    have hblb : Layout (10 :: b) := blanks_append (a := [10]) blanks_nl hb
    have hpar : Head (fun c => idChar c = false) (par ++ ((10 :: indent tabs) ++ 123 :: ((10 :: b) ++ q))) := by
      cases p with
      | none => exact (by decide : idChar 10 = false)
      | some x => exact (by decide : idChar 32 = false)
    rw [bind_ok (dkw_ok (by decide) (blanks_indent tabs) (isId_clean hid _)), bind_ok (isId_read hid hpar)]
    have hopt : (do sym ":"; scopedId : P Bytes).opt (par ++ ((10 :: indent tabs) ++ 123 :: ((10 :: b) ++ q))) =
        some (p.map fun x => bytes x.1, (10 :: indent tabs) ++ 123 :: ((10 :: b) ++ q)) := by
      cases p with
      | none =>
        refine opt_none (bind_no ?_)
        have e2 : par ++ ((10 :: indent tabs) ++ 123 :: ((10 :: b) ++ q)) = (10 :: indent tabs) ++ 123 :: ((10 :: b) ++ q) := rfl
        rw [e2]
        refine sym_no (w := ":") hbl (by exact (by decide : blank 123 = false ∧ 123 ≠ 47)) (strip_head (by rfl) ?_)
        exact (by decide : 123 ≠ 58)
      | some x =>
        have hx := hp x rfl
        refine opt_some ?_
        have e2 : par ++ ((10 :: indent tabs) ++ 123 :: ((10 :: b) ++ q)) =
            [32] ++ 58 :: ([32] ++ (bytes x.1 ++ ((10 :: indent tabs) ++ 123 :: ((10 :: b) ++ q)))) := by
          show (bytes " : " ++ bytes x.1) ++ _ = _
          have e3 : bytes " : " = [32, 58, 32] := rfl
          rw [e3]; simp only [List.append_assoc, List.cons_append, List.nil_append]
        rw [e2, bind_ok (sym_front (w := ":") (c := 58) rfl (by decide) blank_space blank_space (typeName_clean hx _))]
        exact scoped_ok (by exact (by decide : idChar 10 = false ∧ 10 ≠ 58)) hx
    rw [bind_ok hopt, bind_ok (sym_front (w := "{") (c := 123) rfl (by decide) hbl hblb hq), bind_ok (star_chain hc),
      bind_ok (sym_front1 (w := "}") (c := 125) rfl (by decide) (by exact (by decide : blank 59 = false ∧ 59 ≠ 47)))]
    rfl

/-! ## Unions -/

theorem switch_words : ∀ v ∈ baseWords, Word v ∧ ∀ w ∈ baseWords, w ≠ v → clash (bytes w) (bytes v) = true := by
  have h : (baseWords.all fun v => (match bytes v with | c :: _ => idStart c | [] => false) &&
    baseWords.all fun w => w == v || clash (bytes w) (bytes v)) = true := by decide +kernel
  intro v hv
  have h1 := List.all_eq_true.mp h v hv
  rw [Bool.and_eq_true] at h1
  refine ⟨word_of h1.1, fun w hw hne => ?_⟩
  have h2 := List.all_eq_true.mp h1.2 w hw
  simpa [hne] using h2

/-- The types a union can be switched on, as far as their text is concerned. -/
def Switch : Ty → Prop
  | .prim k => k.isFloat = false
  | .alias n _ => TypeName n
  | .enum n _ _ => TypeName n
  | _ => False

theorem switch_name {n : String} (hn : TypeName n) (s : Bytes) : switchType (bytes n ++ 41 :: s) = some (.name (bytes n), 41 :: s) := by
  have hc := typeName_clean hn (41 :: s)
  have hat : ∀ w ∈ baseWords, NotAt w (bytes n ++ 41 :: s) := fun w hw =>
    typeName_notAt hn (template_keyword_subset w (List.mem_append_right _ hw)) (by exact (by decide : idChar 41 = false))
  have k : ∀ w ∈ baseWords, kw w (bytes n ++ 41 :: s) = none := fun w hw => kw_no0 hc (hat w hw)
  have k4 := k "short" (by decide)
  have k3 := k "long" (by decide)
  have k5 := k "int16" (by decide)
  have k6 := k "int64" (by decide)
  have k7 := k "int32" (by decide)
  have k8 := k "int8" (by decide)
  have k9 := k "uint16" (by decide)
  have k10 := k "uint64" (by decide)
  have k11 := k "uint32" (by decide)
  have k12 := k "uint8" (by decide)
  have k13 := k "char" (by decide)
  have k14 := k "wchar" (by decide)
  have k15 := k "boolean" (by decide)
  have k16 := k "octet" (by decide)
  have l2 := kw2_no0 (w := "long") hc (hat "long" (by decide))
  have l3 := kw2_no0 (w := "short") hc (hat "unsigned" (by decide))
  have l4 := kw2_no0 (w := "long") hc (hat "unsigned" (by decide))
  have l5 := kw3_no0 (v := "long") (w := "long") hc (hat "unsigned" (by decide))
  have hsc := scoped_ok (n := n) (s := 41 :: s) (by exact (by decide : idChar 41 = false ∧ 41 ≠ 58)) hn
  simp only [switchType, signedInt, unsignedInt, choice, P.or, bind_run, pure_run, k3, k4, k5, k6, k7, k8, k9, k10, k11, k12, k13,
    k14, k15, k16, l2, l3, l4, l5, Option.bind_none, hsc, Option.bind_some]

theorem switch_prim {k : PK} (hk : k.isFloat = false) (s : Bytes) :
    switchType (bytes (primText k) ++ 41 :: s) = some (.prim (readPK k), 41 :: s) := by
  have hs : Clean (41 :: s) := (by decide : blank 41 = false ∧ 41 ≠ 47)
  have kws : ∀ v ∈ baseWords, ∀ w ∈ baseWords, kw w (bytes v ++ 41 :: s) = if w = v then some ((), 41 :: s) else none := by
    intro v hv w hw
    split
    · rename_i h; subst h
      have := kw_ok0 (switch_words w hw).1 (b := []) (s := 41 :: s) blanks_nil hs (by exact (by decide : idStart 41 = false))
      rwa [List.nil_append] at this
    · rename_i h; exact kw_no0 (word_clean (switch_words v hv).1 _) (notAt_none (clash_strip ((switch_words v hv).2 w hw h) _))
  have key : ∀ v ∈ baseWords, v ≠ "long" → v ≠ "unsigned" → v ≠ "float" → v ≠ "double" → v ≠ "any" →
      switchType (bytes v ++ 41 :: s) =
        (if "short" = v then some (.prim .i16, 41 :: s) else if "int16" = v then some (.prim .i16, 41 :: s) else
         if "int64" = v then some (.prim .i64, 41 :: s) else
         if "int32" = v then some (.prim .i32, 41 :: s) else if "int8" = v then some (.prim .i8, 41 :: s) else
         if "uint16" = v then some (.prim .u16, 41 :: s) else if "uint64" = v then some (.prim .u64, 41 :: s) else
         if "uint32" = v then some (.prim .u32, 41 :: s) else if "uint8" = v then some (.prim .u8, 41 :: s) else
         if "char" = v then some (.prim .c8, 41 :: s) else if "wchar" = v then some (.prim .wc, 41 :: s) else
         if "boolean" = v then some (.prim .bool, 41 :: s) else some (.prim .u8, 41 :: s)) := by
    intro v hv hl hu hf hd hany
    have a := kws v hv
    have l1 : ∀ x, kw2 "long" x (bytes v ++ 41 :: s) = none := fun x =>
      kw2_no0 (word_clean (switch_words v hv).1 _) (notAt_none (clash_strip ((switch_words v hv).2 "long" (by decide) (Ne.symm hl)) _))
    have l2 : ∀ x, kw2 "unsigned" x (bytes v ++ 41 :: s) = none := fun x =>
      kw2_no0 (word_clean (switch_words v hv).1 _) (notAt_none (clash_strip ((switch_words v hv).2 "unsigned" (by decide) (Ne.symm hu)) _))
    have l3 : ∀ x y, kw3 "unsigned" x y (bytes v ++ 41 :: s) = none := fun x y =>
      kw3_no0 (word_clean (switch_words v hv).1 _) (notAt_none (clash_strip ((switch_words v hv).2 "unsigned" (by decide) (Ne.symm hu)) _))
    have a3 := a "long" (by decide)
    have a4 := a "short" (by decide)
    have a5 := a "int16" (by decide)
    have a6 := a "int64" (by decide)
    have a7 := a "int32" (by decide)
    have a8 := a "int8" (by decide)
    have a9 := a "uint16" (by decide)
    have a10 := a "uint64" (by decide)
    have a11 := a "uint32" (by decide)
    have a12 := a "uint8" (by decide)
    have a13 := a "char" (by decide)
    have a14 := a "wchar" (by decide)
    have a15 := a "boolean" (by decide)
    have a16 := a "octet" (by decide)
    have hall : v ∈ baseWords := hv
    simp only [baseWords, List.mem_cons, List.not_mem_nil, or_false] at hall
    rcases hall with h | h | h | h | h | h | h | h | h | h | h | h | h | h | h | h | h | h <;>
      first
      | exact absurd h hl
      | exact absurd h hu
      | exact absurd h hf
      | exact absurd h hd
      | exact absurd h hany
      | (subst h
         simp only [switchType, signedInt, unsignedInt, choice, P.or, bind_run, pure_run, a3, a4, a5, a6, a7,
           a8, a9, a10, a11, a12, a13, a14, a15, a16, l1, l2, l3, Option.bind_none, Option.bind_some, String.reduceEq,
           if_true, if_false])
  cases k with
  | f128 => cases hk
  | f32 => cases hk
  | f64 => cases hk
  | bool => exact key "boolean" (by decide) (by decide) (by decide) (by decide) (by decide) (by decide)
  | i8 => exact key "int8" (by decide) (by decide) (by decide) (by decide) (by decide) (by decide)
  | u8 => exact key "uint8" (by decide) (by decide) (by decide) (by decide) (by decide) (by decide)
  | i16 => exact key "int16" (by decide) (by decide) (by decide) (by decide) (by decide) (by decide)
  | u16 => exact key "uint16" (by decide) (by decide) (by decide) (by decide) (by decide) (by decide)
  | i32 => exact key "int32" (by decide) (by decide) (by decide) (by decide) (by decide) (by decide)
  | u32 => exact key "uint32" (by decide) (by decide) (by decide) (by decide) (by decide) (by decide)
  | i64 => exact key "int64" (by decide) (by decide) (by decide) (by decide) (by decide) (by decide)
  | u64 => exact key "uint64" (by decide) (by decide) (by decide) (by decide) (by decide) (by decide)
  | c8 => exact key "char" (by decide) (by decide) (by decide) (by decide) (by decide) (by decide)
  | c16 => exact key "wchar" (by decide) (by decide) (by decide) (by decide) (by decide) (by decide)
  | wc => exact key "wchar" (by decide) (by decide) (by decide) (by decide) (by decide) (by decide)

theorem switch_ok {T : Ty} (h : Switch T) (s : Bytes) :
    switchType (typeName T ++ 41 :: s) = some (specOf T, 41 :: s) ∧ Clean (typeName T ++ 41 :: s) := by
  cases T with
  | prim k => rw [typeName, specOf]; exact ⟨switch_prim h s, prim_clean k _⟩
  | «alias» n t => rw [typeName, specOf]; exact ⟨switch_name h s, typeName_clean h _⟩
  | enum n w vs => rw [typeName, specOf]; exact ⟨switch_name h s, typeName_clean h _⟩
  | _ => exact absurd h id

theorem labels_chain (u : UnionB) (tabs : Nat) {q : Bytes} (hq : Clean q) (h1 : NotAt "case" q) (h2 : NotAt "default" q) (d : Bool) :
    ∀ vs : List Int, (∀ v ∈ vs, LabelText (labelText u v)) →
    ∃ b p, labelLines u tabs vs ++ ((if d then indent (tabs + 1) ++ bytes "default:" ++ bytes "\n" else []) ++ (indent (tabs + 2) ++ q)) =
        b ++ p ∧ Layout b ∧ Clean p ∧
      Chain caseLabel p (vs.map (labelText u) ++ if d then [bytes "default"] else []) q
  | [], _ => by
    have hn : Chain caseLabel q [] q := .nil (caseLabel_no hq h1 h2)
    cases d with
    | false => exact ⟨indent (tabs + 2), q, by simp [labelLines], blanks_indent _, hq, hn⟩
    | true =>
      refine ⟨indent (tabs + 1), bytes "default" ++ 58 :: ((10 :: indent (tabs + 2)) ++ q), ?_, blanks_indent _,
        word_clean caseWords.2 _, .cons (caseLabel_default (blanks_append (a := [10]) blanks_nl (blanks_indent _)) hq) ?_ hn⟩
      · have e1 : bytes "\n" = [10] := rfl
        have e2 : bytes "default:" = bytes "default" ++ [58] := rfl
        rw [labelLines, if_pos rfl, e1, e2]
        simp only [List.append_assoc, List.nil_append, List.cons_append]
      · simp only [List.length_append, List.length_cons]; omega
  | v :: vs, h => by
    obtain ⟨b, p, e, hb, hp, hc⟩ := labels_chain u tabs hq h1 h2 d vs fun v hv => h v (List.mem_cons_of_mem _ hv)
    refine ⟨indent (tabs + 1), bytes "case" ++ ([32] ++ (labelText u v ++ 58 :: ((10 :: b) ++ p))), ?_, blanks_indent _,
      word_clean caseWords.1 _,
      .cons (caseLabel_ok (h v (by simp)) (blanks_append (a := [10]) blanks_nl hb) hp (by exact (by decide : 10 ≠ 58))) ?_ hc⟩
    · have e1 : bytes "\n" = [10] := rfl
      have e2 : bytes "case " = bytes "case" ++ [32] := rfl
      have e3 : bytes ":" = [58] := rfl
      rw [e1] at e
      rw [labelLines, e1, e2, e3]
      simp only [List.append_assoc] at e ⊢
      rw [e]
      simp only [List.append_assoc, List.nil_append, List.cons_append]
    · simp only [List.length_append, List.length_cons]; omega

/-- A case whose text can be read. -/
def ReadableCase (u : UnionB) (e : String × Ty) : Prop :=
  Identifier e.1 ∧ Named e.2 ∧ labelsOf u e.1 ≠ [] ∧ ∀ v ∈ u.getLabels e.1, LabelText (labelText u v)

theorem case_front {n : String} (hn : Identifier n) {T : Ty} (hT : Named T) (s : Bytes) :
    NotAt "case" (memberText n T ++ s) ∧ NotAt "default" (memberText n T ++ s) := by
  have e : memberText n T ++ s = typeName T ++ (32 :: (bytes n ++ (printDims (arrayDimensions T) ++ (bytes ";" ++ s)))) := by
    have e1 : bytes " " = [32] := rfl
    rw [memberText, e1]; simp only [List.append_assoc, List.cons_append, List.nil_append]
  rw [e]
  exact ⟨type_notAt (by decide) T hT (by exact (by decide : idChar 32 = false)), type_notAt (by decide) T hT (by exact (by decide : idChar 32 = false))⟩

theorem caseBody_ok {n : String} (hn : Identifier n) {T : Ty} (hT : Named T) {b s : Bytes} (hb : Layout b) (hs : Clean s) (ls : List Bytes) :
    (do let t ← typeSpec; let d ← declarator; sym ";"; pure ⟨ls, t, d⟩ : P Case) (memberText n T ++ (b ++ s)) =
      some (⟨ls, specOf T, ⟨bytes n, (arrayDimensions T).map fun d => Dim.literal (dec d)⟩⟩, s) := by
  have hi := ident_is hn
  have e : memberText n T ++ (b ++ s) =
      typeName T ++ ([32] ++ (bytes n ++ (printDims (arrayDimensions T) ++ 59 :: (b ++ s)))) := by
    have e1 : bytes " " = [32] := rfl
    have e2 : bytes ";" = [59] := rfl
    rw [memberText, e1, e2]; simp only [List.append_assoc, List.cons_append, List.nil_append]
  have ha : After [32] (bytes n ++ (printDims (arrayDimensions T) ++ 59 :: (b ++ s))) := by
    refine ⟨blank_space, isId_clean hi _, (by decide : idChar 32 = false), ?_⟩
    obtain ⟨c, r, e, hc, _⟩ := hi
    rw [e]
    show c ≠ 60 ∧ c ≠ 58
    constructor <;> rintro rfl <;> exact absurd hc (by decide)
  have hcl : Closed (59 :: (b ++ s)) := (by decide : (59 ≠ 91 ∧ idChar 59 = false ∧ blank 59 = false ∧ 59 ≠ 47))
  rw [e, bind_ok (typeSpec_ok T hT ha), bind_ok (declarator_ok hi _ hcl), bind_ok (sym_front0 (w := ";") (c := 59) rfl (by decide) hb hs)]
  rfl

theorem cases_chain (u : UnionB) (tabs : Nat) {i s : Bytes} (hi : Layout i) : ∀ (ms : List (String × Ty)),
    (∀ e ∈ ms, ReadableCase u e) →
    ∃ b q, caseLines u tabs ms ++ (i ++ 125 :: s) = b ++ q ∧ Layout b ∧ Clean q ∧
      Chain unionCase q (ms.map (caseOfMember u)) (125 :: s)
  | [], _ => by
    refine ⟨i, 125 :: s, rfl, hi, (by decide : blank 125 = false ∧ 125 ≠ 47), .nil ?_⟩
    have h : caseLabel (125 :: s) = none :=
      caseLabel_no (by exact (by decide : blank 125 = false ∧ 125 ≠ 47)) (word_no (by decide) (by decide)) (word_no (by decide) (by decide))
    exact bind_no (bind_no h)
  | (n, T) :: ms, h => by
    obtain ⟨hn, hT, hne, hl⟩ := h (n, T) (by simp)
    obtain ⟨b, q, e, hb, hq, hc⟩ := cases_chain u tabs hi ms (fun e he => h e (List.mem_cons_of_mem _ he))
    have hbl : Layout (10 :: b) := blanks_append (a := [10]) blanks_nl hb
    obtain ⟨f1, f2⟩ := case_front hn hT ((10 :: b) ++ q)
    obtain ⟨b2, p, e2, hb2, hp, hc2⟩ := labels_chain u tabs (memberText_clean hT ((10 :: b) ++ q)) f1 f2 (u.isDefault n) _ hl
    have hc3 : Chain caseLabel p (labelsOf u n) (memberText n T ++ ((10 :: b) ++ q)) := hc2
    have hlen : q.length < p.length := by
      have : ∀ {l e p}, Chain caseLabel p l e → e.length ≤ p.length := by
        intro l e p hch
        induction hch with
        | nil _ => exact Nat.le_refl _
        | cons _ h _ ih => omega
      have := this hc3
      simp only [List.length_append, List.length_cons] at this
      omega
    refine ⟨b2, p, ?_, hb2, hp, .cons ?_ hlen hc⟩
    · rw [← e2, caseLines]
      have e1 : bytes "\n" = [10] := rfl
      rw [e1]
      simp only [List.append_assoc, List.cons_append, List.nil_append]
      rw [e]
    · cases hls : labelsOf u n with
      | nil => exact absurd hls hne
      | cons x l =>
        rw [hls] at hc3
        cases hc3 with
        | cons g1 g2 g3 =>
          unfold unionCase
          rw [bind_ok (plus_chain g1 g3), bind_ok (annots_none (noAt_member hT _)), caseBody_ok hn hT hbl hq, caseOfMember, hls]

theorem unionDef_ok {n : String} {u : UnionB} (hn : Identifier n) (hd : Switch u.disc) (hne : caseMembers u ≠ [])
    (hms : ∀ e ∈ caseMembers u, ReadableCase u e) (tabs : Nat) (s : Bytes) :
    ∃ q, unionDef (unionText n u tabs ++ s) = some (defOf (.union n u), 59 :: (10 :: s)) ∧
      unionText n u tabs ++ s = indent tabs ++ (bytes "union" ++ q) := by
  have hid := ident_is hn
  obtain ⟨b, q, e, hb, hq, hc⟩ := cases_chain u tabs (i := indent tabs) (s := 59 :: (10 :: s)) (blanks_indent tabs) _ hms
  have e0 : unionText n u tabs ++ s = indent tabs ++ (bytes "union" ++ ([32] ++ (bytes n ++ ([32] ++ (bytes "switch" ++ ([32] ++
      40 :: (typeName u.disc ++ 41 :: ((10 :: indent tabs) ++ 123 :: ((10 :: b) ++ q))))))))) := by
    have e1 : bytes "\n" = [10] := rfl
    have e2 : bytes "union " = bytes "union" ++ [32] := rfl
    have e3 : bytes "{" = [123] := rfl
    have e4 : bytes "};" = [125, 59] := rfl
    have e5 : caseLines u tabs (caseMembers u) ++ (indent tabs ++ ([125, 59] ++ ([10] ++ s))) = b ++ q := e
    have e6 : bytes " switch (" = [32] ++ (bytes "switch" ++ ([32] ++ [40])) := rfl
    have e7 : bytes ")" = [41] := rfl
    unfold unionText
    rw [e1, e2, e3, e4, e6, e7]
    simp only [List.append_assoc]
    rw [e5]
    simp only [List.append_assoc, List.cons_append, List.nil_append]
  refine ⟨_, ?_, e0⟩
  rw [e0]
  have hbl : Layout (10 :: indent tabs) := blanks_append (a := [10]) blanks_nl (blanks_indent tabs)
  have hblb : Layout (10 :: b) := blanks_append (a := [10]) blanks_nl hb
  obtain ⟨hsw, hsc⟩ := switch_ok hd ((10 :: indent tabs) ++ 123 :: ((10 :: b) ++ q))
  have hw : Word "switch" := word_of (by decide)
  have hkw : kw "switch" ([32] ++ (bytes "switch" ++ ([32] ++ 40 :: (typeName u.disc ++ 41 :: ((10 :: indent tabs) ++ 123 :: ((10 :: b) ++ q)))))) =
      some ((), 40 :: (typeName u.disc ++ 41 :: ((10 :: indent tabs) ++ 123 :: ((10 :: b) ++ q)))) :=
    kw_ok hw blank_space blank_space (by exact (by decide : blank 40 = false ∧ 40 ≠ 47)) (by exact (by decide : idStart 32 = false))
  have hcl : sym ")" (41 :: ((10 :: indent tabs) ++ 123 :: ((10 :: b) ++ q))) = some ((), 123 :: ((10 :: b) ++ q)) :=
    sym_front0 (w := ")") (c := 41) rfl (by decide) hbl (by exact (by decide : blank 123 = false ∧ 123 ≠ 47))
  unfold unionDef
  rw [bind_ok (dkw_ok (by decide) (blanks_indent tabs) (isId_clean hid _)), bind_ok (isId_read hid (by exact (by decide : idChar 32 = false))),
    bind_ok hkw, bind_ok (sym_front1 (w := "(") (c := 40) rfl (by decide) hsc), bind_ok hsw, bind_ok hcl,
    bind_ok (sym_front0 (w := "{") (c := 123) rfl (by decide) hblb hq)]
  cases hl : (caseMembers u).map (caseOfMember u) with
  | nil => exact absurd (List.map_eq_nil_iff.mp hl) hne
  | cons x l =>
    rw [hl] at hc
    cases hc with
    | cons g1 g2 g3 =>
      rw [bind_ok (plus_chain g1 g3),
        bind_ok (sym_front1 (w := "}") (c := 125) rfl (by decide) (by exact (by decide : blank 59 = false ∧ 59 ≠ 47))), defOf, hl]
      rfl

/-! ## Enumerations -/

theorem enumerator_ok {n s : Bytes} (h : IsId n) (hs : Head (fun c => idChar c = false) s) : enumerator (n ++ s) = some (n, s) := by
  unfold enumerator
  rw [bind_ok (annots_none (noAt_id h s)), bind_ok (isId_read h hs)]
  rfl

theorem enumLines_front (tabs : Nat) {i s : Bytes} (hi : Layout i) : ∀ (x : String) (r : List String),
    (∀ y ∈ x :: r, Identifier y) →
    ∃ q, enumLines tabs (x :: r) ++ (i ++ 125 :: s) = indent (tabs + 1) ++ (bytes x ++ q) ∧
      Head (fun c => idChar c = false) q ∧
      ∃ b, Layout b ∧ Chain (do sym ","; enumerator : P Bytes) q (r.map bytes) (b ++ 125 :: s)
  | x, [], h => by
    refine ⟨(10 :: i) ++ 125 :: s, ?_, (by decide : idChar 10 = false), 10 :: i, blanks_append (a := [10]) blanks_nl hi, .nil ?_⟩
    · have e1 : bytes "\n" = [10] := rfl
      rw [enumLines, e1]; simp only [List.append_assoc]; rfl
    · refine bind_no (sym_no (w := ",") (blanks_append (a := [10]) blanks_nl hi) (by exact (by decide : blank 125 = false ∧ 125 ≠ 47))
        (strip_head (by rfl) ?_))
      exact (by decide : 125 ≠ 44)
  | x, y :: r, h => by
    obtain ⟨q, e, hq, b, hb, hc⟩ := enumLines_front tabs hi y r (fun z hz => h z (List.mem_cons_of_mem _ hz))
    have hy := ident_is (h y (by simp))
    have e1 : bytes "\n" = [10] := rfl
    have e2 : bytes "," = [44] := rfl
    have e3 : enumLines tabs (x :: y :: r) = indent (tabs + 1) ++ bytes x ++ bytes "," ++ bytes "\n" ++ enumLines tabs (y :: r) := rfl
    refine ⟨44 :: ((10 :: indent (tabs + 1)) ++ (bytes y ++ q)), ?_, (by decide : idChar 44 = false), b, hb, ?_⟩
    · rw [e3, e1, e2]
      simp only [List.append_assoc] at e ⊢
      rw [e]; rfl
    · refine .cons ?_ ?_ hc
      · have hbl2 : Layout (10 :: indent (tabs + 1)) := blanks_append (a := [10]) blanks_nl (blanks_indent _)
        rw [bind_ok (sym_front0 (w := ",") (c := 44) rfl (by decide) hbl2 (isId_clean hy _))]
        exact enumerator_ok hy hq
      · simp only [List.length_cons, List.length_append]; omega

theorem enumDcl_ok {n : String} (hn : Identifier n) {vs : List (String × Nat)} (hne : sortByValue vs ≠ [])
    (hvs : ∀ e ∈ sortByValue vs, Identifier e.1) (tabs : Nat) (s : Bytes) :
    ∃ q, enumDcl (enumText n vs tabs ++ s) = some (defOf (.enum n vs), 59 :: (10 :: s)) ∧
      enumText n vs tabs ++ s = indent tabs ++ (bytes "enum" ++ q) := by
  have hid := ident_is hn
  cases hl : sortByValue vs with
  | nil => exact absurd hl hne
  | cons x l =>
    rw [hl] at hvs
    obtain ⟨q, e, hq, b, hb, hc⟩ := enumLines_front tabs (i := indent tabs) (s := 59 :: (10 :: s)) (blanks_indent tabs) x.1
      (l.map (·.1)) (by
        intro y hy
        have : y ∈ (x :: l).map (·.1) := hy
        obtain ⟨z, hz, rfl⟩ := List.mem_map.mp this
        exact hvs z hz)
    have hx := ident_is (hvs x (by simp))
    have e0 : enumText n vs tabs ++ s = indent tabs ++ (bytes "enum" ++ ([32] ++ (bytes n ++ ((10 :: indent tabs) ++ 123 ::
        ((10 :: indent (tabs + 1)) ++ (bytes x.1 ++ q)))))) := by
      have e1 : bytes "\n" = [10] := rfl
      have e2 : bytes "enum " = bytes "enum" ++ [32] := rfl
      have e3 : bytes "{" = [123] := rfl
      have e4 : bytes "};" = [125, 59] := rfl
      have e5 : enumLines tabs (x.1 :: l.map (·.1)) ++ (indent tabs ++ ([125, 59] ++ ([10] ++ s))) =
        indent (tabs + 1) ++ (bytes x.1 ++ q) := e
      unfold enumText
      rw [e1, e2, e3, e4, hl, List.map_cons]
      simp only [List.append_assoc]
      rw [e5]
      rfl
    refine ⟨_, ?_, e0⟩
    rw [e0]
    have hbl : Layout (10 :: indent tabs) := blanks_append (a := [10]) blanks_nl (blanks_indent tabs)
    have hbl2 : Layout (10 :: indent (tabs + 1)) := blanks_append (a := [10]) blanks_nl (blanks_indent _)
    unfold enumDcl
    rw [bind_ok (dkw_ok (by decide) (blanks_indent tabs) (isId_clean hid _)),
      bind_ok (isId_read hid (by exact (by decide : idChar 10 = false))),
      bind_ok (sym_front (w := "{") (c := 123) rfl (by decide) hbl hbl2 (isId_clean hx _)), bind_ok (enumerator_ok hx hq),
      bind_ok (star_chain hc)]
    have e6 := sym_front (w := "}") (c := 125) rfl (by decide) hb blanks_nil (s := 59 :: (10 :: s)) (by exact (by decide : blank 59 = false ∧ 59 ≠ 47))
    rw [List.nil_append] at e6
    rw [bind_ok e6, pure_run, defOf, hl]
    simp only [List.map_cons, List.map_map]
    rfl

/-! ## Aliases -/

/-- No definition begins with a type. -/
theorem constrSpec_no (T : Ty) (hT : Named T) {s : Bytes} (hs : Head (fun c => idChar c = false) s) :
    constrSpec (typeName T ++ s) = none := by
  have k : ∀ w ∈ otherWords, kw w (typeName T ++ s) = none := fun w hw => kw_no0 (text_clean T hT s) (type_notAt hw T hT hs)
  unfold constrSpec
  rw [bind_ok (annots_none (noAt_type T hT s))]
  refine bind_no ?_
  unfold constrDcl
  exact choice_next (bind_no (k _ (by decide))) (choice_next (bind_no (k _ (by decide)))
    (choice_next (bind_no (k _ (by decide))) (choice_next (bind_no (k _ (by decide)))
      (choice_next (bind_no (k _ (by decide))) (choice_next (bind_no (k _ (by decide)))
        (choice_next (bind_no (k _ (by decide))) rfl))))))

theorem typedef_ok {n : String} (hn : Identifier n) {T : Ty} (hT : Named T) (tabs : Nat) (s : Bytes) :
    ∃ q, typedefDcl (declText tabs (.alias n T) ++ s) = some (defOf (.alias n T), 59 :: (10 :: s)) ∧
      declText tabs (.alias n T) ++ s = indent tabs ++ (bytes "typedef" ++ q) := by
  have hi := ident_is hn
  have e0 : declText tabs (.alias n T) ++ s = indent tabs ++ (bytes "typedef" ++ ([32] ++ (typeName T ++ ([32] ++ (bytes n ++
      (printDims (arrayDimensions T) ++ 59 :: (10 :: s))))))) := by
    have e1 : bytes "\n" = [10] := rfl
    have e2 : bytes "typedef " = bytes "typedef" ++ [32] := rfl
    have e3 : bytes ";" = [59] := rfl
    have e4 : bytes " " = [32] := rfl
    unfold declText aliasText
    simp only [e1, e2, e3, e4, List.append_assoc]
    rfl
  refine ⟨_, ?_, e0⟩
  rw [e0]
  have ha : After [32] (bytes n ++ (printDims (arrayDimensions T) ++ 59 :: (10 :: s))) := by
    refine ⟨blank_space, isId_clean hi _, (by decide : idChar 32 = false), ?_⟩
    obtain ⟨c, r, e, hc, _⟩ := hi
    rw [e]
    show c ≠ 60 ∧ c ≠ 58
    constructor <;> rintro rfl <;> exact absurd hc (by decide)
  unfold typedefDcl
  rw [bind_ok (dkw_ok (by decide) (blanks_indent tabs) (text_clean T hT _))]
  obtain ⟨q, e1, e2⟩ := spec_ok T hT (typeName T ++ ([32] ++ (bytes n ++ (printDims (arrayDimensions T) ++ 59 :: (10 :: s))))).length
    (by simp) ha
  have e3 : typedefSpec (typeName T ++ ([32] ++ (bytes n ++ (printDims (arrayDimensions T) ++ 59 :: (10 :: s))))) =
    some (specOf T, q) := (or_second (constrSpec_no T hT (by exact (by decide : idChar 32 = false)))).trans e1
  have hcl : Closed (59 :: (10 :: s)) := (by decide : (59 ≠ 91 ∧ idChar 59 = false ∧ blank 59 = false ∧ 59 ≠ 47))
  have e4 : anyDeclarator (bytes n ++ (printDims (arrayDimensions T) ++ 59 :: (10 :: s))) = _ := opt_some (declarator_ok hi _ hcl)
  have e5 : (do sym ","; anyDeclarator : P (Option Declr)) (59 :: (10 :: s)) = none :=
    bind_no (sym_no (w := ",") (a := []) blanks_nil (by exact (by decide : blank 59 = false ∧ 59 ≠ 47)) (strip_head (by rfl)
      (by exact (by decide : 59 ≠ 44))))
  rw [bind_ok e3, bind_ok e2, bind_ok e4, bind_ok (star_chain (.nil e5))]
  rfl

/-! ## Constants -/

/-- The primitive types of which constants come back. -/
def PlainKind (k : PK) : Prop := Ops.isInt k = true ∨ k = .bool

/-- A constant whose text can be read. -/
def PlainConst : Item → Prop
  | .const k _ => PlainKind k
  | .text _ s => ∀ c ∈ s, c ≠ 34 ∧ c ≠ 92
  | .ty _ => False

theorem const_prim {k : PK} (hk : PlainKind k) {s : Bytes} (hs : Clean s) :
    constType (bytes (primText k) ++ ([32] ++ s)) = some (.prim k, s) := by
  have kws : ∀ v ∈ baseWords, ∀ w ∈ baseWords, kw w (bytes v ++ ([32] ++ s)) = if w = v then some ((), s) else none := by
    intro v hv w hw
    split
    · rename_i h; subst h
      exact kw_ok0 (switch_words w hw).1 blank_space hs (by exact (by decide : idStart 32 = false))
    · rename_i h; exact kw_no0 (word_clean (switch_words v hv).1 _) (notAt_none (clash_strip ((switch_words v hv).2 w hw h) _))
  have fixedNo : ∀ v ∈ baseWords, kw "fixed" (bytes v ++ ([32] ++ s)) = none := by
    intro v hv
    have h : ∀ v ∈ baseWords, clash (bytes "fixed") (bytes v) = true := by decide +kernel
    exact kw_no0 (word_clean (switch_words v hv).1 _) (notAt_none (clash_strip (h v hv) _))
  have key : ∀ v ∈ baseWords, v ≠ "long" → v ≠ "unsigned" → v ≠ "float" → v ≠ "double" → v ≠ "any" → v ≠ "octet" →
      constType (bytes v ++ ([32] ++ s)) =
        (if "short" = v then some (.prim .i16, s) else if "int16" = v then some (.prim .i16, s) else
         if "int64" = v then some (.prim .i64, s) else
         if "int32" = v then some (.prim .i32, s) else if "int8" = v then some (.prim .i8, s) else
         if "uint16" = v then some (.prim .u16, s) else if "uint64" = v then some (.prim .u64, s) else
         if "uint32" = v then some (.prim .u32, s) else if "uint8" = v then some (.prim .u8, s) else
         if "char" = v then some (.prim .c8, s) else if "wchar" = v then some (.prim .wc, s) else
         some (.prim .bool, s)) := by
    intro v hv hl hu hf hd hany hoct
    have a := kws v hv
    have l1 : ∀ x, kw2 "long" x (bytes v ++ ([32] ++ s)) = none := fun x =>
      kw2_no0 (word_clean (switch_words v hv).1 _) (notAt_none (clash_strip ((switch_words v hv).2 "long" (by decide) (Ne.symm hl)) _))
    have l2 : ∀ x, kw2 "unsigned" x (bytes v ++ ([32] ++ s)) = none := fun x =>
      kw2_no0 (word_clean (switch_words v hv).1 _) (notAt_none (clash_strip ((switch_words v hv).2 "unsigned" (by decide) (Ne.symm hu)) _))
    have l3 : ∀ x y, kw3 "unsigned" x y (bytes v ++ ([32] ++ s)) = none := fun x y =>
      kw3_no0 (word_clean (switch_words v hv).1 _) (notAt_none (clash_strip ((switch_words v hv).2 "unsigned" (by decide) (Ne.symm hu)) _))
    have a0 := fixedNo v hv
    have a1 := a "float" (by decide)
    have a2 := a "double" (by decide)
    have a3 := a "long" (by decide)
    have a4 := a "short" (by decide)
    have a5 := a "int16" (by decide)
    have a6 := a "int64" (by decide)
    have a7 := a "int32" (by decide)
    have a8 := a "int8" (by decide)
    have a9 := a "uint16" (by decide)
    have a10 := a "uint64" (by decide)
    have a11 := a "uint32" (by decide)
    have a12 := a "uint8" (by decide)
    have a13 := a "char" (by decide)
    have a14 := a "wchar" (by decide)
    have a15 := a "boolean" (by decide)
    have hall : v ∈ baseWords := hv
    simp only [baseWords, List.mem_cons, List.not_mem_nil, or_false] at hall
    rcases hall with h | h | h | h | h | h | h | h | h | h | h | h | h | h | h | h | h | h <;>
      first
      | exact absurd h hl
      | exact absurd h hu
      | exact absurd h hf
      | exact absurd h hd
      | exact absurd h hany
      | exact absurd h hoct
      | (subst h
         simp only [constType, signedInt, unsignedInt, choice, P.or, bind_run, pure_run, a0, a1, a2, a3, a4, a5, a6, a7,
           a8, a9, a10, a11, a12, a13, a14, a15, l1, l2, l3, Option.bind_none, Option.bind_some, String.reduceEq,
           if_true, if_false])
  cases k with
  | bool => exact key "boolean" (by decide) (by decide) (by decide) (by decide) (by decide) (by decide) (by decide)
  | i8 => exact key "int8" (by decide) (by decide) (by decide) (by decide) (by decide) (by decide) (by decide)
  | u8 => exact key "uint8" (by decide) (by decide) (by decide) (by decide) (by decide) (by decide) (by decide)
  | i16 => exact key "int16" (by decide) (by decide) (by decide) (by decide) (by decide) (by decide) (by decide)
  | u16 => exact key "uint16" (by decide) (by decide) (by decide) (by decide) (by decide) (by decide) (by decide)
  | i32 => exact key "int32" (by decide) (by decide) (by decide) (by decide) (by decide) (by decide) (by decide)
  | u32 => exact key "uint32" (by decide) (by decide) (by decide) (by decide) (by decide) (by decide) (by decide)
  | i64 => exact key "int64" (by decide) (by decide) (by decide) (by decide) (by decide) (by decide) (by decide)
  | u64 => exact key "uint64" (by decide) (by decide) (by decide) (by decide) (by decide) (by decide) (by decide)
  | _ => rcases hk with hk | hk <;> cases hk

theorem const_string (n : Nat) {b s : Bytes} (h : After b s) :
    constType (bytes "string" ++ ((if n = 0 then [] else bytes "<" ++ dec n ++ bytes ">") ++ (b ++ s))) =
      some (.string (if n = 0 then none else some (dec n)), s) := by
  have hv : "string" ∈ templateWords := by decide
  obtain ⟨q, e1, e2⟩ := string_ok hv n h
  generalize (if n = 0 then [] else bytes "<" ++ dec n ++ bytes ">") ++ (b ++ s) = t at e1 ⊢
  have hw : Word "string" := word_of (by decide)
  have hcl : ∀ w ∈ "fixed" :: baseWords, clash (bytes w) (bytes "string") = true := by decide +kernel
  have at_ : ∀ w ∈ "fixed" :: baseWords, NotAt w (bytes "string" ++ t) := fun w hw' => notAt_none (clash_strip (hcl w hw') t)
  have a : ∀ w ∈ "fixed" :: baseWords, kw w (bytes "string" ++ t) = none := fun w hw' => kw_no0 (word_clean hw t) (at_ w hw')
  have l1 : ∀ x, kw2 "long" x (bytes "string" ++ t) = none := fun x => kw2_no0 (word_clean hw t) (at_ _ (by decide))
  have l2 : ∀ x, kw2 "unsigned" x (bytes "string" ++ t) = none := fun x => kw2_no0 (word_clean hw t) (at_ _ (by decide))
  have l3 : ∀ x y, kw3 "unsigned" x y (bytes "string" ++ t) = none := fun x y => kw3_no0 (word_clean hw t) (at_ _ (by decide))
  have a0 := a "fixed" (by decide)
  have a1 := a "float" (by decide)
  have a2 := a "double" (by decide)
  have a3 := a "long" (by decide)
  have a4 := a "short" (by decide)
  have a5 := a "int16" (by decide)
  have a6 := a "int64" (by decide)
  have a7 := a "int32" (by decide)
  have a8 := a "int8" (by decide)
  have a9 := a "uint16" (by decide)
  have a10 := a "uint64" (by decide)
  have a11 := a "uint32" (by decide)
  have a12 := a "uint8" (by decide)
  have a13 := a "char" (by decide)
  have a14 := a "wchar" (by decide)
  have a15 := a "boolean" (by decide)
  simp only [constType, signedInt, unsignedInt, stringType, choice, P.or, bind_run, pure_run, a0, a1, a2, a3, a4, a5, a6, a7,
    a8, a9, a10, a11, a12, a13, a14, a15, l1, l2, l3, e1, e2, Option.bind_none, Option.bind_some]

theorem const_type {i : Item} (hi : PlainConst i) {s : Bytes} (h : After [32] s) :
    constType (typeName i.type ++ ([32] ++ s)) = some (specOf i.type, s) ∧ Clean (typeName i.type ++ ([32] ++ s)) := by
  cases i with
  | ty t => exact absurd hi id
  | const k v =>
    have e : readPK k = k := by
      rcases hi with hi | rfl
      · cases k <;> first | rfl | cases hi
      · rfl
    show constType (typeName (.prim k) ++ ([32] ++ s)) = some (specOf (.prim k), s) ∧ Clean (typeName (.prim k) ++ ([32] ++ s))
    rw [typeName, specOf, e]
    exact ⟨const_prim hi h.clean, prim_clean k _⟩
  | text n t =>
    show constType (typeName (.str .s8 n) ++ ([32] ++ s)) = some (specOf (.str .s8 n), s) ∧ Clean (typeName (.str .s8 n) ++ ([32] ++ s))
    rw [typeName, specOf, if_pos rfl, List.append_assoc]
    exact ⟨const_string n h, word_clean (word_of (by decide)) _⟩

theorem number_text {i : Item} {k : PK} {v : Int} (e : i = .const k v) (hi : PlainConst i) : constText i = number v := by
  subst e
  rcases hi with hi | rfl
  · cases k <;> first | rfl | cases hi
  · rfl

theorem const_value {i : Item} (hi : PlainConst i) (s : Bytes) :
    expression (constText i ++ 59 :: s) = some (exprOf i, 59 :: s) ∧ Clean (constText i ++ 59 :: s) := by
  have hz : Ends 59 s := .inr rfl
  unfold expression
  cases i with
  | ty t => exact absurd hi id
  | const k v =>
    rw [number_text rfl hi]
    unfold number exprOf
    by_cases hv : v < 0
    · simp only [if_pos hv]
      exact ⟨constExpr_minus (dec_label _) hz _, (by decide : blank 45 = false ∧ 45 ≠ 47)⟩
    · simp only [if_neg hv]
      exact ⟨constExpr_ok (dec_label _) hz _, (dec_label _).clean _⟩
  | text b t =>
    have e : constText (.text b t) = 34 :: (t ++ [34]) := by
      have e1 : bytes "\"" = [34] := rfl
      rw [constText, e1]; rfl
    rw [e]
    exact ⟨constExpr_ok (string_label hi) hz _, (string_label hi).clean _⟩

theorem constDcl_ok {n : String} (hn : Identifier n) {i : Item} (hi : PlainConst i) (tabs : Nat) (s : Bytes) :
    ∃ q, constDcl (declText tabs (.const n i) ++ s) = some (defOf (.const n i), 59 :: (10 :: s)) ∧
      declText tabs (.const n i) ++ s = indent tabs ++ (bytes "const" ++ q) := by
  have hid := ident_is hn
  have e0 : declText tabs (.const n i) ++ s = indent tabs ++ (bytes "const" ++ ([32] ++ (typeName i.type ++ ([32] ++ (bytes n ++
      ([32] ++ 61 :: ([32] ++ (constText i ++ 59 :: (10 :: s))))))))) := by
    have e1 : bytes "\n" = [10] := rfl
    have e2 : bytes "const " = bytes "const" ++ [32] := rfl
    have e3 : bytes ";" = [59] := rfl
    have e4 : bytes " " = [32] := rfl
    have e5 : bytes " = " = [32] ++ ([61] ++ [32]) := rfl
    unfold declText constLine
    simp only [e1, e2, e3, e4, e5, List.append_assoc]
    rfl
  refine ⟨_, ?_, e0⟩
  rw [e0]
  obtain ⟨v1, v2⟩ := const_value hi (10 :: s)
  have ha : After [32] (bytes n ++ ([32] ++ 61 :: ([32] ++ (constText i ++ 59 :: (10 :: s))))) := by
    refine ⟨blank_space, isId_clean hid _, (by decide : idChar 32 = false), ?_⟩
    obtain ⟨c, r, e, hc, _⟩ := hid
    rw [e]
    show c ≠ 60 ∧ c ≠ 58
    constructor <;> rintro rfl <;> exact absurd hc (by decide)
  obtain ⟨t1, t2⟩ := const_type hi ha
  unfold constDcl
  rw [bind_ok (dkw_ok (by decide) (blanks_indent tabs) t2), bind_ok t1, bind_ok (wsOpt_clean ha.clean),
    bind_ok (isId_read hid (by exact (by decide : idChar 32 = false))),
    bind_ok (sym_front (w := "=") (c := 61) rfl (by decide) blank_space blank_space v2), bind_ok v1]
  rfl

/-! ## Whole texts -/

/-- A declaration whose text can be read: its names are identifiers, the names of types in it usable. -/
def Readable : Decl → Prop
  | .struct n p ms => Identifier n ∧ (∀ x, p = some x → TypeName x.1) ∧ ∀ e ∈ ownMembers p ms, Identifier e.1 ∧ Named e.2
  | .union n u => Identifier n ∧ Switch u.disc ∧ caseMembers u ≠ [] ∧ ∀ e ∈ caseMembers u, ReadableCase u e
  | .enum n vs => Identifier n ∧ sortByValue vs ≠ [] ∧ ∀ e ∈ sortByValue vs, Identifier e.1
  | .alias n t => Identifier n ∧ Named t
  | .const n i => Identifier n ∧ PlainConst i

theorem definition_succ (f : Nat) : definition (f + 1) = definitionWith (moduleDcl (definition f)) := rfl

/-- The rules before the one that reads a definition. -/
theorem definitionWith_ok {p : P Def} {d : Def} {s r r' : Bytes} (h : choice [p, constDcl, constrType, nativeDcl, typedefDcl, annotationDcl] s = some (d, r))
    (hs : sym ";" r = some ((), r')) : definitionWith p s = some (d, r') := by
  unfold definitionWith
  refine or_first ?_
  rw [bind_ok h, bind_ok hs]
  rfl

theorem moduleDcl_no {v : String} (hv : v ∈ defWords) (hne : "module" ≠ v) {a : Bytes} (ha : Layout a) (q : Bytes) (p : P Def) :
    moduleDcl p (a ++ (bytes v ++ q)) = none := by
  unfold moduleDcl
  rw [bind_ok (annots_none (noAt_layout ha (noAt_word (dkw_words _ hv).1 q)))]
  exact bind_no (dkw_no hv (by decide) hne ha _)

theorem definition_ok {d : Decl} (hd : Readable d) (tabs f : Nat) {b s : Bytes} (hb : Layout b) (hs : Clean s) :
    definition (f + 1) (declText tabs d ++ (b ++ s)) = some (defOf d, s) := by
  have hbl : Layout (10 :: b) := blanks_append (a := [10]) blanks_nl hb
  have hsemi : sym ";" (59 :: (10 :: (b ++ s))) = some ((), s) := by
    have e := sym_front0 (w := ";") (c := 59) rfl (by decide) hbl hs
    rwa [List.cons_append] at e
  rw [definition_succ]
  refine definitionWith_ok (r := 59 :: (10 :: (b ++ s))) ?_ hsemi
  have none : ∀ {v : String}, v ∈ defWords → ∀ q, annots (indent tabs ++ (bytes v ++ q)) = some (0, indent tabs ++ (bytes v ++ q)) :=
    fun hv q => annots_none (noAt_layout (blanks_indent tabs) (noAt_word (dkw_words _ hv).1 q))
  have nomod : ∀ {v : String}, v ∈ defWords → v ≠ "module" → ∀ q, moduleDcl (definition f) (indent tabs ++ (bytes v ++ q)) = Option.none := by
    intro v hv hne q
    unfold moduleDcl
    rw [bind_ok (none hv q)]
    exact bind_no (dkw_no hv (by decide) hne.symm (blanks_indent _) _)
  have constr : ∀ {v : String}, v ∈ defWords → ∀ {q : Bytes} {x : Option (Def × Bytes)}, constrDcl (indent tabs ++ (bytes v ++ q)) = x →
      constrType (indent tabs ++ (bytes v ++ q)) = x := by
    intro v hv q x h
    unfold constrType
    rw [bind_ok (none hv q)]
    exact h
  cases d with
  | struct n p ms =>
    obtain ⟨q, e1, e2⟩ := structDef_ok hd.1 hd.2.1 hd.2.2 tabs (b ++ s)
    have e3 : declText tabs (.struct n p ms) = structText n p ms tabs := rfl
    rw [e3]
    rw [e2] at e1 ⊢
    refine choice_next (nomod (by decide) (by decide) _) (choice_next ?_ (choice_first (constr (by decide) (choice_first e1))))
    exact bind_no (dkw_no (by decide) (by decide) (by decide) (blanks_indent _) _)
  | union n u =>
    obtain ⟨q, e1, e2⟩ := unionDef_ok hd.1 hd.2.1 hd.2.2.1 hd.2.2.2 tabs (b ++ s)
    have e3 : declText tabs (.union n u) = unionText n u tabs := rfl
    rw [e3]
    rw [e2] at e1 ⊢
    refine choice_next (nomod (by decide) (by decide) _) (choice_next ?_ (choice_first (constr (by decide)
      (choice_next ?_ (choice_next ?_ (choice_first e1))))))
    all_goals exact bind_no (dkw_no (by decide) (by decide) (by decide) (blanks_indent _) _)
  | enum n vs =>
    obtain ⟨q, e1, e2⟩ := enumDcl_ok hd.1 hd.2.1 hd.2.2 tabs (b ++ s)
    have e3 : declText tabs (.enum n vs) = enumText n vs tabs := rfl
    rw [e3]
    rw [e2] at e1 ⊢
    refine choice_next (nomod (by decide) (by decide) _) (choice_next ?_ (choice_first (constr (by decide)
      (choice_next ?_ (choice_next ?_ (choice_next ?_ (choice_next ?_ (choice_first e1))))))))
    all_goals exact bind_no (dkw_no (by decide) (by decide) (by decide) (blanks_indent _) _)
  | «alias» n t =>
    obtain ⟨q, e1, e2⟩ := typedef_ok hd.1 hd.2 tabs (b ++ s)
    rw [e2] at e1 ⊢
    refine choice_next (nomod (by decide) (by decide) _) (choice_next ?_ (choice_next (constr (by decide)
      (choice_next ?_ (choice_next ?_ (choice_next ?_ (choice_next ?_ (choice_next ?_ (choice_next ?_ (choice_next ?_ rfl))))))))
      (choice_next ?_ (choice_first e1))))
    all_goals exact bind_no (dkw_no (by decide) (by decide) (by decide) (blanks_indent _) _)
  | const n i =>
    obtain ⟨q, e1, e2⟩ := constDcl_ok hd.1 hd.2 tabs (b ++ s)
    rw [e2] at e1 ⊢
    exact choice_next (nomod (by decide) (by decide) _) (choice_first e1)

theorem kw_skip (w : String) {a s : Bytes} (ha : Layout a) (hs : Clean s) : kw w (a ++ s) = kw w s := by
  unfold kw
  rw [bind_ok (wsOpt_ok ha hs), bind_ok (wsOpt_clean hs)]

theorem bind_skip {p : P α} {k : α → P β} {s t : Bytes} (h : p s = p t) : (p >>= k) s = (p >>= k) t := by
  rw [bind_run, bind_run, h]

theorem or_skip {p q : P α} {s t : Bytes} (h : p s = p t) (h' : q s = q t) : (p.or q) s = (p.or q) t := by
  rw [P.or, P.or, h, h']

theorem annots_skip {k : Nat → P α} {a s : Bytes} (ha : Layout a) (hat : NoAt s) (h : k 0 (a ++ s) = k 0 s) :
    (annots >>= k) (a ++ s) = (annots >>= k) s := by
  rw [bind_ok (annots_none (noAt_layout ha hat)), bind_ok (annots_none hat), h]

theorem choice_skip {p : P α} {r : List (P α)} {s t : Bytes} (h : p s = p t) (h' : choice r s = choice r t) :
    choice (p :: r) s = choice (p :: r) t := or_skip h h'

theorem definition_skip (f : Nat) {a s : Bytes} (ha : Layout a) (hs : Clean s) (hat : NoAt s) :
    definition (f + 1) (a ++ s) = definition (f + 1) s := by
  have k : ∀ {β} (w : String) (g : Unit → P β), (kw w >>= g) (a ++ s) = (kw w >>= g) s := fun w g => bind_skip (kw_skip w ha hs)
  rw [definition_succ]
  unfold definitionWith
  refine or_skip (bind_skip (choice_skip (annots_skip ha hat (k _ _)) (choice_skip (k _ _) (choice_skip (annots_skip ha hat ?_)
    (choice_skip (k _ _) (choice_skip (k _ _) (choice_skip (k _ _) rfl))))))) ?_
  · exact choice_skip (k _ _) (choice_skip (k _ _) (choice_skip (k _ _) (choice_skip (k _ _) (choice_skip (k _ _) (choice_skip (k _ _)
      (choice_skip (k _ _) rfl))))))
  · unfold directive
    rw [bind_ok (wsOpt_ok ha hs), bind_ok (wsOpt_clean hs)]

theorem decl_front {d : Decl} (hd : Readable d) (tabs : Nat) : ∃ q, declText tabs d = indent tabs ++ q ∧
    (∀ s, Clean (q ++ s)) ∧ (∀ s, NoAt (q ++ s)) ∧ q ≠ [] := by
  have key : ∀ v ∈ defWords, (∃ q, declText tabs d ++ [] = indent tabs ++ (bytes v ++ q)) →
      ∃ q, declText tabs d = indent tabs ++ q ∧ (∀ s, Clean (q ++ s)) ∧ (∀ s, NoAt (q ++ s)) ∧ q ≠ [] := by
    rintro v hv ⟨q, e⟩
    rw [List.append_nil] at e
    refine ⟨_, e, fun s => ?_, fun s => ?_, fun h => ?_⟩
    · rw [List.append_assoc]; exact word_clean (dkw_words v hv).1 _
    · rw [List.append_assoc]; exact noAt_word (dkw_words v hv).1 _
    · exact (dkw_words v hv).1.2 (List.append_eq_nil_iff.mp h).1
  cases d with
  | struct n p ms =>
    obtain ⟨q, _, e⟩ := structDef_ok hd.1 hd.2.1 hd.2.2 tabs []
    exact key "struct" (by decide) ⟨q, e⟩
  | union n u =>
    obtain ⟨q, _, e⟩ := unionDef_ok hd.1 hd.2.1 hd.2.2.1 hd.2.2.2 tabs []
    exact key "union" (by decide) ⟨q, e⟩
  | enum n vs =>
    obtain ⟨q, _, e⟩ := enumDcl_ok hd.1 hd.2.1 hd.2.2 tabs []
    exact key "enum" (by decide) ⟨q, e⟩
  | «alias» n t =>
    obtain ⟨q, _, e⟩ := typedef_ok hd.1 hd.2 tabs []
    exact key "typedef" (by decide) ⟨q, e⟩
  | const n i =>
    obtain ⟨q, _, e⟩ := constDcl_ok hd.1 hd.2 tabs []
    exact key "const" (by decide) ⟨q, e⟩

theorem definition_no (f : Nat) {s : Bytes} (hs : Clean s) (hat : Head (fun c => c ≠ 64 ∧ c ≠ 35) s)
    (h : ∀ w ∈ defWords, strip (bytes w) s = none) : definition (f + 1) s = none := by
  have h1 : NoAt s := by cases s with | nil => trivial | cons c s => exact hat.1
  have h2 : Head (fun c => c ≠ 35) s := by cases s with | nil => trivial | cons c s => exact hat.2
  rw [definition_succ]
  unfold definitionWith
  have k : ∀ {β} (w : String) (g : Unit → P β), w ∈ defWords → (kw w >>= g) s = none :=
    fun w g hw => bind_no (kw_no0 hs (notAt_none (h w hw)))
  refine (or_second (bind_no (choice_next ?_ (choice_next (k _ _ (by decide)) (choice_next ?_ (choice_next (k _ _ (by decide))
    (choice_next (k _ _ (by decide)) (choice_next ?_ rfl)))))))).trans ?_
  · unfold moduleDcl
    rw [bind_ok (annots_none h1)]
    exact k _ _ (by decide)
  · unfold constrType
    rw [bind_ok (annots_none h1)]
    exact choice_next (k _ _ (by decide)) (choice_next (k _ _ (by decide))
      (choice_next (k _ _ (by decide)) (choice_next (k _ _ (by decide))
        (choice_next (k _ _ (by decide)) (choice_next (k _ _ (by decide)) (choice_next (k _ _ (by decide)) rfl))))))
  · exact bind_no (kw_no0 hs (notAt_none (strip_head (c := 64) (by rfl) h1)))
  · unfold directive
    rw [bind_ok (wsOpt_clean hs)]
    exact bind_no (lit_no (strip_head (c := 35) (by rfl) h2))

theorem definition_end (f : Nat) : definition (f + 1) [] = none := by
  refine definition_no f (s := []) trivial trivial fun w hw => ?_
  have := (dkw_words w hw).1.2
  cases h : bytes w with
  | nil => exact absurd h this
  | cons c t => rfl

theorem definition_brace (f : Nat) (s : Bytes) : definition (f + 1) (125 :: s) = none := by
  refine definition_no f (s := 125 :: s) (by exact (by decide : blank 125 = false ∧ 125 ≠ 47))
    (by exact (by decide : 125 ≠ 64 ∧ 125 ≠ 35)) ?_
  intro w hw
  have h0 : ∀ w ∈ defWords, (bytes w).head? ≠ some 125 := by decide +kernel
  have h1 := (dkw_words w hw).1.2
  have h2 := h0 w hw
  cases h : bytes w with
  | nil => exact absurd h h1
  | cons c t =>
    rw [h] at h2
    rw [strip, if_neg]
    rintro rfl
    exact h2 rfl

/-- A text made of declarations, each printed by `declText` at some indentation and with any white space before it. -/
def textOf : List (Bytes × Nat × Decl) → Bytes
  | [] => []
  | (g, t, d) :: r => g ++ declText t d ++ textOf r

theorem text_chain (f : Nat) {e : Bytes} (he : Layout e) : ∀ l : List (Bytes × Nat × Decl), (∀ x ∈ l, Layout x.1 ∧ Readable x.2.2) →
    ∃ b q, textOf l ++ e = b ++ q ∧ Layout b ∧ Clean q ∧ (l ≠ [] → q ≠ []) ∧
      Chain (definition (f + 1)) q (l.map fun x => defOf x.2.2) []
  | [], _ => ⟨e, [], by simp [textOf], he, trivial, fun h => absurd rfl h, .nil (definition_end f)⟩
  | (g, t, d) :: r, h => by
    obtain ⟨hg, hd⟩ := h (g, t, d) (by simp)
    obtain ⟨b, q, e1, hb, hq, _, hc⟩ := text_chain f he r (fun x hx => h x (List.mem_cons_of_mem _ hx))
    obtain ⟨p, e2, hp, hpat, hpne⟩ := decl_front hd t
    refine ⟨g ++ indent t, p ++ (b ++ q), ?_, layout_append hg (spaces_indent t), hp _, fun _ => ?_, .cons (r := q) ?_ ?_ hc⟩
    · rw [textOf, List.append_assoc, List.append_assoc, e1, e2]; simp only [List.append_assoc]
    · exact fun h => hpne (List.append_eq_nil_iff.mp h).1
    · have := definition_ok hd t f hb hq
      rw [e2, List.append_assoc, definition_skip f (blanks_indent t) (hp _) (hpat _)] at this
      exact this
    · cases p with
      | nil => exact absurd rfl hpne
      | cons c p => simp only [List.length_append, List.length_cons]; omega

/-- The grammar reads a text of declarations. -/
theorem document_ok {l : List (Bytes × Nat × Decl)} (hne : l ≠ []) (h : ∀ x ∈ l, Layout x.1 ∧ Readable x.2.2) {e : Bytes}
    (he : Layout e) : document (textOf l ++ e) = some (l.map fun x => defOf x.2.2) := by
  obtain ⟨b, q, e1, hb, hq, hqne, hc⟩ := text_chain (textOf l ++ e).length he l h
  unfold document
  generalize (textOf l ++ e).length = f at hc ⊢
  rw [e1, bind_ok (wsOpt_ok hb hq)]
  cases hl : l.map fun x => defOf x.2.2 with
  | nil => exact absurd (List.map_eq_nil_iff.mp hl) hne
  | cons d ds =>
    rw [hl] at hc
    cases hc with
    | cons h1 h2 h3 => rw [bind_ok (plus_chain h1 h3)]; rfl

end Verif.Idl.Syn
