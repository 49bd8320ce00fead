import Verif.Lemmas.WriteRuns
/-!
# Reading declarations
-/

namespace Verif.Idl.Syn
open Text Expr

/-! ## The words of declarations -/

section
variable {v : String} {ps : List Piece} {s : Bytes}

theorem dkw_written (hv : v ∈ defWords) (h : Pos (kword v :: ps) s) : ∃ s', kw v s = some ((), s') ∧ Spaced ps s' :=
  p_kw (dkw_words v hv).1 h

theorem dkw_other (hv : v ∈ defWords) (h : Pos (kword v :: ps) s) {w : String} (hw : w ∈ defWords) (hne : w ≠ v) : kw w s = none :=
  p_kw_no (dkw_words w hw).1 h (avoids_kword ((dkw_words v hv).2 w hw hne))

theorem def_plain (hv : v ∈ defWords) (ps : List Piece) : Plain (kword v :: ps) := by
  have key : ∀ c, first (kword v :: ps) = some c → idStart c = true := by
    intro c hc
    obtain ⟨h1, h2⟩ := (dkw_words v hv).1
    cases e : bytes v with
    | nil => exact absurd e h2
    | cons x q =>
      have hc : (bytes v).head? = some c := hc
      rw [e] at h1 hc
      cases hc
      exact h1
  refine ⟨fun e => absurd (key _ e) (by decide), fun e => absurd (key _ e) (by decide), fun e => absurd (key _ e) (by decide)⟩

/-- Other words do not begin a declaration with annotations. -/
theorem front_other {a : List Piece} (ha : Annots a) (hv : v ∈ defWords) (h : Pos (a ++ kword v :: ps) s) {w : String}
    (hw : w ∈ defWords) (hne : w ≠ v) : kw w s = none := by
  rcases annots_front ha with rfl | ⟨t, r, rfl⟩
  · exact dkw_other hv h hw hne
  · exact p_kw_no (dkw_words w hw).1 (p := .mark t) h trivial
end

/-! ## Structures, unions and enumerations -/

theorem parent_ok {p : Option Bytes} {ps : List Piece} (hp : ParentPieces p ps) {t : List Piece} {s : Bytes}
    (h : Pos (ps ++ .sign 123 :: t) s) : ∃ s', (do sym ":"; scopedId : P Bytes).opt s = some (p, s') ∧ Pos (.sign 123 :: t) s' := by
  cases hp with
  | none =>
    have e : (do sym ":"; scopedId : P Bytes) s = none := bind_no (p_sym_no (w := ":") (c := 58) rfl h (by exact (by decide : some 123 ≠ some 58)))
    exact ⟨s, opt_none e, h⟩
  | @some n hn =>
    obtain ⟨s1, e1, h1⟩ := p_sym (w := ":") (c := 58) rfl h
    obtain ⟨s2, e2, h2⟩ := p_scoped hn h1 (by exact (by decide : some 123 ≠ some 58))
    exact ⟨s2, opt_some (by rw [bind_ok e1]; exact e2), h2⟩

theorem struct_written {n : String} (hn : Usable n) {p : Option Bytes} {ps : List Piece} (hp : ParentPieces p ps)
    {l : List ((TSpec × List Declr) × List Piece)} (hl : ∀ m ∈ l, MemberPieces m.1 m.2) {t : List Piece} {s : Bytes}
    (h : Pos (kword "struct" :: .word (bytes n) :: (ps ++ .sign 123 :: (l.flatMap (·.2) ++ .sign 125 :: t))) s) :
    ∃ s', constrDcl s = some (.struct (bytes n) p (l.map (·.1)), s') ∧ Spaced t s' := by
  obtain ⟨s1, e1, h1⟩ := dkw_written (by decide) h
  obtain ⟨s2, e2, h2⟩ := p_ident (ident_is hn.1) h1
  obtain ⟨s3, e3, h3⟩ := parent_ok hp h2
  obtain ⟨s4, e4, h4⟩ := p_sym (w := "{") (c := 123) rfl h3
  obtain ⟨s5, e5, h5⟩ := members_written hl h4
  obtain ⟨s6, e6, h6⟩ := p_sym (w := "}") (c := 125) rfl (.of h5)
  refine ⟨s6, choice_first ?_, h6⟩
  unfold structDef
  rw [bind_ok e1, bind_ok e2, bind_ok e3, bind_ok e4, bind_ok e5, bind_ok e6]; rfl

theorem forward_written {n : String} (hn : Usable n) {t : List Piece} {s : Bytes}
    (h : Pos (kword "struct" :: .word (bytes n) :: .sign 59 :: t) s) :
    ∃ s', constrDcl s = some (.forward (bytes n), s') ∧ Pos (.sign 59 :: t) s' := by
  obtain ⟨s1, e1, h1⟩ := dkw_written (by decide) h
  obtain ⟨s2, e2, h2⟩ := p_ident (ident_is hn.1) h1
  refine ⟨s2, choice_next ?_ (choice_first ?_), h2⟩
  · have e3 : (do sym ":"; scopedId : P Bytes) s2 = none :=
      bind_no (p_sym_no (w := ":") (c := 58) rfl h2 (by exact (by decide : some 59 ≠ some 58)))
    unfold structDef
    rw [bind_ok e1, bind_ok e2, bind_ok (opt_none e3)]
    exact bind_no (p_sym_no (w := "{") (c := 123) rfl h2 (by exact (by decide : some 59 ≠ some 123)))
  · unfold structForward
    rw [bind_ok e1, bind_ok e2]; rfl

theorem switch_word : Word "switch" := word_of (by decide)

theorem union_written {n : String} (hn : Usable n) {T : TSpec} {ps : List Piece} (hT : SwitchPieces T ps)
    {l : List (Case × List Piece)} (hne : l ≠ []) (hl : ∀ m ∈ l, CasePieces m.1 m.2) {t : List Piece} {s : Bytes}
    (h : Pos (kword "union" :: .word (bytes n) :: kword "switch" :: .sign 40 ::
      (ps ++ .sign 41 :: .sign 123 :: (l.flatMap (·.2) ++ .sign 125 :: t))) s) :
    ∃ s', constrDcl s = some (.union (bytes n) T (l.map (·.1)), s') ∧ Spaced t s' := by
  obtain ⟨s1, e1, h1⟩ := dkw_written (by decide) h
  obtain ⟨s2, e2, h2⟩ := p_ident (ident_is hn.1) h1
  obtain ⟨s3, e3, h3⟩ := p_kw switch_word h2
  obtain ⟨s4, e4, h4⟩ := p_sym (w := "(") (c := 40) rfl (.of h3)
  obtain ⟨s5, e5, h5⟩ := switch_written hT (goes_sign (by decide) (by decide)) h4
  obtain ⟨s6, e6, h6⟩ := p_sym (w := ")") (c := 41) rfl h5
  obtain ⟨s7, e7, h7⟩ := p_sym (w := "{") (c := 123) rfl (.of h6)
  obtain ⟨s8, e8, h8⟩ := cases_ok hne hl h7
  obtain ⟨s9, e9, h9⟩ := p_sym (w := "}") (c := 125) rfl (.of h8)
  have no := dkw_other (by decide) h (w := "struct") (by decide) (by decide)
  refine ⟨s9, choice_next (bind_no no) (choice_next (bind_no no) (choice_first ?_)), h9⟩
  unfold unionDef
  rw [bind_ok e1, bind_ok e2, bind_ok e3, bind_ok e4, bind_ok e5, bind_ok e6, bind_ok e7, bind_ok e8, bind_ok e9]; rfl

theorem unionForward_written {n : String} (hn : Usable n) {t : List Piece} {s : Bytes}
    (h : Pos (kword "union" :: .word (bytes n) :: .sign 59 :: t) s) :
    ∃ s', constrDcl s = some (.unionForward (bytes n), s') ∧ Pos (.sign 59 :: t) s' := by
  obtain ⟨s1, e1, h1⟩ := dkw_written (by decide) h
  obtain ⟨s2, e2, h2⟩ := p_ident (ident_is hn.1) h1
  have no := dkw_other (by decide) h (w := "struct") (by decide) (by decide)
  refine ⟨s2, choice_next (bind_no no) (choice_next (bind_no no) (choice_next ?_ (choice_first ?_))), h2⟩
  · unfold unionDef
    rw [bind_ok e1, bind_ok e2]
    exact bind_no (p_kw_no switch_word (p := .sign 59) h2 trivial)
  · unfold unionForward
    rw [bind_ok e1, bind_ok e2]; rfl

theorem enumerator_written {x : String} (hx : Identifier x) {t : List Piece} {s : Bytes}
    (h : Spaced (.word (bytes x) :: t) s) : ∃ s', enumerator s = some (bytes x, s') ∧ Pos t s' := by
  obtain ⟨s1, e1, h1⟩ := p_ident (ident_is hx) h
  refine ⟨s1, ?_, h1⟩
  unfold enumerator
  rw [bind_ok (annots_none (pos_noAt (.of h) (id_first_ne (ident_is hx) _ (by decide)))), bind_ok e1]
  rfl

theorem enum_written {n : String} (hn : Usable n) {l : List String} (hne : l ≠ []) (hl : ∀ x ∈ l, Identifier x)
    {t : List Piece} {s : Bytes}
    (h : Pos (kword "enum" :: .word (bytes n) :: .sign 123 :: (commas (l.map fun x => [.word (bytes x)]) ++ .sign 125 :: t)) s) :
    ∃ s', constrDcl s = some (.enum (bytes n) (l.map bytes), s') ∧ Spaced t s' := by
  obtain ⟨s1, e1, h1⟩ := dkw_written (by decide) h
  obtain ⟨s2, e2, h2⟩ := p_ident (ident_is hn.1) h1
  obtain ⟨s3, e3, h3⟩ := p_sym (w := "{") (c := 123) rfl h2
  match l, hne, hl, h3 with
  | x :: l, _, hl, h3 =>
    have e0 : (x :: l).map (fun x => [Piece.word (bytes x)]) =
        ((bytes x, [Piece.word (bytes x)]) :: l.map fun y => (bytes y, [Piece.word (bytes y)])).map (·.2) := by
      rw [List.map_cons, List.map_cons, List.map_map]; rfl
    rw [e0] at h3
    obtain ⟨s4, s5, e4, e5, h5⟩ := p_commas (p := enumerator) (c := 125) (by decide) (fun y hy d t s _ hs => by
      obtain ⟨z, hz, rfl⟩ : ∃ z ∈ x :: l, y = (bytes z, [Piece.word (bytes z)]) := by
        rcases List.mem_cons.mp hy with rfl | hy
        · exact ⟨x, by simp, rfl⟩
        · obtain ⟨z, hz, rfl⟩ := List.mem_map.mp hy
          exact ⟨z, List.mem_cons_of_mem _ hz, rfl⟩
      exact enumerator_written (hl z hz) hs) h3
    obtain ⟨s6, e6, h6⟩ := p_sym (w := "}") (c := 125) rfl h5
    have no := fun {w} (hw : w ∈ defWords) (hne : w ≠ "enum") => dkw_other (by decide) h hw hne
    refine ⟨s6, choice_next (bind_no (no (w := "struct") (by decide) (by decide))) (choice_next (bind_no (no (w := "struct") (by decide)
      (by decide))) (choice_next (bind_no (no (w := "union") (by decide) (by decide))) (choice_next (bind_no (no (w := "union") (by decide)
      (by decide))) (choice_first ?_)))), h6⟩
    unfold enumDcl
    rw [bind_ok e1, bind_ok e2, bind_ok e3, bind_ok e4, bind_ok e5, bind_ok e6, List.map_map]; rfl

theorem const_dcl {T : TSpec} {ps : List Piece} (hT : ConstTypePieces T ps) {n : String} (hn : Usable n) {e : CExpr} {v : Bytes}
    (hv : ConstValue e v) {t : List Piece} {s : Bytes}
    (h : Pos (kword "const" :: (ps ++ .word (bytes n) :: .sign 61 :: .word v :: .sign 59 :: t)) s) :
    ∃ s', constDcl s = some (.const T (bytes n) e, s') ∧ Pos (.sign 59 :: t) s' := by
  obtain ⟨s1, e1, h1⟩ := dkw_written (by decide) h
  obtain ⟨s2, e2, h2⟩ := const_written hT (goes_name hn _) h1
  obtain ⟨s3, e3, h3⟩ := pos_ws h2
  obtain ⟨s4, e4, h4⟩ := p_ident (ident_is hn.1) h3
  obtain ⟨s5, e5, h5⟩ := p_sym (w := "=") (c := 61) rfl h4
  obtain ⟨s6, e6, h6⟩ := p_const hv h5
  refine ⟨s6, ?_, h6⟩
  unfold constDcl
  rw [bind_ok e1, bind_ok e2, bind_ok e3, bind_ok e4, bind_ok e5, bind_ok e6]; rfl

theorem typedef_written {T : TSpec} {ps : List Piece} (hT : TypePieces T ps) {l : List (Declr × List Piece)} (hl : l ≠ [])
    (hd : ∀ d ∈ l, DeclrPieces d.1 d.2) {t : List Piece} {s : Bytes}
    (h : Pos (kword "typedef" :: (ps ++ (commas (l.map (·.2)) ++ .sign 59 :: t))) s) :
    ∃ s', typedefDcl s = some (.typedef T (l.map fun d => some d.1), s') ∧ Pos (.sign 59 :: t) s' := by
  obtain ⟨s1, e1, h1⟩ := dkw_written (by decide) h
  have hcs : constrSpec s1 = none := by
    have k : ∀ w ∈ otherWords, kw w s1 = none := by
      intro w hw
      obtain ⟨p, r, rfl, hp⟩ := type_avoids hT hw
      exact p_kw_no ((by
        have : ∀ w ∈ otherWords, w ∈ defWords ∨ w = "case" ∨ w = "default" := by decide
        rcases this w hw with hw | rfl | rfl
        · exact (dkw_words w hw).1
        · exact caseWords.1
        · exact caseWords.2) : Word w) (.of h1) hp
    unfold constrSpec
    rw [bind_ok (annots_none (pos_noAt (.of h1) (type_plain hT _).at_))]
    refine bind_no ?_
    unfold constrDcl
    exact choice_next (bind_no (k _ (by decide))) (choice_next (bind_no (k _ (by decide)))
      (choice_next (bind_no (k _ (by decide))) (choice_next (bind_no (k _ (by decide)))
        (choice_next (bind_no (k _ (by decide))) (choice_next (bind_no (k _ (by decide)))
          (choice_next (bind_no (k _ (by decide))) rfl))))))
  have hlen := spaced_length h1
  rw [List.length_append] at hlen
  obtain ⟨s2, e2, h2⟩ := type_ok hT (commas_goes hl hd _) s1.length (by omega) h1
  obtain ⟨s3, e3, h3⟩ := pos_ws h2
  match l, hl, hd, h3 with
  | x :: l, _, hd, h3 =>
    have e0 : (x :: l).map (·.2) = ((some x.1, x.2) :: l.map fun y => (some y.1, y.2) : List (Option Declr × List Piece)).map (·.2) := by
      rw [List.map_cons, List.map_cons, List.map_map]; rfl
    rw [e0] at h3
    obtain ⟨s4, s5, e4, e5, h5⟩ := p_commas (p := anyDeclarator) (c := 59) (by decide) (fun y hy d t s hc hs => by
      obtain ⟨z, hz, rfl⟩ : ∃ z ∈ x :: l, y = (some z.1, z.2) := by
        rcases List.mem_cons.mp hy with rfl | hy
        · exact ⟨x, by simp, rfl⟩
        · obtain ⟨z, hz, rfl⟩ := List.mem_map.mp hy
          exact ⟨z, List.mem_cons_of_mem _ hz, rfl⟩
      obtain ⟨s', e, hp⟩ := declr_ok (hd z hz) (by rcases hc with rfl | rfl <;> decide) hs
      exact ⟨s', opt_some e, hp⟩) h3
    refine ⟨s5, ?_, h5⟩
    have e6 : typedefSpec s1 = some (T, s2) := by
      unfold typedefSpec
      rw [or_second hcs]; exact e2
    unfold typedefDcl
    rw [bind_ok e1, bind_ok e6, bind_ok e3, bind_ok e4, bind_ok e5, List.map_map]; rfl

/-! ## Declarations -/

theorem module_no {a : List Piece} (ha : Annots a) {v : String} (hv : v ∈ defWords) (hne : "module" ≠ v) {ps : List Piece} {s : Bytes}
    (h : At (a ++ kword v :: ps) s) (p : P Def) : moduleDcl p s = none := by
  obtain ⟨n, s1, e1, h1⟩ := annots_ok ha (def_plain hv ps) h
  unfold moduleDcl
  rw [bind_ok e1]
  exact bind_no (dkw_other hv h1 (by decide) hne)

/-- Constructed types with annotations before them. -/
theorem constr_written {a : List Piece} (ha : Annots a) {v : String} (hv : v ∈ ["struct", "union", "enum", "bitset", "bitmask"]) {ps t : List Piece} {d : Def}
    (hd : ∀ s, Pos (kword v :: ps) s → ∃ s', constrDcl s = some (d, s') ∧ Pos (.sign 59 :: t) s') {s : Bytes}
    (h : At (a ++ kword v :: ps) s) (f : Nat) : ∃ s', definition (f + 1) s = some (d, s') ∧ At t s' := by
  have hv' : v ∈ defWords := (by decide : ∀ v ∈ ["struct", "union", "enum", "bitset", "bitmask"], v ∈ defWords) v hv
  have hne : "module" ≠ v ∧ "const" ≠ v := (by decide : ∀ v ∈ ["struct", "union", "enum", "bitset", "bitmask"], "module" ≠ v ∧ "const" ≠ v) v hv
  obtain ⟨n, s1, e1, h1⟩ := annots_ok ha (def_plain hv' ps) h
  obtain ⟨s2, e2, h2⟩ := hd s1 h1
  obtain ⟨s3, e3, h3⟩ := p_sym (w := ";") (c := 59) rfl h2
  refine ⟨s3, definitionWith_ok (choice_next (module_no ha hv' hne.1 h _) (choice_next (bind_no (front_other ha hv' h.1 (by decide) hne.2))
    (choice_first ?_))) e3, .of h3⟩
  unfold constrType
  rw [bind_ok e1]; exact e2

theorem definition_stop {t : List Piece} {s : Bytes} (h : Pos (.sign 125 :: t) s) (f : Nat) : definition f s = none := by
  obtain ⟨l0, s0, hl0, rfl, h⟩ := h
  obtain ⟨l, s', rfl, hp, hl, hb, h'⟩ := spaced_cons h
  cases f with
  | zero => rfl
  | succ f => exact (definition_skip f hl0 (spaced_clean h) (by exact (by decide : 125 ≠ 64))).trans (definition_brace f _)

theorem noAnnots : Annots [] := ⟨[], rfl, by simp⟩

theorem def_ne {d : Def} {ps : List Piece} (h : DefPieces d ps) : ps ≠ [] := by
  cases h <;> simp

/-- Items of a module or of a document. -/
theorem defs_ok {f : Nat} {l : List (Def × List Piece)} (hne : l ≠ []) {rest : List Piece}
    (stop : ∀ s, At rest s → definition f s = none)
    (h : ∀ d ∈ l, d.2 ≠ [] ∧ ∀ t s, At (d.2 ++ t) s → ∃ s', definition f s = some (d.1, s') ∧ At t s') {s : Bytes}
    (hs : At (l.flatMap (·.2) ++ rest) s) :
    ∃ s', (definition f).plus s = some (l.map (·.1), s') ∧ At rest s' := by
  match l, hne, h, hs with
  | y :: l, _, h, hs =>
    rw [List.flatMap_cons, List.append_assoc] at hs
    obtain ⟨s1, e1, h1⟩ := (h y (by simp)).2 _ _ hs
    obtain ⟨s', hrun, hq⟩ := p_run (p := definition f) (Q := At) (ok := fun _ => True) stop trivial (fun _ _ _ => trivial)
      (fun x hx t s _ hs => (h x (List.mem_cons_of_mem _ hx)).2 t s hs) h1
    have h2 := pos_length h1.1
    have h3 := items_length (items := l) (fun x hx => (h x (List.mem_cons_of_mem _ hx)).1) rest
    refine ⟨s', ?_, hq⟩
    unfold P.plus
    rw [bind_ok e1, bind_ok (star_run hrun (by rw [List.length_map]; omega))]; rfl

theorem mem_length {l : List (Def × List Piece)} {d : Def × List Piece} (h : d ∈ l) : d.2.length ≤ (l.flatMap (·.2)).length := by
  induction l with
  | nil => cases h
  | cons x l ih =>
    rw [List.flatMap_cons, List.length_append]
    rcases List.mem_cons.mp h with rfl | h
    · omega
    · have := ih h; omega

/-! ## Declarations that are ignored -/

theorem pos_noId {c : Nat} (hc : c ∈ signs) {t : List Piece} {s : Bytes} (h : Pos (.sign c :: t) s) : identifier s = none := by
  obtain ⟨l0, s0, hl0, rfl, h⟩ := h
  obtain ⟨l, s', rfl, hp, hl, hb, h'⟩ := spaced_cons h
  refine identifier_no ?_
  cases l0 with
  | nil =>
    have := (sign_facts c hc).1
    simp only [idChar, Bool.or_eq_false_iff] at this
    exact this.1
  | cons x l0 =>
    have hh : x = 32 ∨ x = 9 ∨ x = 13 ∨ x = 10 ∨ x = 47 := layout_head hl0
    show idStart x = false
    rcases hh with rfl | rfl | rfl | rfl | rfl <;> decide

theorem field_word : Word "bitfield" := word_of (by decide)

theorem field_plain (ps : List Piece) : Plain (kword "bitfield" :: ps) :=
  ⟨(by decide : some 98 ≠ some 64), (by decide : some 98 ≠ some 58), (by decide : some 98 ≠ some 40)⟩

theorem fieldType_ok {k : PK} {ws : List String} (hk : ws ∈ spellings k) (hf : k ∉ [.f32, .f64, .f128, .c8, .wc]) {t : List Piece} {s : Bytes}
    (h : Spaced (ws.map kword ++ .sign 62 :: t) s) :
    ∃ s', choice [do kw "boolean"; pure (.prim .bool), do kw "octet"; pure (.prim .u8), signedInt.or unsignedInt] s =
      some (TSpec.prim k, s') ∧ Spaced (.sign 62 :: t) s' := by
  have hr : Goes (.sign 62 :: t) := goes_sign (by decide) (by decide)
  rcases spelling_cases hk with hi | ho
  · obtain ⟨⟨v, hv, ps, hp⟩, _⟩ := int_front hi hr h
    have hv' : v ∈ typeWords := (by decide : ∀ w ∈ intWords, w ∈ typeWords) v hv
    have ne : ∀ w ∈ ["boolean", "octet"], w ≠ v := fun w hw => (by decide : ∀ v ∈ intWords, ∀ w ∈ ["boolean", "octet"], w ≠ v) v hv w hw
    obtain ⟨s', e, hs⟩ := ints_ok hi hr h
    exact ⟨s', choice_next (pass (kw_other hv' hp (by decide) (ne "boolean" (by decide)))) (choice_next (pass (kw_other hv' hp
      (by decide) (ne "octet" (by decide)))) (choice_first e)), hs⟩
  · simp only [otherSpellings, List.mem_cons, List.not_mem_nil, or_false, Prod.mk.injEq] at ho
    rcases ho with ⟨rfl, rfl⟩ | ⟨rfl, rfl⟩ | ⟨rfl, rfl⟩ | ⟨rfl, rfl⟩ | ⟨rfl, rfl⟩ | ⟨rfl, rfl⟩ | ⟨rfl, rfl⟩
    · exact absurd hf (by decide)
    · exact absurd hf (by decide)
    · exact absurd hf (by decide)
    · have h : Spaced (kword "octet" :: .sign 62 :: t) s := h
      obtain ⟨s', e, hs⟩ := p_kw (type_pieces "octet" (by decide)).1 (.of h)
      exact ⟨s', choice_next (pass (kw_other (v := "octet") (by decide) (.of h) (by decide) (by decide))) (choice_first (pick e)), hs⟩
    · exact absurd hf (by decide)
    · exact absurd hf (by decide)
    · have h : Spaced (kword "boolean" :: .sign 62 :: t) s := h
      obtain ⟨s', e, hs⟩ := p_kw (type_pieces "boolean" (by decide)).1 (.of h)
      exact ⟨s', choice_first (pick e), hs⟩

theorem field_ok {ps : List Piece} (hf : FieldPieces ps) {t : List Piece} {s : Bytes} (h : Spaced (ps ++ t) s) :
    ∃ s', bitfield s = some ((), s') ∧ Spaced t s' := by
  cases hf with
  | @mk a d b qs ns ha hd hq hn =>
    have e0 : a ++ kword "bitfield" :: .sign 60 :: .word b :: (qs ++ .sign 62 :: (ns ++ [.sign 59])) ++ t =
        a ++ kword "bitfield" :: .sign 60 :: .word b :: (qs ++ .sign 62 :: (ns ++ .sign 59 :: t)) := by simp
    rw [e0] at h
    obtain ⟨n, s1, e1, h1⟩ := annots_ok ha (field_plain _) (.of h)
    obtain ⟨s2, e2, h2⟩ := p_kw field_word h1
    obtain ⟨s3, e3, h3⟩ := p_sym (w := "<") (c := 60) rfl (.of h2)
    have h4 : ∃ s4, positiveInt s3 = some (d, s4) ∧ Pos (qs ++ .sign 62 :: (ns ++ .sign 59 :: t)) s4 := by
      rcases hq with rfl | ⟨k, ws, _, _, rfl⟩
      · exact p_size hd h3 (by decide)
      · exact p_size hd h3 (by decide)
    obtain ⟨s4, e4, h4⟩ := h4
    have h5 : ∃ o s5, (do sym ","; choice [do kw "boolean"; pure (.prim .bool), do kw "octet"; pure (.prim .u8), signedInt.or unsignedInt]
        : P TSpec).opt s4 = some (o, s5) ∧ Pos (.sign 62 :: (ns ++ .sign 59 :: t)) s5 := by
      rcases hq with rfl | ⟨k, ws, hk, hf, rfl⟩
      · exact ⟨none, s4, opt_none (bind_no (p_sym_no (w := ",") (c := 44) rfl h4 (by exact (by decide : some 62 ≠ some 44)))), h4⟩
      · obtain ⟨s5, e5, h5⟩ := p_sym (w := ",") (c := 44) rfl h4
        obtain ⟨s6, e6, h6⟩ := fieldType_ok hk hf h5
        exact ⟨some (.prim k), s6, opt_some (by rw [bind_ok e5]; exact e6), .of h6⟩
    obtain ⟨o, s5, e5, h5⟩ := h5
    obtain ⟨s6, e6, h6⟩ := p_sym (w := ">") (c := 62) rfl h5
    have h7 : ∃ l s7, identifier.star s6 = some (l, s7) ∧ Pos (.sign 59 :: t) s7 := by
      rcases hn with rfl | ⟨n, hn, rfl⟩
      · exact ⟨[], s6, star_run (.nil (pos_noId (by decide) (.of h6))) (Nat.zero_le _), .of h6⟩
      · obtain ⟨s7, e7, h7⟩ := p_ident (ident_is hn) h6
        refine ⟨[bytes n], s7, star_run (.cons e7 (.nil (pos_noId (by decide) h7))) ?_, h7⟩
        have := spaced_length h6
        simp only [List.length_append, List.length_cons, List.length_nil] at this ⊢
        omega
    obtain ⟨l, s7, e7, h7⟩ := h7
    obtain ⟨s8, e8, h8⟩ := p_sym (w := ";") (c := 59) rfl h7
    refine ⟨s8, ?_, h8⟩
    unfold bitfield
    rw [bind_ok e1, bind_ok e2, bind_ok e3, bind_ok e4, bind_ok e5, bind_ok e6, bind_ok e7, e8]

theorem field_stop {t : List Piece} {s : Bytes} (h : Spaced (.sign 125 :: t) s) : bitfield s = none := by
  unfold bitfield
  rw [bind_ok (annots_none (pos_noAt (.of h) (by exact (by decide : some 125 ≠ some 64))))]
  exact bind_no (p_kw_no field_word (p := .sign 125) (.of h) trivial)

theorem field_ne {ps : List Piece} (h : FieldPieces ps) : ps ≠ [] := by
  cases h; simp

theorem bitset_written {n : String} (hn : Usable n) {p : Option Bytes} {ps : List Piece} (hp : ParentPieces p ps)
    {l : List (List Piece)} (hl : ∀ x ∈ l, FieldPieces x) (hpl : p ≠ none ∨ l ≠ []) {t : List Piece} {s : Bytes}
    (h : Pos (kword "bitset" :: .word (bytes n) :: (ps ++ .sign 123 :: (l.flatten ++ .sign 125 :: t))) s) :
    ∃ s', constrDcl s = some (.ignored (bytes n), s') ∧ Spaced t s' := by
  obtain ⟨s1, e1, h1⟩ := dkw_written (by decide) h
  obtain ⟨s2, e2, h2⟩ := p_ident (ident_is hn.1) h1
  obtain ⟨s3, e3, h3⟩ := parent_ok hp h2
  obtain ⟨s4, e4, h4⟩ := p_sym (w := "{") (c := 123) rfl h3
  have e0 : l.flatten = (l.map fun y => ((), y)).flatMap (·.2) := by
    rw [List.flatMap_map]; exact List.flatMap_id.symm
  rw [e0] at h4
  obtain ⟨s5, hrun, h5⟩ := p_run (p := bitfield) (Q := Spaced) (ok := fun _ => True) (fun s => field_stop) trivial (fun _ _ _ => trivial)
    (fun x hx t s _ hs => by
      obtain ⟨y, hy, rfl⟩ := List.mem_map.mp hx
      exact field_ok (hl y hy) hs) h4
  have hlen := spaced_length h4
  have hlen' := items_length (items := l.map fun y => ((), y)) (fun x hx => by
    obtain ⟨y, hy, rfl⟩ := List.mem_map.mp hx
    exact field_ne (hl y hy)) (.sign 125 :: t)
  have e5 := star_run hrun (by rw [List.length_map]; omega)
  obtain ⟨s6, e6, h6⟩ := p_sym (w := "}") (c := 125) rfl (.of h5)
  have no := fun {w} (hw : w ∈ defWords) (hne : w ≠ "bitset") => dkw_other (by decide) h hw hne
  refine ⟨s6, choice_next (bind_no (no (w := "struct") (by decide) (by decide))) (choice_next (bind_no (no (w := "struct") (by decide)
    (by decide))) (choice_next (bind_no (no (w := "union") (by decide) (by decide))) (choice_next (bind_no (no (w := "union") (by decide)
    (by decide))) (choice_next (bind_no (no (w := "enum") (by decide) (by decide))) (choice_first ?_))))), h6⟩
  unfold bitsetDcl
  rw [bind_ok e1, bind_ok e2, bind_ok e3, bind_ok e4, bind_ok e5, bind_ok e6, if_neg]
  · rfl
  · rintro ⟨hp, hl⟩
    rcases hpl with h | h
    · exact h hp
    · exact h (by simpa using hl)

theorem bitValue_ok {a : List Piece} (ha : Annots a) {x : String} (hx : Identifier x) {t : List Piece} {s : Bytes}
    (h : Spaced (a ++ [.word (bytes x)] ++ t) s) : ∃ s', bitValue s = some ((), s') ∧ Pos t s' := by
  obtain ⟨l, rfl, hl⟩ := ha
  have e0 : l.flatten = (l.map fun y => ((), y)).flatMap (·.2) := by
    rw [List.flatMap_map]; exact List.flatMap_id.symm
  rw [e0, List.append_assoc] at h
  have hat : first ([Piece.word (bytes x)] ++ t) ≠ some 64 := id_first_ne (ident_is hx) _ (by decide)
  obtain ⟨s1, hrun, h1⟩ := p_run (p := (do annot; wsOpt : P Unit)) (Q := Spaced) (ok := fun t => first t ≠ some 58 ∧ first t ≠ some 40)
    (fun s hs => bind_no (annot_none (pos_noAt (.of hs) hat)))
    ⟨id_first_ne (ident_is hx) _ (by decide), id_first_ne (ident_is hx) _ (by decide)⟩
    (items := l.map fun y => ((), y))
    (by
      intro y hy t
      obtain ⟨z, hz, rfl⟩ := List.mem_map.mp hy
      obtain ⟨n, r, rfl⟩ := annotPieces_mark (hl z hz)
      exact ⟨(by decide : some 64 ≠ some 58), (by decide : some 64 ≠ some 40)⟩)
    (by
      intro y hy t s ht hs
      obtain ⟨z, hz, rfl⟩ := List.mem_map.mp hy
      obtain ⟨s1, e1, h1, _⟩ := annot_ok (hl z hz) ht.1 ht.2 hs
      obtain ⟨s2, e2, h2⟩ := pos_ws h1
      exact ⟨s2, by rw [bind_ok e1]; exact e2, h2⟩)
    h
  have hlen := spaced_length h
  have hl' := items_length (items := l.map fun y => ((), y))
    (by
      intro y hy
      obtain ⟨z, hz, rfl⟩ := List.mem_map.mp hy
      obtain ⟨n, r, rfl⟩ := annotPieces_mark (hl z hz)
      exact List.cons_ne_nil _ _) ([.word (bytes x)] ++ t)
  have e1 := star_run hrun (by rw [List.length_map]; omega)
  obtain ⟨s2, e2, h2⟩ := p_ident (ident_is hx) (by exact h1)
  refine ⟨s2, ?_, h2⟩
  unfold bitValue
  rw [bind_ok e1, bind_ok e2]; rfl

theorem bitmask_written {n : String} (hn : Usable n) {l : List (List Piece × String)} (hne : l ≠ [])
    (hl : ∀ x ∈ l, Annots x.1 ∧ Identifier x.2) {t : List Piece} {s : Bytes}
    (h : Pos (kword "bitmask" :: .word (bytes n) :: .sign 123 ::
      (commas (l.map fun x => x.1 ++ [.word (bytes x.2)]) ++ .sign 125 :: t)) s) :
    ∃ s', constrDcl s = some (.ignored (bytes n), s') ∧ Spaced t s' := by
  obtain ⟨s1, e1, h1⟩ := dkw_written (by decide) h
  obtain ⟨s2, e2, h2⟩ := p_ident (ident_is hn.1) h1
  obtain ⟨s3, e3, h3⟩ := p_sym (w := "{") (c := 123) rfl h2
  match l, hne, hl, h3 with
  | x :: l, _, hl, h3 =>
    have e0 : (x :: l).map (fun x => x.1 ++ [Piece.word (bytes x.2)]) =
        (((), x.1 ++ [Piece.word (bytes x.2)]) :: l.map fun y => ((), y.1 ++ [Piece.word (bytes y.2)])).map (·.2) := by
      rw [List.map_cons, List.map_cons, List.map_map]; rfl
    rw [e0] at h3
    obtain ⟨s4, s5, e4, e5, h5⟩ := p_commas (p := bitValue) (c := 125) (by decide) (fun y hy d t s _ hs => by
      obtain ⟨z, hz, rfl⟩ : ∃ z ∈ x :: l, y = ((), z.1 ++ [Piece.word (bytes z.2)]) := by
        rcases List.mem_cons.mp hy with rfl | hy
        · exact ⟨x, by simp, rfl⟩
        · obtain ⟨z, hz, rfl⟩ := List.mem_map.mp hy
          exact ⟨z, List.mem_cons_of_mem _ hz, rfl⟩
      exact bitValue_ok (hl z hz).1 (hl z hz).2 hs) h3
    obtain ⟨s6, e6, h6⟩ := p_sym (w := "}") (c := 125) rfl h5
    have no := fun {w} (hw : w ∈ defWords) (hne : w ≠ "bitmask") => dkw_other (by decide) h hw hne
    refine ⟨s6, choice_next (bind_no (no (w := "struct") (by decide) (by decide))) (choice_next (bind_no (no (w := "struct") (by decide)
      (by decide))) (choice_next (bind_no (no (w := "union") (by decide) (by decide))) (choice_next (bind_no (no (w := "union") (by decide)
      (by decide))) (choice_next (bind_no (no (w := "enum") (by decide) (by decide))) (choice_next (bind_no (no (w := "bitset") (by decide)
      (by decide))) (choice_first ?_)))))), h6⟩
    unfold bitmaskDcl
    rw [bind_ok e1, bind_ok e2, bind_ok e3, bind_ok e4, bind_ok e5, bind_ok e6]; rfl

theorem default_ok {ps : List Piece} {v : Bytes} {e : CExpr} (h : ps = [] ∨ ps = [kword "default", .word v] ∧ ConstValue e v) {t : List Piece}
    {s : Bytes} (hs : Pos (ps ++ .sign 59 :: t) s) :
    ∃ o s', (do kw "default"; expression : P CExpr).opt s = some (o, s') ∧ Pos (.sign 59 :: t) s' := by
  rcases h with rfl | ⟨rfl, hv⟩
  · have e1 : (do kw "default"; expression : P CExpr) s = none := bind_no (p_kw_no caseWords.2 (p := .sign 59) hs trivial)
    exact ⟨none, s, opt_none e1, hs⟩
  · obtain ⟨s1, e1, h1⟩ := p_kw caseWords.2 hs
    obtain ⟨s2, e2, h2⟩ := p_const hv h1
    exact ⟨some e, s2, opt_some (by rw [bind_ok e1]; exact e2), h2⟩

theorem annotMember_ok {ps : List Piece} (hm : AnnotMemberPieces ps) {t : List Piece} {s : Bytes} (h : Spaced (ps ++ t) s) :
    ∃ s', annotMember s = some ((), s') ∧ Spaced t s' := by
  have key : ∀ {T : TSpec} {ps ds : List Piece} {n : String} {e : CExpr} {v : Bytes}, ConstTypePieces T ps → Usable n →
      (ds = [] ∨ ds = [kword "default", .word v] ∧ ConstValue e v) → Spaced (ps ++ .word (bytes n) :: (ds ++ .sign 59 :: t)) s →
      ∃ s', annotMember s = some ((), s') ∧ Spaced t s' := by
    intro T ps ds n e v hT hn hd h
    obtain ⟨s2, e2, h2⟩ := const_written hT (goes_name hn _) h
    obtain ⟨s3, e3, h3⟩ := pos_ws h2
    obtain ⟨s4, e4, h4⟩ := p_ident (ident_is hn.1) h3
    obtain ⟨o, s5, e5, h5⟩ := default_ok hd h4
    obtain ⟨s6, e6, h6⟩ := p_sym (w := ";") (c := 59) rfl h5
    refine ⟨s6, ?_, h6⟩
    unfold annotMember
    rw [bind_ok (wsOpt_clean (spaced_clean h)), bind_ok e2, bind_ok e3, bind_ok e4, bind_ok e5, e6]
  cases hm with
  | @plain T ps n hT hn =>
    refine key (v := []) (e := .name []) hT hn (.inl rfl) ?_
    simpa using h
  | @default T ps n e v hT hn hv =>
    refine key hT hn (.inr ⟨rfl, hv⟩) ?_
    simpa using h

theorem annotMember_ne {ps : List Piece} (h : AnnotMemberPieces ps) : ps ≠ [] := by
  cases h <;> simp

/-- The rule for a member of a declaration of an annotation. -/
def annotItem : P Unit := choice [annotMember, do let _ ← enumDcl; sym ";", do let _ ← constDcl; sym ";", do let _ ← typedefDcl; sym ";"]

theorem annotItem_stop {t : List Piece} {s : Bytes} (h : Spaced (.sign 125 :: t) s) : annotItem s = none := by
  have no : ∀ w ∈ typeWords, kw w s = none := fun w hw => p_kw_no (type_pieces w hw).1 (p := .sign 125) (.of h) trivial
  have no' : ∀ w ∈ defWords, kw w s = none := fun w hw => p_kw_no (dkw_words w hw).1 (p := .sign 125) (.of h) trivial
  have no2 : kw2 "long" "double" s = none := p_kw2_no (type_pieces "long" (by decide)).1 (p := .sign 125) (.of h) trivial
  have hsc : scopedId s = none := by
    obtain ⟨l, s', rfl, hp, hl, hb, h'⟩ := spaced_cons h
    have hid : Head (fun c => idStart c = false) (125 :: (l ++ s')) := (by decide : idStart 125 = false)
    show scopedId (125 :: (l ++ s')) = none
    unfold scopedId
    rw [scopedIdFrom_succ, or_second (bind_no (identifier_no hid)), or_second (bind_no (lit_no (strip_colon
      (by exact (by decide : 125 ≠ 58)))))]
    exact identifier_no hid
  have hct : constType s = none :=
    choice_next (pass (no "float" (by decide))) (choice_next (pass (no "double" (by decide))) (choice_next (pass no2)
      (choice_next (pass (no "fixed" (by decide))) (choice_next (ints_no (p := .sign 125) (.of h) fun w hw => trivial)
      (choice_next (pass (no "char" (by decide))) (choice_next (pass (no "wchar" (by decide))) (choice_next (pass (no "boolean" (by decide)))
      (choice_next (pass (no "string" (by decide))) (choice_next (pass (no "wstring" (by decide))) (choice_next (bind_no hsc) rfl))))))))))
  refine choice_next ?_ (choice_next (bind_no (bind_no (no' "enum" (by decide)))) (choice_next (bind_no (bind_no (no' "const" (by decide))))
    (choice_next (bind_no (bind_no (no' "typedef" (by decide)))) rfl)))
  unfold annotMember
  rw [bind_ok (wsOpt_clean (spaced_clean h))]
  exact bind_no hct

theorem annotationDcl_ok {n : String} (hn : Usable n) {l : List (List Piece)} (hl : ∀ m ∈ l, AnnotMemberPieces m) {t : List Piece} {s : Bytes}
    (h : Spaced (.mark (bytes "annotation") :: .word (bytes n) :: .sign 123 :: (l.flatten ++ .sign 125 :: t)) s) :
    ∃ s', annotationDcl s = some (.skip, s') ∧ Spaced t s' := by
  have h1 : ∃ s1, kw "@annotation" s = some ((), s1) ∧ Spaced (.word (bytes n) :: .sign 123 :: (l.flatten ++ .sign 125 :: t)) s1 := by
    obtain ⟨l0, s1, rfl, hp, hl0, hb, h1⟩ := spaced_cons h
    refine ⟨s1, ?_, h1⟩
    have hg := gap_mark hl0 hb h1 (id_first_ne (ident_is hn.1) _ (by decide))
    have hg : Head (fun c => idStart c = false) (l0 ++ s1) := by
      cases e : l0 ++ s1 with
      | nil => trivial
      | cons c r =>
        rw [e] at hg
        have := hg.1
        simp only [idChar, Bool.or_eq_false_iff] at this
        exact this.1
    show kw "@annotation" (bytes "@annotation" ++ (l0 ++ s1)) = _
    unfold kw
    rw [bind_ok (wsOpt_clean (by exact ⟨by decide, by decide⟩)), bind_ok (lit_ok _ _), bind_ok (endKw_ok hg)]
    exact wsOpt_ok hl0 (spaced_clean h1)
  obtain ⟨s1, e1, h1⟩ := h1
  obtain ⟨s2, e2, h2⟩ := p_ident (ident_is hn.1) h1
  obtain ⟨s3, e3, h3⟩ := p_sym (w := "{") (c := 123) rfl h2
  have e0 : l.flatten = (l.map fun y => ((), y)).flatMap (·.2) := by
    rw [List.flatMap_map]; exact List.flatMap_id.symm
  rw [e0] at h3
  obtain ⟨s4, hrun, h4⟩ := p_run (p := annotItem) (Q := Spaced) (ok := fun _ => True) (fun s => annotItem_stop) trivial (fun _ _ _ => trivial)
    (fun x hx t s _ hs => by
      obtain ⟨y, hy, rfl⟩ := List.mem_map.mp hx
      obtain ⟨s', e, h⟩ := annotMember_ok (hl y hy) hs
      exact ⟨s', choice_first e, h⟩) h3
  have hlen := spaced_length h3
  have hlen' := items_length (items := l.map fun y => ((), y)) (fun x hx => by
    obtain ⟨y, hy, rfl⟩ := List.mem_map.mp hx
    exact annotMember_ne (hl y hy)) (.sign 125 :: t)
  have e4 := star_run hrun (by rw [List.length_map]; omega)
  unfold annotItem at e4
  obtain ⟨s5, e5, h5⟩ := p_sym (w := "}") (c := 125) rfl (.of h4)
  refine ⟨s5, ?_, h5⟩
  unfold annotationDcl
  rw [bind_ok e1, bind_ok e2, bind_ok e3, bind_ok e4, bind_ok e5]; rfl

theorem constrDcl_no {s : Bytes} (k : ∀ w ∈ defWords, kw w s = none) : constrDcl s = none :=
  choice_next (bind_no (k "struct" (by decide))) (choice_next (bind_no (k "struct" (by decide)))
    (choice_next (bind_no (k "union" (by decide))) (choice_next (bind_no (k "union" (by decide)))
      (choice_next (bind_no (k "enum" (by decide))) (choice_next (bind_no (k "bitset" (by decide)))
        (choice_next (bind_no (k "bitmask" (by decide))) rfl))))))

theorem annotation_name : TypeName "annotation" := by
  refine ⟨["annotation"], by simp, rfl, fun a ha => ?_⟩
  rw [List.mem_singleton.mp ha]
  refine ⟨⟨'a', "nnotation".toList, by decide, by decide, by decide⟩, fun w hw r e => ?_⟩
  have : ∀ w ∈ keywords, w.toList.isPrefixOf "annotation".toList = false := by decide
  have h1 := this w hw
  have h2 : w.toList.isPrefixOf (w.toList ++ r) = true := List.isPrefixOf_iff_prefix.mpr ⟨r, rfl⟩
  rw [← e, h1] at h2
  exact absurd h2 (by decide)

theorem annotation_written {n : String} (hn : Usable n) {l : List (List Piece)} (hl : ∀ m ∈ l, AnnotMemberPieces m) {t : List Piece}
    {s : Bytes} (h : Spaced (.mark (bytes "annotation") :: .word (bytes n) :: .sign 123 :: (l.flatten ++ .sign 125 :: .sign 59 :: t)) s)
    (f : Nat) : ∃ s', definition (f + 1) s = some (.skip, s') ∧ Spaced t s' := by
  obtain ⟨s1, e1, h1⟩ := annotationDcl_ok hn hl h
  obtain ⟨s2, e2, h2⟩ := p_sym (w := ";") (c := 59) rfl (.of h1)
  have ha : Annots [.mark (bytes "annotation")] :=
    ⟨[[.mark (bytes "annotation")]], rfl, fun a ha => by rw [List.mem_singleton.mp ha]; exact .plain annotation_name⟩
  obtain ⟨k, s3, e3, h3⟩ := annots_ok ha (rest := .word (bytes n) :: .sign 123 :: (l.flatten ++ .sign 125 :: .sign 59 :: t))
    ⟨id_first_ne (ident_is hn.1) _ (by decide), id_first_ne (ident_is hn.1) _ (by decide), id_first_ne (ident_is hn.1) _ (by decide)⟩ (.of h)
  have no : ∀ w ∈ defWords, kw w s3 = none := fun w hw =>
    p_kw_no (dkw_words w hw).1 h3 (avoids_usable hn ((by decide : ∀ w ∈ defWords, w ∈ keywords) w hw))
  have no' : ∀ w ∈ defWords, kw w s = none := fun w hw => p_kw_no (dkw_words w hw).1 (p := .mark (bytes "annotation")) (.of h) trivial
  refine ⟨s2, definitionWith_ok (choice_next ?_ (choice_next (bind_no (no' "const" (by decide))) (choice_next ?_ (choice_next
    (bind_no (no' "native" (by decide))) (choice_next (bind_no (no' "typedef" (by decide))) (choice_first e1)))))) e2, h2⟩
  · unfold moduleDcl
    rw [bind_ok e3]
    exact bind_no (no "module" (by decide))
  · unfold constrType
    rw [bind_ok e3]
    exact constrDcl_no no

theorem line_written {b : Bytes} {t : List Piece} {s : Bytes} (h : Pos (.line b :: t) s) (f : Nat) :
    ∃ s', definition (f + 1) s = some (.skip, s') ∧ At t s' := by
  obtain ⟨l0, s0, hl0, rfl, h⟩ := h
  obtain ⟨l, s', rfl, ⟨u, e, rfl, hu, hue, he⟩, hl, hb, h'⟩ := spaced_cons h
  have hpos : Pos (.line (u ++ e) :: t) (l0 ++ ((Piece.line (u ++ e)).text ++ (l ++ s'))) := ⟨l0, _, hl0, rfl, h⟩
  refine ⟨l ++ s', ?_, ⟨l, s', hl, rfl, h'⟩, ?_⟩
  · have no : ∀ w ∈ defWords, kw w (l0 ++ ((Piece.line (u ++ e)).text ++ (l ++ s'))) = none := fun w hw =>
      p_kw_no (dkw_words w hw).1 (p := .line (u ++ e)) hpos trivial
    have hat := annots_none (pos_noAt hpos (by exact (by decide : some 35 ≠ some 64)))
    have hd : directive (l0 ++ ((Piece.line (u ++ e)).text ++ (l ++ s'))) = some (.skip, l ++ s') := by
      have e0 : (Piece.line (u ++ e)).text ++ (l ++ s') = 35 :: (u ++ (e ++ (l ++ s'))) := by
        show 35 :: (u ++ e) ++ (l ++ s') = _
        simp
      have e1 : lit "#" (35 :: (u ++ (e ++ (l ++ s')))) = some ((), u ++ (e ++ (l ++ s'))) := lit_ok "#" _
      unfold directive
      rw [e0, bind_ok (wsOpt_ok hl0 (by exact ⟨by decide, by decide⟩)), bind_ok e1, bind_ok (star_chain (line_chain he (l ++ s') u hu hue)),
        bind_ok (eol_ok he (l ++ s'))]
      rfl
    rw [definition_succ]
    refine (or_second (bind_no (choice_next ?_ (choice_next (bind_no (no "const" (by decide))) (choice_next ?_ (choice_next
      (bind_no (no "native" (by decide))) (choice_next (bind_no (no "typedef" (by decide))) (choice_next (bind_no ?_) (by rfl))))))))).trans hd
    · unfold moduleDcl
      rw [bind_ok hat]
      exact bind_no (no "module" (by decide))
    · unfold constrType
      rw [bind_ok hat]
      exact constrDcl_no no
    · refine kw_no hl0 (spaced_clean h) (notAt_none ?_)
      exact strip_head (c := 64) (w := "@annotation") rfl (by exact (by decide : 35 ≠ 64))
  · rintro ⟨x, r, rfl⟩
    have hb : l = [] := hb
    rw [hb]; exact h'

/-- A declaration is read, whatever follows. -/
theorem def_written {d : Def} {ps : List Piece} (h : DefPieces d ps) : ∀ f, ps.length ≤ f → ∀ t s, At (ps ++ t) s →
    ∃ s', definition f s = some (d, s') ∧ At t s' := by
  induction h with
  | @struct a n p ps l ha hn hp hl =>
    intro f hf t s h
    obtain ⟨f, rfl⟩ : ∃ g, f = g + 1 := ⟨f - 1, by simp only [List.length_append, List.length_cons] at hf; omega⟩
    have e0 : a ++ kword "struct" :: .word (bytes n) :: (ps ++ .sign 123 :: (l.flatMap (·.2) ++ [.sign 125, .sign 59])) ++ t =
        a ++ kword "struct" :: .word (bytes n) :: (ps ++ .sign 123 :: (l.flatMap (·.2) ++ .sign 125 :: .sign 59 :: t)) := by simp
    rw [e0] at h
    refine constr_written ha (by decide) (fun s hs => ?_) h f
    obtain ⟨s', e, h⟩ := struct_written hn hp hl hs
    exact ⟨s', e, .of h⟩
  | @forward a n ha hn =>
    intro f hf t s h
    obtain ⟨f, rfl⟩ : ∃ g, f = g + 1 := ⟨f - 1, by simp only [List.length_append, List.length_cons] at hf; omega⟩
    have e0 : a ++ [kword "struct", .word (bytes n), .sign 59] ++ t = a ++ kword "struct" :: .word (bytes n) :: .sign 59 :: t := by simp
    rw [e0] at h
    exact constr_written ha (by decide) (fun s hs => forward_written hn hs) h f
  | @union a n T ps l ha hn hT hne hl =>
    intro f hf t s h
    obtain ⟨f, rfl⟩ : ∃ g, f = g + 1 := ⟨f - 1, by simp only [List.length_append, List.length_cons] at hf; omega⟩
    have e0 : a ++ kword "union" :: .word (bytes n) :: kword "switch" :: .sign 40 ::
          (ps ++ .sign 41 :: .sign 123 :: (l.flatMap (·.2) ++ [.sign 125, .sign 59])) ++ t =
        a ++ kword "union" :: .word (bytes n) :: kword "switch" :: .sign 40 ::
          (ps ++ .sign 41 :: .sign 123 :: (l.flatMap (·.2) ++ .sign 125 :: .sign 59 :: t)) := by simp
    rw [e0] at h
    refine constr_written ha (by decide) (fun s hs => ?_) h f
    obtain ⟨s', e, h⟩ := union_written hn hT hne hl hs
    exact ⟨s', e, .of h⟩
  | @unionForward a n ha hn =>
    intro f hf t s h
    obtain ⟨f, rfl⟩ : ∃ g, f = g + 1 := ⟨f - 1, by simp only [List.length_append, List.length_cons] at hf; omega⟩
    have e0 : a ++ [kword "union", .word (bytes n), .sign 59] ++ t = a ++ kword "union" :: .word (bytes n) :: .sign 59 :: t := by simp
    rw [e0] at h
    exact constr_written ha (by decide) (fun s hs => unionForward_written hn hs) h f
  | @enum a n l ha hn hne hl =>
    intro f hf t s h
    obtain ⟨f, rfl⟩ : ∃ g, f = g + 1 := ⟨f - 1, by simp only [List.length_append, List.length_cons] at hf; omega⟩
    have e0 : a ++ kword "enum" :: .word (bytes n) :: .sign 123 :: (commas (l.map fun x => [.word (bytes x)]) ++ [.sign 125, .sign 59]) ++ t =
        a ++ kword "enum" :: .word (bytes n) :: .sign 123 :: (commas (l.map fun x => [.word (bytes x)]) ++ .sign 125 :: .sign 59 :: t) := by
      simp
    rw [e0] at h
    refine constr_written ha (by decide) (fun s hs => ?_) h f
    obtain ⟨s', e, h⟩ := enum_written hn hne hl hs
    exact ⟨s', e, .of h⟩
  | @const T ps n e v hT hn hv =>
    intro f hf t s h
    obtain ⟨f, rfl⟩ : ∃ g, f = g + 1 := ⟨f - 1, by simp only [List.length_cons] at hf; omega⟩
    have e0 : kword "const" :: (ps ++ [.word (bytes n), .sign 61, .word v, .sign 59]) ++ t =
        kword "const" :: (ps ++ .word (bytes n) :: .sign 61 :: .word v :: .sign 59 :: t) := by simp
    rw [e0] at h
    obtain ⟨s1, e1, h1⟩ := const_dcl hT hn hv h.1
    obtain ⟨s2, e2, h2⟩ := p_sym (w := ";") (c := 59) rfl h1
    exact ⟨s2, definitionWith_ok (choice_next (module_no noAnnots (by decide) (by decide) h _) (choice_first e1)) e2, .of h2⟩
  | @typedef T ps l hT hne hl =>
    intro f hf t s h
    obtain ⟨f, rfl⟩ : ∃ g, f = g + 1 := ⟨f - 1, by simp only [List.length_cons] at hf; omega⟩
    have e0 : kword "typedef" :: (ps ++ (commas (l.map (·.2)) ++ [.sign 59])) ++ t =
        kword "typedef" :: (ps ++ (commas (l.map (·.2)) ++ .sign 59 :: t)) := by simp
    rw [e0] at h
    obtain ⟨s1, e1, h1⟩ := typedef_written hT hne hl h.1
    obtain ⟨s2, e2, h2⟩ := p_sym (w := ";") (c := 59) rfl h1
    have k := fun {w} (hw : w ∈ defWords) (hne : w ≠ "typedef") => dkw_other (by decide) h.1 hw hne
    refine ⟨s2, definitionWith_ok (choice_next (module_no noAnnots (by decide) (by decide) h _) (choice_next (bind_no (k (w := "const")
      (by decide) (by decide))) (choice_next ?_ (choice_next (bind_no (k (w := "native") (by decide) (by decide))) (choice_first e1))))) e2, .of h2⟩
    unfold constrType
    rw [bind_ok (annots_none (pos_noAt h.1 (def_plain (by decide) _).at_))]
    unfold constrDcl
    exact choice_next (bind_no (k (w := "struct") (by decide) (by decide))) (choice_next (bind_no (k (w := "struct") (by decide) (by decide)))
      (choice_next (bind_no (k (w := "union") (by decide) (by decide))) (choice_next (bind_no (k (w := "union") (by decide) (by decide)))
        (choice_next (bind_no (k (w := "enum") (by decide) (by decide))) (choice_next (bind_no (k (w := "bitset") (by decide) (by decide)))
          (choice_next (bind_no (k (w := "bitmask") (by decide) (by decide))) rfl))))))
  | @module a n l ha hn hne hl ih =>
    intro f hf t s h
    have e0 : a ++ kword "module" :: .word (bytes n) :: .sign 123 :: (l.flatMap (·.2) ++ [.sign 125, .sign 59]) ++ t =
        a ++ kword "module" :: .word (bytes n) :: .sign 123 :: (l.flatMap (·.2) ++ .sign 125 :: .sign 59 :: t) := by simp
    rw [e0] at h
    simp only [List.length_append, List.length_cons] at hf
    obtain ⟨f, rfl⟩ : ∃ g, f = g + 1 := ⟨f - 1, by omega⟩
    obtain ⟨k, s1, e1, h1⟩ := annots_ok ha (def_plain (by decide) _) h
    obtain ⟨s2, e2, h2⟩ := dkw_written (by decide) h1
    obtain ⟨s3, e3, h3⟩ := p_ident (ident_is hn.1) h2
    obtain ⟨s4, e4, h4⟩ := p_sym (w := "{") (c := 123) rfl h3
    obtain ⟨s5, e5, h5⟩ := defs_ok (f := f) hne (fun s hs => definition_stop hs.1 f) (fun d hd => ⟨def_ne (hl d hd), fun t s hs =>
      ih d hd f (by have := mem_length hd; omega) t s hs⟩) (.of h4)
    obtain ⟨s6, e6, h6⟩ := p_sym (w := "}") (c := 125) rfl h5.1
    obtain ⟨s7, e7, h7⟩ := p_sym (w := ";") (c := 59) rfl (.of h6)
    refine ⟨s7, definitionWith_ok (choice_first ?_) e7, .of h7⟩
    unfold moduleDcl
    rw [bind_ok e1, bind_ok e2, bind_ok e3, bind_ok e4, bind_ok e5, bind_ok e6]; rfl
  | @line b =>
    intro f hf t s h
    obtain ⟨f, rfl⟩ : ∃ g, f = g + 1 := ⟨f - 1, by simp only [List.length_cons] at hf; omega⟩
    exact line_written h.1 f
  | @annotation n l hn hl =>
    intro f hf t s h
    obtain ⟨f, rfl⟩ : ∃ g, f = g + 1 := ⟨f - 1, by simp only [List.length_cons] at hf; omega⟩
    have h := h.2 ⟨_, _, rfl⟩
    have e0 : .mark (bytes "annotation") :: .word (bytes n) :: .sign 123 :: (l.flatten ++ [.sign 125, .sign 59]) ++ t =
        .mark (bytes "annotation") :: .word (bytes n) :: .sign 123 :: (l.flatten ++ .sign 125 :: .sign 59 :: t) := by simp
    rw [e0] at h
    obtain ⟨s', e, h⟩ := annotation_written hn hl h f
    exact ⟨s', e, .of h⟩
  | @bitset a n p ps l ha hn hp hl hpl =>
    intro f hf t s h
    obtain ⟨f, rfl⟩ : ∃ g, f = g + 1 := ⟨f - 1, by simp only [List.length_append, List.length_cons] at hf; omega⟩
    have e0 : a ++ kword "bitset" :: .word (bytes n) :: (ps ++ .sign 123 :: (l.flatten ++ [.sign 125, .sign 59])) ++ t =
        a ++ kword "bitset" :: .word (bytes n) :: (ps ++ .sign 123 :: (l.flatten ++ .sign 125 :: .sign 59 :: t)) := by simp
    rw [e0] at h
    refine constr_written ha (by decide) (fun s hs => ?_) h f
    obtain ⟨s', e, h⟩ := bitset_written hn hp hl hpl hs
    exact ⟨s', e, .of h⟩
  | @bitmask a n l ha hn hne hl =>
    intro f hf t s h
    obtain ⟨f, rfl⟩ : ∃ g, f = g + 1 := ⟨f - 1, by simp only [List.length_append, List.length_cons] at hf; omega⟩
    have e0 : a ++ kword "bitmask" :: .word (bytes n) :: .sign 123 ::
          (commas (l.map fun x => x.1 ++ [.word (bytes x.2)]) ++ [.sign 125, .sign 59]) ++ t =
        a ++ kword "bitmask" :: .word (bytes n) :: .sign 123 ::
          (commas (l.map fun x => x.1 ++ [.word (bytes x.2)]) ++ .sign 125 :: .sign 59 :: t) := by simp
    rw [e0] at h
    refine constr_written ha (by decide) (fun s hs => ?_) h f
    obtain ⟨s', e, h⟩ := bitmask_written hn hne hl hs
    exact ⟨s', e, .of h⟩

/-- A document is read as the declarations it writes. -/
theorem document_written {ds : List Def} {text : Bytes} (h : Writes ds text) : document text = some ds := by
  obtain ⟨l, hne, hl, rfl, hd⟩ := h
  have hd : Pos (l.flatMap (·.2)) text := hd
  have hlen := pos_length hd
  obtain ⟨s1, e1, h1⟩ := pos_ws hd
  rw [← List.append_nil (l.flatMap (·.2))] at h1
  obtain ⟨s2, e2, h2⟩ := defs_ok (f := text.length + 1) hne (rest := []) (fun s hs => by
      obtain ⟨⟨l, s', hl, rfl, h⟩, _⟩ := hs
      cases h
      exact (definition_skip (s := []) _ hl trivial trivial).trans (definition_end _))
    (fun d hd => ⟨def_ne (hl d hd), fun t s hs => def_written (hl d hd) _ (by have := mem_length hd; omega) t s hs⟩) (.of h1)
  obtain ⟨s3, e3, h3⟩ := pos_ws h2.1
  cases h3
  unfold document
  rw [bind_ok e1, bind_ok e2, bind_ok e3]
  rfl

end Verif.Idl.Syn
