import Verif.Lemmas.WriteValues
/-!
# Reading annotations, declarators, members and cases
-/

namespace Verif.Idl.Syn
open Text Expr

/-! ## Repetitions -/

/-- A rule reads these values one after the other, and then nothing. -/
inductive Run (p : P α) : Bytes → List α → Bytes → Prop
  | nil {s} : p s = none → Run p s [] s
  | cons {s a r l e} : p s = some (a, r) → Run p r l e → Run p s (a :: l) e

theorem upTo_run {p : P α} {s : Bytes} {l : List α} {e : Bytes} (h : Run p s l e) : ∀ n, l.length ≤ n → p.upTo n s = some (l, e) := by
  induction h with
  | nil h =>
    intro n _
    cases n with
    | zero => rfl
    | succ n => rw [upTo_succ, h]
  | cons h1 _ ih =>
    intro n hn
    obtain ⟨n, rfl⟩ : ∃ m, n = m + 1 := ⟨n - 1, by simp only [List.length_cons] at hn; omega⟩
    rw [upTo_succ, h1]
    simp only [List.length_cons] at hn
    show (p.upTo n _).map _ = _
    rw [ih n (by omega)]
    rfl

theorem star_run {p : P α} {s : Bytes} {l : List α} {e : Bytes} (h : Run p s l e) (hl : l.length ≤ s.length) : p.star s = some (l, e) :=
  upTo_run h _ hl

/-- A list of items is read one by one. -/
theorem p_run {p : P α} {Q : List Piece → Bytes → Prop} {ok : List Piece → Prop} {rest : List Piece}
    (stop : ∀ s, Q rest s → p s = none) (hok : ok rest) :
    ∀ {items : List (α × List Piece)}, (∀ x ∈ items, ∀ t, ok (x.2 ++ t)) →
    (∀ x ∈ items, ∀ t s, ok t → Q (x.2 ++ t) s → ∃ s', p s = some (x.1, s') ∧ Q t s') →
    ∀ {s}, Q (items.flatMap (·.2) ++ rest) s → ∃ s', Run p s (items.map (·.1)) s' ∧ Q rest s'
  | [], _, _, s, h => ⟨s, .nil (stop s h), h⟩
  | x :: items, h1, h2, s, h => by
    rw [List.flatMap_cons, List.append_assoc] at h
    have ho : ok (items.flatMap (·.2) ++ rest) := by
      cases items with
      | nil => exact hok
      | cons y items => rw [List.flatMap_cons, List.append_assoc]; exact h1 y (by simp) _
    obtain ⟨s', e, hq⟩ := h2 x (by simp) _ s ho h
    obtain ⟨s2, hr, hq⟩ := p_run stop hok (fun y hy => h1 y (List.mem_cons_of_mem _ hy)) (fun y hy => h2 y (List.mem_cons_of_mem _ hy)) hq
    exact ⟨s2, .cons e hr, hq⟩

theorem items_length {items : List (α × List Piece)} (h : ∀ x ∈ items, x.2 ≠ []) (rest : List Piece) :
    items.length ≤ (items.flatMap (·.2) ++ rest).length := by
  induction items with
  | nil => exact Nat.zero_le _
  | cons x items ih =>
    have := ih fun y hy => h y (List.mem_cons_of_mem _ hy)
    have h0 := List.length_pos_iff.mpr (h x (by simp))
    rw [List.flatMap_cons, List.append_assoc, List.length_append, List.length_cons]
    omega

theorem commas_cons (a : List Piece) : ∀ r : List (List Piece), commas (a :: r) = a ++ r.flatMap (fun b => .sign 44 :: b)
  | [] => by rw [List.flatMap_nil, List.append_nil]; rfl
  | b :: r => by
    show a ++ .sign 44 :: commas (b :: r) = _
    rw [commas_cons b r]
    rfl

/-- Items with commas between them. -/
theorem p_commas {p : P α} {rest : List Piece} {c : Nat} (hc : c ≠ 44) {x : α × List Piece} {items : List (α × List Piece)}
    (step : ∀ y ∈ x :: items, ∀ d t s, (d = 44 ∨ d = c) → Spaced (y.2 ++ .sign d :: t) s →
      ∃ s', p s = some (y.1, s') ∧ Pos (.sign d :: t) s')
    {s : Bytes} (h : Spaced (commas ((x :: items).map (·.2)) ++ .sign c :: rest) s) :
    ∃ s1 s', p s = some (x.1, s1) ∧ (do sym ","; p : P α).star s1 = some (items.map (·.1), s') ∧ Pos (.sign c :: rest) s' := by
  rw [List.map_cons, commas_cons, List.append_assoc] at h
  have ok : ∀ it : List (α × List Piece), ∃ d t, (d = 44 ∨ d = c) ∧
      (it.map (·.2)).flatMap (fun b => .sign 44 :: b) ++ .sign c :: rest = .sign d :: t := by
    intro it
    cases it with
    | nil => exact ⟨c, rest, .inr rfl, rfl⟩
    | cons y it => exact ⟨44, _, .inl rfl, rfl⟩
  obtain ⟨d, t, hd, e⟩ := ok items
  have h0 := h
  rw [e] at h
  obtain ⟨s1, e1, h1⟩ := step x (by simp) d t s hd h
  rw [← e] at h1
  have e2 : (items.map (·.2)).flatMap (fun b => .sign 44 :: b) = (items.map fun y => (y.1, Piece.sign 44 :: y.2)).flatMap (·.2) := by
    rw [List.flatMap_map, List.flatMap_map]
  rw [e2] at h1
  have hlen := pos_length h1
  obtain ⟨s', hr, hq⟩ := p_run (p := (do sym ","; p : P α)) (Q := Pos)
    (ok := fun t => ∃ d r, (d = 44 ∨ d = c) ∧ t = .sign d :: r) (rest := .sign c :: rest)
    (fun s hs => bind_no (p_sym_no (w := ",") (c := 44) rfl hs (by exact fun e => hc (Option.some.inj e)))) ⟨c, rest, .inr rfl, rfl⟩
    (items := items.map fun y => (y.1, Piece.sign 44 :: y.2))
    (by
      intro y hy t
      obtain ⟨z, hz, rfl⟩ := List.mem_map.mp hy
      exact ⟨44, _, .inl rfl, rfl⟩)
    (by
      intro y hy t s ht hs
      obtain ⟨z, hz, rfl⟩ := List.mem_map.mp hy
      obtain ⟨d, r, hd, rfl⟩ := ht
      obtain ⟨s1, e1, h1⟩ := p_sym (w := ",") (c := 44) rfl hs
      obtain ⟨s2, e2, h2⟩ := step z (List.mem_cons_of_mem _ hz) d r s1 hd h1
      exact ⟨s2, by rw [bind_ok e1]; exact e2, h2⟩)
    h1
  refine ⟨s1, s', e1, ?_, hq⟩
  rw [List.map_map] at hr
  refine star_run hr ?_
  have hl := items_length (items := items.map fun y => (y.1, Piece.sign 44 :: y.2))
    (by intro y hy; obtain ⟨z, hz, rfl⟩ := List.mem_map.mp hy; exact List.cons_ne_nil _ _) (.sign c :: rest)
  rw [List.length_map] at hl ⊢
  omega

/-! ## Annotations -/

/-- The next piece is an annotation. -/
def AtMark (ps : List Piece) : Prop := ∃ t r, ps = .mark t :: r

theorem gap_mark {t : Bytes} {l s : Bytes} {ps : List Piece} (hl : Layout l) (hb : Between (.mark t) l ps.head?) (h : Spaced ps s)
    (hc : first ps ≠ some 58) : Head (fun c => idChar c = false ∧ c ≠ 58) (l ++ s) := by
  cases l with
  | cons x l =>
    have hh : x = 32 ∨ x = 9 ∨ x = 13 ∨ x = 10 ∨ x = 47 := layout_head hl
    show idChar x = false ∧ x ≠ 58
    rcases hh with rfl | rfl | rfl | rfl | rfl <;> decide
  | nil =>
    cases ps with
    | nil => cases h; trivial
    | cons p ps =>
      obtain ⟨l', s', rfl, hp, _⟩ := spaced_cons h
      cases p with
      | word t => exact absurd rfl hb
      | sign c => exact ⟨(sign_facts c hp).1, fun e => hc (by rw [e]; rfl)⟩
      | mark t => exact (by decide : idChar 64 = false ∧ 64 ≠ 58)
      | line t => exact (by decide : idChar 35 = false ∧ 35 ≠ 58)

theorem p_mark {n : String} (hn : TypeName n) {ps : List Piece} {s : Bytes} (h : Spaced (.mark (bytes n) :: ps) s)
    (hc : first ps ≠ some 58) : ∃ s1 s', lit "@" s = some ((), s1) ∧ scopedId s1 = some (bytes n, s') ∧ Pos ps s' ∧
      (AtMark ps → Spaced ps s') := by
  obtain ⟨l, s', rfl, hp, hl, hb, h⟩ := spaced_cons h
  refine ⟨bytes n ++ (l ++ s'), l ++ s', lit_ok "@" _, scoped_ok (gap_mark hl hb h hc) hn, ⟨l, s', hl, rfl, h⟩, ?_⟩
  rintro ⟨t, r, rfl⟩
  have hb : l = [] := hb
  rw [hb]; exact h

/-- A value is not followed by `=`. -/
theorem value_noeq {e : CExpr} {t : Bytes} (hv : Value e t) {c : Nat} (hc : c ≠ 61) {ps : List Piece} {s : Bytes}
    (h : Spaced (.word t :: .sign c :: ps) s) (k : Unit → P β) :
    (identifier >>= fun _ => sym "=" >>= k) s = none := by
  obtain ⟨l, s', rfl, hp, hl, hb, h⟩ := spaced_cons h
  have hpos : Pos (.sign c :: ps) (l ++ s') := ⟨l, s', hl, rfl, h⟩
  have hgap : Head (fun c => idChar c = false) (l ++ s') := gap_id hl hb h
  have hne : first (.sign c :: ps) ≠ some 61 := fun e => hc (Option.some.inj e)
  have key : ∀ t, IsId t → (identifier >>= fun _ => sym "=" >>= k) (t ++ (l ++ s')) = none := by
    intro t ht
    rw [bind_ok (isId_read ht hgap)]
    exact bind_no (p_sym_no (w := "=") (c := 61) rfl hpos hne)
  show (identifier >>= fun _ => sym "=" >>= k) (t ++ (l ++ s')) = none
  cases hv with
  | number hn =>
    obtain ⟨n, hn⟩ := hn
    obtain ⟨d, r, rfl, hd⟩ := numeral_front hn
    refine bind_no (identifier_no ?_)
    show idStart (48 + d) = false
    simp only [idStart, Bool.or_eq_false_iff, Bool.and_eq_false_imp, decide_eq_true_eq, decide_eq_false_iff_not]
    omega
  | negative hn => exact bind_no (identifier_no (by exact (by decide : idStart 45 = false)))
  | @name n hn =>
    obtain ⟨⟨q, hq, e, hi⟩, _⟩ := hn
    match q, hq, e, hi with
    | [a], _, e, hi =>
      have : bytes n = bytes a := by rw [bytes_toList, e]; rfl
      rw [this]; exact key _ (ident_is (hi a (by simp)))
    | a :: b :: q, _, e, hi =>
      have : bytes n = bytes a ++ 58 :: (58 :: (joined (b :: q)).map Char.toNat) := by
        rw [bytes_toList, e, joined, List.map_append]
        · rfl
        · exact List.cons_ne_nil _ _
      have e1 : identifier (bytes n ++ (l ++ s')) = some (bytes a, 58 :: (58 :: (joined (b :: q)).map Char.toNat) ++ (l ++ s')) := by
        rw [this, List.append_assoc]
        exact isId_read (ident_is (hi a (by simp))) (by exact (by decide : idChar 58 = false))
      rw [bind_ok e1]
      exact bind_no (sym_no' (w := "=") (c := 61) rfl (by exact ⟨by decide, by decide⟩) (by exact (by decide : 58 ≠ 61)))
  | @bool w hw =>
    refine key _ ?_
    rcases hw with rfl | rfl
    · exact ⟨84, bytes "RUE", rfl, by decide, by decide, by decide⟩
    · exact ⟨70, bytes "ALSE", rfl, by decide, by decide, by decide⟩
  | char _ => exact bind_no (identifier_no (by exact (by decide : idStart 39 = false)))
  | @wide x _ =>
    have e1 : identifier ([76] ++ (39 :: x :: 39 :: (l ++ s'))) = some ([76], 39 :: x :: 39 :: (l ++ s')) :=
      isId_read ⟨76, [], rfl, by decide, by decide, by simp⟩ (by exact (by decide : idChar 39 = false))
    have e1 : identifier ([76, 39, x, 39] ++ (l ++ s')) = some ([76], 39 :: x :: 39 :: (l ++ s')) := e1
    rw [bind_ok e1]
    exact bind_no (sym_no' (w := "=") (c := 61) rfl (by exact ⟨by decide, by decide⟩) (by exact (by decide : 39 ≠ 61)))

theorem param_ok {p : List Piece} (hp : ParamPieces p) {c : Nat} (hc : c = 44 ∨ c = 41) {ps : List Piece} {s : Bytes}
    (h : Spaced (p ++ .sign c :: ps) s) : ∃ s', annotParam s = some ((), s') ∧ Pos (.sign c :: ps) s' := by
  have hcl : c ∈ closers ∧ c ≠ 61 ∧ c ≠ 58 := by rcases hc with rfl | rfl <;> decide
  cases hp with
  | @value e t hv =>
    have h : Spaced (.word t :: .sign c :: ps) s := h
    obtain ⟨s', _, e, hp⟩ := p_value hv hcl.1 (fun e => absurd e hcl.2.2) h
    refine ⟨s', ?_, hp⟩
    unfold annotParam
    rw [or_second (value_noeq hv hcl.2.1 h _), bind_ok e]
    rfl
  | @named n e t hn hv =>
    have h : Spaced (.word (bytes n) :: .sign 61 :: .word t :: .sign c :: ps) s := h
    obtain ⟨s1, e1, h1⟩ := p_ident (ident_is hn) h
    obtain ⟨s2, e2, h2⟩ := p_sym (w := "=") (c := 61) rfl h1
    obtain ⟨s3, _, e3, h3⟩ := p_value hv hcl.1 (fun e => absurd e hcl.2.2) h2
    refine ⟨s3, ?_, h3⟩
    unfold annotParam
    refine or_first ?_
    rw [bind_ok e1, bind_ok e2, bind_ok e3]
    rfl

theorem annot_ok {a : List Piece} (ha : AnnotPieces a) {t : List Piece} (h1 : first t ≠ some 58) (h2 : first t ≠ some 40) {s : Bytes}
    (h : Spaced (a ++ t) s) : ∃ s', annot s = some ((), s') ∧ Pos t s' ∧ (AtMark t → Spaced t s') := by
  cases ha with
  | @plain n hn =>
    obtain ⟨s1, s2, e1, e2, hp, hm⟩ := p_mark hn (by exact h) h1
    refine ⟨s2, ?_, hp, hm⟩
    have e3 : (do sym "("; annotParams; sym ")" : P Unit) s2 = none := bind_no (p_sym_no (w := "(") (c := 40) rfl hp h2)
    unfold annot
    rw [bind_ok e1, bind_ok e2, bind_ok (opt_none e3)]
    rfl
  | @params n l hn hl hps =>
    have h : Spaced (.mark (bytes n) :: .sign 40 :: (commas l ++ [.sign 41] ++ t)) s := h
    obtain ⟨s1, s2, e1, e2, hp, _⟩ := p_mark hn h (by exact (by decide : some 40 ≠ some 58))
    obtain ⟨s3, e3, h3⟩ := p_sym (w := "(") (c := 40) rfl hp
    rw [List.append_assoc] at h3
    match l, hl, hps, h3 with
    | x :: l, _, hps, h3 =>
      have e0 : x :: l = (((), x) :: l.map fun y => ((), y)).map (·.2) := by simp
      rw [e0] at h3
      obtain ⟨s4, s5, e4, e5, h5⟩ := p_commas (p := annotParam) (c := 41) (by decide) (fun y hy d t s hd hs => by
        have hy : ParamPieces y.2 := hps _ (by
          rcases List.mem_cons.mp hy with rfl | hy
          · simp
          · obtain ⟨z, hz, rfl⟩ := List.mem_map.mp hy
            exact List.mem_cons_of_mem _ hz)
        exact param_ok hy hd hs) h3
      obtain ⟨s6, e6, h6⟩ := p_sym (w := ")") (c := 41) rfl h5
      refine ⟨s6, ?_, .of h6, fun _ => h6⟩
      have e7 : annotParams s3 = some ((), s5) := by
        unfold annotParams
        rw [bind_ok e4, bind_ok e5]; rfl
      have e8 : (do sym "("; annotParams; sym ")" : P Unit) s2 = some ((), s6) := by
        rw [bind_ok e3, bind_ok e7]; exact e6
      unfold annot
      rw [bind_ok e1, bind_ok e2, bind_ok (opt_some e8)]
      rfl

theorem annotPieces_mark {a : List Piece} (h : AnnotPieces a) : ∃ t r, a = .mark t :: r := by
  cases h with
  | plain _ => exact ⟨_, _, rfl⟩
  | params _ _ _ => exact ⟨_, _, rfl⟩

theorem pos_noAt {ps : List Piece} {s : Bytes} (h : Pos ps s) (hf : first ps ≠ some 64) : NoAt s := by
  obtain ⟨l, s', hl, rfl, h⟩ := h
  refine noAt_layout hl (head_of fun c hc => ?_)
  rw [spaced_first h] at hc
  rintro rfl
  exact hf hc

/-- What follows annotations. -/
structure Plain (ps : List Piece) : Prop where
  at_ : first ps ≠ some 64
  colon : first ps ≠ some 58
  par : first ps ≠ some 40

/-- A text that begins with these pieces, after white space and comments unless an annotation comes first. -/
def At (ps : List Piece) (s : Bytes) : Prop := Pos ps s ∧ (AtMark ps → Spaced ps s)

theorem At.of {ps : List Piece} {s : Bytes} (h : Spaced ps s) : At ps s := ⟨.of h, fun _ => h⟩

theorem annots_ok {a : List Piece} (ha : Annots a) {rest : List Piece} (hr : Plain rest) {s : Bytes} (h : At (a ++ rest) s) :
    ∃ n s', annots s = some (n, s') ∧ Pos rest s' := by
  obtain ⟨l, rfl, hl⟩ := ha
  have e0 : l.flatten = (l.map fun y => ((), y)).flatMap (·.2) := by
    rw [List.flatMap_map]; exact List.flatMap_id.symm
  rw [e0] at h
  obtain ⟨s', hrun, hq, _⟩ := p_run (p := annot) (Q := At)
    (ok := fun t => first t ≠ some 58 ∧ first t ≠ some 40) (rest := rest)
    (fun s hs => annot_none (pos_noAt hs.1 hr.at_)) ⟨hr.colon, hr.par⟩ (items := l.map fun y => ((), y))
    (by
      intro y hy t
      obtain ⟨z, hz, rfl⟩ := List.mem_map.mp hy
      obtain ⟨n, r, rfl⟩ := annotPieces_mark (hl z hz)
      exact ⟨(by decide : some 64 ≠ some 58), (by decide : some 64 ≠ some 40)⟩)
    (by
      intro y hy t s ht hs
      obtain ⟨z, hz, rfl⟩ := List.mem_map.mp hy
      have hm : AtMark (z ++ t) := by
        obtain ⟨n, r, rfl⟩ := annotPieces_mark (hl z hz)
        exact ⟨n, _, rfl⟩
      obtain ⟨s', e, hp⟩ := annot_ok (hl z hz) ht.1 ht.2 (hs.2 hm)
      exact ⟨s', e, hp⟩)
    h
  have hlen := pos_length h.1
  have hl' := items_length (items := l.map fun y => ((), y))
    (by
      intro y hy
      obtain ⟨z, hz, rfl⟩ := List.mem_map.mp hy
      obtain ⟨n, r, rfl⟩ := annotPieces_mark (hl z hz)
      exact List.cons_ne_nil _ _) rest
  have e := star_run hrun (by rw [List.length_map]; omega)
  have e' : annots s = some (((l.map fun y => ((), y)).map (·.1)).length, s') := by
    unfold annots
    rw [bind_ok e]
    rfl
  exact ⟨_, s', e', hq⟩

/-! ## Declarators -/

theorem declr_ok {d : Declr} {ps : List Piece} (hd : DeclrPieces d ps) {c : Nat} (hc : c ≠ 91) {t : List Piece} {s : Bytes}
    (h : Spaced (ps ++ .sign c :: t) s) : ∃ s', declarator s = some (d, s') ∧ Pos (.sign c :: t) s' := by
  cases hd with
  | @mk n l hn hl =>
    have h : Spaced (.word (bytes n) :: ((l.flatMap fun d => [.sign 91, .word d.2, .sign 93]) ++ .sign c :: t)) s := h
    obtain ⟨s1, e1, h1⟩ := p_ident (ident_is hn.1) h
    have e0 : (l.flatMap fun d => [Piece.sign 91, .word d.2, .sign 93]) =
        (l.map fun d => (d.1, [Piece.sign 91, .word d.2, .sign 93])).flatMap (·.2) := by rw [List.flatMap_map]
    rw [e0] at h1
    have hlen := pos_length h1
    have hstop : ∀ s, Pos (.sign c :: t) s → arraySize s = none := fun s hs =>
      bind_no (p_sym_no (w := "[") (c := 91) rfl hs (by exact fun e => hc (Option.some.inj e)))
    obtain ⟨s', hrun, hq⟩ := p_run (p := arraySize) (Q := Pos) (ok := fun _ => True) (rest := .sign c :: t) hstop
      trivial (items := l.map fun d => (d.1, [Piece.sign 91, .word d.2, .sign 93])) (fun _ _ _ => trivial)
      (by
        intro y hy t s _ hs
        obtain ⟨z, hz, rfl⟩ := List.mem_map.mp hy
        obtain ⟨s1, e1, h1⟩ := p_sym (w := "[") (c := 91) rfl (by exact hs)
        obtain ⟨s2, e2, h2⟩ := p_size (hl z hz) h1 (by decide)
        obtain ⟨s3, e3, h3⟩ := p_sym (w := "]") (c := 93) rfl h2
        refine ⟨s3, ?_, .of h3⟩
        unfold arraySize
        rw [bind_ok e1, bind_ok e2, bind_ok e3]; rfl)
      h1
    refine ⟨s', ?_, hq⟩
    rw [List.map_map] at hrun
    have ed : l.map ((fun x : Dim × List Piece => x.1) ∘ fun d => (d.1, [Piece.sign 91, .word d.2, .sign 93])) = l.map (·.1) := rfl
    rw [ed] at hrun
    have hl' := items_length (items := l.map fun d => (d.1, [Piece.sign 91, .word d.2, .sign 93]))
      (by intro y hy; obtain ⟨z, hz, rfl⟩ := List.mem_map.mp hy; exact List.cons_ne_nil _ _) (.sign c :: t)
    rw [List.length_map] at hl'
    unfold declarator
    cases l with
    | nil =>
      cases hrun with
      | nil hno =>
        rw [or_second]
        · rw [bind_ok e1]; rfl
        · rw [bind_ok e1]
          exact bind_no (bind_no hno)
    | cons x l =>
      refine or_first ?_
      rw [bind_ok e1]
      cases hrun with
      | cons ha hb =>
        rename_i r
        have e2 : arraySize.plus s1 = some ((x :: l).map (·.1), s') := by
          unfold P.plus
          rw [bind_ok ha]
          have : arraySize.star r = some (l.map (·.1), s') := by
            refine star_run hb ?_
            obtain ⟨s3, e3, h3⟩ : ∃ s3, arraySize s1 = some (x.1, s3) ∧
                Pos ((l.map fun d => (d.1, [Piece.sign 91, .word d.2, .sign 93])).flatMap (·.2) ++ .sign c :: t) s3 := by
              rw [List.map_cons, List.flatMap_cons, List.append_assoc] at h1
              obtain ⟨s1, e1, h1⟩ := p_sym (w := "[") (c := 91) rfl (by exact h1)
              obtain ⟨s2, e2, h2⟩ := p_size (hl x (by simp)) h1 (by decide)
              obtain ⟨s3, e3, h3⟩ := p_sym (w := "]") (c := 93) rfl h2
              refine ⟨s3, ?_, .of h3⟩
              unfold arraySize
              rw [bind_ok e1, bind_ok e2, bind_ok e3]; rfl
            rw [ha] at e3
            simp only [Option.some.injEq, Prod.mk.injEq, true_and] at e3
            subst e3
            have h5 := pos_length h3
            have h6 := items_length (items := l.map fun d => (d.1, [Piece.sign 91, .word d.2, .sign 93]))
              (by intro y hy; obtain ⟨z, hz, rfl⟩ := List.mem_map.mp hy; exact List.cons_ne_nil _ _) (.sign c :: t)
            rw [List.length_map] at h6 ⊢
            omega
          rw [bind_ok this]; rfl
        rw [bind_ok e2]; rfl

theorem declr_goes {d : Declr} {ps : List Piece} (hd : DeclrPieces d ps) (t : List Piece) : Goes (ps ++ t) := by
  cases hd with
  | mk hn _ => exact goes_name hn _

theorem commas_goes {l : List (Declr × List Piece)} (hl : l ≠ []) (h : ∀ d ∈ l, DeclrPieces d.1 d.2) (t : List Piece) :
    Goes (commas (l.map (·.2)) ++ t) := by
  cases l with
  | nil => exact absurd rfl hl
  | cons x l =>
    rw [List.map_cons, commas_cons, List.append_assoc]
    exact declr_goes (h x (by simp)) _

theorem declrs_ok {l : List (Declr × List Piece)} (hl : l ≠ []) (h : ∀ d ∈ l, DeclrPieces d.1 d.2) {t : List Piece} {s : Bytes}
    (hs : Spaced (commas (l.map (·.2)) ++ .sign 59 :: t) s) : ∃ s', declarators s = some (l.map (·.1), s') ∧ Pos (.sign 59 :: t) s' := by
  match l, hl, h, hs with
  | x :: l, _, h, hs =>
    obtain ⟨s1, s2, e1, e2, h2⟩ := p_commas (p := declarator) (c := 59) (by decide) (fun y hy d t s hd hs =>
      declr_ok (h y hy) (by rcases hd with rfl | rfl <;> decide) hs) hs
    refine ⟨s2, ?_, h2⟩
    unfold declarators
    rw [bind_ok e1, bind_ok e2]; rfl

/-! ## Members and cases -/

theorem type_plain {T : TSpec} {ps : List Piece} (h : TypePieces T ps) (t : List Piece) : Plain (ps ++ t) := by
  obtain ⟨p, r, rfl, hp⟩ := type_front h
  have key : ∀ c, first (p :: (r ++ t)) = some c → idStart c = true := by
    intro c hc
    rcases hp with ⟨v, hv, rfl⟩ | ⟨n, hn, rfl⟩
    · obtain ⟨h1, h2⟩ := (type_pieces v hv).1
      cases e : bytes v with
      | nil => exact absurd e h2
      | cons x q =>
        have hc : (bytes v).head? = some c := hc
        rw [e] at h1 hc
        cases hc
        exact h1
    · obtain ⟨a, q, ha, e, _⟩ := typeName_front hn
      obtain ⟨x, y, ex, hx, _⟩ := ident_is ha.1
      have hc : (bytes n).head? = some c := hc
      rw [e, ex] at hc
      cases hc
      exact hx
  refine ⟨fun e => absurd (key _ e) (by decide), fun e => absurd (key _ e) (by decide), fun e => absurd (key _ e) (by decide)⟩

theorem member_written {m : TSpec × List Declr} {ps : List Piece} (hm : MemberPieces m ps) {t : List Piece} {s : Bytes}
    (h : Spaced (ps ++ t) s) : ∃ s', member s = some (m, s') ∧ Spaced t s' := by
  cases hm with
  | @mk a T ps l ha hT hl hd =>
    have e0 : a ++ (ps ++ (commas (l.map (·.2)) ++ [.sign 59])) ++ t = a ++ (ps ++ (commas (l.map (·.2)) ++ .sign 59 :: t)) := by simp
    rw [e0] at h
    obtain ⟨n, s1, e1, h1⟩ := annots_ok ha (type_plain hT _) (.of h)
    obtain ⟨s2, e2, h2⟩ := typeSpec_written hT (commas_goes hl hd _) h1
    obtain ⟨s3, e3, h3⟩ := declrs_ok hl hd h2
    obtain ⟨s4, e4, h4⟩ := p_sym (w := ";") (c := 59) rfl h3
    refine ⟨s4, ?_, h4⟩
    unfold member
    rw [bind_ok e1, bind_ok e2, bind_ok e3, bind_ok e4]; rfl

theorem member_stop {t : List Piece} {s : Bytes} (h : Spaced (.sign 125 :: t) s) : member s = none := by
  obtain ⟨l, s', rfl, hp, hl, hb, h⟩ := spaced_cons h
  unfold member
  rw [bind_ok (annots_none (by exact (by decide : 125 ≠ 64)))]
  exact bind_no (typeSpec_no (by decide) (by decide) (by decide))

theorem member_ne {m : TSpec × List Declr} {ps : List Piece} (h : MemberPieces m ps) : ps ≠ [] := by
  cases h; simp

theorem case_ne {m : Case} {ps : List Piece} (h : CasePieces m ps) : ps ≠ [] := by
  cases h; simp

theorem label_ne {b : Bytes} {ps : List Piece} (h : LabelPieces b ps) : ps ≠ [] := by
  cases h <;> simp

theorem members_written {l : List ((TSpec × List Declr) × List Piece)} (h : ∀ m ∈ l, MemberPieces m.1 m.2) {t : List Piece} {s : Bytes}
    (hs : Spaced (l.flatMap (·.2) ++ .sign 125 :: t) s) : ∃ s', member.star s = some (l.map (·.1), s') ∧ Spaced (.sign 125 :: t) s' := by
  obtain ⟨s', hrun, hq⟩ := p_run (p := member) (Q := Spaced) (ok := fun _ => True) (fun s => member_stop) trivial (fun _ _ _ => trivial)
    (fun x hx t s _ hs => member_written (h x hx) hs) hs
  have h1 := spaced_length hs
  have h2 := items_length (items := l) (fun x hx => member_ne (h x hx)) (.sign 125 :: t)
  refine ⟨s', star_run hrun (by rw [List.length_map]; omega), hq⟩

theorem label_written {b : Bytes} {ps : List Piece} (hl : LabelPieces b ps) {t : List Piece} (ht : first t ≠ some 58) {s : Bytes}
    (h : Spaced (ps ++ t) s) : ∃ s', caseLabel s = some (b, s') ∧ Spaced t s' := by
  cases hl with
  | @value e t' hv =>
    have h : Spaced (kword "case" :: .word b :: .sign 58 :: t) s := h
    obtain ⟨s1, e1, h1⟩ := p_kw caseWords.1 (.of h)
    obtain ⟨s2, e2, h2⟩ := p_label hv (by decide) (fun _ => ht) h1
    obtain ⟨s3, e3, h3⟩ := p_sym (w := ":") (c := 58) rfl h2
    refine ⟨s3, or_first ?_, h3⟩
    rw [bind_ok e1, bind_ok e2, bind_ok e3]; rfl
  | default =>
    have h : Spaced (kword "default" :: .sign 58 :: t) s := h
    obtain ⟨l, s1, rfl, hp, hl, hb, h1⟩ := spaced_cons h
    have hb : l = [] := hb rfl rfl
    obtain ⟨l2, s2, rfl, hp', hl', hb', h2⟩ := spaced_cons h1
    rw [hb, List.nil_append]
    exact ⟨s2, caseLabel_default hl' (spaced_clean h2), h2⟩

theorem label_first {b : Bytes} {ps : List Piece} (hl : LabelPieces b ps) (t : List Piece) : first (ps ++ t) ≠ some 58 := by
  cases hl with
  | value _ => exact (by decide : some 99 ≠ some 58)
  | default => exact (by decide : some 100 ≠ some 58)

theorem label_stop {p : Piece} {t : List Piece} {s : Bytes} (h1 : Avoids "case" p) (h2 : Avoids "default" p) (h : Spaced (p :: t) s) :
    caseLabel s = none := caseLabel_no (spaced_clean h) (avoid_piece caseWords.1 h h1) (avoid_piece caseWords.2 h h2)

/-- After the labels: annotations and a type. -/
theorem annots_front {a : List Piece} (ha : Annots a) : a = [] ∨ ∃ t r, a = .mark t :: r := by
  obtain ⟨l, rfl, hl⟩ := ha
  cases l with
  | nil => exact .inl rfl
  | cons x l =>
    obtain ⟨t, r, rfl⟩ := annotPieces_mark (hl x (by simp))
    exact .inr ⟨t, _, rfl⟩

theorem type_avoids {T : TSpec} {ps : List Piece} (h : TypePieces T ps) {w : String} (hw : w ∈ otherWords) :
    ∃ p r, ps = p :: r ∧ Avoids w p := by
  obtain ⟨p, r, rfl, hp⟩ := type_front h
  refine ⟨p, r, rfl, ?_⟩
  rcases hp with ⟨v, hv, rfl⟩ | ⟨n, hn, rfl⟩
  · refine avoids_kword ?_
    have : (otherWords.all fun w => typeWords.all fun v => clash (bytes w) (bytes v)) = true := by decide +kernel
    exact List.all_eq_true.mp (List.all_eq_true.mp this w hw) v hv
  · exact avoids_name hn ((by decide : ∀ w ∈ otherWords, w ∈ keywords) w hw)

theorem case_written {x : Case} {ps : List Piece} (hx : CasePieces x ps) {t : List Piece} {s : Bytes}
    (h : Spaced (ps ++ t) s) : ∃ s', unionCase s = some (x, s') ∧ Spaced t s' := by
  cases hx with
  | @mk l a T ps d qs hne hl ha hT hd =>
    have e0 : l.flatMap (·.2) ++ (a ++ (ps ++ (qs ++ [.sign 59]))) ++ t =
        l.flatMap (·.2) ++ (a ++ (ps ++ (qs ++ .sign 59 :: t))) := by simp
    rw [e0] at h
    have hstop : ∀ w, w ∈ ["case", "default"] → ∃ p r, a ++ (ps ++ (qs ++ .sign 59 :: t)) = p :: r ∧ Avoids w p := by
      intro w hw
      rcases annots_front ha with rfl | ⟨n, r, rfl⟩
      · obtain ⟨p, r, rfl, hp⟩ := type_avoids hT ((by decide : ∀ w ∈ ["case", "default"], w ∈ otherWords) w hw)
        exact ⟨p, _, rfl, hp⟩
      · exact ⟨_, _, rfl, trivial⟩
    have hf : first (a ++ (ps ++ (qs ++ .sign 59 :: t))) ≠ some 58 := by
      rcases annots_front ha with rfl | ⟨n, r, rfl⟩
      · exact (type_plain hT _).colon
      · exact (by decide : some 64 ≠ some 58)
    match l, hne, hl, h with
    | y :: l, _, hl, h =>
      rw [List.flatMap_cons, List.append_assoc] at h
      have hf' : first (l.flatMap (·.2) ++ (a ++ (ps ++ (qs ++ .sign 59 :: t)))) ≠ some 58 := by
        cases l with
        | nil => exact hf
        | cons z l => rw [List.flatMap_cons, List.append_assoc]; exact label_first (hl z (by simp)) _
      obtain ⟨s1, e1, h1⟩ := label_written (hl y (by simp)) hf' h
      obtain ⟨s2, hrun, h2⟩ := p_run (p := caseLabel) (Q := Spaced) (ok := fun t => first t ≠ some 58)
        (fun s hs => by
          obtain ⟨p, r, e, hp⟩ := hstop "case" (by decide)
          obtain ⟨p', r', e', hp'⟩ := hstop "default" (by decide)
          rw [e] at hs e'
          obtain ⟨rfl, rfl⟩ := List.cons.inj e'
          exact label_stop hp hp' hs) hf
        (fun z hz t => label_first (hl z (List.mem_cons_of_mem _ hz)) t)
        (fun z hz t s ht hs => label_written (hl z (List.mem_cons_of_mem _ hz)) ht hs) h1
      have hlen := spaced_length h1
      have hlen' := items_length (items := l) (fun z hz => label_ne (hl z (List.mem_cons_of_mem _ hz))) (a ++ (ps ++ (qs ++ .sign 59 :: t)))
      have e2 : caseLabel.plus s = some ((y :: l).map (·.1), s2) := by
        unfold P.plus
        rw [bind_ok e1, bind_ok (star_run hrun (by rw [List.length_map]; omega))]; rfl
      obtain ⟨n, s3, e3, h3⟩ := annots_ok ha (type_plain hT _) (.of h2)
      obtain ⟨s4, e4, h4⟩ := typeSpec_written hT (declr_goes hd _) h3
      obtain ⟨s5, e5, h5⟩ := declr_ok hd (by decide) h4
      obtain ⟨s6, e6, h6⟩ := p_sym (w := ";") (c := 59) rfl h5
      refine ⟨s6, ?_, h6⟩
      unfold unionCase
      rw [bind_ok e2, bind_ok e3, bind_ok e4, bind_ok e5, bind_ok e6]; rfl

theorem case_stop {t : List Piece} {s : Bytes} (h : Spaced (.sign 125 :: t) s) : unionCase s = none := by
  unfold unionCase
  exact bind_no (bind_no (label_stop (p := .sign 125) trivial trivial h))

theorem cases_ok {l : List (Case × List Piece)} (hne : l ≠ []) (h : ∀ c ∈ l, CasePieces c.1 c.2) {t : List Piece} {s : Bytes}
    (hs : Spaced (l.flatMap (·.2) ++ .sign 125 :: t) s) :
    ∃ s', unionCase.plus s = some (l.map (·.1), s') ∧ Spaced (.sign 125 :: t) s' := by
  have ne : ∀ x ∈ l, x.2 ≠ [] := fun x hx => case_ne (h x hx)
  match l, hne, h, hs with
  | y :: l, _, h, hs =>
    rw [List.flatMap_cons, List.append_assoc] at hs
    obtain ⟨s1, e1, h1⟩ := case_written (h y (by simp)) hs
    obtain ⟨s', hrun, hq⟩ := p_run (p := unionCase) (Q := Spaced) (ok := fun _ => True) (fun s => case_stop) trivial (fun _ _ _ => trivial)
      (fun x hx t s _ hs => case_written (h x (List.mem_cons_of_mem _ hx)) hs) h1
    have h2 := spaced_length h1
    have h3 := items_length (items := l) (fun x hx => ne x (List.mem_cons_of_mem _ hx)) (.sign 125 :: t)
    refine ⟨s', ?_, hq⟩
    unfold P.plus
    rw [bind_ok e1, bind_ok (star_run hrun (by rw [List.length_map]; omega))]; rfl

end Verif.Idl.Syn
