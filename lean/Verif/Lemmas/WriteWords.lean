import Verif.Lemmas.ExprText
import Verif.Lemmas.IdlDecls
import Verif.Spec.IdlWrite
/-!
# Reading pieces
-/

namespace Verif.Idl.Syn
open Text Expr

theorem kword_text (w : String) : (kword w).text = bytes w := rfl

/-- What is left of a text begins, after white space and comments, with these pieces. -/
def Pos (ps : List Piece) (s : Bytes) : Prop := ∃ l s', Layout l ∧ s = l ++ s' ∧ Spaced ps s'

theorem Pos.of {ps : List Piece} {s : Bytes} (h : Spaced ps s) : Pos ps s := ⟨[], s, blanks_nil, rfl, h⟩

theorem spaced_cons {p : Piece} {ps : List Piece} {s : Bytes} (h : Spaced (p :: ps) s) :
    ∃ l s', s = p.text ++ (l ++ s') ∧ p.Proper ∧ Layout l ∧ Between p l ps.head? ∧ Spaced ps s' := by
  cases h with
  | cons h1 h2 h3 h4 => exact ⟨_, _, rfl, h1, h2, h3, h4⟩

theorem sign_facts : ∀ c ∈ signs, idChar c = false ∧ blank c = false ∧ c ≠ 47 ∧ c ≠ 46 ∧ c ≠ 34 ∧ c ≠ 39 ∧ c ≠ 64 ∧ c ≠ 35 := by decide

theorem notBlank {c : Nat} (h : c ∉ [32, 9, 13, 10, 47]) : blank c = false ∧ c ≠ 47 := by
  simp only [List.mem_cons, List.not_mem_nil, or_false, not_or] at h
  simp only [blank, Bool.or_eq_false_iff, decide_eq_false_iff_not]
  exact ⟨⟨⟨⟨h.1, h.2.1⟩, h.2.2.1⟩, h.2.2.2.1⟩, h.2.2.2.2⟩

theorem proper_clean {p : Piece} (h : p.Proper) (s : Bytes) : Clean (p.text ++ s) := by
  cases p with
  | word t => obtain ⟨c, r, rfl, hc⟩ := h; exact notBlank hc
  | sign c => exact ⟨(sign_facts c h).2.1, (sign_facts c h).2.2.1⟩
  | mark t => exact (by decide : blank 64 = false ∧ 64 ≠ 47)
  | line t => exact (by decide : blank 35 = false ∧ 35 ≠ 47)

theorem spaced_clean {ps : List Piece} {s : Bytes} (h : Spaced ps s) : Clean s := by
  cases h with
  | nil => trivial
  | cons h1 _ _ _ => exact proper_clean h1 _

theorem proper_ne {p : Piece} (h : p.Proper) : p.text ≠ [] := by
  cases p with
  | word t => obtain ⟨c, r, rfl, hc⟩ := h; exact List.cons_ne_nil _ _
  | sign c => exact List.cons_ne_nil _ _
  | mark t => exact List.cons_ne_nil _ _
  | line t => exact List.cons_ne_nil _ _

theorem spaced_length {ps : List Piece} {s : Bytes} (h : Spaced ps s) : ps.length ≤ s.length := by
  induction h with
  | nil => exact Nat.le_refl _
  | cons h1 _ _ _ ih =>
    have := List.length_pos_iff.mpr (proper_ne h1)
    simp only [List.length_cons, List.length_append]; omega

theorem pos_length {ps : List Piece} {s : Bytes} (h : Pos ps s) : ps.length ≤ s.length := by
  obtain ⟨l, s', _, rfl, h⟩ := h
  have := spaced_length h
  simp only [List.length_append]; omega

theorem pos_ws {ps : List Piece} {s : Bytes} (h : Pos ps s) : ∃ s', wsOpt s = some ((), s') ∧ Spaced ps s' := by
  obtain ⟨l, s', hl, rfl, h⟩ := h
  exact ⟨s', wsOpt_ok hl (spaced_clean h), h⟩

/-- The first character. -/
def first (ps : List Piece) : Option Nat := ps.head?.bind fun p => p.text.head?

theorem spaced_first {ps : List Piece} {s : Bytes} (h : Spaced ps s) : s.head? = first ps := by
  cases h with
  | nil => rfl
  | @cons p ps l s h1 _ _ _ =>
    have := proper_ne h1
    show _ = p.text.head?
    cases e : p.text with
    | nil => exact absurd e this
    | cons c r => rfl

theorem head_of {f : Nat → Prop} {s : Bytes} (h : ∀ c, s.head? = some c → f c) : Head f s := by
  cases s with
  | nil => trivial
  | cons c r => exact h c rfl

/-! ## Signs -/

theorem p_sym {w : String} {c : Nat} (hw : bytes w = [c]) {ps : List Piece} {s : Bytes} (h : Pos (.sign c :: ps) s) :
    ∃ s', sym w s = some ((), s') ∧ Spaced ps s' := by
  obtain ⟨a, s1, ha, rfl, h⟩ := h
  obtain ⟨l, s', rfl, hp, hl, _, h⟩ := spaced_cons h
  have := sign_facts c hp
  exact ⟨s', sym_front hw ⟨this.2.1, this.2.2.1⟩ ha hl (spaced_clean h), h⟩

theorem p_sym_no {w : String} {c : Nat} {t : Bytes} (hw : bytes w = c :: t) {ps : List Piece} {s : Bytes} (h : Pos ps s)
    (hne : first ps ≠ some c) : sym w s = none := by
  obtain ⟨a, s1, ha, rfl, h⟩ := h
  refine sym_no ha (spaced_clean h) (strip_head hw (head_of fun x hx => ?_))
  rw [spaced_first h] at hx
  rintro rfl
  exact hne hx

/-! ## Words -/

/-- What follows a word in a text. -/
theorem gap_id {t : Bytes} {l s : Bytes} {ps : List Piece} (hl : Layout l) (hb : Between (.word t) l ps.head?) (h : Spaced ps s) :
    Head (fun c => idChar c = false) (l ++ s) := by
  have hh := layout_head hl
  cases l with
  | cons c l =>
    have hh : c = 32 ∨ c = 9 ∨ c = 13 ∨ c = 10 ∨ c = 47 := hh
    show idChar c = false
    rcases hh with rfl | rfl | rfl | rfl | rfl <;> rfl
  | nil =>
    cases ps with
    | nil => cases h; trivial
    | cons p ps =>
      obtain ⟨l', s', rfl, hp, _⟩ := spaced_cons h
      cases p with
      | word t' => exact absurd rfl hb
      | sign c => exact (sign_facts c hp).1
      | mark t' => exact (by decide : idChar 64 = false)
      | line t' => exact (by decide : idChar 35 = false)

theorem gap_start {t : Bytes} {l s : Bytes} {ps : List Piece} (hl : Layout l) (hb : Between (.word t) l ps.head?) (h : Spaced ps s) :
    Head (fun c => idStart c = false) (l ++ s) := by
  have := gap_id hl hb h
  cases e : l ++ s with
  | nil => trivial
  | cons c r =>
    rw [e] at this
    simp only [Head, idChar, Bool.or_eq_false_iff] at this
    exact this.1

theorem p_kw {w : String} (hw : Word w) {ps : List Piece} {s : Bytes} (h : Pos (kword w :: ps) s) :
    ∃ s', kw w s = some ((), s') ∧ Spaced ps s' := by
  obtain ⟨a, s1, ha, rfl, h⟩ := h
  obtain ⟨l, s', rfl, hp, hl, hb, h⟩ := spaced_cons h
  exact ⟨s', kw_ok hw ha hl (spaced_clean h) (gap_start hl hb h), h⟩

/-- The piece is not the word, nor begins with it so that the grammar takes it for the word. -/
def Avoids (w : String) : Piece → Prop
  | .word t => ∀ r, Head (fun c => idChar c = false) r → NotAt w (t ++ r)
  | _ => True

theorem avoid_piece {w : String} (hw : Word w) {p : Piece} {ps : List Piece} {s : Bytes} (h : Spaced (p :: ps) s) (ha : Avoids w p) :
    NotAt w s := by
  obtain ⟨l, s', rfl, hp, hl, hb, h'⟩ := spaced_cons h
  have key : ∀ {c r}, idStart c = false → NotAt w (c :: r) := by
    intro c r hc
    refine notAt_none ?_
    obtain ⟨h1, h2⟩ := hw
    cases e : bytes w with
    | nil => exact absurd e h2
    | cons x t =>
      rw [e] at h1
      have h1 : idStart x = true := h1
      rw [strip, if_neg]
      rintro rfl
      rw [hc] at h1; cases h1
  cases p with
  | word t => exact ha _ (gap_id hl hb h')
  | sign c =>
    refine key ?_
    have := (sign_facts c hp).1
    simp only [idChar, Bool.or_eq_false_iff] at this
    exact this.1
  | mark t => exact key (by decide : idStart 64 = false)
  | line t => exact key (by decide : idStart 35 = false)

theorem p_kw_no {w : String} (hw : Word w) {p : Piece} {ps : List Piece} {s : Bytes} (h : Pos (p :: ps) s) (ha : Avoids w p) :
    kw w s = none := by
  obtain ⟨a, s1, hl, rfl, h⟩ := h
  exact kw_no hl (spaced_clean h) (avoid_piece hw h ha)

theorem avoids_usable {n : String} (hn : Usable n) {w : String} (hw : w ∈ keywords) : Avoids w (.word (bytes n)) :=
  fun _ hr => usable_notAt hn hw hr

theorem avoids_name {n : String} (hn : TypeName n) {w : String} (hw : w ∈ keywords) : Avoids w (.word (bytes n)) :=
  fun _ hr => typeName_notAt hn hw hr

theorem avoids_kword {v w : String} (h : clash (bytes w) (bytes v) = true) : Avoids w (kword v) :=
  fun _ _ => notAt_none (clash_strip h _)

/-! ## Keywords of several words -/

theorem p_kw2 {v w : String} (hv : Word v) (hw : Word w) {ps : List Piece} {s : Bytes} (h : Pos (kword v :: kword w :: ps) s) :
    ∃ s', kw2 v w s = some ((), s') ∧ Spaced ps s' := by
  obtain ⟨a, s1, ha, rfl, h⟩ := h
  obtain ⟨l, s', rfl, hp, hl, hb, h⟩ := spaced_cons h
  obtain ⟨l', s', rfl, hp', hl', hb', h⟩ := spaced_cons h
  exact ⟨s', kw2_ok hv hw ha hl hb hl' (spaced_clean h) (gap_start hl' hb' h), h⟩

theorem p_kw2_no {v w : String} (hv : Word v) {p : Piece} {ps : List Piece} {s : Bytes} (h : Pos (p :: ps) s) (ha : Avoids v p) :
    kw2 v w s = none := by
  obtain ⟨a, s1, hl, rfl, h⟩ := h
  exact kw2_no hl (spaced_clean h) (avoid_piece hv h ha)

theorem p_kw3_no {u v w : String} (hu : Word u) {p : Piece} {ps : List Piece} {s : Bytes} (h : Pos (p :: ps) s) (ha : Avoids u p) :
    kw3 u v w s = none := by
  obtain ⟨a, s1, hl, rfl, h⟩ := h
  exact kw3_no hl (spaced_clean h) (avoid_piece hu h ha)

/-- White space, a word and its end, where the word is not. -/
theorem rest_no {w : String} (hw : Word w) {l s : Bytes} {p : Piece} {ps : List Piece} (hl : Layout l) (h : Spaced (p :: ps) s)
    (ha : Avoids w p) : (wsReq >>= fun _ => lit w >>= fun _ => endKw >>= fun _ => wsOpt) (l ++ s) = none := by
  by_cases hne : l = []
  · subst hne
    exact bind_no (by rw [List.nil_append]; exact wsReq_no (spaced_clean h))
  · rw [bind_ok (wsReq_ok hl hne (spaced_clean h))]
    have hn := avoid_piece hw h ha
    cases e : strip (bytes w) s with
    | none => exact bind_no (lit_no e)
    | some r =>
      obtain ⟨c, t, rfl, hc⟩ := hn r e
      rw [strip_some e, bind_ok (lit_ok w _)]
      exact bind_no (endKw_no hc)

theorem p_kw2_second {v w : String} (hv : Word v) (hw : Word w) {p : Piece} {ps : List Piece} {s : Bytes}
    (h : Spaced (kword v :: p :: ps) s) (ha : Avoids w p) : kw2 v w s = none := by
  obtain ⟨l, s', rfl, hp, hl, hb, h⟩ := spaced_cons h
  unfold kw2
  rw [kword_text, bind_ok (wsOpt_clean (word_clean hv _)), bind_ok (lit_ok v _)]
  exact rest_no hw hl h ha

theorem p_kw3 {u v w : String} (hu : Word u) (hv : Word v) (hw : Word w) {ps : List Piece} {s : Bytes}
    (h : Spaced (kword u :: kword v :: kword w :: ps) s) : ∃ s', kw3 u v w s = some ((), s') ∧ Spaced ps s' := by
  obtain ⟨l, s', rfl, hp, hl, hb, h⟩ := spaced_cons h
  obtain ⟨l', s', rfl, hp', hl', hb', h⟩ := spaced_cons h
  obtain ⟨l2, s', rfl, hp2, hl2, hb2, h⟩ := spaced_cons h
  refine ⟨s', ?_, h⟩
  unfold kw3
  rw [kword_text, kword_text, kword_text, bind_ok (wsOpt_clean (word_clean hu _)), bind_ok (lit_ok u _),
    bind_ok (wsReq_ok hl hb (word_clean hv _)), bind_ok (lit_ok v _), bind_ok (wsReq_ok hl' hb' (word_clean hw _)), bind_ok (lit_ok w _),
    bind_ok (endKw_ok (gap_start hl2 hb2 h))]
  exact wsOpt_ok hl2 (spaced_clean h)

theorem p_kw3_second {u v w : String} (hu : Word u) {x : String} (hx : Word x) (hc : clash (bytes v) (bytes x) = true) {ps : List Piece}
    {s : Bytes} (h : Spaced (kword u :: kword x :: ps) s) : kw3 u v w s = none := by
  obtain ⟨l, s', rfl, hp, hl, hb, h⟩ := spaced_cons h
  obtain ⟨l', s', rfl, hp', hl', hb', h⟩ := spaced_cons h
  unfold kw3
  rw [kword_text, kword_text, bind_ok (wsOpt_clean (word_clean hu _)), bind_ok (lit_ok u _),
    bind_ok (wsReq_ok hl hb (word_clean hx _))]
  exact bind_no (lit_no (clash_strip hc _))

theorem p_kw3_third {u v w : String} (hu : Word u) (hv : Word v) (hw : Word w) {p : Piece} {ps : List Piece} {s : Bytes}
    (h : Spaced (kword u :: kword v :: p :: ps) s) (ha : Avoids w p) : kw3 u v w s = none := by
  obtain ⟨l, s', rfl, hp, hl, hb, h⟩ := spaced_cons h
  obtain ⟨l', s', rfl, hp', hl', hb', h⟩ := spaced_cons h
  unfold kw3
  rw [kword_text, kword_text, bind_ok (wsOpt_clean (word_clean hu _)), bind_ok (lit_ok u _),
    bind_ok (wsReq_ok hl hb (word_clean hv _)), bind_ok (lit_ok v _)]
  exact rest_no hw hl' h ha

/-! ## Names and numbers -/

theorem p_ident {n : Bytes} (hn : IsId n) {ps : List Piece} {s : Bytes} (h : Spaced (.word n :: ps) s) :
    ∃ s', identifier s = some (n, s') ∧ Pos ps s' := by
  obtain ⟨l, s', rfl, hp, hl, hb, h⟩ := spaced_cons h
  exact ⟨l ++ s', isId_read hn (gap_id hl hb h), l, s', hl, rfl, h⟩

/-- What follows a word that is not followed by a colon. -/
theorem gap_word {t : Bytes} {l s : Bytes} {ps : List Piece} (hl : Layout l) (hb : Between (.word t) l ps.head?) (h : Spaced ps s)
    (hc : first ps ≠ some 58) : Head (fun c => idChar c = false ∧ c ≠ 58) (l ++ s) := by
  have h1 := gap_id hl hb h
  have hh := layout_head hl
  cases l with
  | cons c l =>
    have hh : c = 32 ∨ c = 9 ∨ c = 13 ∨ c = 10 ∨ c = 47 := hh
    refine ⟨h1, ?_⟩
    rintro rfl
    exact absurd hh (by decide)
  | nil =>
    rw [List.nil_append] at *
    have h2 := spaced_first h
    cases s with
    | nil => trivial
    | cons c s =>
      refine ⟨h1, ?_⟩
      rintro rfl
      exact hc h2.symm

theorem p_scoped {n : String} (hn : TypeName n) {ps : List Piece} {s : Bytes} (h : Spaced (.word (bytes n) :: ps) s)
    (hc : first ps ≠ some 58) : ∃ s', scopedId s = some (bytes n, s') ∧ Pos ps s' := by
  obtain ⟨l, s', rfl, hp, hl, hb, h⟩ := spaced_cons h
  exact ⟨l ++ s', scoped_ok (gap_word hl hb h hc) hn, l, s', hl, rfl, h⟩

/-- What follows a word before a sign. -/
theorem gap_tail {l s : Bytes} {c : Nat} {ps : List Piece} (hl : Layout l) (h : Spaced (.sign c :: ps) s)
    (hc : c = 58 → first ps ≠ some 58) : Tail (l ++ s) := by
  obtain ⟨l', s', rfl, hp, hl', hb', h'⟩ := spaced_cons h
  have hf := sign_facts c hp
  have hh := layout_head hl
  cases l with
  | cons x l =>
    have hh : x = 32 ∨ x = 9 ∨ x = 13 ∨ x = 10 ∨ x = 47 := hh
    have : idChar x = false ∧ x ≠ 46 ∧ x ≠ 34 ∧ x ≠ 39 ∧ x ≠ 58 := by rcases hh with rfl | rfl | rfl | rfl | rfl <;> decide
    exact ⟨x, _, rfl, this.1, this.2.1, this.2.2.1, this.2.2.2.1, fun e => absurd e this.2.2.2.2⟩
  | nil =>
    refine ⟨c, l' ++ s', rfl, hf.1, hf.2.2.2.1, hf.2.2.2.2.1, hf.2.2.2.2.2.1, fun e => ?_⟩
    have hh := layout_head hl'
    cases l' with
    | cons x l' =>
      have hh : x = 32 ∨ x = 9 ∨ x = 13 ∨ x = 10 ∨ x = 47 := hh
      show x ≠ 58
      rintro rfl
      exact absurd hh (by decide)
    | nil =>
      have h2 := spaced_first h'
      rw [List.nil_append]
      refine head_of fun x hx => ?_
      rintro rfl
      exact hc e (h2.symm.trans hx)

theorem p_size {d : Dim} {t : Bytes} (hd : Size d t) {c : Nat} {ps : List Piece} {s : Bytes} (h : Spaced (.word t :: .sign c :: ps) s)
    (hc : c ≠ 58) : ∃ s', positiveInt s = some (d, s') ∧ Pos (.sign c :: ps) s' := by
  cases hd with
  | number hn =>
    obtain ⟨n, hn⟩ := hn
    obtain ⟨l, s', rfl, hp, hl, hb, h⟩ := spaced_cons h
    refine ⟨l ++ s', ?_, l, s', hl, rfl, h⟩
    unfold positiveInt
    refine or_first ?_
    show (integerLiteral >>= _) (t ++ (l ++ s')) = _
    rw [bind_ok (numeral_read hn (gap_tail hl h fun e => absurd e hc)).1]
    rfl
  | @name n hn =>
    obtain ⟨s', e, hp⟩ := p_scoped hn h (by intro e; exact hc (Option.some.inj e))
    refine ⟨s', ?_, hp⟩
    unfold positiveInt
    rw [or_second, bind_ok e]
    · rfl
    · obtain ⟨l, s', rfl, _⟩ := spaced_cons h
      obtain ⟨a, r, ha, e, _⟩ := typeName_front hn
      obtain ⟨x, y, e2, hx, _⟩ := ident_is ha.1
      refine bind_no ?_
      show integerLiteral (bytes n ++ _) = none
      rw [e, e2]
      exact integer_no (start_not hx).1

theorem p_sizeText {t : Bytes} (hd : TextSize t) {c : Nat} {ps : List Piece} {s : Bytes} (h : Spaced (.word t :: .sign c :: ps) s)
    (hc : c ≠ 58) : ∃ s', sizeText s = some (t, s') ∧ Pos (.sign c :: ps) s' := by
  obtain ⟨d, hd⟩ := hd
  obtain ⟨s', e, hp⟩ := p_size hd h hc
  refine ⟨s', ?_, hp⟩
  unfold sizeText
  rw [bind_ok e]
  cases hd <;> rfl

end Verif.Idl.Syn
