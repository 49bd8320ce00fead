import Verif.Spec.Ref
import Verif.Lemmas.InstMove
import Verif.Lemmas.OMap
/-! # Editing in place -/

namespace Verif.Inst

theorem tidy_rget : (T : Ty) → tidy T.rget = tidy T
  | .alias _ t => by rw [Ty.rget, tidy_rget t]; funext cs; simp only [tidy]
  | .prim _ | .enum _ _ _ | .str _ _ | .seq _ _ | .arr _ _ _ | .map _ _ _ | .pair _ _
  | .struct _ _ | .union _ _ _ _ => rfl

theorem WF_rget : (T : Ty) → T.WF → T.rget.WF
  | .alias _ t, h => by rw [Ty.rget]; rw [Ty.WF] at h; exact WF_rget t h
  | .prim _, h | .enum _ _ _, h | .str _ _, h | .seq _ _, h | .arr _ _ _, h | .map _ _ _, h | .pair _ _, h
  | .struct _ _, h | .union _ _ _ _, h => h

/-- `f` on an instance with value `v` does what `g v` says, changing only the cells of the instance. -/
def Edits {α : Type} (dec : List Cell → Option α) (td : List Cell → Prop) (clean : Prop) (f : Nat → Mem → M Mem)
    (ok : α → α → Prop) (refused : α → Prop) : Prop :=
  ∀ (pre old post : List Cell) (lk : Nat) (v : α), dec old = some v →
    (refused v → f pre.length ⟨pre ++ old ++ post, lk⟩ = .error .refused) ∧
    (∀ w, ok v w → ∃ new d, f pre.length ⟨pre ++ old ++ post, lk⟩ = .ok ⟨pre ++ new ++ post, lk + d⟩ ∧
      new.length = old.length ∧ dec new = some w ∧ (clean → td old → d = 0 ∧ td new))

/-- The same with the outcome given by a function. -/
def EditsTo (dec : List Cell → Option Val) (td : List Cell → Prop) (clean : Prop) (f : Nat → Mem → M Mem)
    (g : Val → Out) : Prop :=
  Edits dec td clean f (fun v w => g v = .ok w) (fun v => g v = .refused)

/-- A part of an instance at a fixed offset. -/
def Focus {α β : Type} (dec : List Cell → Option α) (td : List Cell → Prop) (off : Nat) (dec' : List Cell → Option β)
    (td' : List Cell → Prop) (sel : α → Option β) (upd : α → β → α) : Prop :=
  ∀ cs v, dec cs = some v → ∃ x y z u, cs = x ++ y ++ z ∧ x.length = off ∧ dec' y = some u ∧ sel v = some u ∧
    (td cs → td' y) ∧
    ∀ y' w, y'.length = y.length → dec' y' = some w → dec (x ++ y' ++ z) = some (upd v w) ∧
      (td cs → td' y' → td (x ++ y' ++ z))

theorem focus_edits {α β : Type} {dec : List Cell → Option α} {td : List Cell → Prop} {off : Nat}
    {dec' : List Cell → Option β} {td' : List Cell → Prop} {sel : α → Option β} {upd : α → β → α}
    (h : Focus dec td off dec' td' sel upd) {cl : Prop} {f : Nat → Mem → M Mem} {ok : β → β → Prop} {rf : β → Prop}
    (hf : Edits dec' td' cl f ok rf) :
    Edits dec td cl (fun a m => f (a + off) m) (fun v w => ∃ u x, sel v = some u ∧ ok u x ∧ w = upd v x)
      (fun v => ∃ u, sel v = some u ∧ rf u) := by
  intro pre old post lk v hv
  obtain ⟨x, y, z, u, rfl, hx, hd, hs, ht, hu⟩ := h _ _ hv
  have hc : pre ++ (x ++ y ++ z) ++ post = (pre ++ x) ++ y ++ (z ++ post) := by simp
  have hp : pre.length + off = (pre ++ x).length := by simp [hx]
  obtain ⟨h1, h2⟩ := hf (pre ++ x) y (z ++ post) lk u hd
  constructor
  · rintro ⟨u', hs', hr⟩
    rw [hs] at hs'; cases hs'
    show f (pre.length + off) _ = _
    rw [hc, hp]
    exact h1 hr
  · rintro w ⟨u', x', hs', ho, rfl⟩
    rw [hs] at hs'; cases hs'
    obtain ⟨new, d, hr, hl, hn, hcl⟩ := h2 x' ho
    refine ⟨x ++ new ++ z, d, ?_, by simp [hl], (hu _ _ hl hn).1, ?_⟩
    · show f (pre.length + off) _ = _
      rw [hc, hp, hr]
      simp
    · intro c t
      obtain ⟨e1, e2⟩ := hcl c (ht t)
      exact ⟨e1, (hu _ _ hl hn).2 t e2⟩

/-! ## Members, elements, parts -/

theorem locateAt_tyAt : (ms : Mems) → (i : Nat) → Mems.tyAt ms i = (Mems.locateAt ms i).map (·.2)
  | .nil, _ => rfl
  | .cons _ _ _, 0 => rfl
  | .cons _ t r, i + 1 => by
    rw [Mems.tyAt, Mems.locateAt, locateAt_tyAt r i]
    cases Mems.locateAt r i <;> rfl

theorem locate_posOf : (ms : Mems) → (n : String) →
    Mems.locate ms n = (Mems.posOf ms n).bind fun p => Mems.locateAt ms p.1
  | .nil, _ => rfl
  | .cons x t r, n => by
    rw [Mems.locate, Mems.posOf]
    by_cases h : x = n
    · rw [if_pos h, if_pos h]; rfl
    · rw [if_neg h, if_neg h, locate_posOf r n]
      cases Mems.posOf r n with
      | none => rfl
      | some p => rfl

theorem posOf_tyAt : (ms : Mems) → (n : String) → (i : Nat) → (t : Ty) → Mems.posOf ms n = some (i, t) →
    ∃ off, Mems.locateAt ms i = some (off, t)
  | .nil, _, _, _, h => by cases h
  | .cons x t r, n, i, u, h => by
    rw [Mems.posOf] at h
    by_cases e : x = n
    · rw [if_pos e] at h; cases h; exact ⟨0, rfl⟩
    · rw [if_neg e] at h
      cases e2 : Mems.posOf r n with
      | none => rw [e2] at h; cases h
      | some p =>
        rw [e2] at h; cases h
        obtain ⟨off, ho⟩ := posOf_tyAt r n p.1 p.2 (by rw [e2])
        exact ⟨off + t.memSize, by rw [Mems.locateAt, ho]; rfl⟩

theorem locateAt_WF : {ms : Mems} → ms.WF → {i off : Nat} → {t : Ty} → Mems.locateAt ms i = some (off, t) → t.WF
  | .nil, _, _, _, _, h => by cases h
  | .cons _ t r, hw, 0, _, _, h => by rw [Mems.locateAt] at h; cases h; rw [Mems.WF] at hw; exact hw.1
  | .cons _ t r, hw, i + 1, _, _, h => by
    rw [Mems.WF] at hw
    rw [Mems.locateAt] at h
    cases e : Mems.locateAt r i with
    | none => rw [e] at h; cases h
    | some p => rw [e] at h; cases h; exact locateAt_WF hw.2 (by rw [e])

theorem find_WF {ms : Mems} (hw : ms.WF) {n : String} {t : Ty} (h : ms.find? n = some t) : t.WF :=
  Mems.Forall.find (Mems.WF.forall hw) h

theorem decodeAll_cons {x : String} {t : Ty} {r : Mems} {cs : List Cell} {vs : List Val} :
    decodeAll (.cons x t r) cs = some vs ↔ ∃ v ws, vs = v :: ws ∧ decode t (cs.take t.memSize) = some v ∧
      decodeAll r (cs.drop t.memSize) = some ws := by
  rw [decodeAll]
  cases decode t (cs.take t.memSize) with
  | none => simp
  | some u =>
    cases decodeAll r (cs.drop t.memSize) with
    | none => simp
    | some ws => simp [eq_comm]

theorem focus_members : (ms : Mems) → (i off : Nat) → (t : Ty) → Mems.locateAt ms i = some (off, t) →
    Focus (decodeAll ms) (tidyAll ms) off (decode t) (tidy t) (fun vs => vs[i]?) (fun vs w => vs.set i w)
  | .nil, _, _, _, h => by cases h
  | .cons x t r, 0, off, u, h => by
    rw [Mems.locateAt] at h; cases h
    intro cs vs hv
    obtain ⟨v, ws, rfl, h1, h2⟩ := decodeAll_cons.mp hv
    have hl := decode_length _ _ _ h1
    refine ⟨[], cs.take t.memSize, cs.drop t.memSize, v, by simp, rfl, h1, rfl, ?_, ?_⟩
    · intro ht; rw [tidyAll] at ht; exact ht.1
    · intro y' w hy hw
      have hy' : y'.length = t.memSize := by rw [hy, hl]
      constructor
      · apply decodeAll_cons.mpr
        refine ⟨w, ws, rfl, ?_, ?_⟩
        · rw [List.nil_append, List.take_left' hy']; exact hw
        · rw [List.nil_append, List.drop_left' hy']; exact h2
      · intro ht ht'
        rw [tidyAll] at ht ⊢
        rw [List.nil_append, List.take_left' hy', List.drop_left' hy']
        exact ⟨ht', ht.2⟩
  | .cons x t r, i + 1, off, u, h => by
    rw [Mems.locateAt] at h
    cases e : Mems.locateAt r i with
    | none => rw [e] at h; cases h
    | some p =>
      obtain ⟨o, u'⟩ := p
      rw [e] at h; cases h
      intro cs vs hv
      obtain ⟨v, ws, rfl, h1, h2⟩ := decodeAll_cons.mp hv
      have hl := decode_length _ _ _ h1
      obtain ⟨a, b, c, w0, hc, ha, hb, hs, ht, hu⟩ := focus_members r i o u' e _ _ h2
      refine ⟨cs.take t.memSize ++ a, b, c, w0, ?_, ?_, hb, by simpa using hs, ?_, ?_⟩
      · rw [List.append_assoc, List.append_assoc, ← List.append_assoc a, ← hc, List.take_append_drop]
      · rw [List.length_append, hl, ha]; simp only []; omega
      · intro h; rw [tidyAll] at h; exact ht h.2
      · intro y' w hy hw
        obtain ⟨g1, g2⟩ := hu y' w hy hw
        have e1 : cs.take t.memSize ++ a ++ y' ++ c = cs.take t.memSize ++ (a ++ y' ++ c) := by simp
        constructor
        · apply decodeAll_cons.mpr
          refine ⟨v, ws.set i w, rfl, ?_, ?_⟩
          · rw [e1, List.take_left' hl]; exact h1
          · rw [e1, List.drop_left' hl]; exact g1
        · intro h3 h4
          rw [tidyAll] at h3 ⊢
          rw [e1, List.take_left' hl, List.drop_left' hl]
          exact ⟨h3.1, g2 h3.2 h4⟩

theorem decN_cons {dec : List Cell → Option Val} {s n : Nat} {cs : List Cell} {vs : List Val} :
    decN dec s (n + 1) cs = some vs ↔ ∃ v ws, vs = v :: ws ∧ dec (cs.take s) = some v ∧
      decN dec s n (cs.drop s) = some ws := by
  rw [decN]
  cases dec (cs.take s) with
  | none => simp
  | some u =>
    cases decN dec s n (cs.drop s) with
    | none => simp
    | some ws => simp [eq_comm]

/-- Cells that are `n` instances of size `s`. -/
def decArr (dec : List Cell → Option Val) (s n : Nat) (cs : List Cell) : Option (List Val) :=
  if cs.length = n * s then decN dec s n cs else none

theorem decArr_iff {dec : List Cell → Option Val} {s n : Nat} {cs : List Cell} {vs : List Val} :
    decArr dec s n cs = some vs ↔ cs.length = n * s ∧ decN dec s n cs = some vs := by
  unfold decArr
  split <;> simp_all

theorem focus_elems {dec : List Cell → Option Val} {td : List Cell → Prop} {s : Nat} : (n i : Nat) → i < n →
    Focus (decArr dec s n) (allN td s n) (i * s) dec td (fun vs => vs[i]?) (fun vs w => vs.set i w)
  | 0, _, h => by omega
  | n + 1, 0, _ => by
    intro cs vs hv
    obtain ⟨hl, hv⟩ := decArr_iff.mp hv
    obtain ⟨v, ws, rfl, h1, h2⟩ := decN_cons.mp hv
    rw [Nat.succ_mul] at hl
    have ht : (cs.take s).length = s := by simp; omega
    refine ⟨[], cs.take s, cs.drop s, v, by simp, by simp, h1, rfl, fun h => h.1, ?_⟩
    intro y' w hy hw
    have hy' : y'.length = s := by rw [hy, ht]
    constructor
    · apply decArr_iff.mpr
      refine ⟨by simp [hy', Nat.succ_mul]; omega, decN_cons.mpr ⟨w, ws, rfl, ?_, ?_⟩⟩
      · rw [List.nil_append, List.take_left' hy']; exact hw
      · rw [List.nil_append, List.drop_left' hy']; exact h2
    · intro h3 h4
      rw [allN] at h3 ⊢
      rw [List.nil_append, List.take_left' hy', List.drop_left' hy']
      exact ⟨h4, h3.2⟩
  | n + 1, i + 1, h => by
    intro cs vs hv
    obtain ⟨hl, hv⟩ := decArr_iff.mp hv
    obtain ⟨v, ws, rfl, h1, h2⟩ := decN_cons.mp hv
    rw [Nat.succ_mul] at hl
    have ht : (cs.take s).length = s := by simp; omega
    have hl2 : (cs.drop s).length = n * s := by simp; omega
    obtain ⟨a, b, c, w0, hc, ha, hb, hs, ht1, hu⟩ :=
      focus_elems (dec := dec) (td := td) (s := s) n i (by omega) (cs.drop s) ws (decArr_iff.mpr ⟨hl2, h2⟩)
    refine ⟨cs.take s ++ a, b, c, w0, ?_, ?_, hb, by simpa using hs, fun h => ht1 h.2, ?_⟩
    · rw [List.append_assoc, List.append_assoc, ← List.append_assoc a, ← hc, List.take_append_drop]
    · rw [List.length_append, ht, ha, Nat.succ_mul]; omega
    · intro y' w hy hw
      obtain ⟨g1, g2⟩ := hu y' w hy hw
      obtain ⟨g0, g1⟩ := decArr_iff.mp g1
      have e1 : cs.take s ++ a ++ y' ++ c = cs.take s ++ (a ++ y' ++ c) := by simp
      constructor
      · apply decArr_iff.mpr
        refine ⟨by rw [e1, List.length_append, ht, g0, Nat.succ_mul]; omega, decN_cons.mpr ⟨v, ws.set i w, rfl, ?_, ?_⟩⟩
        · rw [e1, List.take_left' ht]; exact h1
        · rw [e1, List.drop_left' ht]; exact g1
      · intro h3 h4
        rw [allN] at h3 ⊢
        rw [e1, List.take_left' ht, List.drop_left' ht]
        exact ⟨h3.1, g2 h3.2 h4⟩

theorem focus_fst {d1 d2 : List Cell → Option Val} {t1 t2 : List Cell → Prop} {s : Nat}
    (h1 : ∀ cs v, d1 cs = some v → cs.length = s) :
    Focus (decPair d1 d2 s) (fun cs => t1 (cs.take s) ∧ t2 (cs.drop s)) 0 d1 t1
      (fun v => match v with | .list [u, _] => some u | _ => none)
      (fun v w => match v with | .list [_, x] => .list [w, x] | v => v) := by
  intro cs v hv
  obtain ⟨u, w, rfl, e1, e2⟩ := decPair_iff.mp hv
  have hl := h1 _ _ e1
  refine ⟨[], cs.take s, cs.drop s, u, by simp, rfl, e1, rfl, fun h => h.1, ?_⟩
  intro y' x hy hx
  have hy' : y'.length = s := by rw [hy, hl]
  constructor
  · apply decPair_iff.mpr
    refine ⟨x, w, rfl, ?_, ?_⟩
    · rw [List.nil_append, List.take_left' hy']; exact hx
    · rw [List.nil_append, List.drop_left' hy']; exact e2
  · intro h3 h4
    rw [List.nil_append, List.take_left' hy', List.drop_left' hy']
    exact ⟨h4, h3.2⟩

theorem focus_snd {d1 d2 : List Cell → Option Val} {t1 t2 : List Cell → Prop} {s : Nat}
    (h1 : ∀ cs v, d1 cs = some v → cs.length = s) :
    Focus (decPair d1 d2 s) (fun cs => t1 (cs.take s) ∧ t2 (cs.drop s)) s d2 t2
      (fun v => match v with | .list [_, w] => some w | _ => none)
      (fun v w => match v with | .list [u, _] => .list [u, w] | v => v) := by
  intro cs v hv
  obtain ⟨u, w, rfl, e1, e2⟩ := decPair_iff.mp hv
  have hl := h1 _ _ e1
  refine ⟨cs.take s, cs.drop s, [], w, by simp, hl, e2, rfl, fun h => h.2, ?_⟩
  intro y' x hy hx
  constructor
  · apply decPair_iff.mpr
    refine ⟨u, x, rfl, ?_, ?_⟩
    · rw [List.append_nil, List.take_left' hl]; exact e1
    · rw [List.append_nil, List.drop_left' hl]; exact hx
  · intro h3 h4
    rw [List.append_nil, List.take_left' hl, List.drop_left' hl]
    exact ⟨h3.1, h4⟩

/-! ## Blocks of collections -/

theorem setColl_at (im : Bool) (o : Coll) (c : Cell) (pre post : List Cell) (lk : Nat) :
    setColl im o pre.length ⟨pre ++ objCells c seqSize ++ post, lk⟩ =
      .ok ⟨pre ++ objCells (.coll im o.content o.size o.cap o.block) seqSize ++ post, lk⟩ := by
  unfold setColl
  have hl : (objCells c seqSize).length = seqSize := objCells_length _ _ (by decide)
  rw [if_pos (by simp [hl])]
  simp only []
  rw [List.drop_left' (by simp [hl]), show List.take pre.length (pre ++ objCells c seqSize ++ post) = pre by simp]

theorem edits_block {im : Bool} {c : Ty} {s b : Nat} {dec : List Cell → Option Val} {td : List Cell → Prop}
    {cl : Prop} {f : Nat → Mem → M Mem} {ok : Val → Val → Prop} {rf : Val → Prop} {L : Prop}
    (hlen : ∀ cs v, dec cs = some v → cs.length = s) (hf : Edits dec td cl f ok rf) (i : Nat) :
    Edits (decColl im c s b dec) (tidyColl L td s) cl
      (inBlock im c fun o blk => if i < o.size then f (i * s) blk else .error .refused)
      (fun v w => ∃ vs u x, v = .coll vs ∧ vs[i]? = some u ∧ ok u x ∧ w = .coll (vs.set i x))
      (fun v => ∃ vs, v = .coll vs ∧ ∀ u, vs[i]? = some u → rf u) := by
  intro pre old post lk v hv
  obtain ⟨size, cap, blk, vs, rfl, hs, hb, hbl, hd, rfl⟩ := decColl_iff.mp hv
  have hp := peekColl_at im c size cap blk pre post
  have hln := decN_length hd
  have run : ∀ g, inBlock im c g pre.length ⟨pre ++ objCells (.coll im c size cap blk) seqSize ++ post, lk⟩ =
      (g ⟨c, size, cap, blk⟩ ⟨blk, 0⟩).bind fun m =>
        .ok ⟨pre ++ objCells (.coll im c size cap m.cells) seqSize ++ post, lk + m.leaked⟩ := by
    intro g
    unfold inBlock
    simp only []
    rw [hp]
    show (if c = c then _ else _) = _
    rw [if_pos rfl]
    cases g ⟨c, size, cap, blk⟩ ⟨blk, 0⟩ with
    | error e => rfl
    | ok m =>
      show (setColl _ _ _ _).map _ = _
      rw [setColl_at]
      rfl
  by_cases hi : i < size
  · have hic : i < cap := by omega
    obtain ⟨x, y, z, u, hxyz, hx, hy, hsel, ht, hu⟩ :=
      focus_elems (dec := dec) (td := td) (s := s) cap i hic blk vs (decArr_iff.mpr ⟨hbl, hd⟩)
    simp only [] at hsel
    have hsel' : (vs.take size)[i]? = some u := by rw [List.getElem?_take_of_lt hi]; exact hsel
    obtain ⟨f1, f2⟩ := hf x y z 0 u hy
    rw [run]
    simp only []
    rw [if_pos hi, ← hx]
    constructor
    · rintro ⟨vs', he, hr⟩
      cases he
      rw [hxyz, f1 (hr u hsel')]; rfl
    · rintro w ⟨vs', u', x', he, hg, ho, rfl⟩
      cases he
      rw [hsel'] at hg; cases hg
      obtain ⟨new, d, hr, hl, hn, hcl⟩ := f2 x' ho
      obtain ⟨g1, g2⟩ := hu new x' hl hn
      obtain ⟨g0, g1⟩ := decArr_iff.mp g1
      refine ⟨objCells (.coll im c size cap (x ++ new ++ z)) seqSize, d, ?_, ?_, ?_, ?_⟩
      · rw [hxyz, hr]; simp [Except.bind]
      · simp [objCells_length, seqSize]
      · apply decColl_iff.mpr
        refine ⟨size, cap, _, vs.set i x', ?_, hs, hb, g0, g1, rfl⟩
        rw [List.take_set]
      · intro hc ht0
        obtain ⟨ht0, hL⟩ : allN td s cap blk ∧ (L → owned (blk.drop (size * s)) = 0) := ht0
        obtain ⟨e1, e2⟩ := hcl hc (ht ht0)
        refine ⟨e1, g2 ht0 e2, fun hh => ?_⟩
        have h1 := hL hh
        have hy' := hlen _ _ hy
        have hle : (i + 1) * s ≤ size * s := Nat.mul_le_mul_right _ (by omega)
        rw [Nat.succ_mul] at hle
        rw [hxyz, List.drop_append, List.drop_eq_nil_of_le (by simp; omega)] at h1
        rw [List.drop_append, List.drop_eq_nil_of_le (by simp; omega), List.length_append, hl, ← List.length_append]
        exact h1
  · rw [run]
    simp only []
    rw [if_neg hi]
    have hnone : (vs.take size)[i]? = none := by simp; omega
    constructor
    · intro _; rfl
    · rintro w ⟨vs', u', x', he, hg, _⟩
      cases he
      rw [hnone] at hg; cases hg

/-! ## Unions -/

theorem firstLabel_case {i : UInfo} {size : Nat} {ms : Mems} (hi : UInfo.Ok i size ms) {n : String} {l : Int}
    (h : firstLabel i n = some l) : UInfo.case i l = some n := by
  unfold firstLabel at h
  cases e : i.labels.find? (fun p => p.2 = n) with
  | none => rw [e] at h; cases h
  | some p =>
    rw [e] at h; cases h
    have h1 := List.mem_of_find?_eq_some e
    have h2 := List.find?_some e
    simp only [decide_eq_true_eq] at h2
    exact omGet_of_mem hi.distinct (by rw [← h2]; exact h1)

/-- Selecting a case member. -/
theorem selectCase_ok {n : String} {d : Ty} {ms : Mems} {i : UInfo} (hw : (Ty.union n d ms i).WF) {nm : String} {t : Ty}
    (hf : ms.find? nm = some t) {l : Int} (hl : firstLabel i nm = some l) :
    Edits (decode (.union n d ms i)) (tidy (.union n d ms i)) True (selectCase d ms i nm)
      (fun v w => w = .un (discBytes d.memSize l) nm (caseVal t nm v)) (fun _ => False) := by
  rw [Ty.WF] at hw
  obtain ⟨hd, hi, hms⟩ := hw
  intro pre old post lk v hv
  refine ⟨fun h => h.elim, ?_⟩
  rintro w rfl
  obtain ⟨bs, rest, hb, hr, rfl, hcase⟩ := decode_union_inv hd hv
  have hsz := discOk_size hd
  have hcl := firstLabel_case hi hl
  have hll : labelOf d.memSize (leBytes d.memSize (l % 2 ^ (8 * d.memSize)).toNat) = l :=
    labelOf_bytes hsz (hi.label l nm hcl).1
  have htm := Mems.maxSize_find hf
  have hwt := find_WF hms hf
  -- the state after `activate`
  have key : ∃ rest' e, activate d ms i nm pre.length ⟨pre ++ (rawCells bs ++ rest) ++ post, lk⟩ =
      .ok ⟨pre ++ (rawCells bs ++ rest') ++ post, lk + e⟩ ∧ rest'.length = ms.maxSize ∧
      decode t (rest'.take t.memSize) = some (caseVal t nm v) ∧
      (tidy (.union n d ms i) (rawCells bs ++ rest) → e = 0 ∧ tidy t (rest'.take t.memSize) ∧
        owned (rest'.drop t.memSize) = 0) := by
    have hread : readLabel d (pre ++ (rawCells bs ++ rest) ++ post) pre.length = .ok (labelOf d.memSize bs) := by
      have := readLabel_at hd pre (rest ++ post) bs hb
      simpa using this
    have hpos : pre.length + d.memSize = (pre ++ rawCells bs).length := by simp [hb]
    have hmk := makes_case (construct_ok t hwt) htm
    unfold activate
    simp only []
    rw [hread]
    simp only [Except.bind]
    rcases hcase with ⟨hc, rfl⟩ | ⟨x, t', w', hc, hf', hd', rfl⟩
    · have hc0 := hc
      unfold UInfo.case at hc0
      rw [hc0]
      simp only []
      obtain ⟨new, e, h1, h2, h3, h4⟩ := hmk (pre ++ rawCells bs) rest post lk hr
      refine ⟨new, e, ?_, h2, h3, ?_⟩
      · rw [constructCase_eq hf, hpos]
        have : pre ++ (rawCells bs ++ rest) ++ post = pre ++ rawCells bs ++ rest ++ post := by simp
        rw [this, h1]; simp
      · intro ht
        rw [tidy_union_none hd hb hc] at ht
        exact h4 ht trivial
    · have hc0 := hc
      unfold UInfo.case at hc0
      rw [hc0]
      simp only []
      by_cases hx : x = nm
      · subst hx
        rw [hf] at hf'; cases hf'
        refine ⟨rest, 0, by rw [if_pos rfl]; rfl, hr, ?_, ?_⟩
        · rw [hd', caseVal, if_pos rfl]
        · intro ht
          rw [tidy_union_some hd hb hc hf] at ht
          exact ⟨rfl, ht⟩
      · rw [if_neg hx, destroyCase_eq hf', constructCase_eq hf, hpos]
        have hwt' := find_WF hms hf'
        have hl' := decode_length _ _ _ hd'
        obtain ⟨new, e, h1, h2, h3⟩ := destroy_ok t' hwt' (pre ++ rawCells bs) (rest.take t'.memSize)
          (rest.drop t'.memSize ++ post) lk w' hd'
        have : pre ++ (rawCells bs ++ rest) ++ post =
            pre ++ rawCells bs ++ rest.take t'.memSize ++ (rest.drop t'.memSize ++ post) := by
          rw [← split_at]; simp
        rw [this, h1]
        obtain ⟨new', e', h1', h2', h3', h4'⟩ := hmk (pre ++ rawCells bs) (new ++ rest.drop t'.memSize) post (lk + e)
          (by rw [List.length_append, h2, ← List.length_append, List.take_append_drop, hr])
        refine ⟨new', e + e', ?_, h2', ?_, ?_⟩
        · simp only []
          have : pre ++ rawCells bs ++ new ++ (rest.drop t'.memSize ++ post) =
            pre ++ rawCells bs ++ (new ++ rest.drop t'.memSize) ++ post := by simp
          rw [this, h1']; simp [Nat.add_assoc]
        · simp only [caseVal, if_neg hx]; exact h3'
        · intro ht
          rw [tidy_union_some hd hb hc hf'] at ht
          obtain ⟨z1, z2⟩ := h3 ht.1
          obtain ⟨y1, y2⟩ := h4' (by simp [z2, ht.2]) trivial
          exact ⟨by omega, y2⟩
  obtain ⟨rest', e, h1, h2, h3, h4⟩ := key
  refine ⟨rawCells (leBytes d.memSize (l % 2 ^ (8 * d.memSize)).toNat) ++ rest', e, ?_, ?_, ?_, ?_⟩
  · unfold selectCase
    rw [hl]
    simp only []
    rw [h1]
    simp only [Except.bind]
    have : pre ++ (rawCells bs ++ rest') ++ post = pre ++ rawCells bs ++ (rest' ++ post) := by simp
    rw [this, writeLabel_at hd _ _ _ _ _ hb]
    simp
  · simp [leBytes_length, hb, h2, hr]
  · rw [decode_union_some hd (by simp [leBytes_length]) h2 (by rw [hll]; exact hcl) hf, h3]; rfl
  · intro _ ht
    obtain ⟨z, y⟩ := h4 ht
    refine ⟨z, ?_⟩
    rw [tidy_union_some hd (by simp [leBytes_length]) (by rw [hll]; exact hcl) hf]
    exact y

/-- A union with the member `nm` selected. -/
def decSel (n : String) (d : Ty) (ms : Mems) (i : UInfo) (nm : String) (cs : List Cell) : Option Val :=
  match decode (.union n d ms i) cs with
  | some (.un b x w) => if x = nm then some (.un b x w) else none
  | _ => none

theorem decSel_iff {n : String} {d : Ty} {ms : Mems} {i : UInfo} {nm : String} {cs : List Cell} {v : Val} :
    decSel n d ms i nm cs = some v ↔ ∃ b w, v = .un b nm w ∧ decode (.union n d ms i) cs = some v := by
  unfold decSel
  constructor
  · intro h
    split at h
    · rename_i b x w e
      split at h
      · rename_i hx; subst hx; cases h; exact ⟨b, w, rfl, e⟩
      · cases h
    · cases h
  · rintro ⟨b, w, rfl, h⟩
    rw [h]; simp

theorem focus_case {n : String} {d : Ty} {ms : Mems} {i : UInfo} (hd : discOk d) {nm : String} {t : Ty}
    (hf : ms.find? nm = some t) :
    Focus (decSel n d ms i nm) (tidy (.union n d ms i)) d.memSize (decode t) (tidy t)
      (fun v => match v with | .un _ _ w => some w | _ => none)
      (fun v w => match v with | .un b x _ => .un b x w | v => v) := by
  intro cs v hv
  obtain ⟨b, w, rfl, hv⟩ := decSel_iff.mp hv
  obtain ⟨bs, rest, hb, hr, rfl, hcase⟩ := decode_union_inv hd hv
  rcases hcase with ⟨hc, he⟩ | ⟨x, t', w', hc, hf', hd', he⟩
  · cases he
  · cases he
    rw [hf] at hf'; cases hf'
    have htm := Mems.maxSize_find hf
    have hl := decode_length _ _ _ hd'
    refine ⟨rawCells bs, rest.take t.memSize, rest.drop t.memSize, w, by simp, by simp [hb], hd', rfl, ?_, ?_⟩
    · intro ht; rw [tidy_union_some hd hb hc hf] at ht; exact ht.1
    · intro y' x hy hx
      rw [hl] at hy
      have e1 : rawCells bs ++ y' ++ rest.drop t.memSize = rawCells bs ++ (y' ++ rest.drop t.memSize) := by simp
      constructor
      · apply decSel_iff.mpr
        refine ⟨_, x, rfl, ?_⟩
        rw [e1, decode_union_some hd hb (by simp [hy]; omega) hc hf, List.take_left' hy, hx]; rfl
      · intro ht hty
        rw [tidy_union_some hd hb hc hf] at ht
        rw [e1, tidy_union_some hd hb hc hf, List.take_left' hy, List.drop_left' hy]
        exact ⟨hty, ht.2⟩

/-! ## Paths -/

theorem edits_weaken {α β : Type} {dec : List Cell → Option α} {dec' : List Cell → Option β} {td td' : List Cell → Prop}
    {cl cl' : Prop} {f f' : Nat → Mem → M Mem} {ok : α → α → Prop} {rf : α → Prop} {ok' : β → β → Prop} {rf' : β → Prop}
    (h : Edits dec td cl f ok rf) (hf : ∀ a m, f' a m = f a m)
    (hd : ∀ cs v, dec' cs = some v → ∃ u, dec cs = some u ∧ (rf' v → rf u) ∧
      ∀ w, ok' v w → ∃ x, ok u x ∧ ∀ cs', cs'.length = cs.length → dec cs' = some x → dec' cs' = some w)
    (hc : cl' → cl) (ht : ∀ cs v, dec' cs = some v → td' cs → td cs) (ht' : ∀ cs v, dec cs = some v → td cs → td' cs) :
    Edits dec' td' cl' f' ok' rf' := by
  intro pre old post lk v hv
  obtain ⟨u, hu, hr, ho⟩ := hd _ _ hv
  obtain ⟨h1, h2⟩ := h pre old post lk u hu
  rw [hf]
  refine ⟨fun h => h1 (hr h), fun w hw => ?_⟩
  obtain ⟨x, hx, hx'⟩ := ho w hw
  obtain ⟨new, d, g1, g2, g3, g4⟩ := h2 x hx
  refine ⟨new, d, g1, g2, hx' _ g2 g3, fun c t => ?_⟩
  obtain ⟨z1, z2⟩ := g4 (hc c) (ht _ _ hv t)
  exact ⟨z1, ht' _ _ g3 z2⟩

theorem editsTo_refuse {dec : List Cell → Option Val} {td : List Cell → Prop} {cl : Prop} {f : Nat → Mem → M Mem}
    {g : Val → Out} (hf : ∀ a m, f a m = .error .refused) (hg : ∀ v w, g v ≠ .ok w) : EditsTo dec td cl f g := by
  intro pre old post lk v _
  exact ⟨fun _ => hf _ _, fun w h => absurd h (hg v w)⟩

theorem map_ok {o : Out} {f : Val → Val} {w : Val} : o.map f = .ok w ↔ ∃ x, o = .ok x ∧ w = f x := by
  cases o <;> simp [Out.map, eq_comm]

theorem map_refused {o : Out} {f : Val → Val} : o.map f = .refused ↔ o = .refused := by
  cases o <;> simp [Out.map]

/-- Following a path that does not meet a union first. -/
theorem editAt_child {ro : Bool} {g : Ty → Val → Out} {s : Step} {p : List Step} {T S : Ty} (hT : T.rget = S)
    (hS : S.isUnion = false) (v : Val) :
    editAt ro g (s :: p) T v = match child S s with
      | none => .refused
      | some (i, t) => match elem S v i with
        | none => .refused
        | some u => (editAt ro g p t u).map (putElem S v i) := by
  cases S <;> cases s <;> first
    | (cases hS; done)
    | (simp only [editAt, hT]; rfl)

theorem typeAt_child {s : Step} {p : List Step} {T S : Ty} (hT : T.rget = S) (hS : S.isUnion = false) :
    typeAt (s :: p) T = (child S s).bind fun x => typeAt p x.2 := by
  cases S <;> cases s <;> first
    | (cases hS; done)
    | simp only [typeAt, hT]

/-- A focus whose value functions are those of the specification. -/
theorem focus_step {S t : Ty} {off i : Nat} {sel : Val → Option Val} {upd : Val → Val → Val}
    (h : Focus (decode S) (tidy S) off (decode t) (tidy t) sel upd)
    (hs : ∀ cs v, decode S cs = some v → elem S v i = sel v ∧ ∀ w, putElem S v i w = upd v w)
    {cl : Prop} {f : Nat → Mem → M Mem} {G : Val → Out} (hf : EditsTo (decode t) (tidy t) cl f G) :
    EditsTo (decode S) (tidy S) cl (fun a m => f (a + off) m)
      (fun v => match elem S v i with
        | none => .refused
        | some u => (G u).map (putElem S v i)) := by
  have hfoc := h
  have h := focus_edits h hf
  intro pre old post lk v hv
  obtain ⟨x, y, z, u, _, _, _, hsel, _⟩ := hfoc _ _ hv
  obtain ⟨he, hp⟩ := hs _ _ hv
  obtain ⟨h1, h2⟩ := h pre old post lk v hv
  simp only []
  rw [he, hsel]
  constructor
  · intro hr
    exact h1 ⟨u, hsel, map_refused.mp hr⟩
  · intro w hr
    obtain ⟨x, hx, rfl⟩ := map_ok.mp hr
    exact h2 _ ⟨u, x, hsel, hx, hp x⟩

theorem focus_struct {n : String} {ms : Mems} {i off : Nat} {t : Ty} (h : Mems.locateAt ms i = some (off, t)) :
    Focus (decode (.struct n ms)) (tidy (.struct n ms)) off (decode t) (tidy t)
      (fun v => match v with | .list vs => vs[i]? | _ => none)
      (fun v w => match v with | .list vs => .list (vs.set i w) | v => v) := by
  intro cs v hv
  rw [decode] at hv
  cases e : decodeAll ms cs with
  | none => rw [e] at hv; cases hv
  | some vs =>
    rw [e] at hv; cases hv
    obtain ⟨x, y, z, u, h1, h2, h3, h4, h5, h6⟩ := focus_members ms i off t h cs vs e
    refine ⟨x, y, z, u, h1, h2, h3, h4, ?_, ?_⟩
    · intro ht; rw [tidy] at ht; exact h5 ht
    · intro y' w hy hw
      obtain ⟨g1, g2⟩ := h6 y' w hy hw
      refine ⟨by rw [decode, g1]; rfl, fun ht ht' => ?_⟩
      rw [tidy] at ht ⊢
      exact g2 ht ht'

theorem focus_array {n : String} {c : Ty} {d i : Nat} (h : i < d) :
    Focus (decode (.arr n c d)) (tidy (.arr n c d)) (i * c.memSize) (decode c) (tidy c)
      (fun v => match v with | .list vs => vs[i]? | _ => none)
      (fun v w => match v with | .list vs => .list (vs.set i w) | v => v) := by
  intro cs v hv
  rw [decode] at hv
  split at hv
  · rename_i hl
    cases e : decN (decode c) c.memSize d cs with
    | none => rw [e] at hv; cases hv
    | some vs =>
      rw [e] at hv; cases hv
      obtain ⟨x, y, z, u, h1, h2, h3, h4, h5, h6⟩ :=
        focus_elems (td := tidy c) d i h cs vs (decArr_iff.mpr ⟨hl, e⟩)
      refine ⟨x, y, z, u, h1, h2, h3, h4, ?_, ?_⟩
      · intro ht; rw [tidy] at ht; exact h5 ht
      · intro y' w hy hw
        obtain ⟨g1, g2⟩ := h6 y' w hy hw
        obtain ⟨g0, g1⟩ := decArr_iff.mp g1
        refine ⟨by rw [decode, if_pos g0, g1]; rfl, fun ht ht' => ?_⟩
        rw [tidy] at ht ⊢
        exact g2 ht ht'
  · cases hv

theorem decode_list {S : Ty} {cs : List Cell} {v : Val} (h : decode S cs = some v) :
    (S.isStruct = true → ∃ vs, v = .list vs) ∧ (∀ n c d, S = .arr n c d → ∃ vs, v = .list vs ∧ vs.length = d) := by
  constructor
  · intro hs
    cases S <;> simp [Ty.isStruct] at hs
    rw [decode] at h
    rename_i n ms
    cases e : decodeAll ms cs with
    | none => rw [e] at h; cases h
    | some vs => rw [e] at h; cases h; exact ⟨vs, rfl⟩
  · rintro n c d rfl
    rw [decode] at h
    split at h
    · cases e : decN (decode c) c.memSize d cs with
      | none => rw [e] at h; cases h
      | some vs => rw [e] at h; cases h; exact ⟨vs, rfl, decN_length e⟩
    · cases h

/-- The steps below a sequence or a map. -/
theorem coll_step {im : Bool} {c : Ty} {s b i : Nat} {dec : List Cell → Option Val} {td : List Cell → Prop}
    {cl : Prop} {f : Nat → Mem → M Mem} {ok : Val → Val → Prop} {rf : Val → Prop}
    (hlen : ∀ cs v, dec cs = some v → cs.length = s) (hf : Edits dec td cl f ok rf)
    {g' : Val → Out} {L : Prop} (S : Ty) (hS : ∀ cs, decode S cs = decColl im c s b dec cs)
    (hT : ∀ cs, tidy S cs = tidyColl L td s cs)
    (hr : ∀ vs, g' (.coll vs) = .refused → ∀ u cs, vs[i]? = some u → dec cs = some u → rf u)
    (ho : ∀ vs w, g' (.coll vs) = .ok w → ∃ u x, vs[i]? = some u ∧ ok u x ∧ w = .coll (vs.set i x)) :
    EditsTo (decode S) (tidy S) cl
      (inBlock im c fun o blk => if i < o.size then f (i * s) blk else .error .refused) g' := by
  have h := edits_block (im := im) (c := c) (s := s) (b := b) (L := L) hlen hf i
  intro pre old post lk v hv
  rw [hS] at hv
  obtain ⟨h1, h2⟩ := h pre old post lk v hv
  obtain ⟨size, cap, blk, vs, rfl, _, _, _, hdn, _⟩ := decColl_iff.mp hv
  constructor
  · intro hg
    refine h1 ⟨_, rfl, fun u hu => ?_⟩
    obtain ⟨cs, hcs⟩ := decN_mem hdn u (List.mem_of_mem_take (List.mem_of_getElem? hu))
    exact hr _ hg u cs hu hcs
  · intro w hg
    obtain ⟨u, x, e1, e2, e3⟩ := ho _ w hg
    obtain ⟨new, d, g1, g2, g3, g4⟩ := h2 w ⟨_, u, x, rfl, e1, e2, e3⟩
    refine ⟨new, d, g1, g2, by rw [hS]; exact g3, ?_⟩
    rw [hT, hT]
    exact g4

theorem modify_obj (f : Cell → Cell) (c : Cell) (n : Nat) (pre post : List Cell) :
    (pre ++ objCells c n ++ post).modify pre.length f = pre ++ objCells (f c) n ++ post := by
  induction pre with
  | nil => simp [objCells]
  | cons x pre ih => simpa using ih

theorem char_eq (k : SK) : SK.char k = charOf k := by cases k <;> rfl

/-- The step to a character of a string. -/
theorem str_step {k : SK} {b i : Nat} {cl : Prop} {f : Nat → Mem → M Mem} {G : Val → Out}
    (hf : EditsTo (decode (.prim (charOf k))) (tidy (.prim (charOf k))) cl f G) :
    EditsTo (decode (.str k b)) (tidy (.str k b)) cl (inStr k i f)
      (fun v => match elem (.str k b) v i with
        | none => .refused
        | some u => (G u).map (putElem (.str k b) v i)) := by
  intro pre old post lk v hv
  rw [decode] at hv
  obtain ⟨us, h, rfl, hb, rfl⟩ := decStr_iff.mp hv
  have hpeek := peekStr_at k us h pre post
  simp only [elem]
  cases hu : us[i]? with
  | none =>
    refine ⟨fun _ => ?_, fun w hw => by cases hw⟩
    unfold inStr
    simp only [char_eq]
    rw [hpeek]
    simp only [Except.bind, hu]
  | some u =>
    simp only [Option.map_some]
    obtain ⟨f1, f2⟩ := hf [] (rawCells (leBytes (charOf k).size u)) [] 0 (.bytes (leBytes (charOf k).size u)) (by
      rw [decode]; exact decBytes_iff.mpr ⟨_, rfl, leBytes_length _ _, rfl⟩)
    simp only [List.length_nil, List.nil_append, List.append_nil] at f1 f2
    constructor
    · intro hr
      unfold inStr
      simp only [char_eq]
      rw [hpeek]
      simp only [Except.bind, hu]
      rw [f1 (map_refused.mp hr)]
    · intro w hr
      obtain ⟨x, hx, rfl⟩ := map_ok.mp hr
      obtain ⟨new, d, g1, g2, g3, g4⟩ := f2 x hx
      rw [decode] at g3
      obtain ⟨bs, rfl, hbs, rfl⟩ := decBytes_iff.mp g3
      refine ⟨objCells (.str k (us.set i (leNat bs)) h) strSize, d, ?_, ?_, ?_, ?_⟩
      · unfold inStr
        simp only [char_eq]
        rw [hpeek]
        simp only [Except.bind, hu]
        rw [g1]
        have := peekRaw_at [] [] bs _ hbs
        simp only [List.length_nil, List.nil_append, List.append_nil] at this
        simp only [this, Except.map, modify_obj, Cell.setChar, Nat.zero_add]
      · simp [objCells_length, strSize]
      · rw [decode]
        exact decStr_iff.mpr ⟨_, h, rfl, by simpa using hb, rfl⟩
      · intro hc ht
        rw [tidy]
        have := g4 hc (by rw [tidy]; trivial)
        exact ⟨by simpa using this.1, trivial⟩

/-- Following a path and doing something at its end. -/
theorem withRef_edits {cl : Prop} {ro : Bool} {f : Ty → Nat → Mem → M Mem} {g : Ty → Val → Out} :
    (p : List Step) → (T : Ty) → T.WF →
    (∀ t, typeAt p T = some t → t.WF → EditsTo (decode t) (tidy t) cl (f t) (g t)) →
    EditsTo (decode T) (tidy T) cl (withRef ro p T f) (editAt ro g p T)
  | [], T, hw, h => by
    have := h T.rget rfl (WF_rget T hw)
    rw [decode_rget, tidy_rget] at this
    exact this
  | s :: p, T, hw, h => by
    rw [← decode_rget, ← tidy_rget]
    have hw := WF_rget T hw
    have hna := Ty.rget_not_alias T
    cases hS : T.rget with
    | «alias» n t => rw [hS] at hna; cases hna
    | prim k =>
      refine editsTo_refuse ?_ ?_
      · intro a m; cases s <;> simp [withRef, hS]
      · intro v w; rw [editAt_child hS rfl]; cases s <;> simp [child]
    | enum n w vs =>
      refine editsTo_refuse ?_ ?_
      · intro a m; cases s <;> simp [withRef, hS]
      · intro v w; rw [editAt_child hS rfl]; cases s <;> simp [child]
    | str k b =>
      cases s with
      | index i =>
        have ih := withRef_edits (cl := cl) (ro := ro) (f := f) (g := g) p (.prim (charOf k)) (by rw [Ty.WF]; trivial)
          (fun t ht => h t (by rw [typeAt_child hS rfl]; exact ht))
        have he : withRef ro (.index i :: p) T f = inStr k i (withRef ro p (.prim (charOf k)) f) := by
          funext a m; simp only [withRef, hS, char_eq]
        have hg : editAt ro g (.index i :: p) T = fun v => match elem (.str k b) v i with
            | none => .refused
            | some u => (editAt ro g p (.prim (charOf k)) u).map (putElem (.str k b) v i) := by
          funext v; rw [editAt_child hS rfl]; simp only [child]
        rw [he, hg]
        exact str_step ih
      | member n =>
        refine editsTo_refuse ?_ ?_
        · intro a m; simp [withRef, hS]
        · intro v w; rw [editAt_child hS rfl]; simp [child]
      | key i =>
        refine editsTo_refuse ?_ ?_
        · intro a m; simp [withRef, hS]
        · intro v w; rw [editAt_child hS rfl]; simp [child]
    | seq c b =>
      rw [hS] at hw
      rw [Ty.WF] at hw
      cases s with
      | index i =>
        have ih := withRef_edits (cl := cl) (ro := ro) (f := f) (g := g) p c hw (fun t ht => h t (by
          rw [typeAt_child hS rfl]; exact ht))
        have he : withRef ro (.index i :: p) T f = inBlock false c fun o blk =>
            if i < o.size then withRef ro p c f (i * c.memSize) blk else .error .refused := by
          funext a m; simp only [withRef, hS]
        rw [he]
        refine coll_step (decode_length c) ih (.seq c b) (b := b) (fun cs => by rw [decode]) (fun cs => by rw [tidy]) ?_ ?_
        · intro vs hr u _ hu _
          rw [editAt_child hS rfl] at hr
          simp only [child, elem, hu] at hr
          exact map_refused.mp hr
        · intro vs w hr
          rw [editAt_child hS rfl] at hr
          simp only [child, elem] at hr
          cases hu : vs[i]? with
          | none => rw [hu] at hr; cases hr
          | some u =>
            rw [hu] at hr
            obtain ⟨x, hx, rfl⟩ := map_ok.mp hr
            exact ⟨u, x, rfl, hx, rfl⟩
      | member n =>
        refine editsTo_refuse ?_ ?_
        · intro a m; simp [withRef, hS]
        · intro v w; rw [editAt_child hS rfl]; simp [child]
      | key i =>
        refine editsTo_refuse ?_ ?_
        · intro a m; simp [withRef, hS]
        · intro v w; rw [editAt_child hS rfl]; simp [child]
    | arr n c d =>
      rw [hS] at hw
      rw [Ty.WF] at hw
      cases s with
      | index i =>
        by_cases hi : i < d
        · have ih := withRef_edits (cl := cl) (ro := ro) (f := f) (g := g) p c hw (fun t ht => h t (by
            rw [typeAt_child hS rfl]; simp only [child, if_pos hi]; exact ht))
          have he : withRef ro (.index i :: p) T f = fun a m => withRef ro p c f (a + i * c.memSize) m := by
            funext a m; simp only [withRef, hS, if_pos hi]
          have hg : editAt ro g (.index i :: p) T = fun v => match elem (.arr n c d) v i with
              | none => .refused
              | some u => (editAt ro g p c u).map (putElem (.arr n c d) v i) := by
            funext v; rw [editAt_child hS rfl]; simp only [child, if_pos hi]
          rw [he, hg]
          refine focus_step (focus_array hi) ?_ ih
          intro cs v hv
          obtain ⟨vs, rfl, _⟩ := (decode_list hv).2 n c d rfl
          exact ⟨rfl, fun _ => rfl⟩
        · refine editsTo_refuse ?_ ?_
          · intro a m; simp only [withRef, hS, if_neg hi]
          · intro v w; rw [editAt_child hS rfl]; simp [child, hi]
      | member n =>
        refine editsTo_refuse ?_ ?_
        · intro a m; simp [withRef, hS]
        · intro v w; rw [editAt_child hS rfl]; simp [child]
      | key i =>
        refine editsTo_refuse ?_ ?_
        · intro a m; simp [withRef, hS]
        · intro v w; rw [editAt_child hS rfl]; simp [child]
    | map k v b =>
      rw [hS] at hw
      rw [Ty.WF] at hw
      cases s with
      | key i =>
        have ih := withRef_edits (cl := cl) (ro := ro) (f := f) (g := g) p v hw.2 (fun t ht => h t (by
          rw [typeAt_child hS rfl]; exact ht))
        have ih2 := focus_edits (focus_snd (d2 := decode v) (t1 := tidy k) (t2 := tidy v) (decode_length k)) ih
        have he : withRef ro (.key i :: p) T f = inBlock true (.pair k v) fun o blk =>
            if i < o.size then (fun a m => withRef ro p v f (a + k.memSize) m) (i * (k.memSize + v.memSize)) blk
            else .error .refused := by
          funext a m; simp only [withRef, hS]
        rw [he]
        refine coll_step (fun cs w hw => by
          have := decode_length (.pair k v) cs w (by rw [decode]; exact hw)
          rw [Ty.memSize] at this; exact this) ih2 (.map k v b) (b := b) (fun cs => by rw [decode]) (fun cs => by rw [tidy]) ?_ ?_
        · intro vs hr u cs hu hcs
          obtain ⟨u1, u2, rfl, _, _⟩ := decPair_iff.mp hcs
          rw [editAt_child hS rfl] at hr
          simp only [child, elem, hu] at hr
          exact ⟨u2, rfl, map_refused.mp hr⟩
        · intro vs w hr
          rw [editAt_child hS rfl] at hr
          simp only [child, elem, putElem] at hr
          cases hu : vs[i]? with
          | none => rw [hu] at hr; cases hr
          | some u =>
            rw [hu] at hr
            split at hr
            · cases hr
            · rename_i u' hu'
              split at hu'
              · rename_i x y hxy
                cases hu'
                simp only [Option.some.injEq] at hxy
                subst hxy
                obtain ⟨x', hx, rfl⟩ := map_ok.mp hr
                exact ⟨_, _, rfl, ⟨_, x', rfl, hx, rfl⟩, by simp [putElem, hu]⟩
              · cases hu'
      | member n =>
        refine editsTo_refuse ?_ ?_
        · intro a m; simp [withRef, hS]
        · intro v w; rw [editAt_child hS rfl]; simp [child]
      | index i =>
        refine editsTo_refuse ?_ ?_
        · intro a m; simp [withRef, hS]
        · intro v w; rw [editAt_child hS rfl]; simp [child]
    | pair x y =>
      rw [hS] at hw
      rw [Ty.WF] at hw
      cases s with
      | index i =>
        match i with
        | 0 =>
          have ih := withRef_edits (cl := cl) (ro := ro) (f := f) (g := g) p x hw.1 (fun t ht => h t (by
            rw [typeAt_child hS rfl]; exact ht))
          have he : withRef ro (.index 0 :: p) T f = fun a m => withRef ro p x f (a + 0) m := by
            funext a m; simp only [withRef, hS]; rfl
          have hg : editAt ro g (.index 0 :: p) T = fun v => match elem (.pair x y) v 0 with
              | none => .refused
              | some u => (editAt ro g p x u).map (putElem (.pair x y) v 0) := by
            funext v; rw [editAt_child hS rfl]; simp only [child]
          rw [he, hg]
          have hfo := focus_fst (d1 := decode x) (d2 := decode y) (t1 := tidy x) (t2 := tidy y) (decode_length x)
          have e1 : decPair (decode x) (decode y) x.memSize = decode (.pair x y) := by funext cs; rw [decode]
          have e2 : (fun cs => tidy x (cs.take x.memSize) ∧ tidy y (cs.drop x.memSize)) = tidy (.pair x y) := by
            funext cs; rw [tidy]
          rw [e1, e2] at hfo
          refine focus_step hfo ?_ ih
          intro cs v hv
          rw [decode] at hv
          obtain ⟨u, w, rfl, _⟩ := decPair_iff.mp hv
          exact ⟨rfl, fun _ => rfl⟩
        | 1 =>
          have ih := withRef_edits (cl := cl) (ro := ro) (f := f) (g := g) p y hw.2 (fun t ht => h t (by
            rw [typeAt_child hS rfl]; exact ht))
          have he : withRef ro (.index 1 :: p) T f = fun a m => withRef ro p y f (a + x.memSize) m := by
            funext a m; simp only [withRef, hS]
          have hg : editAt ro g (.index 1 :: p) T = fun v => match elem (.pair x y) v 1 with
              | none => .refused
              | some u => (editAt ro g p y u).map (putElem (.pair x y) v 1) := by
            funext v; rw [editAt_child hS rfl]; simp only [child]
          rw [he, hg]
          have hfo := focus_snd (d1 := decode x) (d2 := decode y) (t1 := tidy x) (t2 := tidy y) (decode_length x)
          have e1 : decPair (decode x) (decode y) x.memSize = decode (.pair x y) := by funext cs; rw [decode]
          have e2 : (fun cs => tidy x (cs.take x.memSize) ∧ tidy y (cs.drop x.memSize)) = tidy (.pair x y) := by
            funext cs; rw [tidy]
          rw [e1, e2] at hfo
          refine focus_step hfo ?_ ih
          intro cs v hv
          rw [decode] at hv
          obtain ⟨u, w, rfl, _⟩ := decPair_iff.mp hv
          exact ⟨rfl, fun _ => rfl⟩
        | i + 2 =>
          refine editsTo_refuse ?_ ?_
          · intro a m; simp [withRef, hS]
          · intro v w; rw [editAt_child hS rfl]; simp [child]
      | member n =>
        refine editsTo_refuse ?_ ?_
        · intro a m; simp [withRef, hS]
        · intro v w; rw [editAt_child hS rfl]; simp [child]
      | key i =>
        refine editsTo_refuse ?_ ?_
        · intro a m; simp [withRef, hS]
        · intro v w; rw [editAt_child hS rfl]; simp [child]
    | struct n ms =>
      rw [hS] at hw
      rw [Ty.WF] at hw
      have main : ∀ (s : Step) (i off : Nat) (t : Ty), Mems.locateAt ms i = some (off, t) →
          child (.struct n ms) s = some (i, t) → (∀ u, typeAt (s :: p) T = some u → u.WF →
            EditsTo (decode u) (tidy u) cl (f u) (g u)) →
          EditsTo (decode (.struct n ms)) (tidy (.struct n ms)) cl
            (fun a m => withRef ro p t f (a + off) m) (editAt ro g (s :: p) T) := by
        intro s i off t hl hc h
        have ih := withRef_edits (cl := cl) (ro := ro) (f := f) (g := g) p t (locateAt_WF hw hl) (fun u hu => h u (by
          rw [typeAt_child hS rfl, hc]; exact hu))
        have hg : editAt ro g (s :: p) T = fun v => match elem (.struct n ms) v i with
            | none => .refused
            | some u => (editAt ro g p t u).map (putElem (.struct n ms) v i) := by
          funext v; rw [editAt_child hS rfl, hc]
        rw [hg]
        refine focus_step (focus_struct hl) ?_ ih
        intro cs v hv
        obtain ⟨vs, rfl⟩ := (decode_list hv).1 rfl
        exact ⟨rfl, fun _ => rfl⟩
      cases s with
      | member nm =>
        cases hp : Mems.posOf ms nm with
        | none =>
          refine editsTo_refuse ?_ ?_
          · intro a m; simp [withRef, hS, locate_posOf, hp]
          · intro v w; rw [editAt_child hS rfl]; simp [child, hp]
        | some q =>
          obtain ⟨i, t⟩ := q
          obtain ⟨off, ho⟩ := posOf_tyAt _ _ _ _ hp
          have he : withRef ro (.member nm :: p) T f = fun a m => withRef ro p t f (a + off) m := by
            funext a m; simp [withRef, hS, locate_posOf, hp, ho]
          rw [he]
          exact main (.member nm) i off t ho (by rw [child, hp]) h
      | index i =>
        cases hp : Mems.locateAt ms i with
        | none =>
          refine editsTo_refuse ?_ ?_
          · intro a m; simp [withRef, hS, hp]
          · intro v w; rw [editAt_child hS rfl]; simp [child, locateAt_tyAt, hp]
        | some q =>
          obtain ⟨off, t⟩ := q
          have he : withRef ro (.index i :: p) T f = fun a m => withRef ro p t f (a + off) m := by
            funext a m; simp [withRef, hS, hp]
          rw [he]
          exact main (.index i) i off t hp (by rw [child, locateAt_tyAt, hp]; rfl) h
      | key i =>
        refine editsTo_refuse ?_ ?_
        · intro a m; simp [withRef, hS]
        · intro v w; rw [editAt_child hS rfl]; simp [child]
    | union n d ms i =>
      rw [hS] at hw
      have hw0 := hw
      rw [Ty.WF] at hw
      cases s with
      | member nm =>
        cases hf : ms.find? nm with
        | none =>
          refine editsTo_refuse ?_ ?_
          · intro a m; simp [withRef, hS, hf]
          · intro v w; simp [editAt, hS, hf]
        | some t =>
          cases hl : firstLabel i nm with
          | none =>
            intro pre old post lk v hv
            constructor
            · intro hr; simp [editAt, hS, hf, hl] at hr
            · intro w hr; simp [editAt, hS, hf, hl] at hr
          | some l =>
            have ih := withRef_edits (cl := cl) (ro := ro) (f := f) (g := g) p t (find_WF hw.2.2 hf) (fun u hu => h u (by
              simp only [typeAt, hS, hf]; exact hu))
            have ih2 := focus_edits (focus_case (n := n) (i := i) hw.1 hf) ih
            have hsel := selectCase_ok hw0 hf hl
            intro pre old post lk v hv
            obtain ⟨bs, rest, hb, hrl, rfl, hcase⟩ := decode_union_inv hw.1 hv
            have hread : readLabel d (pre ++ (rawCells bs ++ rest) ++ post) pre.length = .ok (labelOf d.memSize bs) := by
              have := readLabel_at hw.1 pre (rest ++ post) bs hb
              simpa using this
            have hsc : omGet i.labels (labelOf d.memSize bs) = some nm ↔ v.isCase nm = true := by
              rcases hcase with ⟨hc, rfl⟩ | ⟨x, t', w', hc, hf', hd', rfl⟩
              · unfold UInfo.case at hc; rw [hc]; simp [Val.isCase]
              · unfold UInfo.case at hc; rw [hc]; simp [Val.isCase]
            by_cases hb0 : (ro && !v.isCase nm) = true
            · constructor
              · intro _
                simp only [Bool.and_eq_true, Bool.not_eq_true'] at hb0
                obtain ⟨h0, hb0⟩ := hb0
                subst h0
                have : ¬ omGet i.labels (labelOf d.memSize bs) = some nm := by rw [hsc, hb0]; simp
                simp only [withRef, hS, hf, if_true, hread, Except.bind, if_neg this]
              · intro w hr
                simp only [editAt, hS, hf, hl, if_pos hb0] at hr
                cases hr
            · have hrun : withRef ro (.member nm :: p) T f pre.length ⟨pre ++ (rawCells bs ++ rest) ++ post, lk⟩ =
                  (selectCase d ms i nm pre.length ⟨pre ++ (rawCells bs ++ rest) ++ post, lk⟩).bind
                    (withRef ro p t f (pre.length + d.memSize)) := by
                simp only [withRef, hS, hf]
                cases ro with
                | false => rfl
                | true =>
                  have : omGet i.labels (labelOf d.memSize bs) = some nm := by
                    rw [hsc]; simpa using hb0
                  simp only [if_true, hread, Except.bind, if_pos this]
              obtain ⟨_, s2⟩ := hsel pre _ post lk v hv
              obtain ⟨new, e, r1, r2, r3, r4⟩ := s2 _ rfl
              have hdec := decSel_iff.mpr ⟨_, _, rfl, r3⟩
              obtain ⟨q1, q2⟩ := ih2 pre new post (lk + e) _ hdec
              constructor
              · intro hr
                simp only [editAt, hS, hf, hl, if_neg hb0] at hr
                rw [hrun, r1]
                exact q1 ⟨_, rfl, map_refused.mp hr⟩
              · intro w hr
                simp only [editAt, hS, hf, hl, if_neg hb0] at hr
                obtain ⟨x, hx, rfl⟩ := map_ok.mp hr
                obtain ⟨new2, e2, k1, k2, k3, k4⟩ := q2 _ ⟨_, x, rfl, hx, rfl⟩
                obtain ⟨_, _, _, k3⟩ := decSel_iff.mp k3
                refine ⟨new2, e + e2, ?_, by rw [k2, r2], k3, ?_⟩
                · rw [hrun, r1]
                  rw [← Nat.add_assoc]; exact k1
                · intro hc ht
                  obtain ⟨z1, z2⟩ := r4 trivial ht
                  obtain ⟨y1, y2⟩ := k4 hc z2
                  exact ⟨by omega, y2⟩
      | index j =>
        refine editsTo_refuse ?_ ?_
        · intro a m; simp [withRef, hS]
        · intro v w; simp [editAt, hS, child]
      | key j =>
        refine editsTo_refuse ?_ ?_
        · intro a m; simp [withRef, hS]
        · intro v w; simp [editAt, hS, child]

end Verif.Inst
