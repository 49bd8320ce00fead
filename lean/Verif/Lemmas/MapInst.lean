import Verif.Model.MapInst
import Verif.Lemmas.Seq
/-! Sortedness of maps and the effect of their operations. -/

namespace Verif

variable {κ υ : Type}

namespace MapInst

/-- Entries strictly sorted by hash. -/
def Sorted (hash : κ → Nat) (l : List (κ × υ)) : Prop := l.Pairwise (fun p q => hash p.1 < hash q.1)

/-- Invariant of a map instance. -/
def Inv (hash : κ → Nat) (block : Nat) (s : SeqInst (κ × υ)) : Prop :=
  s.Inv block ∧ Sorted hash s.abs

theorem findLoop_spec (hs : Nat → Nat) (x n : Nat)
    (hm : ∀ i j, i < j → j < n → hs i < hs j) (istart iend : Nat) :
    istart < iend → iend ≤ n → (istart = 0 ∨ hs istart < x) →
    (∀ j, iend ≤ j → j < n → x < hs j) →
    let r := findLoop hs x istart iend
    r.1 < r.2 ∧ r.2 ≤ n ∧
      (hs r.1 = x ∨ (r.2 = r.1 + 1 ∧ (∀ j, j < r.1 → hs j < x) ∧ (∀ j, r.1 < j → j < n → x < hs j))) := by
  induction istart, iend using findLoop.induct (hs := hs) (x := x) with
  | case1 istart iend c hc hx =>
    intro h1 h2 h3 h4
    rw [findLoop]
    simp only [show istart < (istart + iend) / 2 from hc, if_true, hx]
    have : hs ((istart + iend) / 2) = hs c := rfl
    simp only [this, if_true]
    exact ⟨by omega, h2, .inl trivial⟩
  | case2 istart iend c hc hx hgt ih =>
    intro h1 h2 h3 h4
    rw [findLoop]
    simp only [show istart < (istart + iend) / 2 from hc, if_true]
    rw [if_neg hx, if_pos hgt]
    exact ih (by omega) h2 (.inr hgt) h4
  | case3 istart iend c hc hx hgt ih =>
    intro h1 h2 h3 h4
    rw [findLoop]
    simp only [show istart < (istart + iend) / 2 from hc, if_true]
    rw [if_neg hx, if_neg hgt]
    have hlt : x < hs c := by
      rcases Nat.lt_trichotomy x (hs c) with h | h | h
      · exact h
      · exact absurd h hx
      · exact absurd h hgt
    refine ih (by omega) (by omega) h3 ?_
    intro j hj hjn
    rcases Nat.lt_or_ge c j with h | h
    · exact Nat.lt_trans hlt (hm c j h hjn)
    · have : j = c := by omega
      rw [this]; exact hlt
  | case4 istart iend c hc =>
    intro h1 h2 h3 h4
    rw [findLoop]
    have hc' : ¬ istart < (istart + iend) / 2 := hc
    simp only [hc', if_false]
    have hcs : (istart + iend) / 2 = istart := by omega
    have hie : iend = istart + 1 := by omega
    rw [hcs]
    refine ⟨h1, h2, ?_⟩
    rcases Nat.eq_or_lt_of_le (Nat.le_refl (hs istart)) with - | h
    · by_cases hx : hs istart = x
      · exact .inl hx
      · refine .inr ⟨hie, ?_, ?_⟩
        · intro j hj
          rcases h3 with h3 | h3
          · omega
          · exact Nat.lt_trans (hm j istart hj (by omega)) h3
        · intro j hj hjn; exact h4 j (by omega) hjn
    · omega

theorem hashAt_eq {hash : κ → Nat} {l : List (κ × υ)} {i : Nat} {p : κ × υ} (h : l[i]? = some p) :
    hashAt hash l i = hash p.1 := by simp [hashAt, h]

theorem sorted_lt {hash : κ → Nat} {l : List (κ × υ)} (h : Sorted hash l) {i j : Nat}
    (hij : i < j) (hj : j < l.length) : hashAt hash l i < hashAt hash l j := by
  have := List.pairwise_iff_getElem.mp h i j (by omega) hj hij
  rw [hashAt_eq (List.getElem?_eq_getElem (by omega)), hashAt_eq (List.getElem?_eq_getElem hj)]
  exact this

theorem abs_eq_take {block : Nat} {s : SeqInst (κ × υ)} (_ : s.Inv block) :
    s.abs = (s.buf.getD []).take s.size := rfl

theorem hashAt_take {hash : κ → Nat} {l : List (κ × υ)} {n i : Nat} (h : i < n) :
    hashAt hash (l.take n) i = hashAt hash l i := by
  simp [hashAt, h]

/-- What `find_place` returns, in terms of the stored pairs. -/
theorem findPlace_spec {hash : κ → Nat} {block : Nat} {s : SeqInst (κ × υ)} {k : κ}
    (h : Inv hash block s) :
    (∃ p, p < s.abs.length ∧ hashAt hash s.abs p = hash k ∧
      findPlace hash s k true = some p ∧ findPlace hash s k false = some p) ∨
    (∃ p, p ≤ s.abs.length ∧ (∀ j, j < p → hashAt hash s.abs j < hash k) ∧
      (∀ j, p ≤ j → j < s.abs.length → hash k < hashAt hash s.abs j) ∧
      findPlace hash s k true = none ∧ findPlace hash s k false = some p) := by
  obtain ⟨hinv, hs⟩ := h
  have hl := SeqInst.abs_length hinv
  unfold findPlace
  by_cases h0 : s.size = 0
  · simp only [h0, if_true]
    right
    exact ⟨0, Nat.zero_le _, by omega, by omega, by simp, by simp⟩
  · simp only [h0, if_false]
    have hm : ∀ i j, i < j → j < s.size → hashAt hash s.abs i < hashAt hash s.abs j := by
      intro i j hij hj; exact sorted_lt hs hij (by omega)
    have heq : ∀ i, i < s.size → hashAt hash (s.buf.getD []) i = hashAt hash s.abs i := by
      intro i hi; rw [abs_eq_take hinv, hashAt_take hi]
    have hm' : ∀ i j, i < j → j < s.size →
        hashAt hash (s.buf.getD []) i < hashAt hash (s.buf.getD []) j := by
      intro i j hij hj; rw [heq i (by omega), heq j hj]; exact hm i j hij hj
    have := findLoop_spec (hashAt hash (s.buf.getD [])) (hash k) s.size hm' 0 s.size (by omega)
      (Nat.le_refl _) (.inl rfl) (by omega)
    revert this
    generalize findLoop (hashAt hash (s.buf.getD [])) (hash k) 0 s.size = r
    obtain ⟨c, e⟩ := r
    simp only
    rintro ⟨h1, h2, h3⟩
    rw [heq c (by omega)] at h3 ⊢
    by_cases hx : hash k = hashAt hash s.abs c
    · left
      simp only [hx, if_true]
      exact ⟨c, by omega, by simp, by simp, by simp⟩
    · right
      simp only [hx, if_false]
      rcases h3 with h3 | ⟨h3, h4, h5⟩
      · exact absurd h3.symm hx
      · by_cases hlt : hash k < hashAt hash s.abs c
        · simp only [hlt, if_true]
          refine ⟨c, by omega, ?_, ?_, by simp, by simp⟩
          · intro j hj; have := h4 j hj; rwa [heq j (by omega)] at this
          · intro j hj hj2
            rcases Nat.eq_or_lt_of_le hj with hj | hj
            · rw [← hj]; exact hlt
            · have := h5 j hj (by omega); rwa [heq j (by omega)] at this
        · simp only [hlt, if_false]
          refine ⟨e, by omega, ?_, ?_, by simp, by simp⟩
          · intro j hj
            rcases Nat.lt_or_ge j c with hj | hj
            · have := h4 j hj; rwa [heq j (by omega)] at this
            · have : j = c := by omega
              rw [this]; omega
          · intro j hj hj2
            have := h5 j (by omega) (by omega); rwa [heq j (by omega)] at this

/-- The key of a stored pair is found at its own place. -/
theorem findPlace_self {hash : κ → Nat} {block : Nat} {s : SeqInst (κ × υ)} {q : κ × υ} {i : Nat}
    (h : Inv hash block s) (hq : s.abs[i]? = some q) : findPlace hash s q.1 true = some i := by
  have hi := (List.getElem?_eq_some_iff.mp hq).1
  rcases findPlace_spec (k := q.1) h with ⟨p, h1, h2, h3, -⟩ | ⟨p, h1, h2, h3, -, -⟩
  · rw [h3]
    rw [← hashAt_eq (hash := hash) hq] at h2
    rcases Nat.lt_trichotomy p i with hlt | heq | hgt
    · have := sorted_lt h.2 hlt hi; omega
    · rw [heq]
    · have := sorted_lt h.2 hgt h1; omega
  · exfalso
    have e := hashAt_eq (hash := hash) hq
    rcases Nat.lt_or_ge i p with hlt | hge
    · have := h2 i hlt; omega
    · have := h3 i hge hi; omega

theorem moveCount_eq {hash : κ → Nat} {prim : Bool} {block : Nat} {s : SeqInst (κ × υ)}
    {old : List (κ × υ)} (h : Inv hash block s) (hb : s.buf = some old) (h0 : 0 < s.size) :
    moveCount hash prim s old = some s.size := by
  unfold moveCount
  cases prim with
  | false => rfl
  | true =>
    have hinv := h.1
    unfold SeqInst.Inv at hinv; rw [hb] at hinv; simp only at hinv
    cases old with
    | nil => simp at hinv; omega
    | cons p rest =>
      simp only [if_true, keyIndex, hb]
      have hq : s.abs[0]? = some p := by simp [SeqInst.abs, hb, h0]
      rw [findPlace_self h hq]
      simp

theorem realloc_eq {hash : κ → Nat} {prim : Bool} {block : Nat} {d : κ × υ} {s : SeqInst (κ × υ)}
    {desired bounds : Nat} (h : Inv hash block s) (h0 : s.buf = none ∨ 0 < s.size) :
    realloc hash prim block d s desired bounds = SeqInst.realloc block d s desired bounds := by
  unfold realloc SeqInst.realloc
  cases hb : s.buf with
  | none => simp only; cases SeqInst.initMem block d (if bounds = 0 then desired else min desired bounds) <;> rfl
  | some old =>
    rcases h0 with h0 | h0
    · rw [hb] at h0; cases h0
    · simp only [moveCount_eq h hb h0]
      cases SeqInst.initMem block d (if bounds = 0 then desired else min desired bounds) with
      | none => rfl
      | some nb => cases nb <;> rfl

theorem insertAt_sorted {hash : κ → Nat} {l : List (κ × υ)} {p : Nat} {e : κ × υ}
    (hs : Sorted hash l) (hp : p ≤ l.length) (h1 : ∀ j, j < p → hashAt hash l j < hash e.1)
    (h2 : ∀ j, p ≤ j → j < l.length → hash e.1 < hashAt hash l j) :
    Sorted hash (l.take p ++ e :: l.drop p) := by
  unfold Sorted
  rw [List.pairwise_append]
  refine ⟨hs.sublist (List.take_sublist _ _), ?_, ?_⟩
  · rw [List.pairwise_cons]
    refine ⟨?_, hs.sublist (List.drop_sublist _ _)⟩
    intro q hq
    obtain ⟨i, hi, rfl⟩ := List.mem_iff_getElem.mp hq
    simp only [List.length_drop] at hi
    have := h2 (p + i) (by omega) (by omega)
    rw [hashAt_eq (List.getElem?_eq_getElem (by omega))] at this
    simpa using this
  · have htake : ∀ a, a ∈ l.take p → hash a.1 < hash e.1 := by
      intro a ha
      obtain ⟨i, hi, rfl⟩ := List.mem_iff_getElem.mp ha
      simp only [List.length_take] at hi
      have := h1 i (by omega)
      rw [hashAt_eq (List.getElem?_eq_getElem (by omega))] at this
      simpa using this
    intro a ha b hb
    rcases List.mem_cons.mp hb with hb | hb
    · rw [hb]; exact htake a ha
    · have := List.pairwise_append.mp (by rw [List.take_append_drop]; exact hs :
        (l.take p ++ l.drop p).Pairwise (fun p q => hash p.1 < hash q.1))
      exact this.2.2 a ha b hb

/-- Result of `create_place`. -/
theorem createPlace_spec {hash : κ → Nat} {block : Nat} {s : SeqInst (κ × υ)} {l : List (κ × υ)}
    {k : κ} (h : Inv hash block s) (hb : s.buf = some l) (hfull : s.size < s.cap) :
    (findPlace hash s k true ≠ none ∧ createPlace hash s k = some none) ∨
    (findPlace hash s k true = none ∧ ∃ l' p, createPlace hash s k = some (some (l', p)) ∧
      p ≤ s.size ∧ l'.length = l.length ∧
      ∀ e : κ × υ, e.1 = k → (l'.set p e).take (s.size + 1) = s.abs.take p ++ e :: s.abs.drop p ∧
        Sorted hash (s.abs.take p ++ e :: s.abs.drop p)) := by
  have hinv := h.1
  have hl := SeqInst.abs_length hinv
  unfold SeqInst.Inv at hinv; rw [hb] at hinv; simp only at hinv
  have habs : s.abs = l.take s.size := by simp [SeqInst.abs, hb]
  rcases findPlace_spec (k := k) h with ⟨p, h1, h2, h3, h4⟩ | ⟨p, h1, h2, h3, h4, h5⟩
  · left
    refine ⟨by rw [h3]; simp, ?_⟩
    simp only [createPlace, hb, h4]
    have : hashAt hash l p = hash k := by
      rw [← h2, habs, hashAt_take (by omega)]
    rw [if_neg (by omega)]
  · right
    refine ⟨h4, ?_⟩
    simp only [createPlace, hb, h5]
    have hcond : s.size = 0 ∨ p = s.size ∨ hash k ≠ hashAt hash l p := by
      by_cases hps : p = s.size
      · exact .inr (.inl hps)
      · refine .inr (.inr ?_)
        have := h3 p (Nat.le_refl _) (by omega)
        rw [habs, hashAt_take (by omega)] at this
        omega
    rw [if_pos hcond]
    have hsrt : ∀ e : κ × υ, e.1 = k → Sorted hash (s.abs.take p ++ e :: s.abs.drop p) := by
      intro e he
      exact insertAt_sorted h.2 h1 (by rw [he]; exact h2) (by rw [he]; exact h3)
    by_cases hps : p = s.size
    · simp only [hps, ne_eq, not_true_eq_false, if_false]
      refine ⟨l, s.size, rfl, Nat.le_refl _, rfl, ?_⟩
      intro e he
      have := hsrt e he
      rw [hps] at this
      refine ⟨?_, this⟩
      rw [SeqInst.take_set_succ (by omega), ← habs]
      rw [List.take_of_length_le (by omega), List.drop_eq_nil_of_le (by omega)]
    · simp only [ne_eq, hps, not_false_eq_true, if_true]
      have hpl : p < l.length := by omega
      rw [List.getElem?_eq_getElem hpl]
      simp only
      have hself : keyIndex hash s l[p].1 = some p := by
        unfold keyIndex
        rw [if_neg (by simp [hb])]
        apply findPlace_self h
        rw [habs]
        simp [show p < s.size by omega]
      rw [hself]
      simp only
      rw [if_pos (by omega)]
      refine ⟨_, p, rfl, by omega, ?_, ?_⟩
      · simp; omega
      · intro e he
        refine ⟨?_, hsrt e he⟩
        have hlen1 : (l.take (p + 1)).length = p + 1 := by simp; omega
        have hset : (l.take (p + 1) ++ (l.drop p).take (s.size - p) ++ l.drop (p + 1 + (s.size - p))).set p e
            = l.take p ++ e :: ((l.drop p).take (s.size - p) ++ l.drop (p + 1 + (s.size - p))) := by
          rw [List.append_assoc, List.set_append_left _ _ (by omega)]
          rw [List.take_add_one, List.getElem?_eq_getElem hpl]
          simp only [Option.toList_some]
          rw [List.set_append_right _ _ (by simp; omega)]
          simp [show min p l.length = p by omega]
        rw [hset]
        have hl1 : (l.take p).length = p := by simp; omega
        rw [List.take_append, hl1]
        rw [show s.size + 1 - p = (s.size - p) + 1 by omega, List.take_succ_cons]
        rw [List.take_append_of_le_length (by simp; omega)]
        rw [List.take_take, List.take_take, habs, List.take_take, List.drop_take]
        rw [show min (s.size + 1) p = p by omega, show min p s.size = p by omega, Nat.min_self]

/-- A duplicate key is detected. -/
theorem createPlace_dup {hash : κ → Nat} {block : Nat} {s : SeqInst (κ × υ)} {l : List (κ × υ)}
    {k : κ} (h : Inv hash block s) (hb : s.buf = some l) (hf : findPlace hash s k true ≠ none) :
    createPlace hash s k = some none := by
  have hl := SeqInst.abs_length h.1
  have habs : s.abs = l.take s.size := by simp [SeqInst.abs, hb]
  rcases findPlace_spec (k := k) h with ⟨p, h1, h2, h3, h4⟩ | ⟨p, h1, h2, h3, h4, h5⟩
  · simp only [createPlace, hb, h4]
    have : hashAt hash l p = hash k := by
      rw [← h2, habs, hashAt_take (by omega)]
    rw [if_neg (by omega)]
  · exact absurd h4 hf

/-- There is room if a place was created inside the buffer. -/
theorem createPlace_room {hash : κ → Nat} {block : Nat} {s : SeqInst (κ × υ)} {l l' : List (κ × υ)}
    {k : κ} {p : Nat} (h : Inv hash block s) (hb : s.buf = some l)
    (hc : createPlace hash s k = some (some (l', p))) (hp : p < l'.length) : s.size < s.cap := by
  have hinv := h.1
  have hl := SeqInst.abs_length hinv
  unfold SeqInst.Inv at hinv; rw [hb] at hinv; simp only at hinv
  have habs : s.abs = l.take s.size := by simp [SeqInst.abs, hb]
  rcases Nat.lt_or_ge s.size s.cap with hlt | hge
  · exact hlt
  have hpl : p ≤ s.size := by
    have hff : ∃ q, findPlace hash s k false = some q ∧ q ≤ s.size := by
      rcases findPlace_spec (k := k) h with ⟨q, h1, h2, h3, h4⟩ | ⟨q, h1, h2, h3, h4, h5⟩
      · exact ⟨q, h4, by omega⟩
      · exact ⟨q, h5, by omega⟩
    obtain ⟨q, hq, hql⟩ := hff
    simp only [createPlace, hb, hq] at hc
    split at hc
    · split at hc
      · split at hc
        · cases hc
        · split at hc
          · cases hc
          · split at hc
            · simp only [Option.some.injEq, Prod.mk.injEq] at hc; omega
            · cases hc
      · simp only [Option.some.injEq, Prod.mk.injEq] at hc; omega
    · cases hc
  exfalso
  unfold createPlace at hc
  rw [hb] at hc
  cases hq : findPlace hash s k false with
  | none => rw [hq] at hc; cases hc
  | some q =>
    rw [hq] at hc
    simp only at hc
    split at hc
    · split at hc
      · split at hc
        · cases hc
        · rename_i slot hslot
          split at hc
          · cases hc
          · rename_i ki hki
            split at hc
            · rename_i hroom
              simp only [Option.some.injEq, Prod.mk.injEq] at hc
              have hqs : q < s.size := by omega
              have hself : keyIndex hash s slot.1 = some q := by
                unfold keyIndex
                rw [if_neg (by simp [hb])]
                apply findPlace_self h
                rw [habs, List.getElem?_take_of_lt hqs]; exact hslot
              rw [hself] at hki
              simp only [Option.some.injEq] at hki
              omega
            · cases hc
      · simp only [Option.some.injEq, Prod.mk.injEq] at hc
        obtain ⟨rfl, rfl⟩ := hc
        omega
    · cases hc

theorem grow_cases {hash : κ → Nat} {block : Nat} {s : SeqInst (κ × υ)} (h : Inv hash block s)
    (hg : s.buf = none ∨ s.size = s.cap) : s.buf = none ∨ 0 < s.size := by
  have := h.1; unfold SeqInst.Inv at this
  cases hb : s.buf with
  | none => exact .inl rfl
  | some l =>
    rw [hb] at this hg; simp only [reduceCtorEq, false_or] at this hg
    right; omega

theorem findPlace_congr {hash : κ → Nat} {block : Nat} {s t : SeqInst (κ × υ)} {k : κ} {b : Bool}
    (hs : Inv hash block s) (ht : Inv hash block t) (habs : t.abs = s.abs) :
    findPlace hash t k b = findPlace hash s k b := by
  have uniq : ∀ (p q : Nat), p < s.abs.length → q < s.abs.length →
      hashAt hash s.abs p = hashAt hash s.abs q → p = q := by
    intro p q hp hq h
    rcases Nat.lt_trichotomy p q with hlt | heq | hgt
    · have := sorted_lt hs.2 hlt hq; omega
    · exact heq
    · have := sorted_lt hs.2 hgt hp; omega
  have hs' := findPlace_spec (k := k) hs
  have ht' := findPlace_spec (k := k) ht
  rw [habs] at ht'
  rcases hs' with ⟨p, a1, a2, a3, a4⟩ | ⟨p, a1, a2, a3, a4, a5⟩ <;>
  rcases ht' with ⟨q, b1, b2, b3, b4⟩ | ⟨q, b1, b2, b3, b4, b5⟩
  · have := uniq p q a1 b1 (by omega)
    subst this
    cases b <;> simp [a3, a4, b3, b4]
  · exfalso
    rcases Nat.lt_or_ge p q with h | h
    · have := b2 p h; omega
    · have := b3 p h a1; omega
  · exfalso
    rcases Nat.lt_or_ge q p with h | h
    · have := a2 q h; omega
    · have := a3 q h b1; omega
  · have : p = q := by
      rcases Nat.lt_trichotomy p q with hlt | heq | hgt
      · have h1 := b2 p hlt; have h2 := a3 p (Nat.le_refl _) (by omega); omega
      · exact heq
      · have h1 := a2 q hgt; have h2 := b3 q (Nat.le_refl _) (by omega); omega
    subst this
    cases b <;> simp [a4, a5, b4, b5]

/-- Effect of `insert` with an external key. -/
theorem insert_spec {hash : κ → Nat} {prim : Bool} {block : Nat} {d : κ × υ}
    {s s' : SeqInst (κ × υ)} {k : κ} {bounds : Nat} {r : Option Nat} (h : Inv hash block s)
    (hi : insert hash prim block d s (.ext k) bounds = some (s', r)) :
    Inv hash block s' ∧
    ((findPlace hash s k true ≠ none ∧ r = none ∧ s'.abs = s.abs) ∨
     (findPlace hash s k true = none ∧ ∃ p, r = some p ∧ p ≤ s.size ∧
       s'.abs = s.abs.take p ++ (k, d.2) :: s.abs.drop p)) := by
  unfold insert at hi
  simp only at hi
  split at hi
  · cases hi
  · rename_i s1 hs1
    have h1 : Inv hash block s1 ∧ s1.abs = s.abs ∧ s1.size = s.size := by
      split at hs1
      · rename_i hg
        rw [realloc_eq h (grow_cases h hg)] at hs1
        have := SeqInst.realloc_spec h.1 hs1
        exact ⟨⟨this.1, by rw [this.2.1]; exact h.2⟩, this.2.1, this.2.2.1⟩
      · simp only [Option.some.injEq] at hs1; subst hs1; exact ⟨h, rfl, rfl⟩
    obtain ⟨hi1, ha1, hz1⟩ := h1
    have hfc : findPlace hash s k true = findPlace hash s1 k true := (findPlace_congr h hi1 ha1).symm
    rw [hfc]
    cases hb : s1.buf with
    | none =>
      exfalso
      simp [createPlace, hb] at hi
    | some l =>
      by_cases hf : findPlace hash s1 k true = none
      · split at hi
        · cases hi
        · rename_i hcp
          exfalso
          -- a fresh key is not refused
          have hl := SeqInst.abs_length hi1.1
          have habs : s1.abs = l.take s1.size := by simp [SeqInst.abs, hb]
          rcases findPlace_spec (k := k) hi1 with ⟨p, g1, g2, g3, g4⟩ | ⟨p, g1, g2, g3, g4, g5⟩
          · rw [g3] at hf; cases hf
          · simp only [createPlace, hb, g5] at hcp
            split at hcp
            · split at hcp
              · split at hcp
                · cases hcp
                · split at hcp
                  · cases hcp
                  · split at hcp <;> cases hcp
              · cases hcp
            · rename_i hc
              simp only [not_or, ne_eq, Decidable.not_not] at hc
              have := g3 p (Nat.le_refl _) (by omega)
              rw [habs, hashAt_take (by omega)] at this
              omega
        · rename_i l' p hcp
          split at hi
          · rename_i hpl
            have hroom := createPlace_room hi1 hb hcp hpl
            rcases createPlace_spec (k := k) hi1 hb hroom with ⟨g1, -⟩ | ⟨-, l2, p2, g2, g3, g4, g5⟩
            · exact absurd hf g1
            · rw [hcp] at g2
              simp only [Option.some.injEq, Prod.mk.injEq] at g2
              obtain ⟨rfl, rfl⟩ := g2
              simp only [Option.some.injEq, Prod.mk.injEq] at hi
              obtain ⟨rfl, rfl⟩ := hi
              have hinv := hi1.1
              unfold SeqInst.Inv at hinv; rw [hb] at hinv; simp only at hinv
              have hu : SeqInst.u32 (s1.size + 1) = s1.size + 1 := SeqInst.u32_of_lt (by omega)
              obtain ⟨g6, g7⟩ := g5 (k, d.2) rfl
              have habs' : (SeqInst.mk s1.cap (some (l'.set p (k, d.2))) (SeqInst.u32 (s1.size + 1))
                    s1.moved).abs = s1.abs.take p ++ (k, d.2) :: s1.abs.drop p := by
                simp only [SeqInst.abs, Option.getD_some, hu]
                rw [g6]; rfl
              refine ⟨⟨?_, by rw [habs']; exact g7⟩, .inr ⟨hf, p, rfl, by omega, by rw [habs', ha1]⟩⟩
              simp only [SeqInst.Inv, List.length_set, hu]
              omega
          · cases hi
      · rw [createPlace_dup hi1 hb hf] at hi
        simp only [Option.some.injEq, Prod.mk.injEq] at hi
        obtain ⟨rfl, rfl⟩ := hi
        exact ⟨hi1, .inl ⟨hf, rfl, ha1⟩⟩

/-- Inserting one of the own pairs changes nothing, if it is defined. -/
theorem insert_own_spec {hash : κ → Nat} {prim : Bool} {block : Nat} {d : κ × υ}
    {s s' : SeqInst (κ × υ)} {i bounds : Nat} {r : Option Nat} (h : Inv hash block s) (hlt : i < s.size)
    (hi : insert hash prim block d s (.own i) bounds = some (s', r)) : s' = s ∧ r = none := by
  unfold insert at hi
  simp only at hi
  by_cases hg : s.buf = none ∨ s.size = s.cap
  · simp only [hg, if_true] at hi
    split at hi <;> cases hi
  · simp only [hg, if_false] at hi
    cases hb : s.buf with
    | none => exact absurd (.inl hb) hg
    | some l =>
      have habs : s.abs = l.take s.size := by simp [SeqInst.abs, hb]
      simp only [hb, Option.getD_some] at hi
      split at hi
      · cases hi
      · rename_i k hk
        simp only [Option.map_eq_some_iff] at hk
        obtain ⟨q, hq, rfl⟩ := hk
        have hf : findPlace hash s q.1 true = some i :=
          findPlace_self h (by rw [habs, List.getElem?_take_of_lt hlt]; exact hq)
        rw [createPlace_dup h hb (by rw [hf]; simp)] at hi
        simp only [Option.some.injEq, Prod.mk.injEq] at hi
        exact ⟨hi.1.symm, hi.2.symm⟩

/-- When `insert` is defined. -/
theorem insert_ok {hash : κ → Nat} {prim : Bool} {block : Nat} {d : κ × υ} {s : SeqInst (κ × υ)}
    {k : κ} {bounds : Nat} (h : Inv hash block s)
    (hb : bounds = 0 ∨ s.size < bounds) (hfit : 2 * (s.size + 1) * max block 1 < 2 ^ 32) :
    ∃ r, insert hash prim block d s (.ext k) bounds = some r := by
  have hm1 : 1 ≤ max block 1 := Nat.le_max_right _ _
  have hm2 : block ≤ max block 1 := Nat.le_max_left _ _
  have hf1 : 2 * (s.size + 1) * block < 2 ^ 32 :=
    Nat.lt_of_le_of_lt (Nat.mul_le_mul_left _ hm2) hfit
  have hf2 : 2 * (s.size + 1) < 2 ^ 32 := by
    have := Nat.mul_le_mul_left (2 * (s.size + 1)) hm1; omega
  have hfin : ∀ s1 : SeqInst (κ × υ), Inv hash block s1 → s1.size < s1.cap →
      ∃ l, s1.buf = some l ∧ ((createPlace hash s1 k = some none) ∨
        ∃ l' p, createPlace hash s1 k = some (some (l', p)) ∧ p < l'.length) := by
    intro s1 h1 hroom
    cases hb1 : s1.buf with
    | none => have := h1.1; unfold SeqInst.Inv at this; rw [hb1] at this; simp only at this; omega
    | some l =>
      refine ⟨l, rfl, ?_⟩
      rcases createPlace_spec (k := k) h1 hb1 hroom with ⟨-, g⟩ | ⟨-, l', p, g1, g2, g3, -⟩
      · exact .inl g
      · refine .inr ⟨l', p, g1, ?_⟩
        have := h1.1; unfold SeqInst.Inv at this; rw [hb1] at this; simp only at this; omega
  have hgo : ∀ s1 : SeqInst (κ × υ), Inv hash block s1 → s1.size < s1.cap →
      ∃ r, (match createPlace hash s1 k with
      | none => none
      | some none => some (s1, none)
      | some (some (l, p)) =>
        if p < l.length then
          some (({ s1 with buf := some (l.set p (k, d.2)), size := SeqInst.u32 (s1.size + 1) } : SeqInst (κ × υ)), some p)
        else none) = some r := by
    intro s1 h1 hroom
    obtain ⟨l, -, g | ⟨l', p, g, hp⟩⟩ := hfin s1 h1 hroom
    · rw [g]; exact ⟨_, rfl⟩
    · rw [g]; simp only [hp, if_true]; exact ⟨_, rfl⟩
  have hle := SeqInst.inv_size_le h.1
  unfold insert
  simp only
  by_cases hg : s.buf = none ∨ s.size = s.cap
  · simp only [hg, if_true]
    rw [realloc_eq h (grow_cases h hg)]
    have hcap : s.cap = s.size := by
      rcases hg with hg | hg
      · have := h.1; unfold SeqInst.Inv at this; rw [hg] at this; simp only at this; omega
      · exact hg.symm
    generalize hdes : (if s.cap > 0 then SeqInst.u32 (s.cap * 2) else 1) = des
    have hdes' : s.size < des ∧ des ≤ 2 * (s.size + 1) := by
      rw [← hdes]; split
      · rw [SeqInst.u32_of_lt (by omega)]; omega
      · omega
    have hnc : ∃ nc, (if bounds = 0 then des else min des bounds) = nc ∧ s.size < nc ∧
        nc ≤ 2 * (s.size + 1) := by
      refine ⟨_, rfl, ?_, ?_⟩ <;> split <;> omega
    obtain ⟨nc, hnc, hlt, hle2⟩ := hnc
    obtain ⟨s1, hs1⟩ := SeqInst.realloc_ok (d := d) h.1 nc hnc (by omega)
      (Nat.lt_of_le_of_lt (Nat.mul_le_mul_right _ hle2) hf1) (by omega)
    obtain ⟨i1, i2, i3, i4, -⟩ := SeqInst.realloc_spec h.1 hs1
    rw [hs1]; simp only
    rw [hnc, SeqInst.u32_of_lt (by omega)] at i4
    exact hgo s1 ⟨i1, by rw [i2]; exact h.2⟩ (by omega)
  · simp only [hg, if_false]
    simp only [not_or] at hg
    exact hgo s h (by omega)

end MapInst

end Verif
