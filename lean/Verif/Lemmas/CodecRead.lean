import Verif.Lemmas.Codec
/-! # Every input is a text followed by nothing, by a part of a character or by something ill-formed -/

namespace Verif.Codec

theorem read16_char {inp : List Nat} (hu : ∀ u ∈ inp, u < 0x10000) {c n : Nat} (h : read16 inp = .char c n) :
    Scalar c ∧ inp = utf16 c ++ inp.drop n ∧ 1 ≤ n := by
  cases inp with
  | nil => cases h
  | cons u r =>
    have hu1 := hu u (List.mem_cons_self ..)
    unfold read16 at h
    simp only at h
    by_cases h1 : high u
    · rw [if_pos h1] at h
      cases r with
      | nil => cases h
      | cons v r =>
        simp only at h
        by_cases h2 : low v
        · rw [if_pos h2] at h
          obtain ⟨rfl, rfl⟩ : 0x10000 + (u - 0xD800) * 0x400 + (v - 0xDC00) = c ∧ 2 = n := by
            rw [Read.char.injEq] at h; exact h
          unfold high at h1
          unfold low at h2
          refine ⟨by unfold Scalar; omega, ?_, by omega⟩
          unfold utf16 lowBits
          simp only [Nat.reducePow]
          rw [if_neg (by omega)]
          simp only [List.drop_succ_cons, List.drop_zero, List.cons_append, List.nil_append]
          rw [show 55296 + (65536 + (u - 55296) * 1024 + (v - 56320) - 65536) / 1024 = u by omega,
            show 56320 + (65536 + (u - 55296) * 1024 + (v - 56320) - 65536) % 1024 = v by omega]
        · rw [if_neg h2] at h; cases h
    · rw [if_neg h1] at h
      by_cases h2 : low u
      · rw [if_pos h2] at h; cases h
      · rw [if_neg h2] at h
        obtain ⟨rfl, rfl⟩ : u = c ∧ 1 = n := by cases h; exact ⟨rfl, rfl⟩
        unfold high at h1
        unfold low at h2
        refine ⟨by unfold Scalar; omega, ?_, by omega⟩
        unfold utf16
        rw [if_pos (by simpa using hu1)]
        rfl

theorem read16_incomplete {inp : List Nat} (hne : inp ≠ []) (h : read16 inp = .incomplete) :
    ∃ c n, Scalar c ∧ 0 < n ∧ n < (utf16 c).length ∧ inp = (utf16 c).take n := by
  cases inp with
  | nil => exact absurd rfl hne
  | cons u r =>
    unfold read16 at h
    simp only at h
    by_cases h1 : high u
    · rw [if_pos h1] at h
      cases r with
      | nil =>
        unfold high at h1
        refine ⟨0x10000 + (u - 0xD800) * 0x400, 1, by unfold Scalar; omega, by omega, ?_, ?_⟩
        · unfold utf16; rw [if_neg (by omega)]; simp
        · unfold utf16; rw [if_neg (by omega)]
          simp only [List.take_succ_cons, List.take_zero, Nat.reducePow]
          rw [show 55296 + (65536 + (u - 55296) * 1024 - 65536) / 1024 = u by omega]
      | cons v r =>
        simp only at h
        split at h <;> cases h
    · rw [if_neg h1] at h
      split at h <;> cases h

theorem utf8_one {c : Nat} (h : c < 0x80) : utf8 c = [c] := by unfold utf8; rw [if_pos (by omega)]

theorem utf8_two {c : Nat} (h : 0x80 ≤ c) (h' : c < 0x800) : utf8 c = [0xC0 + c / 0x40, 0x80 + c % 0x40] := by
  unfold utf8 lowBits; rw [if_neg (by omega), if_pos (by omega)]

theorem utf8_three {c : Nat} (h : 0x800 ≤ c) (h' : c < 0x10000) :
    utf8 c = [0xE0 + c / 0x1000, 0x80 + c / 0x40 % 0x40, 0x80 + c % 0x40] := by
  unfold utf8 lowBits; rw [if_neg (by omega), if_neg (by omega), if_pos (by omega)]

theorem utf8_four {c : Nat} (h : 0x10000 ≤ c) :
    utf8 c = [0xF0 + c / 0x40000, 0x80 + c / 0x1000 % 0x40, 0x80 + c / 0x40 % 0x40, 0x80 + c % 0x40] := by
  unfold utf8 lowBits; rw [if_neg (by omega), if_neg (by omega), if_neg (by omega)]

/-- The two or three units of a value given by its parts. -/
theorem utf8_of2 {b c : Nat} (hb : 0xC2 ≤ b) (hb' : b < 0xE0) (hc : cont c) :
    Scalar ((b - 0xC0) * 0x40 + (c - 0x80)) ∧ utf8 ((b - 0xC0) * 0x40 + (c - 0x80)) = [b, c] := by
  unfold cont at hc
  refine ⟨by unfold Scalar; omega, ?_⟩
  rw [utf8_two (by omega) (by omega)]
  rw [show 192 + ((b - 192) * 64 + (c - 128)) / 64 = b by omega, show 128 + ((b - 192) * 64 + (c - 128)) % 64 = c by omega]

theorem utf8_of3 {b c d : Nat} (hb : 0xE0 ≤ b) (hb' : b < 0xF0) (hc : cont c) (h1 : ¬ (b = 0xE0 ∧ c < 0xA0))
    (h2 : ¬ (b = 0xED ∧ 0xA0 ≤ c)) (hd : cont d) :
    Scalar ((b - 0xE0) * 0x1000 + (c - 0x80) * 0x40 + (d - 0x80)) ∧
      utf8 ((b - 0xE0) * 0x1000 + (c - 0x80) * 0x40 + (d - 0x80)) = [b, c, d] := by
  unfold cont at hc hd
  refine ⟨by unfold Scalar; omega, ?_⟩
  rw [utf8_three (by omega) (by omega)]
  rw [show 224 + ((b - 224) * 4096 + (c - 128) * 64 + (d - 128)) / 4096 = b by omega,
    show 128 + ((b - 224) * 4096 + (c - 128) * 64 + (d - 128)) / 64 % 64 = c by omega,
    show 128 + ((b - 224) * 4096 + (c - 128) * 64 + (d - 128)) % 64 = d by omega]

theorem utf8_of4 {b c d e : Nat} (hb : 0xF0 ≤ b) (hb' : b < 0xF5) (hc : cont c) (h1 : ¬ (b = 0xF0 ∧ c < 0x90))
    (h2 : ¬ (b = 0xF4 ∧ 0x90 ≤ c)) (hd : cont d) (he : cont e) :
    Scalar ((b - 0xF0) * 0x40000 + (c - 0x80) * 0x1000 + (d - 0x80) * 0x40 + (e - 0x80)) ∧
      utf8 ((b - 0xF0) * 0x40000 + (c - 0x80) * 0x1000 + (d - 0x80) * 0x40 + (e - 0x80)) = [b, c, d, e] := by
  unfold cont at hc hd he
  refine ⟨by unfold Scalar; omega, ?_⟩
  rw [utf8_four (by omega)]
  rw [show 240 + ((b - 240) * 262144 + (c - 128) * 4096 + (d - 128) * 64 + (e - 128)) / 262144 = b by omega,
    show 128 + ((b - 240) * 262144 + (c - 128) * 4096 + (d - 128) * 64 + (e - 128)) / 4096 % 64 = c by omega,
    show 128 + ((b - 240) * 262144 + (c - 128) * 4096 + (d - 128) * 64 + (e - 128)) / 64 % 64 = d by omega,
    show 128 + ((b - 240) * 262144 + (c - 128) * 4096 + (d - 128) * 64 + (e - 128)) % 64 = e by omega]

/-- What `read8` finds, whatever the input. -/
theorem read8_cases (b : Nat) (r : List Nat) :
    (∃ c n, read8 (b :: r) = .char c n ∧ Scalar c ∧ b :: r = utf8 c ++ (b :: r).drop n ∧ 1 ≤ n) ∨
    (read8 (b :: r) = .incomplete ∧ ∃ c n, Scalar c ∧ 0 < n ∧ n < (utf8 c).length ∧ b :: r = (utf8 c).take n) ∨
    read8 (b :: r) = .invalid := by
  by_cases h1 : b < 0x80
  · refine .inl ⟨b, 1, by simp [read8, h1], by unfold Scalar; omega, by rw [utf8_one h1]; rfl, Nat.le_refl _⟩
  by_cases h2 : b < 0xC2
  · exact .inr (.inr (by simp [read8, h1, h2]))
  by_cases h3 : b < 0xE0
  · cases r with
    | nil =>
      refine .inr (.inl ⟨by simp [read8, h1, h2, h3], ?_⟩)
      obtain ⟨hs, he⟩ := utf8_of2 (b := b) (c := 0x80) (by omega) h3 ⟨by omega, by omega⟩
      exact ⟨_, 1, hs, by omega, by rw [he]; simp, by rw [he]; rfl⟩
    | cons c r =>
      by_cases hc : cont c
      · obtain ⟨hs, he⟩ := utf8_of2 (b := b) (c := c) (by omega) h3 hc
        exact .inl ⟨_, 2, by simp [read8, h1, h2, h3, hc], hs, by rw [he]; rfl, by omega⟩
      · exact .inr (.inr (by simp [read8, h1, h2, h3, hc]))
  by_cases h4 : b < 0xF0
  · cases r with
    | nil =>
      refine .inr (.inl ⟨by simp [read8, h1, h2, h3, h4], ?_⟩)
      by_cases hb : b = 0xE0
      · obtain ⟨hs, he⟩ := utf8_of3 (b := b) (c := 0xA0) (d := 0x80) (by omega) h4 ⟨by omega, by omega⟩ (by omega) (by omega)
          ⟨by omega, by omega⟩
        exact ⟨_, 1, hs, by omega, by rw [he]; simp, by rw [he]; rfl⟩
      · obtain ⟨hs, he⟩ := utf8_of3 (b := b) (c := 0x80) (d := 0x80) (by omega) h4 ⟨by omega, by omega⟩ (by omega) (by omega)
          ⟨by omega, by omega⟩
        exact ⟨_, 1, hs, by omega, by rw [he]; simp, by rw [he]; rfl⟩
    | cons c r =>
      by_cases hc : ¬ cont c ∨ (b = 0xE0 ∧ c < 0xA0) ∨ (b = 0xED ∧ 0xA0 ≤ c)
      · refine .inr (.inr ?_)
        unfold read8
        simp only []
        rw [if_neg h1, if_neg h2, if_neg h3, if_pos h4, if_pos hc]
      · have hc1 : cont c := Classical.not_not.mp fun h => hc (.inl h)
        cases r with
        | nil =>
          refine .inr (.inl ⟨?_, ?_⟩)
          · unfold read8
            simp only []
            rw [if_neg h1, if_neg h2, if_neg h3, if_pos h4, if_neg hc]
          · obtain ⟨hs, he⟩ := utf8_of3 (b := b) (c := c) (d := 0x80) (by omega) h4 hc1 (fun h => hc (.inr (.inl h)))
              (fun h => hc (.inr (.inr h))) ⟨by omega, by omega⟩
            exact ⟨_, 2, hs, by omega, by rw [he]; simp, by rw [he]; rfl⟩
        | cons d r =>
          by_cases hd : cont d
          · obtain ⟨hs, he⟩ := utf8_of3 (b := b) (c := c) (d := d) (by omega) h4 hc1 (fun h => hc (.inr (.inl h)))
              (fun h => hc (.inr (.inr h))) hd
            refine .inl ⟨_, 3, ?_, hs, by rw [he]; rfl, by omega⟩
            unfold read8
            simp only []
            rw [if_neg h1, if_neg h2, if_neg h3, if_pos h4, if_neg hc, if_pos hd]
          · refine .inr (.inr ?_)
            unfold read8
            simp only []
            rw [if_neg h1, if_neg h2, if_neg h3, if_pos h4, if_neg hc, if_neg hd]
  by_cases h5 : b < 0xF5
  · cases r with
    | nil =>
      refine .inr (.inl ⟨by simp [read8, h1, h2, h3, h4, h5], ?_⟩)
      by_cases hb : b = 0xF0
      · obtain ⟨hs, he⟩ := utf8_of4 (b := b) (c := 0x90) (d := 0x80) (e := 0x80) (by omega) h5 ⟨by omega, by omega⟩ (by omega)
          (by omega) ⟨by omega, by omega⟩ ⟨by omega, by omega⟩
        exact ⟨_, 1, hs, by omega, by rw [he]; simp, by rw [he]; rfl⟩
      · obtain ⟨hs, he⟩ := utf8_of4 (b := b) (c := 0x80) (d := 0x80) (e := 0x80) (by omega) h5 ⟨by omega, by omega⟩ (by omega)
          (by omega) ⟨by omega, by omega⟩ ⟨by omega, by omega⟩
        exact ⟨_, 1, hs, by omega, by rw [he]; simp, by rw [he]; rfl⟩
    | cons c r =>
      by_cases hc : ¬ cont c ∨ (b = 0xF0 ∧ c < 0x90) ∨ (b = 0xF4 ∧ 0x90 ≤ c)
      · refine .inr (.inr ?_)
        unfold read8
        simp only []
        rw [if_neg h1, if_neg h2, if_neg h3, if_neg h4, if_pos h5, if_pos hc]
      · have hc1 : cont c := Classical.not_not.mp fun h => hc (.inl h)
        have hc2 := fun h => hc (.inr (.inl h))
        have hc3 := fun h => hc (.inr (.inr h))
        cases r with
        | nil =>
          refine .inr (.inl ⟨?_, ?_⟩)
          · unfold read8
            simp only []
            rw [if_neg h1, if_neg h2, if_neg h3, if_neg h4, if_pos h5, if_neg hc]
          · obtain ⟨hs, he⟩ := utf8_of4 (b := b) (c := c) (d := 0x80) (e := 0x80) (by omega) h5 hc1 hc2 hc3
              ⟨by omega, by omega⟩ ⟨by omega, by omega⟩
            exact ⟨_, 2, hs, by omega, by rw [he]; simp, by rw [he]; rfl⟩
        | cons d r =>
          by_cases hd : cont d
          · cases r with
            | nil =>
              refine .inr (.inl ⟨?_, ?_⟩)
              · unfold read8
                simp only []
                rw [if_neg h1, if_neg h2, if_neg h3, if_neg h4, if_pos h5, if_neg hc, if_neg (fun h => h hd)]
              · obtain ⟨hs, he⟩ := utf8_of4 (b := b) (c := c) (d := d) (e := 0x80) (by omega) h5 hc1 hc2 hc3 hd
                  ⟨by omega, by omega⟩
                exact ⟨_, 3, hs, by omega, by rw [he]; simp, by rw [he]; rfl⟩
            | cons e r =>
              by_cases he : cont e
              · obtain ⟨hs, hx⟩ := utf8_of4 (b := b) (c := c) (d := d) (e := e) (by omega) h5 hc1 hc2 hc3 hd he
                refine .inl ⟨_, 4, ?_, hs, by rw [hx]; rfl, by omega⟩
                unfold read8
                simp only []
                rw [if_neg h1, if_neg h2, if_neg h3, if_neg h4, if_pos h5, if_neg hc, if_neg (fun h => h hd), if_pos he]
              · refine .inr (.inr ?_)
                unfold read8
                simp only []
                rw [if_neg h1, if_neg h2, if_neg h3, if_neg h4, if_pos h5, if_neg hc, if_neg (fun h => h hd), if_neg he]
          · refine .inr (.inr ?_)
            unfold read8
            simp only []
            rw [if_neg h1, if_neg h2, if_neg h3, if_neg h4, if_pos h5, if_neg hc, if_pos hd]
  · exact .inr (.inr (by simp [read8, h1, h2, h3, h4, h5]))

/-- The facet reads nothing but characters: `dom` are the units that can occur. -/
structure Complete (k : Codec) (src : Nat → List Nat) (dom : Nat → Prop) : Prop where
  nil : k.read [] = .incomplete
  char : ∀ inp, (∀ u ∈ inp, dom u) → ∀ c n, k.read inp = .char c n → Scalar c ∧ inp = src c ++ inp.drop n ∧ 1 ≤ n
  incomplete : ∀ inp, (∀ u ∈ inp, dom u) → inp ≠ [] → k.read inp = .incomplete →
    ∃ c n, Scalar c ∧ 0 < n ∧ n < (src c).length ∧ inp = (src c).take n

theorem out8_complete : Complete out8 utf16 (· < 0x10000) :=
  ⟨rfl, fun _ hu _ _ h => read16_char hu h, fun _ _ hne h => read16_incomplete hne h⟩

theorem in16_complete : Complete in16 utf8 (fun _ => True) := by
  refine ⟨rfl, ?_, ?_⟩
  · intro inp _ c n h
    cases inp with
    | nil => cases h
    | cons b r =>
      rcases read8_cases b r with ⟨c', n', h', h1, h2, h3⟩ | ⟨h', _⟩ | h'
      · have : Read.char c n = Read.char c' n' := h.symm.trans h'
        cases this
        exact ⟨h1, h2, h3⟩
      · have := h.symm.trans h'; cases this
      · have := h.symm.trans h'; cases this
  · intro inp _ hne h
    cases inp with
    | nil => exact absurd rfl hne
    | cons b r =>
      rcases read8_cases b r with ⟨c', n', h', h1, h2, h3⟩ | ⟨h', h1⟩ | h'
      · have := h.symm.trans h'; cases this
      · exact h1
      · have := h.symm.trans h'; cases this

/-- Every input begins with a text that cannot be extended. -/
theorem decompose {k : Codec} {src : Nat → List Nat} {dom : Nat → Prop} (hk : Complete k src dom) : (m : Nat) →
    (inp : List Nat) → inp.length ≤ m → (∀ u ∈ inp, dom u) → ∃ cs tail : List Nat, (∀ c ∈ cs, Scalar c) ∧
      inp = cs.flatMap src ++ tail ∧ (∀ u ∈ tail, dom u) ∧ ∀ c n, k.read tail ≠ .char c n
  | m, inp, hm, hd => by
    by_cases h : ∃ c n, k.read inp = .char c n
    · obtain ⟨c, n, h⟩ := h
      obtain ⟨h1, h2, h3⟩ := hk.char inp hd c n h
      cases hin : inp with
      | nil =>
        rw [hin, hk.nil] at h
        cases h
      | cons u r =>
        cases m with
        | zero => rw [hin] at hm; simp at hm
        | succ m =>
          obtain ⟨cs, tail, g1, g2, g3, g4⟩ := decompose hk m (inp.drop n) (by rw [List.length_drop]; omega)
            (fun u hu => hd u (List.mem_of_mem_drop hu))
          refine ⟨c :: cs, tail, ?_, ?_, g3, g4⟩
          · intro x hx
            rcases List.mem_cons.mp hx with rfl | hx
            · exact h1
            · exact g1 x hx
          · rw [List.flatMap_cons, List.append_assoc, ← g2, ← h2, hin]
    · exact ⟨[], inp, by simp, by simp, hd, fun c n hc => h ⟨c, n, hc⟩⟩

end Verif.Codec
