import Verif.Lemmas.CodecRead
/-!
# C53: conversion between `std::string` and `std::u16string`

`code_conversion<std::u16string, std::string>` and back (StringConversion.hpp 84-176). A text is a list of Unicode scalar
values; the property wanted is `∀ text, Converts out8 (text in UTF-16) (text in UTF-8)` and the same for `in16`. It does
not hold (`C53_violated`); `C53_out_partial` and `C53_in_partial` say for exactly which texts it does.
-/

namespace Verif.Codec

/-- Every UTF-8 text and every UTF-16 text has a conversion that ends. -/
theorem C53_returns (cs : List Nat) (hc : ∀ c ∈ cs, Scalar c) :
    (∃ o, Converts out8 (cs.flatMap utf16) o) ∧ ∃ o, Converts in16 (cs.flatMap utf8) o := by
  obtain ⟨n, o, h, _⟩ := converts_text out8_sound (fun _ _ h => by cases h) cs.length cs (Nat.le_refl _) hc
    (List.replicate bufferSize none) [] rfl
  obtain ⟨n', o', h', _⟩ := converts_text in16_sound (fun _ _ h => by cases h) cs.length cs (Nat.le_refl _) hc
    (List.replicate bufferSize none) [] rfl
  exact ⟨⟨_, n, h⟩, ⟨_, n', h'⟩⟩

theorem exact_iff {k : Codec} {src dst : Nat → List Nat} (hk : Sound k src dst) (hnil : ∀ c n, k.read [] ≠ .char c n)
    (cs : List Nat) (hc : ∀ c ∈ cs, Scalar c) :
    Converts k (cs.flatMap src) ((cs.flatMap dst).map some) ↔ Aligned dst cs := by
  obtain ⟨n, o, h1, _, h3, h4⟩ := converts_text hk hnil cs.length cs (Nat.le_refl _) hc
    (List.replicate bufferSize none) [] rfl
  rw [List.nil_append] at h1
  constructor
  · rintro ⟨m, hm⟩
    have := run_det n m h1 _ hm
    exact h3 (by rw [this, List.length_map])
  · intro ha
    rw [← h4 ha]
    exact ⟨n, h1⟩

/-- The conversion of a UTF-16 text returns that text in UTF-8 exactly when the UTF-8 text can be cut between characters
into pieces of 64 bytes and a rest of at most 64 bytes. (Missing: the other texts, for which it is false.) -/
theorem C53_out_partial (cs : List Nat) (hc : ∀ c ∈ cs, Scalar c) :
    Converts out8 (cs.flatMap utf16) ((cs.flatMap utf8).map some) ↔ Aligned utf8 cs :=
  exact_iff out8_sound (fun _ _ h => by cases h) cs hc

/-- The conversion of a UTF-8 text returns that text in UTF-16 exactly when the UTF-16 text can be cut between characters
into pieces of 64 units and a rest of at most 64 units. (Missing: the other texts, for which it is false.) -/
theorem C53_in_partial (cs : List Nat) (hc : ∀ c ∈ cs, Scalar c) :
    Converts in16 (cs.flatMap utf8) ((cs.flatMap utf16).map some) ↔ Aligned utf16 cs :=
  exact_iff in16_sound (fun _ _ h => by cases h) cs hc

/-- A conversion returns one thing only. -/
theorem C53_deterministic (k : Codec) (inp : List Nat) (o o' : List (Option Nat)) (h : Converts k inp o)
    (h' : Converts k inp o') : o = o' := by
  obtain ⟨n, h⟩ := h
  obtain ⟨m, h'⟩ := h'
  exact run_det n m h _ h'

/-- Characters that all take `w` units, `w` a divisor of 64, can be cut. -/
theorem aligned_uniform {enc : Nat → List Nat} {w q : Nat} (hw : w * q = 64) : (m : Nat) → (cs : List Nat) →
    cs.length ≤ m → (∀ c ∈ cs, (enc c).length = w) → Aligned enc cs
  | m, cs, hm, hc => by
    have hlen : ∀ l : List Nat, (∀ c ∈ l, (enc c).length = w) → (l.flatMap enc).length = w * l.length := by
      intro l hl
      induction l with
      | nil => simp
      | cons c l ih =>
        rw [List.flatMap_cons, List.length_append, hl c (List.mem_cons_self ..),
          ih (fun x hx => hl x (List.mem_cons_of_mem _ hx)), List.length_cons, Nat.mul_add, Nat.mul_one, Nat.add_comm]
    by_cases hs : cs.length ≤ q
    · refine .last ?_
      rw [hlen cs hc, ← hw]
      exact Nat.mul_le_mul_left _ hs
    · have hq : 0 < q := Nat.pos_of_ne_zero (by rintro rfl; simp at hw)
      cases m with
      | zero => omega
      | succ m =>
        rw [← List.take_append_drop q cs]
        refine .piece ?_ (aligned_uniform hw m _ (by rw [List.length_drop]; omega) (fun c h => hc c (List.mem_of_mem_drop h)))
        rw [hlen _ (fun c h => hc c (List.mem_of_mem_take h)), List.length_take, Nat.min_eq_left (by omega), hw]

/-- Texts without characters beyond the basic plane, of any length, convert to UTF-16 exactly. -/
theorem C53_in_basic_partial (cs : List Nat) (hc : ∀ c ∈ cs, Scalar c ∧ c < 0x10000) :
    Converts in16 (cs.flatMap utf8) ((cs.flatMap utf16).map some) := by
  refine (C53_in_partial cs (fun c h => (hc c h).1)).mpr (aligned_uniform (w := 1) (q := 64) rfl cs.length cs (Nat.le_refl _) ?_)
  intro c h
  have := (hc c h).2
  unfold utf16
  rw [if_pos (by omega)]
  rfl

/-- ASCII texts of any length convert to UTF-8 exactly. -/
theorem C53_out_ascii_partial (cs : List Nat) (hc : ∀ c ∈ cs, c < 0x80) : Converts out8 cs (cs.map some) := by
  have h1 : cs.flatMap utf16 = cs := by
    induction cs with
    | nil => rfl
    | cons c cs ih =>
      have := hc c (List.mem_cons_self ..)
      rw [List.flatMap_cons, ih (fun x hx => hc x (List.mem_cons_of_mem _ hx))]
      unfold utf16
      rw [if_pos (by omega)]
      rfl
  have h2 : cs.flatMap utf8 = cs := by
    clear h1
    induction cs with
    | nil => rfl
    | cons c cs ih =>
      have := hc c (List.mem_cons_self ..)
      rw [List.flatMap_cons, ih (fun x hx => hc x (List.mem_cons_of_mem _ hx))]
      unfold utf8
      rw [if_pos (by omega)]
      rfl
  have := (C53_out_partial cs (fun c h => by have := hc c h; unfold Scalar; omega)).mpr
    (aligned_uniform (w := 1) (q := 64) rfl cs.length cs (Nat.le_refl _) (fun c h => by
      have := hc c h
      unfold utf8
      rw [if_pos (by omega)]
      rfl))
  rwa [h1, h2] at this

/-- Texts of at most 64 bytes (in UTF-8) convert exactly in both directions. -/
theorem C53_short_partial (cs : List Nat) (hc : ∀ c ∈ cs, Scalar c) (hl : (cs.flatMap utf8).length ≤ 64) :
    Converts out8 (cs.flatMap utf16) ((cs.flatMap utf8).map some) ∧
    Converts in16 (cs.flatMap utf8) ((cs.flatMap utf16).map some) := by
  refine ⟨(C53_out_partial cs hc).mpr (.last hl), (C53_in_partial cs hc).mpr (.last (Nat.le_trans ?_ hl))⟩
  clear hl hc
  induction cs with
  | nil => exact Nat.le_refl _
  | cons c cs ih =>
    rw [List.flatMap_cons, List.flatMap_cons, List.length_append, List.length_append]
    have : (utf16 c).length ≤ (utf8 c).length := by
      unfold utf16 utf8
      repeat' split
      all_goals simp
      all_goals omega
    omega

theorem not_aligned_three {cs : List Nat} (hc : ∀ c ∈ cs, (utf8 c).length = 3) (ha : Aligned utf8 cs) :
    (cs.flatMap utf8).length ≤ 64 := by
  rcases aligned_inv ha with h | ⟨a, b, rfl, h, _⟩
  · exact h
  · exfalso
    have : ∀ l : List Nat, (∀ c ∈ l, (utf8 c).length = 3) → (l.flatMap utf8).length % 3 = 0 := by
      intro l hl
      induction l with
      | nil => rfl
      | cons c l ih =>
        have h1 := hl c (List.mem_cons_self ..)
        have h2 := ih (fun x hx => hl x (List.mem_cons_of_mem _ hx))
        rw [List.flatMap_cons, List.length_append]
        omega
    have := this a (fun c h => hc c (List.mem_append_left _ h))
    omega

/-- The property does not hold: no text of more than 21 characters in which all take three bytes (say, a text in Chinese)
is converted to UTF-8. The conversion returns, and returns something else. -/
theorem C53_violated (cs : List Nat) (hc : ∀ c ∈ cs, Scalar c ∧ 0x800 ≤ c ∧ c < 0x10000) (hl : 21 < cs.length) :
    ∃ o, Converts out8 (cs.flatMap utf16) o ∧ o ≠ (cs.flatMap utf8).map some := by
  obtain ⟨⟨o, ho⟩, _⟩ := C53_returns cs (fun c h => (hc c h).1)
  refine ⟨o, ho, ?_⟩
  rintro rfl
  have h3 : ∀ c ∈ cs, (utf8 c).length = 3 := by
    intro c h
    have := (hc c h).2
    unfold utf8
    rw [if_neg (by omega), if_neg (by omega), if_pos (by omega)]
    rfl
  have h64 := not_aligned_three h3 ((C53_out_partial cs (fun c h => (hc c h).1)).mp ho)
  have hlen : ∀ l : List Nat, (∀ c ∈ l, (utf8 c).length = 3) → (l.flatMap utf8).length = 3 * l.length := by
    intro l hl
    induction l with
    | nil => rfl
    | cons c l ih =>
      rw [List.flatMap_cons, List.length_append, hl c (List.mem_cons_self ..),
        ih (fun x hx => hl x (List.mem_cons_of_mem _ hx)), List.length_cons]
      omega
  rw [hlen cs h3] at h64
  omega

/-- A text that ends with the first half of a surrogate pair is never converted: the call does not return. -/
theorem C53_diverges_out (cs : List Nat) (hc : ∀ c ∈ cs, Scalar c) (u : Nat) (hu : 0xD800 ≤ u ∧ u ≤ 0xDBFF) :
    Diverges out8 (cs.flatMap utf16 ++ [u]) := fun n =>
  diverges_text out8_sound (by simp) (by
    show read16 [u] = _
    rw [read16, if_pos (show high u from hu)]) n cs hc _ [] rfl

/-- A UTF-8 text whose last character was cut off (some, but not all, of its bytes are there) is never converted: the
call does not return. -/
theorem C53_diverges_in (cs : List Nat) (hc : ∀ c ∈ cs, Scalar c) (c : Nat) (hs : Scalar c) (n : Nat) (h0 : 0 < n)
    (hn : n < (utf8 c).length) : Diverges in16 (cs.flatMap utf8 ++ (utf8 c).take n) := fun m => by
  refine diverges_text in16_sound ?_ ?_ m cs hc _ [] rfl
  · intro h
    have := congrArg List.length h
    rw [List.length_take, List.length_nil] at this
    omega
  · show read8 _ = _
    unfold Scalar at hs
    unfold utf8 lowBits at hn ⊢
    simp only [Nat.reducePow] at hn ⊢
    split at hn
    · simp at hn; omega
    · rename_i h1
      rw [if_neg h1]
      split at hn
      · rename_i h2
        rw [if_pos h2]
        simp only [List.length_cons, List.length_nil] at hn
        have : n = 1 := by omega
        subst this
        simp only [List.take_succ_cons, List.take_zero, read8]
        rw [if_neg (by omega), if_neg (by omega), if_pos (by omega)]
      · rename_i h2
        rw [if_neg h2]
        split at hn
        · rename_i h3
          rw [if_pos h3]
          simp only [List.length_cons, List.length_nil] at hn
          have : n = 1 ∨ n = 2 := by omega
          rcases this with rfl | rfl
          · simp only [List.take_succ_cons, List.take_zero, read8]
            rw [if_neg (by omega), if_neg (by omega), if_neg (by omega), if_pos (by omega)]
          · simp only [List.take_succ_cons, List.take_zero, read8]
            rw [if_neg (by omega), if_neg (by omega), if_neg (by omega), if_pos (by omega), if_neg (by unfold cont; omega)]
        · rename_i h3
          rw [if_neg h3]
          simp only [List.length_cons, List.length_nil] at hn
          have : n = 1 ∨ n = 2 ∨ n = 3 := by omega
          rcases this with rfl | rfl | rfl
          · simp only [List.take_succ_cons, List.take_zero, read8]
            rw [if_neg (by omega), if_neg (by omega), if_neg (by omega), if_neg (by omega), if_pos (by omega)]
          · simp only [List.take_succ_cons, List.take_zero, read8]
            rw [if_neg (by omega), if_neg (by omega), if_neg (by omega), if_neg (by omega), if_pos (by omega),
              if_neg (by unfold cont; omega)]
          · simp only [List.take_succ_cons, List.take_zero, read8]
            rw [if_neg (by omega), if_neg (by omega), if_neg (by omega), if_neg (by omega), if_pos (by omega),
              if_neg (by unfold cont; omega), if_neg (by unfold cont; omega)]

/-- A half of a surrogate pair without the other half is refused with an exception, wherever it is. -/
theorem C53_throws_out (cs : List Nat) (hc : ∀ c ∈ cs, Scalar c) (u : Nat) (rest : List Nat)
    (hu : (0xDC00 ≤ u ∧ u ≤ 0xDFFF) ∨
      (0xD800 ≤ u ∧ u ≤ 0xDBFF ∧ ∃ v r, rest = v :: r ∧ ¬ (0xDC00 ≤ v ∧ v ≤ 0xDFFF))) :
    Throws out8 (cs.flatMap utf16 ++ u :: rest) := by
  refine throws_text out8_sound (by simp) ?_ cs.length cs (Nat.le_refl _) hc _ [] rfl
  show read16 (u :: rest) = .invalid
  rcases hu with h | ⟨h1, h2, v, r, rfl, h3⟩
  · have a : ¬ high u := by unfold high; omega
    have b : low u := h
    simp [read16, a, b]
  · have a : high u := ⟨h1, h2⟩
    have b : ¬ low v := h3
    simp [read16, a, b]

/-- A byte that begins no character (a continuation byte, or one of 0xC0, 0xC1, 0xF5 … 0xFF) is refused with an
exception, wherever it is. -/
theorem C53_throws_in (cs : List Nat) (hc : ∀ c ∈ cs, Scalar c) (b : Nat) (rest : List Nat)
    (hb : (0x80 ≤ b ∧ b ≤ 0xC1) ∨ 0xF5 ≤ b) : Throws in16 (cs.flatMap utf8 ++ b :: rest) := by
  refine throws_text in16_sound (by simp) ?_ cs.length cs (Nat.le_refl _) hc _ [] rfl
  show read8 (b :: rest) = .invalid
  unfold read8
  simp only []
  rw [if_neg (by omega)]
  rcases hb with h | h
  · rw [if_pos (by omega)]
  · rw [if_neg (by omega), if_neg (by omega), if_neg (by omega), if_neg (by omega)]

theorem outcomes {k : Codec} {src dst : Nat → List Nat} {dom : Nat → Prop} (hk : Sound k src dst)
    (hc : Complete k src dom) (hdiv : ∀ inp, Truncated src inp → Diverges k inp) (inp : List Nat) (hd : ∀ u ∈ inp, dom u) :
    (WellFormed src inp ↔ ∃ o, Converts k inp o) ∧ (Truncated src inp ↔ Diverges k inp) ∧
      ((¬ WellFormed src inp ∧ ¬ Truncated src inp) ↔ Throws k inp) := by
  have hwf : WellFormed src inp → ∃ o, Converts k inp o := by
    rintro ⟨cs, h, rfl⟩
    obtain ⟨n, o, h1, _⟩ := converts_text hk (fun _ _ h => by rw [hc.nil] at h; cases h) cs.length cs (Nat.le_refl _) h
      (List.replicate bufferSize none) [] rfl
    exact ⟨_, n, h1⟩
  have hth : ¬ WellFormed src inp ∧ ¬ Truncated src inp → Throws k inp := by
    rintro ⟨h1, h2⟩
    obtain ⟨cs, tail, g1, rfl, g3, g4⟩ := decompose hc inp.length inp (Nat.le_refl _) hd
    have hne : tail ≠ [] := by
      rintro rfl
      exact h1 ⟨cs, g1, by simp⟩
    cases hr : k.read tail with
    | char c n => exact absurd hr (g4 c n)
    | incomplete =>
      obtain ⟨c, n, e1, e2, e3, e4⟩ := hc.incomplete tail g3 hne hr
      exact absurd ⟨cs, c, n, g1, e1, e2, e3, by rw [← e4]⟩ h2
    | invalid => exact throws_text hk hne hr cs.length cs (Nat.le_refl _) g1 _ [] rfl
  have hno1 : (∃ o, Converts k inp o) → ¬ Diverges k inp := by
    rintro ⟨o, n, h⟩ h'
    obtain ⟨s, hs⟩ := h' n
    rw [h] at hs; cases hs
  have hno2 : Throws k inp → ¬ Diverges k inp := by
    rintro ⟨n, h⟩ h'
    obtain ⟨s, hs⟩ := h' n
    rw [h] at hs; cases hs
  have hno3 : Throws k inp → ¬ ∃ o, Converts k inp o := by
    rintro ⟨n, h⟩ ⟨o, m, h'⟩
    exact returns_not_throws m n h' h
  refine ⟨⟨hwf, fun h => ?_⟩, ⟨hdiv inp, fun h => ?_⟩, ⟨hth, fun h => ⟨fun hw => hno3 h (hwf hw), fun ht => hno2 h (hdiv _ ht)⟩⟩⟩
  · apply Classical.not_not.mp
    intro hw
    by_cases ht : Truncated src inp
    · exact hno1 h (hdiv _ ht)
    · exact hno3 (hth ⟨hw, ht⟩) h
  · apply Classical.not_not.mp
    intro ht
    by_cases hw : WellFormed src inp
    · exact hno1 (hwf hw) h
    · exact hno2 (hth ⟨hw, ht⟩) h

/-- Converting from UTF-8, for every sequence of bytes: the call returns exactly if the input is a text, runs for ever
exactly if the input is a text cut off inside a character, and throws exactly in all other cases. -/
theorem C53_outcomes_in (inp : List Nat) :
    (WellFormed utf8 inp ↔ ∃ o, Converts in16 inp o) ∧ (Truncated utf8 inp ↔ Diverges in16 inp) ∧
      ((¬ WellFormed utf8 inp ∧ ¬ Truncated utf8 inp) ↔ Throws in16 inp) :=
  outcomes in16_sound in16_complete (fun _ ⟨cs, c, n, h1, h2, h3, h4, h5⟩ => h5 ▸ C53_diverges_in cs h1 c h2 n h3 h4) inp
    (fun _ _ => trivial)

/-- Converting from UTF-16, for every sequence of 16-bit units: likewise. -/
theorem C53_outcomes_out (inp : List Nat) (hd : ∀ u ∈ inp, u < 0x10000) :
    (WellFormed utf16 inp ↔ ∃ o, Converts out8 inp o) ∧ (Truncated utf16 inp ↔ Diverges out8 inp) ∧
      ((¬ WellFormed utf16 inp ∧ ¬ Truncated utf16 inp) ↔ Throws out8 inp) := by
  refine outcomes out8_sound out8_complete ?_ inp hd
  rintro _ ⟨cs, c, n, h1, h2, h3, h4, rfl⟩
  unfold Scalar at h2
  have hc : ¬ c < 2 ^ 16 := by
    intro hc
    unfold utf16 at h4
    rw [if_pos hc] at h4
    simp at h4
    omega
  have hn : n = 1 := by
    unfold utf16 at h4
    rw [if_neg hc] at h4
    simp at h4
    omega
  subst hn
  have : (utf16 c).take 1 = [0xD800 + (c - 0x10000) / 0x400] := by
    unfold utf16
    rw [if_neg hc]
    simp only [List.take_succ_cons, List.take_zero, Nat.reducePow]
  rw [this]
  exact C53_diverges_out cs h1 _ (by omega)

/-! ## Concrete cases -/

/-- A byte that continues a character after a complete one is ill-formed and not the beginning of a character. -/
example : Throws in16 [0x61, 0xBF] := C53_throws_in [0x61] (by unfold Scalar; decide) 0xBF [] (.inl (by decide))

example : Truncated utf8 [0x61, 0xF0, 0x9F] :=
  ⟨[0x61], 0x1F600, 2, by unfold Scalar; decide, by unfold Scalar; decide, by decide, by decide, rfl⟩

/-- Thirty characters "中" are a text as `C53_violated` speaks of. -/
example : ∃ o, Converts out8 ((List.replicate 30 0x4E2D).flatMap utf16) o ∧
    o ≠ ((List.replicate 30 0x4E2D).flatMap utf8).map some :=
  C53_violated (List.replicate 30 0x4E2D) (by intro c h; rw [List.eq_of_mem_replicate h]; unfold Scalar; omega)
    (by decide)

/-- 16 characters of four bytes fill the buffer exactly; 70 of them are aligned but do not fit into one buffer. -/
example : Aligned utf8 (List.replicate 70 0x1F600) :=
  aligned_uniform (w := 4) (q := 16) rfl 70 _ (by simp) (by intro c h; rw [List.eq_of_mem_replicate h]; rfl)

example : Converts in16 [0xE4, 0xB8, 0xAD, 0x61] [some 0x4E2D, some 0x61] := ⟨1, rfl⟩

example : Diverges in16 (([0x61, 0x4E2D] : List Nat).flatMap utf8 ++ (utf8 0x1F600).take 3) :=
  C53_diverges_in _ (by unfold Scalar; decide) _ (by unfold Scalar; decide) 3 (by decide) (by decide)

example : Throws out8 ([0x61, 0x62].flatMap utf16 ++ 0xD800 :: [0x63]) :=
  C53_throws_out _ (by unfold Scalar; decide) _ _ (.inr ⟨by decide, by decide, 0x63, [], rfl, by decide⟩)

end Verif.Codec
