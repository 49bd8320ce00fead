import Verif.Model.Text
/-!
# Numbers and characters as text
-/

namespace Verif.Text

theorem digit_code {d : Nat} (h : d ≤ 9) : digit (48 + d) = d := by
  unfold digit; rw [if_pos (by omega)]; omega

/-- The decimal text of a number starts with a digit, not with 0 unless the number is 0. -/
theorem dec_head (n : Nat) : ∃ d t, dec n = (48 + d) :: t ∧ d ≤ 9 ∧ (n ≠ 0 → 1 ≤ d) ∧ (n = 0 → t = []) := by
  induction n using Nat.strongRecOn with
  | ind n ih =>
    rw [dec]
    split
    · exact ⟨n, [], rfl, by omega, by omega, fun _ => rfl⟩
    · obtain ⟨d, t, h1, h2, h3, -⟩ := ih (n / 10) (by omega)
      exact ⟨d, t ++ [48 + n % 10], by rw [h1]; rfl, h2, fun _ => h3 (by omega), by omega⟩

/-- Reading the decimal text of a number gives the number. -/
theorem scan_dec (n : Nat) (r : Bytes) : scan 10 0 (dec n ++ r) = scan 10 n r := by
  induction n using Nat.strongRecOn generalizing r with
  | ind n ih =>
    rw [dec]
    split
    · rename_i h
      show scan 10 0 ((48 + n) :: r) = _
      rw [scan, digit_code (by omega), if_pos h, Nat.zero_mul, Nat.zero_add]
    · rw [List.append_assoc, ih (n / 10) (by omega)]
      show scan 10 (n / 10) ((48 + n % 10) :: r) = _
      rw [scan, digit_code (by omega), if_pos (by omega), Nat.mul_comm, Nat.div_add_mod]

theorem space_digit {d : Nat} (h : d ≤ 9) : space (48 + d) = false := by
  unfold space
  simp only [Bool.or_eq_false_iff, decide_eq_false_iff_not, Bool.and_eq_false_imp, decide_eq_true_eq]
  omega

theorem sign_digit {d : Nat} {t : Bytes} (h : d ≤ 9) :
    sign (List.dropWhile space ((48 + d) :: t)) = (false, (48 + d) :: t) := by
  rw [List.dropWhile_cons, space_digit h]
  simp only [Bool.false_eq_true, if_false]
  rw [sign, if_neg (by omega), if_neg (by omega)]

theorem magnitude_digit {d : Nat} {t : Bytes} {b : Nat} (h : d ≤ 9) (hb : b ≠ 16) :
    magnitude b ((48 + d) :: t) = (false, scan b 0 ((48 + d) :: t)) := by
  unfold magnitude
  rw [sign_digit h]
  simp only [if_neg hb]

/-- The text of a number is read in base 8 or 10, with the right value. -/
theorem magnitude_dec (n : Nat) : magnitude (labelBase (dec n)) (dec n) = (false, n) := by
  obtain ⟨d, t, h1, h2, h3, h4⟩ := dec_head n
  by_cases hn : n = 0
  · subst hn
    have e : dec 0 = [48] := by rw [dec]; rfl
    rw [e]; decide
  · have hb : labelBase (dec n) = 10 := by
      have hd := h3 hn
      rw [h1]
      unfold labelBase
      have e0 : bytes "0" = [48] := by decide
      have e1 : bytes "0x" = [48, 120] := by decide
      have e2 : bytes "0X" = [48, 88] := by decide
      rw [e0, e1, e2]
      have hne : (48 == 48 + d) = false := by simp; omega
      simp only [List.isPrefixOf, hne, Bool.false_and, Bool.false_eq_true, or_self, if_false]
    rw [hb]
    have := scan_dec n []
    rw [List.append_nil, h1] at this
    rw [h1, magnitude_digit h2 (by omega), this]; rfl

theorem strtoull_dec {n : Nat} (h : n < 2 ^ 64) : strtoull (labelBase (dec n)) (dec n) = n := by
  unfold strtoull
  rw [magnitude_dec]
  simp only [Bool.false_eq_true, if_false]
  rw [if_neg (by omega)]

theorem strtoll_dec (n : Nat) : strtoll (labelBase (dec n)) (dec n) = if 2 ^ 63 ≤ n then 2 ^ 63 - 1 else (n : Int) := by
  unfold strtoll
  rw [magnitude_dec]
  simp only [Bool.false_eq_true, if_false]

theorem stoul_dec {n : Nat} (h : n < 2 ^ 64) (r : Bytes) (hr : 10 ≤ digit (r.headD 0)) : stoul (dec n ++ r) = some n := by
  obtain ⟨d, t, h1, h2, h3, h4⟩ := dec_head n
  have hs := scan_dec n r
  rw [h1] at hs ⊢
  unfold stoul
  rw [List.cons_append] at hs ⊢
  rw [magnitude_digit h2 (by omega), sign_digit h2]
  have hend : scan 10 n r = n := by
    cases r with
    | nil => rfl
    | cons c r => rw [scan, if_neg]; simp only [List.headD_cons] at hr; omega
  simp only [Bool.false_eq_true, if_false, List.headD_cons, digit_code h2]
  rw [if_neg (by omega), hs, hend, if_neg (by omega)]

/-- A code unit that is not half of a pair survives the way through UTF-8. -/
theorem utf16_utf8 {u : Nat} {b : Bytes} (hu : u < 2 ^ 16) (h : utf8 u = some b) (r : Bytes) :
    utf16 (b ++ r) = (utf16 r).map (u :: ·) := by
  unfold utf8 at h
  split at h
  · rename_i h1
    cases h
    show utf16 (u :: r) = _
    conv => lhs; unfold utf16
    rw [if_pos h1]
  · split at h
    · rename_i h1 h2
      cases h
      show utf16 ((0xC0 + u / 0x40) :: (0x80 + u % 0x40) :: r) = _
      conv => lhs; unfold utf16
      rw [if_neg (by omega), if_pos (by omega)]
      have hc : cont (0x80 + u % 0x40) = true := by
        unfold cont; simp only [Bool.and_eq_true, decide_eq_true_eq]; omega
      have e : (0xC0 + u / 0x40 - 0xC0) * 0x40 + (0x80 + u % 0x40 - 0x80) = u := by omega
      simp only [hc, if_true, e]
    · split at h
      · cases h
      · rename_i h1 h2 h3
        cases h
        show utf16 ((0xE0 + u / 0x1000) :: (0x80 + u / 0x40 % 0x40) :: (0x80 + u % 0x40) :: r) = _
        conv => lhs; unfold utf16
        rw [if_neg (by omega), if_neg (by omega), if_pos (by omega)]
        have hc : cont (0x80 + u / 0x40 % 0x40) = true := by
          unfold cont; simp only [Bool.and_eq_true, decide_eq_true_eq]; omega
        have hc' : cont (0x80 + u % 0x40) = true := by
          unfold cont; simp only [Bool.and_eq_true, decide_eq_true_eq]; omega
        have e : (0xE0 + u / 0x1000 - 0xE0) * 0x1000 + (0x80 + u / 0x40 % 0x40 - 0x80) * 0x40 + (0x80 + u % 0x40 - 0x80) = u := by
          omega
        simp only [e, hc, hc']
        rw [if_pos ⟨trivial, trivial, by omega, h3⟩]

end Verif.Text
