import Verif.Spec.LabelText
import Verif.Props.Labels
/-!
# C77: labels given as text

"A case label that is given as a text has the value that is written there: decimal numbers, with a sign and white space before them or
not, octal numbers that begin with 0, and hexadecimal numbers that begin with 0x or 0X, for every integer type that has the value."
-/

namespace Verif.Text

theorem isDigit_digit {c d : Nat} (h : IsDigit c d) : digit c = d := by
  unfold digit
  rcases h with ⟨h1, rfl⟩ | ⟨h1, h2, rfl | rfl⟩
  · rw [if_pos (by omega)]; omega
  · rw [if_neg (by omega), if_neg (by omega), if_pos (by omega)]; omega
  · rw [if_neg (by omega), if_pos (by omega)]; omega

theorem isDigit_not {c d : Nat} (h : IsDigit c d) : space c = false ∧ c ≠ 45 ∧ c ≠ 43 := by
  unfold space
  simp only [Bool.or_eq_false_iff, decide_eq_false_iff_not, Bool.and_eq_false_imp, decide_eq_true_eq]
  rcases h with ⟨h1, rfl⟩ | ⟨h1, h2, rfl | rfl⟩ <;> omega

theorem scan_digits {b : Nat} {cs ds : List Nat} (h : List.Forall₂ IsDigit cs ds) (hd : ∀ d ∈ ds, d < b) (acc : Nat) :
    scan b acc cs = ds.foldl (fun v d => b * v + d) acc := by
  induction h generalizing acc with
  | nil => rfl
  | @cons c d cs ds h1 _ ih =>
    rw [scan, isDigit_digit h1, if_pos (hd d (by simp)), ih (fun d h => hd d (by simp [h])), List.foldl_cons, Nat.mul_comm]

theorem digits_scan {b n : Nat} {cs : Bytes} (h : Digits b cs n) : scan b 0 cs = n := by
  obtain ⟨ds, h1, h2, rfl⟩ := h
  exact scan_digits h1 h2 0

theorem digits_head {b n : Nat} {cs : Bytes} (h : Digits b cs n) (hne : cs ≠ []) :
    ∃ c r d, cs = c :: r ∧ IsDigit c d ∧ d < b := by
  obtain ⟨ds, h1, h2, _⟩ := h
  cases h1 with
  | nil => exact absurd rfl hne
  | @cons c d cs ds h _ => exact ⟨c, cs, d, rfl, h, h2 d (by simp)⟩

theorem dropWhile_spaces {w : Bytes} (hw : ∀ c ∈ w, c ∈ [32, 9, 10, 11, 12, 13]) {r : Bytes} (hr : r.dropWhile space = r) :
    (w ++ r).dropWhile space = r := by
  induction w with
  | nil => exact hr
  | cons c w ih =>
    have hc : space c = true := by
      have := hw c (by simp)
      simp only [List.mem_cons, List.not_mem_nil, or_false] at this
      unfold space
      simp only [Bool.or_eq_true, decide_eq_true_eq, Bool.and_eq_true]
      omega
    rw [List.cons_append, List.dropWhile_cons, if_pos hc, ih (fun c h => hw c (by simp [h]))]

theorem base_ten {s : Bytes} (h : s.head? ≠ some 48) : labelBase s = 10 := by
  have e0 : bytes "0" = [48] := by decide
  have e1 : bytes "0x" = [48, 120] := by decide
  have e2 : bytes "0X" = [48, 88] := by decide
  unfold labelBase
  rw [e0, e1, e2]
  cases s with
  | nil => rfl
  | cons c r =>
    have hne : (48 == c) = false := by
      rw [beq_eq_false_iff_ne]; intro e; exact h (by rw [← e]; rfl)
    simp only [List.isPrefixOf, hne, Bool.false_and, Bool.false_eq_true, or_self, if_false]

theorem magnitude_text {s : Bytes} {v : Int} (h : IsNumberText s v) :
    ∃ neg n, magnitude (labelBase s) s = (neg, n) ∧ v = if neg then -(n : Int) else n := by
  have e0 : bytes "0" = [48] := by decide
  have e1 : bytes "0x" = [48, 120] := by decide
  have e2 : bytes "0X" = [48, 88] := by decide
  cases h with
  | @dec w g cs n hw hg hd hne h0 =>
    obtain ⟨c, r, d, rfl, hc, hlt⟩ := digits_head hd hne
    obtain ⟨n1, n2, n3⟩ := isDigit_not hc
    have hb : labelBase (w ++ g ++ c :: r) = 10 := by
      apply base_ten
      cases w with
      | cons x w =>
        have := hw x (by simp)
        simp only [List.mem_cons, List.not_mem_nil, or_false] at this
        simp only [List.cons_append, List.head?_cons, ne_eq, Option.some.injEq]; omega
      | nil =>
        rcases hg with rfl | rfl
        · exact h0 rfl
        · simp
    refine ⟨false, n, ?_, by simp⟩
    unfold magnitude
    rw [hb, List.append_assoc]
    rcases hg with rfl | rfl
    · rw [List.nil_append, dropWhile_spaces hw (by rw [List.dropWhile_cons, n1]; rfl), sign, if_neg n2, if_neg n3]
      show (false, scan 10 0 (c :: r)) = _
      rw [digits_scan hd]
    · rw [dropWhile_spaces hw (by rw [List.singleton_append, List.dropWhile_cons]; rfl), List.singleton_append, sign,
        if_neg (by decide), if_pos rfl]
      show (false, scan 10 0 (c :: r)) = _
      rw [digits_scan hd]
  | @neg w cs n hw hd hne =>
    have hb : labelBase (w ++ [45] ++ cs) = 10 := by
      apply base_ten
      cases w with
      | cons x w =>
        have := hw x (by simp)
        simp only [List.mem_cons, List.not_mem_nil, or_false] at this
        simp only [List.cons_append, List.head?_cons, ne_eq, Option.some.injEq]; omega
      | nil => simp
    refine ⟨true, n, ?_, by simp⟩
    unfold magnitude
    rw [hb, List.append_assoc, dropWhile_spaces hw (by rw [List.singleton_append, List.dropWhile_cons]; rfl), List.singleton_append, sign,
      if_pos rfl]
    show (true, scan 10 0 cs) = _
    rw [digits_scan hd]
  | @oct cs n hd =>
    have hb : labelBase (48 :: cs) = 8 := by
      unfold labelBase
      rw [e0, e1, e2]
      have : ¬ (([48, 120] : Bytes).isPrefixOf (48 :: cs) = true ∨ ([48, 88] : Bytes).isPrefixOf (48 :: cs) = true) := by
        cases cs with
        | nil => decide
        | cons c r =>
          obtain ⟨c', r', d, e, hc, hlt⟩ := digits_head hd (by simp)
          cases e
          simp only [List.isPrefixOf, beq_self_eq_true, Bool.true_and, Bool.and_true, beq_iff_eq]
          rcases hc with ⟨h1, rfl⟩ | ⟨h1, h2, rfl | rfl⟩ <;> omega
      rw [if_neg this]; rfl
    refine ⟨false, n, ?_, by simp⟩
    unfold magnitude
    rw [hb]
    have hs : List.dropWhile space (48 :: cs) = 48 :: cs := by rw [List.dropWhile_cons]; rfl
    rw [hs, sign, if_neg (by decide), if_neg (by decide)]
    show (false, scan 8 0 (48 :: cs)) = _
    rw [scan, show digit 48 = 0 from rfl, if_pos (by decide), Nat.zero_mul, digits_scan hd]
  | @hex x cs n hx hd hne =>
    obtain ⟨c, r, d, rfl, hc, hlt⟩ := digits_head hd hne
    have hb : labelBase (48 :: x :: c :: r) = 16 := by
      unfold labelBase
      rw [e1, e2, if_pos (by rcases hx with rfl | rfl <;> simp [List.isPrefixOf])]
    refine ⟨false, n, ?_, by simp⟩
    unfold magnitude
    rw [hb]
    have hs : List.dropWhile space (48 :: x :: c :: r) = 48 :: x :: c :: r := by rw [List.dropWhile_cons]; rfl
    rw [hs, sign, if_neg (by decide), if_neg (by decide)]
    show (false, scan 16 0 (prefix16 (48 :: x :: c :: r))) = _
    rw [prefix16, if_pos ⟨rfl, hx, by rw [isDigit_digit hc]; exact hlt⟩, digits_scan hd]

/-- C77, partial: a number has the value that is written. Missing: numbers that the type of the discriminator does not have and texts that
are no numbers, which are taken, too (`C77_fails`); labels of other types (C48). -/
theorem C77_number_partial {disc : Ty} {k : PK} {s : Bytes} {v : Int} (hd : disc.rget = .prim k) (hs : IsNumberText s v) (hr : IntRange k v) :
    parseLabel disc s = some v := by
  obtain ⟨neg, n, hm, rfl⟩ := magnitude_text hs
  have hl : -2 ^ 63 ≤ (if neg then -(n : Int) else n) → (if neg then -(n : Int) else n) < 2 ^ 63 →
      strtoll (labelBase s) s = if neg then -(n : Int) else n := by
    intro h1 h2
    unfold strtoll
    rw [hm]
    cases neg
    · simp only [Bool.false_eq_true, if_false] at *
      rw [if_neg (by omega)]
    · simp only [if_true] at *
      split <;> omega
  have hu : 0 ≤ (if neg then -(n : Int) else n) → (if neg then -(n : Int) else n) < 2 ^ 63 →
      (strtoull (labelBase s) s : Int) = if neg then -(n : Int) else n := by
    intro h1 h2
    unfold strtoull
    rw [hm]
    cases neg
    · simp only [Bool.false_eq_true, if_false] at *
      rw [if_neg (by omega)]
    · simp only [if_true] at *
      have : n = 0 := by omega
      subst this
      simp
  unfold parseLabel
  rw [hd]
  generalize (if neg then -(n : Int) else n) = v at *
  cases k <;> simp only [IntRange] at hr <;> try exact absurd hr id
  all_goals simp only [Option.some.injEq]
  case i8 => rw [hl (by omega) (by omega), signed, Int.bmod_def]; omega
  case i16 => rw [hl (by omega) (by omega), signed, Int.bmod_def]; omega
  case i32 => rw [hl (by omega) (by omega), signed, Int.bmod_def]; omega
  case i64 => exact hl (by omega) (by omega)
  case u8 => have := hu (by omega) (by omega); omega
  case u16 => have := hu (by omega) (by omega); omega
  case u32 => have := hu (by omega) (by omega); omega
  case u64 => rw [hu (by omega) (by omega), signed, Int.bmod_def]; omega

/-- C77: `-12`, ` +7`, `012`, `0x1F`. -/
example : parseLabel (.prim .i8) (bytes "-12") = some (-12) ∧ parseLabel (.prim .u16) (bytes " +7") = some 7 ∧
    parseLabel (.alias "A" (.prim .i64)) (bytes "012") = some 10 ∧ parseLabel (.prim .u32) (bytes "0x1F") = some 31 :=
  ⟨C77_number_partial (k := .i8) rfl (.neg [] (cs := [49, 50]) (n := 12) (by simp)
      ⟨[1, 2], .cons (.inl ⟨by decide, rfl⟩) (.cons (.inl ⟨by decide, rfl⟩) .nil), by decide, rfl⟩ (by simp)) ⟨by decide, by decide⟩,
   C77_number_partial (k := .u16) rfl (.dec [32] [43] (cs := [55]) (n := 7) (by simp) (.inr rfl)
      ⟨[7], .cons (.inl ⟨by decide, rfl⟩) .nil, by decide, rfl⟩ (by simp) (by simp)) ⟨by decide, by decide⟩,
   C77_number_partial (k := .i64) rfl (.oct (cs := [49, 50]) (n := 10)
      ⟨[1, 2], .cons (.inl ⟨by decide, rfl⟩) (.cons (.inl ⟨by decide, rfl⟩) .nil), by decide, rfl⟩) ⟨by decide, by decide⟩,
   C77_number_partial (k := .u32) rfl (.hex (x := 120) (cs := [49, 70]) (n := 31) (.inl rfl)
      ⟨[1, 15], .cons (.inl ⟨by decide, rfl⟩) (.cons (.inr ⟨by decide, by decide, .inr rfl⟩) .nil), by decide, rfl⟩ (by simp))
      ⟨by decide, by decide⟩⟩

/-- C77 fails in general: a text that is no number is 0, what stands behind a number is ignored, a number that the type does not have is
taken modulo its size, and white space before a 0 makes an octal number a decimal one. -/
theorem C77_fails : parseLabel (.prim .i32) (bytes "abc") = some 0 ∧ parseLabel (.prim .i32) (bytes "5x") = some 5 ∧
    parseLabel (.prim .i8) (bytes "300") = some 44 ∧ parseLabel (.prim .u32) (bytes "-1") = some (2 ^ 32 - 1) ∧
    parseLabel (.prim .i32) (bytes "010") = some 8 ∧ parseLabel (.prim .i32) (bytes " 010") = some 10 := by
  decide +kernel

end Verif.Text
