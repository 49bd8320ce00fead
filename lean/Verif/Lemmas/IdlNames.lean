import Verif.Lemmas.IdlTypes
/-!
# Reading names and numbers
-/

namespace Verif.Idl.Syn
open Text

theorem bytes_toList (s : String) : bytes s = s.toList.map Char.toNat := rfl

theorem alpha_start {c : Char} (h : c.isAlpha = true) : idStart c.toNat = true := by
  simp only [Char.isAlpha, Char.isUpper, Char.isLower, Bool.or_eq_true, Bool.and_eq_true, decide_eq_true_eq,
    UInt32.le_iff_toNat_le, ge_iff_le] at h
  simp only [idStart, Bool.or_eq_true, Bool.and_eq_true, decide_eq_true_eq]
  have e : c.toNat = c.val.toNat := rfl
  rw [e]
  have : 'A'.val.toNat = 65 := rfl
  have : 'Z'.val.toNat = 90 := rfl
  have : 'a'.val.toNat = 97 := rfl
  have : 'z'.val.toNat = 122 := rfl
  rcases h with h | h
  · left; right; omega
  · left; left; omega

theorem digit_is {c : Char} : c.isDigit = isDigit c.toNat := by
  have e : c.toNat = c.val.toNat := rfl
  rw [Bool.eq_iff_iff]
  simp only [Char.isDigit, isDigit, Bool.and_eq_true, decide_eq_true_eq, UInt32.le_iff_toNat_le, ge_iff_le, e]
  exact Iff.rfl

theorem idc_char {c : Char} (h : c.isAlphanum = true ∨ c = '_') : idChar c.toNat = true := by
  rw [idChar]
  rcases h with h | rfl
  · rw [Char.isAlphanum, Bool.or_eq_true] at h
    rcases h with h | h
    · rw [alpha_start h]; rfl
    · rw [digit_is] at h; rw [h]; simp
  · decide

/-- The text of an identifier. -/
def IsId (b : Bytes) : Prop := ∃ c r, b = c :: r ∧ idStart c = true ∧ c ≠ 95 ∧ ∀ x ∈ r, idChar x = true

theorem alpha_not95 {c : Char} (h : c.isAlpha = true) : c.toNat ≠ 95 := by
  simp only [Char.isAlpha, Char.isUpper, Char.isLower, Bool.or_eq_true, Bool.and_eq_true, decide_eq_true_eq,
    UInt32.le_iff_toNat_le, ge_iff_le] at h
  have e : c.toNat = c.val.toNat := rfl
  rw [e]
  have : 'A'.val.toNat = 65 := rfl
  have : 'Z'.val.toNat = 90 := rfl
  have : 'a'.val.toNat = 97 := rfl
  have : 'z'.val.toNat = 122 := rfl
  omega

theorem ident_is {s : String} (h : Identifier s) : IsId (bytes s) := by
  obtain ⟨c, r, e, hc, hr⟩ := h
  refine ⟨c.toNat, r.map Char.toNat, by rw [bytes_toList, e]; rfl, alpha_start hc, alpha_not95 hc, ?_⟩
  intro x hx
  obtain ⟨y, hy, rfl⟩ := List.mem_map.mp hx
  exact idc_char (hr y hy)

theorem isId_all {b : Bytes} (h : IsId b) : ∀ x ∈ b, idChar x = true := by
  obtain ⟨c, r, rfl, hc, _, hr⟩ := h
  intro x hx
  rcases List.mem_cons.mp hx with rfl | hx
  · rw [idChar, hc]; rfl
  · exact hr x hx

theorem isId_clean {b : Bytes} (h : IsId b) (s : Bytes) : Clean (b ++ s) := by
  obtain ⟨c, r, rfl, hc, _, _⟩ := h
  exact idStart_clean hc

theorem isId_word {n : String} (h : IsId (bytes n)) : Word n := by
  obtain ⟨c, r, e, hc, _⟩ := h
  rw [Word, e]; exact ⟨hc, by simp⟩

theorem isId_read {b s : Bytes} (h : IsId b) (hs : Head (fun c => idChar c = false) s) : identifier (b ++ s) = some (b, s) := by
  obtain ⟨c, r, rfl, hc, _, hr⟩ := h
  exact identifier_ok hc hr hs

theorem toNat_inj {c d : Char} (h : c.toNat = d.toNat) : c = d := Char.ext (UInt32.toNat_inj.mp h)

theorem map_toNat_inj {l m : List Char} (h : l.map Char.toNat = m.map Char.toNat) : l = m := by
  induction l generalizing m with
  | nil => cases m with
    | nil => rfl
    | cons d m => cases h
  | cons c l ih => cases m with
    | nil => cases h
    | cons d m =>
      rw [List.map_cons, List.map_cons, List.cons.injEq] at h
      rw [toNat_inj h.1, ih h.2]

theorem keyword_chars : ∀ w ∈ keywords, ∀ c ∈ bytes w, idChar c = true := by
  have h : (keywords.all fun w => (bytes w).all idChar) = true := by decide +kernel
  intro w hw c hc
  exact List.all_eq_true.mp (List.all_eq_true.mp h w hw) c hc

theorem usable_notAt {n : String} (hn : Usable n) {w : String} (hw : w ∈ keywords) {s : Bytes}
    (hs : Head (fun c => idChar c = false) s) : NotAt w (bytes n ++ s) := by
  intro r hr
  have e := strip_some hr
  rcases List.append_eq_append_iff.mp e with ⟨t, e1, e2⟩ | ⟨t, e1, e2⟩
  · cases t with
    | nil =>
      rw [List.append_nil] at e1
      obtain ⟨c, t, h, _⟩ := hn.2 w hw [] (by rw [List.append_nil]; exact (map_toNat_inj e1).symm)
      cases h
    | cons c t =>
      rw [e2] at hs
      have := keyword_chars w hw c (by rw [e1]; simp)
      rw [List.cons_append] at hs
      simp only [Head] at hs
      rw [hs] at this; cases this
  · have e3 := e1
    rw [bytes_toList, bytes_toList, List.map_eq_append_iff] at e3
    obtain ⟨l, m, e4, e5, e6⟩ := e3
    have e5 := map_toNat_inj e5
    subst e5
    obtain ⟨c, u, h, hd⟩ := hn.2 w hw m e4
    subst h
    subst e6
    refine ⟨c.toNat, u.map Char.toNat ++ s, by rw [e2]; rfl, ?_⟩
    have hi := isId_all (ident_is hn.1) c.toNat (by rw [e1]; simp)
    rw [idChar, ← digit_is, hd, Bool.or_false] at hi
    exact hi

/-! ## Scoped names -/

/-- The text of a scoped name. -/
def joinB : List Bytes → Bytes
  | [] => []
  | [a] => a
  | a :: r => a ++ 58 :: 58 :: joinB r

theorem joined_bytes : ∀ l : List String, (joined l).map Char.toNat = joinB (l.map bytes)
  | [] => rfl
  | [a] => rfl
  | a :: b :: r => by
    rw [joined, List.map_append, List.map_cons, List.map_cons, joined_bytes (b :: r)]
    rfl
    exact fun h => by cases h

theorem joinB_length : ∀ l : List Bytes, (∀ a ∈ l, IsId a) → l.length ≤ (joinB l).length
  | [], _ => Nat.zero_le _
  | [a], h => by
    obtain ⟨c, r, e, _⟩ := h a (by simp)
    rw [joinB, e]; simp
  | a :: b :: r, h => by
    have := joinB_length (b :: r) (fun x hx => h x (List.mem_cons_of_mem _ hx))
    have e : joinB (a :: b :: r) = a ++ 58 :: 58 :: joinB (b :: r) := rfl
    rw [e]; simp only [List.length_cons, List.length_append] at this ⊢; omega

theorem strip_colon {s : Bytes} (h : Head (fun c => c ≠ 58) s) : strip (bytes "::") s = none := by
  cases s with
  | nil => rfl
  | cons c s =>
    have e : bytes "::" = [58, 58] := rfl
    simp only [Head] at h
    rw [e, strip, if_neg (fun x => h x.symm)]

theorem scopedIdFrom_succ (f : Nat) : scopedIdFrom (f + 1) = P.or
    (do let a ← identifier; lit "::"; let b ← scopedIdFrom f; pure (a ++ bytes "::" ++ b))
    (P.or (do lit "::"; let b ← scopedIdFrom f; pure (bytes "::" ++ b)) identifier) := rfl

theorem scopedFrom_ok {s : Bytes} (h1 : Head (fun c => idChar c = false) s) (h2 : strip (bytes "::") s = none) : ∀ (l : List Bytes), l ≠ [] →
    (∀ a ∈ l, IsId a) → ∀ f, l.length ≤ f → scopedIdFrom f (joinB l ++ s) = some (joinB l, s)
  | [], h, _, _, _ => absurd rfl h
  | _ :: _, _, _, 0, hf => by simp at hf
  | [a], _, hl, f + 1, _ => by
    have ha := hl a (by simp)
    show scopedIdFrom (f + 1) (a ++ s) = some (a, s)
    rw [scopedIdFrom_succ, or_second, or_second]
    · exact isId_read ha h1
    · obtain ⟨c, r, e, hc, _⟩ := ha
      refine bind_no (lit_no ?_)
      rw [e]
      refine strip_colon ?_
      rintro (rfl : c = 58)
      exact absurd hc (by decide)
    · rw [bind_ok (isId_read ha h1)]
      exact bind_no (lit_no h2)
  | a :: b :: r, _, hl, f + 1, hf => by
    have ha := hl a (by simp)
    have e : joinB (a :: b :: r) = a ++ 58 :: 58 :: joinB (b :: r) := rfl
    have ih := scopedFrom_ok h1 h2 (b :: r) (by simp) (fun x hx => hl x (List.mem_cons_of_mem _ hx)) f (by simp at hf ⊢; omega)
    have e2 : joinB (a :: b :: r) ++ s = a ++ (bytes "::" ++ (joinB (b :: r) ++ s)) := by
      rw [e]; show _ = a ++ (58 :: 58 :: _); simp
    rw [e2, scopedIdFrom_succ]
    refine or_first ?_
    have hh : Head (fun c => idChar c = false) (bytes "::" ++ (joinB (b :: r) ++ s)) := (by decide : idChar 58 = false)
    rw [bind_ok (isId_read ha hh), bind_ok (lit_ok "::" _), bind_ok ih,
      pure_run, e]
    have e3 : bytes "::" = [58, 58] := rfl
    rw [e3]; simp

theorem scoped_ok {s : Bytes} (hs : Head (fun c => idChar c = false ∧ c ≠ 58) s) {n : String} (hn : TypeName n) :
    scopedId (bytes n ++ s) = some (bytes n, s) := by
  obtain ⟨l, hl, e, hu⟩ := hn
  have e1 : bytes n = joinB (l.map bytes) := by rw [bytes_toList, e, joined_bytes]
  have hi : ∀ a ∈ l.map bytes, IsId a := by
    intro a ha
    obtain ⟨x, hx, rfl⟩ := List.mem_map.mp ha
    exact ident_is (hu x hx).1
  rw [e1]
  have h1 : Head (fun c => idChar c = false) s := by cases s with | nil => trivial | cons c s => exact hs.1
  have h2 : Head (fun c => c ≠ 58) s := by cases s with | nil => trivial | cons c s => exact hs.2
  refine scopedFrom_ok h1 (strip_colon h2) _ (by simpa using hl) hi _ ?_
  have := joinB_length _ hi
  simp only [List.length_append]
  omega

theorem typeName_front {n : String} (hn : TypeName n) : ∃ a r, Usable a ∧ bytes n = bytes a ++ r ∧
    Head (fun c => idChar c = false) r ∧ (r = [] ∨ r.head? = some 58) := by
  obtain ⟨l, hl, e, hu⟩ := hn
  match l, hl, e, hu with
  | [a], _, e, hu => exact ⟨a, [], hu a (by simp), by rw [bytes_toList, e, List.append_nil]; rfl, trivial, .inl rfl⟩
  | a :: b :: r, _, e, hu =>
    refine ⟨a, 58 :: 58 :: (joined (b :: r)).map Char.toNat, hu a (by simp), ?_, (by decide : idChar 58 = false), .inr rfl⟩
    rw [bytes_toList, e, joined, List.map_append]
    rfl
    exact fun h => by cases h

theorem typeName_notAt {n : String} (hn : TypeName n) {w : String} (hw : w ∈ keywords) {s : Bytes}
    (hs : Head (fun c => idChar c = false) s) : NotAt w (bytes n ++ s) := by
  obtain ⟨a, r, ha, e, hr, h⟩ := typeName_front hn
  rw [e, List.append_assoc]
  refine usable_notAt ha hw ?_
  cases r with
  | nil => exact hs
  | cons c r => exact hr

theorem typeName_clean {n : String} (hn : TypeName n) (s : Bytes) : Clean (bytes n ++ s) := by
  obtain ⟨a, r, ha, e, _⟩ := typeName_front hn
  rw [e, List.append_assoc]
  exact isId_clean (ident_is ha.1) _

/-! ## Numbers -/

theorem dec_digits (n : Nat) : ∀ c ∈ dec n, isDigit c = true := by
  induction n using Nat.strongRecOn with
  | ind n ih =>
    rw [dec]
    split
    · intro c hc
      simp only [List.mem_singleton] at hc
      subst hc
      simp only [isDigit, Bool.and_eq_true, decide_eq_true_eq]; omega
    · intro c hc
      rcases List.mem_append.mp hc with hc | hc
      · exact ih (n / 10) (by omega) c hc
      · simp only [List.mem_singleton] at hc
        subst hc
        simp only [isDigit, Bool.and_eq_true, decide_eq_true_eq]; omega

theorem number_ok (n : Nat) {s : Bytes} (hs : Head (fun c => idChar c = false) s) :
    integerLiteral (dec n ++ s) = some (dec n, s) := by
  obtain ⟨d, t, e, hd, h1, h0⟩ := dec_head n
  have e0 : bytes "0" = [48] := rfl
  have hs' : Head (fun c => isDigit c = false) s := by
    cases s with
    | nil => trivial
    | cons c s => simp only [Head, idChar, Bool.or_eq_false_iff] at hs; exact hs.2
  unfold integerLiteral
  by_cases hn : n = 0
  · have ht := h0 hn
    subst hn ht
    have e1 : dec 0 = [48] := by rw [dec]; rfl
    rw [e1]
    have l0 : lit "0" ([48] ++ s) = some ((), s) := by rw [← e0]; exact lit_ok "0" s
    rw [or_second, or_second, or_second]
    · rw [bind_ok l0]; rfl
    · refine bind_no (one_no ?_)
      exact (by decide : (decide (49 ≤ 48) && decide (48 ≤ 57)) = false)
    · rw [bind_ok l0]
      refine bind_no (one_no ?_)
      cases s with
      | nil => trivial
      | cons c s =>
        simp only [Head, idChar, idStart, isDigit, Bool.or_eq_false_iff, Bool.and_eq_false_iff, decide_eq_false_iff_not] at hs ⊢
        omega
    · rw [bind_ok l0]
      unfold P.plus
      refine bind_no (bind_no (one_no ?_))
      cases s with
      | nil => trivial
      | cons c s =>
        simp only [Head, isDigit, Bool.and_eq_false_iff, decide_eq_false_iff_not] at hs' ⊢
        omega
  · have h1 := h1 hn
    have l0 : lit "0" (dec n ++ s) = none := by
      refine lit_no ?_
      rw [e0, e, List.cons_append, strip, if_neg (by omega)]
    rw [or_second (bind_no l0), or_second (bind_no l0)]
    refine or_first ?_
    have ht : ∀ c ∈ t, isDigit c = true := fun c hc => dec_digits n c (by rw [e]; exact List.mem_cons_of_mem _ hc)
    rw [e, List.cons_append, bind_ok (one_ok (by simp only [Bool.and_eq_true, decide_eq_true_eq]; omega) _),
      bind_ok (star_chain (chain_class ht hs'))]
    rfl

theorem positive_ok (n : Nat) {s : Bytes} (hs : Head (fun c => idChar c = false) s) :
    positiveInt (dec n ++ s) = some (.literal (dec n), s) := by
  unfold positiveInt
  refine or_first ?_
  rw [bind_ok (number_ok n hs)]; rfl

theorem dec_clean (n : Nat) (s : Bytes) : Clean (dec n ++ s) := by
  obtain ⟨d, t, e, hd, _⟩ := dec_head n
  rw [e]
  show blank (48 + d) = false ∧ 48 + d ≠ 47
  simp only [blank, Bool.or_eq_false_iff, decide_eq_false_iff_not]
  omega

end Verif.Idl.Syn
