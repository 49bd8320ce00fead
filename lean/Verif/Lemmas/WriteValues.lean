import Verif.Lemmas.WriteTypes
/-!
# Reading values, and the types of constants and of labels
-/

namespace Verif.Idl.Syn
open Text Expr

/-! ## Types -/

theorem switch_written {T : TSpec} {ps : List Piece} (hT : SwitchPieces T ps) {rest : List Piece} (hr : Goes rest) {s : Bytes}
    (h : Spaced (ps ++ rest) s) : ∃ s', switchType s = some (T, s') ∧ Pos rest s' := by
  cases hT with
  | @prim k ws hk hf =>
    rcases spelling_cases hk with hi | ho
    · obtain ⟨s', e, hs⟩ := ints_ok hi hr h
      exact ⟨s', choice_first e, .of hs⟩
    · have wd : ∀ w ∈ typeWords, Word w := fun w hw => (type_pieces w hw).1
      have one : ∀ v ∈ typeWords, Spaced ([v].map kword ++ rest) s → Pos (kword v :: rest) s ∧
          ∃ s', kw v s = some ((), s') ∧ Spaced rest s' := by
        intro v hv h
        have h : Spaced (kword v :: rest) s := h
        exact ⟨.of h, p_kw (wd v hv) (.of h)⟩
      simp only [otherSpellings, List.mem_cons, List.not_mem_nil, or_false, Prod.mk.injEq] at ho
      rcases ho with ⟨rfl, rfl⟩ | ⟨rfl, rfl⟩ | ⟨rfl, rfl⟩ | ⟨rfl, rfl⟩ | ⟨rfl, rfl⟩ | ⟨rfl, rfl⟩ | ⟨rfl, rfl⟩
      · exact absurd hf (by decide)
      · exact absurd hf (by decide)
      · exact absurd hf (by decide)
      all_goals
        obtain ⟨hp, s', e, hs⟩ := one _ (by decide) h
        refine ⟨s', choice_next (single_no (by decide) (by decide) hp) ?_, .of hs⟩
      · exact choice_next (pass (kw_other (by decide) hp (by decide) (by decide))) (choice_next (pass (kw_other (by decide) hp
          (by decide) (by decide))) (choice_next (pass (kw_other (by decide) hp (by decide) (by decide))) (choice_first (pick e))))
      · exact choice_first (pick e)
      · exact choice_next (pass (kw_other (by decide) hp (by decide) (by decide))) (choice_next (pass (kw_other (by decide) hp
          (by decide) (by decide))) (choice_first (pick e)))
      · exact choice_next (pass (kw_other (by decide) hp (by decide) (by decide))) (choice_first (pick e))
  | @name n hn =>
    have h : Spaced (.word (bytes n) :: rest) s := h
    obtain ⟨p, ps, rfl, _, _, h58⟩ := hr
    obtain ⟨s', e, hs⟩ := p_scoped hn h h58
    have no : ∀ w ∈ typeWords, kw w s = none := fun w hw => p_kw_no (type_pieces w hw).1 (.of h) (avoids_name hn
      (template_keyword_subset w hw))
    refine ⟨s', choice_next (ints_no (.of h) fun w hw => avoids_name hn ((by decide : ∀ w ∈ intWords, w ∈ keywords) w hw))
      (choice_next (pass (no "char" (by decide))) (choice_next (pass (no "boolean" (by decide))) (choice_next (pass (no "wchar" (by decide)))
      (choice_next (pass (no "octet" (by decide))) (choice_first ?_))))), hs⟩
    rw [bind_ok e]; rfl

theorem const_written {T : TSpec} {ps : List Piece} (hT : ConstTypePieces T ps) {rest : List Piece} (hr : Goes rest) {s : Bytes}
    (h : Spaced (ps ++ rest) s) : ∃ s', constType s = some (T, s') ∧ Pos rest s' := by
  have wd : ∀ w ∈ typeWords, Word w := fun w hw => (type_pieces w hw).1
  cases hT with
  | @prim k ws hk hf =>
    rcases spelling_cases hk with hi | ho
    · obtain ⟨⟨v, hv, ps, hp⟩, hd⟩ := int_front hi hr h
      have hv' : v ∈ typeWords := (by decide : ∀ w ∈ intWords, w ∈ typeWords) v hv
      have ne : ∀ w ∈ ["float", "double", "fixed"], w ≠ v := fun w hw =>
        (by decide : ∀ v ∈ intWords, ∀ w ∈ ["float", "double", "fixed"], w ≠ v) v hv w hw
      obtain ⟨s', e, hs⟩ := ints_ok hi hr h
      exact ⟨s', choice_next (pass (kw_other hv' hp (by decide) (ne "float" (by decide)))) (choice_next (pass (kw_other hv' hp
        (by decide) (ne "double" (by decide)))) (choice_next (pass hd) (choice_next (pass (kw_other hv' hp (by decide)
        (ne "fixed" (by decide)))) (choice_first e)))), .of hs⟩
    · have one : ∀ v ∈ typeWords, Spaced ([v].map kword ++ rest) s → Pos (kword v :: rest) s ∧
          ∃ s', kw v s = some ((), s') ∧ Spaced rest s' := by
        intro v hv h
        have h : Spaced (kword v :: rest) s := h
        exact ⟨.of h, p_kw (wd v hv) (.of h)⟩
      simp only [otherSpellings, List.mem_cons, List.not_mem_nil, or_false, Prod.mk.injEq] at ho
      rcases ho with ⟨rfl, rfl⟩ | ⟨rfl, rfl⟩ | ⟨rfl, rfl⟩ | ⟨rfl, rfl⟩ | ⟨rfl, rfl⟩ | ⟨rfl, rfl⟩ | ⟨rfl, rfl⟩
      · obtain ⟨hp, s', e, hs⟩ := one "float" (by decide) h
        exact ⟨s', choice_first (pick e), .of hs⟩
      · obtain ⟨hp, s', e, hs⟩ := one "double" (by decide) h
        exact ⟨s', choice_next (pass (kw_other (by decide) hp (by decide) (by decide))) (choice_first (pick e)), .of hs⟩
      · have h : Spaced (kword "long" :: kword "double" :: rest) s := h
        have n := fun {w} (hw : w ∈ typeWords) (hne : w ≠ "long") => kw_other (by decide) (.of h) hw hne
        obtain ⟨s', e, hs⟩ := p_kw2 (wd "long" (by decide)) (wd "double" (by decide)) (.of h)
        exact ⟨s', choice_next (pass (n (w := "float") (by decide) (by decide))) (choice_next (pass (n (w := "double")
          (by decide) (by decide))) (choice_first (pick e))), .of hs⟩
      · exact absurd rfl hf
      all_goals
        obtain ⟨hp, s', e, hs⟩ := one _ (by decide) h
        refine ⟨s', choice_next (pass (kw_other (by decide) hp (by decide) (by decide))) (choice_next (pass (kw_other
          (by decide) hp (by decide) (by decide))) (choice_next (pass (kw2_other (by decide) hp (w := "long")
          (by decide) (by decide) _)) (choice_next (pass (kw_other (by decide) hp (by decide) (by decide)))
          (choice_next (single_no (by decide) (by decide) hp) ?_)))), .of hs⟩
      · exact choice_first (pick e)
      · exact choice_next (pass (kw_other (by decide) hp (by decide) (by decide))) (choice_first (pick e))
      · exact choice_next (pass (kw_other (by decide) hp (by decide) (by decide))) (choice_next (pass (kw_other (by decide) hp
          (by decide) (by decide))) (choice_first (pick e)))
  | @name n hn =>
    have h : Spaced (.word (bytes n) :: rest) s := h
    obtain ⟨p, ps, rfl, _, _, h58⟩ := hr
    obtain ⟨s', e, hs⟩ := p_scoped hn h h58
    have no : ∀ w ∈ typeWords, kw w s = none := fun w hw => p_kw_no (type_pieces w hw).1 (.of h) (avoids_name hn
      (template_keyword_subset w hw))
    have no2 : kw2 "long" "double" s = none := p_kw2_no (wd "long" (by decide)) (.of h) (avoids_name hn (by decide))
    refine ⟨s', choice_next (pass (no "float" (by decide))) (choice_next (pass (no "double" (by decide))) (choice_next (pass no2)
      (choice_next (pass (no "fixed" (by decide))) (choice_next (ints_no (.of h) fun w hw => avoids_name hn
      ((by decide : ∀ w ∈ intWords, w ∈ keywords) w hw))
      (choice_next (pass (no "char" (by decide))) (choice_next (pass (no "wchar" (by decide))) (choice_next (pass (no "boolean" (by decide)))
      (choice_next (pass (no "string" (by decide))) (choice_next (pass (no "wstring" (by decide))) (choice_first ?_)))))))))), hs⟩
    rw [bind_ok e]; rfl
  | string =>
    have hp : Pos (kword "string" :: ([] ++ rest)) s := .of h
    obtain ⟨s', e, hs⟩ := stringType_ok (by decide) (.inl ⟨rfl, rfl⟩) hr hp .string
    exact ⟨s', const_string (by decide) hp (choice_first e), .of hs⟩
  | @stringSize t ht =>
    have hp : Pos (kword "string" :: ([.sign 60, .word t, .sign 62] ++ rest)) s := .of h
    obtain ⟨s', e, hs⟩ := stringType_ok (by decide) (.inr ⟨t, rfl, ht, rfl⟩) hr hp .string
    exact ⟨s', const_string (by decide) hp (choice_first e), .of hs⟩
  | wstring =>
    have hp : Pos (kword "wstring" :: ([] ++ rest)) s := .of h
    obtain ⟨s', e, hs⟩ := stringType_ok (by decide) (.inl ⟨rfl, rfl⟩) hr hp .wstring
    exact ⟨s', const_string (by decide) hp (choice_next (bind_no (kw_other (by decide) hp (by decide) (by decide))) (choice_first e)), .of hs⟩
  | @wstringSize t ht =>
    have hp : Pos (kword "wstring" :: ([.sign 60, .word t, .sign 62] ++ rest)) s := .of h
    obtain ⟨s', e, hs⟩ := stringType_ok (by decide) (.inr ⟨t, rfl, ht, rfl⟩) hr hp .wstring
    exact ⟨s', const_string (by decide) hp (choice_next (bind_no (kw_other (by decide) hp (by decide) (by decide))) (choice_first e)), .of hs⟩
where
  const_string {v : String} (hv : v ∈ ["string", "wstring"]) {ps : List Piece} {s : Bytes} (hp : Pos (kword v :: ps) s)
      {r : Option (TSpec × Bytes)}
      (h : choice [stringType, wstringType, do let t ← scopedId; pure (.name t)] s = r) : constType s = r := by
    have hv' : v ∈ typeWords := (by decide : ∀ v ∈ ["string", "wstring"], v ∈ typeWords) v hv
    have ne : ∀ w ∈ ["float", "double", "fixed", "char", "wchar", "boolean", "long"], w ∈ typeWords ∧ w ≠ v := fun w hw =>
      (by decide : ∀ v ∈ ["string", "wstring"], ∀ w ∈ ["float", "double", "fixed", "char", "wchar", "boolean", "long"],
        w ∈ typeWords ∧ w ≠ v) v hv w hw
    have no : ∀ w ∈ ["float", "double", "fixed", "char", "wchar", "boolean", "long"], kw w s = none := fun w hw =>
      kw_other hv' hp (ne w hw).1 (ne w hw).2
    have no2 := kw2_other hv' hp (ne "long" (by decide)).1 (ne "long" (by decide)).2 "double"
    have hi : v ∉ intWords := (by decide : ∀ v ∈ ["string", "wstring"], v ∉ intWords) v hv
    exact choice_next (pass (no "float" (by decide))) (choice_next (pass (no "double" (by decide))) (choice_next (pass no2)
      (choice_next (pass (no "fixed" (by decide))) (choice_next (single_no hv' hi hp)
      (choice_next (pass (no "char" (by decide))) (choice_next (pass (no "wchar" (by decide))) (choice_next (pass (no "boolean" (by decide)))
      h)))))))

/-! ## Values -/

/-- The signs that end a value. -/
def closers : List Nat := [41, 44, 58, 59]

theorem closer_ops : ∀ c ∈ closers, c ∉ [42, 47, 37, 43, 45, 60, 62, 38, 94, 124] := by decide

/-- No operator follows. -/
theorem ladder' {t r : Bytes} {e : CExpr} (f : Nat) (hu : unaryExpr (primaryExpr (constExpr f)) t = some (e, r))
    (hr : ∀ w c u, bytes w = c :: u → c ∈ [42, 47, 37, 43, 45, 60, 62, 38, 94, 124] → sym w r = none) :
    constExpr (f + 1) t = some (e, r) := by
  have k : ∀ {w : String} {c : Nat} {t : Bytes}, bytes w = c :: t → c ∈ [42, 47, 37, 43, 45, 60, 62, 38, 94, 124] →
      ∀ o, opSym w o r = none := fun hw h1 o => bind_no (hr _ _ _ hw h1)
  rw [constExpr]
  refine binary_one (binary_one (binary_one (binary_one (binary_one (binary_one hu ?_ f) ?_ f) ?_ f) ?_ f) ?_ f) ?_ f
  · simp only [choice, P.or, k (w := "*") rfl (by decide), k (w := "/") rfl (by decide),
      k (w := "%") rfl (by decide)]
  · simp only [choice, P.or, k (w := "+") rfl (by decide), k (w := "-") rfl (by decide)]
  · simp only [choice, P.or, k (w := "<<") rfl (by decide), k (w := ">>") rfl (by decide)]
  · exact k (w := "&") rfl (by decide) _
  · exact k (w := "^") rfl (by decide) _
  · exact k (w := "|") rfl (by decide) _

theorem bool_leaf {w : String} (hw : w = "TRUE" ∨ w = "FALSE") : Leaf (bytes w) (.lit (.text (bytes w))) := by
  have key : ∀ c r, bytes w = c :: r → isDigit c = false → c ≠ 46 → c ≠ 39 → c ≠ 76 → ∀ s,
      scopedOrLiteral (bytes w ++ s) = some (.lit (.text (bytes w)), s) := by
    intro c r e h1 h2 h3 h4 s
    have hl : ((lit "TRUE").or (lit "FALSE")) (bytes w ++ s) = some ((), s) := by
      rcases hw with rfl | rfl
      · exact or_first (lit_ok _ _)
      · rw [or_second (lit_no (clash_strip (by decide) _))]; exact lit_ok _ _
    have hl := token_ok hl
    have e' : bytes w ++ s = c :: (r ++ s) := by rw [e]; rfl
    unfold scopedOrLiteral
    have f1 := float_no (s := r ++ s) h1 h2
    have f2 := integer_no (s := r ++ s) h1
    have f3 := char_no (s := r ++ s) h3
    have f4 : lit "L" (c :: (r ++ s)) = none := lit_no (strip_head (w := "L") rfl (by exact h4))
    rw [e'] at hl ⊢
    rw [choice, or_second (bind_no (token_no f1)), choice, or_second (bind_no f2), choice, or_second (bind_no (token_no f3)), choice,
      or_second (bind_no (token_no (bind_no f4))), choice]
    refine or_first ?_
    rw [bind_ok hl]; rfl
  rcases hw with rfl | rfl
  · exact ⟨⟨84, bytes "RUE", rfl, by decide⟩, fun s _ => key 84 (bytes "RUE") rfl (by decide) (by decide) (by decide) (by decide) s⟩
  · exact ⟨⟨70, bytes "ALSE", rfl, by decide⟩, fun s _ => key 70 (bytes "ALSE") rfl (by decide) (by decide) (by decide) (by decide) s⟩

theorem char_leaf {n : Nat} (h : n ≠ 34 ∧ n ≠ 39 ∧ n ≠ 92) : Leaf [39, n, 39] (.lit (.text [39, n, 39])) := by
  refine ⟨⟨39, [n, 39], rfl, by decide⟩, fun s _ => ?_⟩
  have hc : token charLiteral ([39, n, 39] ++ s) = some ([39, n, 39], s) := token_ok (char_ok h s)
  have f1 : floatLiteral ([39, n, 39] ++ s) = none := float_no (by decide) (by decide)
  have f2 : integerLiteral ([39, n, 39] ++ s) = none := integer_no (by decide)
  unfold scopedOrLiteral
  rw [choice, or_second (bind_no (token_no f1)), choice, or_second (bind_no f2), choice]
  refine or_first ?_
  rw [bind_ok hc]; rfl

theorem wide_leaf {n : Nat} (h : n ≠ 34 ∧ n ≠ 39 ∧ n ≠ 92) : Leaf [76, 39, n, 39] (.lit (.text [76, 39, n, 39])) := by
  refine ⟨⟨76, [39, n, 39], rfl, by decide⟩, fun s _ => ?_⟩
  have f1 : floatLiteral ([76, 39, n, 39] ++ s) = none := float_no (by decide) (by decide)
  have f2 : integerLiteral ([76, 39, n, 39] ++ s) = none := integer_no (by decide)
  have f3 : charLiteral ([76, 39, n, 39] ++ s) = none := char_no (by decide)
  have hL : lit "L" ([76, 39, n, 39] ++ s) = some ((), 39 :: n :: 39 :: s) := lit_ok "L" _
  have hc : token (do lit "L"; charLiteral : P Unit) ([76, 39, n, 39] ++ s) = some ([76, 39, n, 39], s) :=
    token_ok (by rw [bind_ok hL]; exact char_ok h _)
  unfold scopedOrLiteral
  rw [choice, or_second (bind_no (token_no f1)), choice, or_second (bind_no f2), choice, or_second (bind_no (token_no f3)), choice]
  refine or_first ?_
  rw [bind_ok hc]; rfl

/-- The text of a value: one leaf, or a minus sign and a leaf. -/
theorem value_leaf {e : CExpr} {t : Bytes} (h : Value e t) : Leaf t e ∨ ∃ u x, t = 45 :: u ∧ e = .un .minus x ∧ Leaf u x := by
  cases h with
  | number h => obtain ⟨n, h⟩ := h; exact .inl (numeral_leaf h)
  | negative h => obtain ⟨n, h⟩ := h; exact .inr ⟨_, _, rfl, rfl, numeral_leaf h⟩
  | name h => exact .inl (name_leaf h)
  | bool h => exact .inl (bool_leaf h)
  | char h => exact .inl (char_leaf h)
  | wide h => exact .inl (wide_leaf h)

theorem value_read {e : CExpr} {t : Bytes} (h : Value e t) {r : Bytes} (hr : Tail r)
    (ho : ∀ w c u, bytes w = c :: u → c ∈ [42, 47, 37, 43, 45, 60, 62, 38, 94, 124] → sym w r = none) :
    expression (t ++ r) = some (e, r) := by
  unfold expression
  rcases value_leaf h with hl | ⟨u, x, rfl, rfl, hl⟩
  · have hp := primary_leaf hl hr (constExpr (t ++ r).length)
    obtain ⟨c, q, rfl, h1, h2, h3, h4, h5, h6⟩ := hl.front
    refine ladder' _ ?_ ho
    rw [List.cons_append] at hp ⊢
    rw [unary_none h1 h2 h3 h4 h5]
    exact hp
  · have hp := primary_leaf hl hr
    obtain ⟨c, q, rfl, h1, h2, h3, h4, h5, h6⟩ := hl.front
    have hcl : Clean (c :: q ++ r) := ⟨h1, h2⟩
    refine ladder' _ ?_ ho
    unfold unaryExpr
    refine or_first ?_
    have e1 : sym "-" (45 :: (c :: q ++ r)) = some ((), c :: q ++ r) := by
      have e := sym_at (w := "-") (c := 45) (t := []) rfl (by decide) blanks_nil blanks_nil hcl
      rw [List.nil_append, show bytes "-" = [45] from rfl, List.cons_append, List.nil_append, List.nil_append] at e
      exact e
    have e2 : choice [(do sym "-"; pure .minus : P Expr.UOp), (do sym "+"; pure .plus), (do sym "~"; pure .tilde)]
        (45 :: (c :: q ++ r)) = some (.minus, c :: q ++ r) := or_first (by rw [bind_ok e1]; rfl)
    rw [List.cons_append, bind_ok e2, bind_ok (hp _)]; rfl

theorem p_value {e : CExpr} {t : Bytes} (hv : Value e t) {c : Nat} (hc : c ∈ closers) {ps : List Piece}
    (h58 : c = 58 → first ps ≠ some 58) {s : Bytes} (h : Spaced (.word t :: .sign c :: ps) s) :
    ∃ s', s = t ++ s' ∧ expression s = some (e, s') ∧ Pos (.sign c :: ps) s' := by
  obtain ⟨l, s', rfl, hp, hl, hb, h⟩ := spaced_cons h
  have hpos : Pos (.sign c :: ps) (l ++ s') := ⟨l, s', hl, rfl, h⟩
  refine ⟨l ++ s', rfl, value_read hv (gap_tail hl h h58) fun w x u hw hx => p_sym_no hw hpos ?_, hpos⟩
  rintro ⟨⟩
  exact closer_ops c hc hx

theorem p_label {e : CExpr} {t : Bytes} (hv : Value e t) {c : Nat} (hc : c ∈ closers) {ps : List Piece}
    (h58 : c = 58 → first ps ≠ some 58) {s : Bytes} (h : Spaced (.word t :: .sign c :: ps) s) :
    ∃ s', token expression s = some (t, s') ∧ Pos (.sign c :: ps) s' := by
  obtain ⟨s', rfl, e, hp⟩ := p_value hv hc h58 h
  exact ⟨s', token_ok e, hp⟩

/-- The value of a constant. -/
theorem p_const {e : CExpr} {t : Bytes} (hv : ConstValue e t) {ps : List Piece} {s : Bytes} (h : Spaced (.word t :: .sign 59 :: ps) s) :
    ∃ s', expression s = some (e, s') ∧ Pos (.sign 59 :: ps) s' := by
  cases hv with
  | plain hv =>
    obtain ⟨s', _, e, hp⟩ := p_value hv (by decide) (fun e => absurd e (by decide)) h
    exact ⟨s', e, hp⟩
  | @string t ht =>
    obtain ⟨l, s', rfl, hp, hl, hb, h⟩ := spaced_cons h
    obtain ⟨l', s', rfl, hp', hl', hb', h'⟩ := spaced_cons h
    have hat := string_label ht
    have hend : Ends 59 (l' ++ s') := .inr rfl
    have hcl : Clean (59 :: (l' ++ s')) := hend.clean
    refine ⟨59 :: (l' ++ s'), ?_, .of h⟩
    have hr : scopedOrLiteral (34 :: (t ++ [34]) ++ (l ++ 59 :: (l' ++ s'))) = some (.lit (.text (34 :: (t ++ [34]))), 59 :: (l' ++ s')) := by
      have e0 : 34 :: (t ++ [34]) ++ (l ++ 59 :: (l' ++ s')) = 34 :: (t ++ 34 :: (l ++ 59 :: (l' ++ s'))) := by simp
      have hq : ((quotedText 34).or (quotedText 39)) (34 :: (t ++ [34]) ++ (l ++ 59 :: (l' ++ s'))) = some ((), l ++ 59 :: (l' ++ s')) := by
        rw [e0]; exact or_first (quoted_ok ht _)
      have hq := token_ok hq
      have hws : P.or (do lit "\""; wsOpt; lit "\"" : P Unit) wsOpt (l ++ 59 :: (l' ++ s')) = some ((), 59 :: (l' ++ s')) := by
        rw [or_second (bind_no (lit_no (strip_head (w := "\"") (c := 34) rfl ?_)))]
        · exact wsOpt_ok hl hcl
        · have hh := layout_head hl
          cases l with
          | nil => exact (by decide : 59 ≠ 34)
          | cons x l =>
            have hh : x = 32 ∨ x = 9 ∨ x = 13 ∨ x = 10 ∨ x = 47 := hh
            show x ≠ 34
            rcases hh with rfl | rfl | rfl | rfl | rfl <;> decide
      have hs : substringLiteral (34 :: (t ++ [34]) ++ (l ++ 59 :: (l' ++ s'))) = some (34 :: (t ++ [34]), 59 :: (l' ++ s')) := by
        unfold substringLiteral
        rw [bind_ok hq, bind_ok hws]; rfl
      have hp : substringLiteral.plus (34 :: (t ++ [34]) ++ (l ++ 59 :: (l' ++ s'))) = some ([34 :: (t ++ [34])], 59 :: (l' ++ s')) :=
        plus_chain hs (.nil (substring_no (by decide) (by decide)))
      rw [List.cons_append] at hp ⊢
      have f1 : floatLiteral (34 :: (t ++ [34] ++ (l ++ 59 :: (l' ++ s')))) = none := float_no (by decide) (by decide)
      have f2 : integerLiteral (34 :: (t ++ [34] ++ (l ++ 59 :: (l' ++ s')))) = none := integer_no (by decide)
      have f3 : charLiteral (34 :: (t ++ [34] ++ (l ++ 59 :: (l' ++ s')))) = none := char_no (by decide)
      have f4 : ∀ w : String, ∀ c r, bytes w = c :: r → c ≠ 34 → lit w (34 :: (t ++ [34] ++ (l ++ 59 :: (l' ++ s')))) = none :=
        fun w c r e hc => lit_no (by rw [strip_head (w := w) e]; exact fun h => hc h.symm)
      have f5 : ((lit "TRUE").or (lit "FALSE")) (34 :: (t ++ [34] ++ (l ++ 59 :: (l' ++ s')))) = none := by
        rw [or_second (f4 "TRUE" 84 (bytes "RUE") rfl (by decide))]; exact f4 "FALSE" 70 (bytes "ALSE") rfl (by decide)
      unfold scopedOrLiteral
      rw [choice, or_second (bind_no (token_no f1)), choice, or_second (bind_no f2), choice, or_second (bind_no (token_no f3)), choice,
        or_second (bind_no (token_no (bind_no (f4 "L" 76 [] rfl (by decide))))), choice, or_second (bind_no (token_no f5)), choice]
      refine or_first ?_
      rw [bind_ok hp]; rfl
    have h1 : ∀ x, primaryExpr x (34 :: (t ++ [34]) ++ (l ++ 59 :: (l' ++ s'))) =
        some (.lit (.text (34 :: (t ++ [34]))), 59 :: (l' ++ s')) := by
      intro x
      unfold primaryExpr
      rw [or_second (bind_no (sym_no' (w := "(") (c := 40) (t := []) (by rfl) (by exact ⟨by decide, by decide⟩) (by exact (by decide : 34 ≠ 40))))]
      exact hr
    refine ladder hend _ ?_
    show unaryExpr _ (34 :: (t ++ [34]) ++ (l ++ 59 :: (l' ++ s'))) = _
    rw [List.cons_append, unary_none (by decide) (by decide) (by decide) (by decide) (by decide), ← List.cons_append]
    exact h1 _

end Verif.Idl.Syn
