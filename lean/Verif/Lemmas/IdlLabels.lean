import Verif.Lemmas.IdlSpec
/-!
# Reading the labels the generator prints
-/

namespace Verif.Idl.Syn
open Text

/-- What ends an expression: a colon that is not followed by another one, or a semicolon. -/
def Ends (z : Nat) (s : Bytes) : Prop := z = 58 ∧ Head (fun c => c ≠ 58) s ∨ z = 59

/-- A text that the rule for a literal or a name reads up to a colon or a semicolon. -/
structure Atom (t : Bytes) (e : CExpr) : Prop where
  front : ∃ c r, t = c :: r ∧ blank c = false ∧ c ≠ 47 ∧ c ≠ 45 ∧ c ≠ 43 ∧ c ≠ 126 ∧ c ≠ 40
  read : ∀ z s, Ends z s → scopedOrLiteral (t ++ z :: s) = some (e, z :: s)

/-- A text that is read as a label. -/
def LabelText (t : Bytes) : Prop := ∃ e, Atom t e

theorem Atom.clean {t : Bytes} {e : CExpr} (h : Atom t e) (s : Bytes) : Clean (t ++ s) := by
  obtain ⟨c, r, rfl, h1, h2, _⟩ := h.front
  exact ⟨h1, h2⟩

theorem Ends.clean {z : Nat} {s : Bytes} (h : Ends z s) : Clean (z :: s) := by
  rcases h with ⟨rfl, _⟩ | rfl
  · exact (by decide : blank 58 = false ∧ 58 ≠ 47)
  · exact (by decide : blank 59 = false ∧ 59 ≠ 47)

theorem Ends.not {z : Nat} {s : Bytes} (h : Ends z s) {f : Nat → Bool} (h1 : f 58 = false) (h2 : f 59 = false) : f z = false := by
  rcases h with ⟨rfl, _⟩ | rfl
  · exact h1
  · exact h2

theorem Ends.ne {z : Nat} {s : Bytes} (h : Ends z s) {c : Nat} (h1 : c ≠ 58) (h2 : c ≠ 59) : z ≠ c := by
  rcases h with ⟨rfl, _⟩ | rfl
  · exact h1.symm
  · exact h2.symm

theorem binary_one {next : P CExpr} {op : P Ops.Op} {s r : Bytes} {e : CExpr} (h1 : next s = some (e, r)) (h2 : op r = none) (f : Nat) :
    binary next op (f + 1) s = some (e, r) := by
  rw [binary, or_second]
  · exact h1
  · rw [bind_ok h1]; exact bind_no h2

theorem op_end {w : String} {c : Nat} {t : Bytes} (hw : bytes w = c :: t) (h1 : c ≠ 58) (h2 : c ≠ 59) {z : Nat} {s : Bytes}
    (hz : Ends z s) (o : Ops.Op) : opSym w o (z :: s) = none :=
  bind_no (sym_no' hw hz.clean (hz.ne h1 h2))

theorem ladder {t : Bytes} {e : CExpr} {z : Nat} {s : Bytes} (hz : Ends z s) (f : Nat)
    (hu : unaryExpr (primaryExpr (constExpr f)) t = some (e, z :: s)) : constExpr (f + 1) t = some (e, z :: s) := by
  have k : ∀ {w : String} {c : Nat} {t : Bytes}, bytes w = c :: t → c ≠ 58 → c ≠ 59 → ∀ o, opSym w o (z :: s) = none :=
    fun hw h1 h2 o => op_end hw h1 h2 hz o
  rw [constExpr]
  refine binary_one (binary_one (binary_one (binary_one (binary_one (binary_one hu ?_ f) ?_ f) ?_ f) ?_ f) ?_ f) ?_ f
  · simp only [choice, P.or, k (w := "*") rfl (by decide) (by decide), k (w := "/") rfl (by decide) (by decide),
      k (w := "%") rfl (by decide) (by decide)]
  · simp only [choice, P.or, k (w := "+") rfl (by decide) (by decide), k (w := "-") rfl (by decide) (by decide)]
  · simp only [choice, P.or, k (w := "<<") rfl (by decide) (by decide), k (w := ">>") rfl (by decide) (by decide)]
  · exact k (w := "&") rfl (by decide) (by decide) _
  · exact k (w := "^") rfl (by decide) (by decide) _
  · exact k (w := "|") rfl (by decide) (by decide) _

theorem primary_ok {t : Bytes} {e : CExpr} (h : Atom t e) {z : Nat} {s : Bytes} (hz : Ends z s) (x : P CExpr) :
    primaryExpr x (t ++ z :: s) = some (e, z :: s) := by
  have hr := h.read z s hz
  obtain ⟨c, r, rfl, h1, h2, h3, h4, h5, h6⟩ := h.front
  have hcl : Clean (c :: r ++ z :: s) := ⟨h1, h2⟩
  unfold primaryExpr
  rw [or_second (bind_no (sym_no' (w := "(") (by rfl) hcl h6))]
  exact hr

theorem constExpr_ok {t : Bytes} {e : CExpr} (h : Atom t e) {z : Nat} {s : Bytes} (hz : Ends z s) (f : Nat) :
    constExpr (f + 1) (t ++ z :: s) = some (e, z :: s) := by
  have hp := primary_ok h hz (constExpr f)
  obtain ⟨c, r, rfl, h1, h2, h3, h4, h5, h6⟩ := h.front
  have hcl : Clean (c :: r ++ z :: s) := ⟨h1, h2⟩
  have no : ∀ {w : String} {x : Nat} {y : Bytes}, bytes w = x :: y → c ≠ x → ∀ u : Expr.UOp,
      (do sym w; pure u : P Expr.UOp) (c :: r ++ z :: s) = none :=
    fun hw hne _ => bind_no (sym_no' hw hcl hne)
  refine ladder hz f ?_
  unfold unaryExpr
  rw [or_second]
  · exact hp
  · refine bind_no ?_
    simp only [choice, P.or, no (w := "-") rfl h3, no (w := "+") rfl h4, no (w := "~") rfl h5]

theorem constExpr_minus {t : Bytes} {e : CExpr} (h : Atom t e) {z : Nat} {s : Bytes} (hz : Ends z s) (f : Nat) :
    constExpr (f + 1) (45 :: (t ++ z :: s)) = some (.un .minus e, z :: s) := by
  have hp := primary_ok h hz (constExpr f)
  refine ladder hz f ?_
  unfold unaryExpr
  refine or_first ?_
  have e1 : sym "-" (45 :: (t ++ z :: s)) = some ((), t ++ z :: s) := by
    have e := sym_at (w := "-") (c := 45) (t := []) rfl (by decide) blanks_nil blanks_nil (h.clean (z :: s))
    rw [List.nil_append, show bytes "-" = [45] from rfl, List.cons_append, List.nil_append, List.nil_append] at e
    exact e
  have e2 : choice [(do sym "-"; pure .minus : P Expr.UOp), (do sym "+"; pure .plus), (do sym "~"; pure .tilde)]
      (45 :: (t ++ z :: s)) = some (.minus, t ++ z :: s) := or_first (by rw [bind_ok e1]; rfl)
  rw [bind_ok e2, bind_ok hp]; rfl

theorem token_ok {p : P α} {x : α} {t r : Bytes} (h : p (t ++ r) = some (x, r)) : token p (t ++ r) = some (t, r) := by
  rw [token, h]; simp

theorem caseWords : Word "case" ∧ Word "default" := ⟨word_of (by decide), word_of (by decide)⟩

theorem caseLabel_ok {t : Bytes} (h : LabelText t) {b s : Bytes} (hb : Layout b) (hs : Clean s)
    (hh : Head (fun c => c ≠ 58) (b ++ s)) :
    caseLabel (bytes "case" ++ ([32] ++ (t ++ 58 :: (b ++ s)))) = some (t, s) := by
  unfold caseLabel
  refine or_first ?_
  obtain ⟨x, h⟩ := h
  rw [bind_ok (kw_ok0 caseWords.1 blank_space (h.clean _) (by decide : idStart 32 = false))]
  have ht : token expression (t ++ 58 :: (b ++ s)) = some (t, 58 :: (b ++ s)) :=
    token_ok (constExpr_ok h (.inl ⟨rfl, hh⟩) _)
  rw [bind_ok ht]
  have e := sym_at (w := ":") (c := 58) (t := []) rfl (by decide) blanks_nil hb hs
  rw [List.nil_append, show bytes ":" = [58] from rfl, List.cons_append, List.nil_append] at e
  rw [bind_ok e]; rfl

theorem caseLabel_default {b s : Bytes} (hb : Layout b) (hs : Clean s) :
    caseLabel (bytes "default" ++ 58 :: (b ++ s)) = some (bytes "default", s) := by
  unfold caseLabel
  rw [or_second]
  · have h1 : kw "default" (bytes "default" ++ 58 :: (b ++ s)) = some ((), 58 :: (b ++ s)) := by
      have e := kw_ok0 (b := []) (s := 58 :: (b ++ s)) caseWords.2 blanks_nil
        (by exact (by decide : blank 58 = false ∧ 58 ≠ 47)) (by exact (by decide : idStart 58 = false))
      rwa [List.nil_append] at e
    rw [bind_ok (token_ok h1)]
    have e := sym_at (w := ":") (c := 58) (t := []) rfl (by decide) blanks_nil hb hs
    rw [List.nil_append, show bytes ":" = [58] from rfl, List.cons_append, List.nil_append] at e
    rw [bind_ok e]; rfl
  · refine bind_no (kw_no0 (word_clean caseWords.2 _) (notAt_none ?_))
    exact clash_strip (by decide) _

theorem caseLabel_no {s : Bytes} (hs : Clean s) (h1 : NotAt "case" s) (h2 : NotAt "default" s) : caseLabel s = none := by
  unfold caseLabel
  rw [or_second (bind_no (kw_no0 hs h1))]
  refine bind_no ?_
  rw [token, kw_no0 hs h2]; rfl

/-- Words with which no type begins. -/
def otherWords : List String := ["case", "default", "struct", "union", "enum", "bitset", "bitmask"]

/-- The text of a type does not begin with these words. -/
theorem type_notAt {w : String} (hw : w ∈ otherWords) (T : Ty) (h : Named T) {s : Bytes}
    (hs : Head (fun c => idChar c = false) s) : NotAt w (typeName T ++ s) := by
  have hk : w ∈ keywords := (by decide : ∀ w ∈ otherWords, w ∈ keywords) w hw
  have cl : ∀ v : Bytes, (∀ w ∈ otherWords, clash (bytes w) v = true) → ∀ s, NotAt w (v ++ s) :=
    fun v h1 s => notAt_none (clash_strip (h1 w hw) s)
  induction T using Ty.ind with
  | prim k => rw [typeName]; cases k <;> exact cl _ (by decide) _
  | enum n w vs => rw [typeName]; exact typeName_notAt h hk hs
  | str k b =>
    rw [typeName]
    split
    · rw [List.append_assoc]; exact cl _ (by decide) _
    · rw [List.append_assoc]; exact cl _ (by decide) _
  | seq c b ih =>
    rw [typeName]; simp only [List.append_assoc]; exact cl _ (by decide) _
  | map k v b ih1 ih2 =>
    rw [typeName]; simp only [List.append_assoc]; exact cl _ (by decide) _
  | als n t ih => rw [typeName]; exact typeName_notAt h hk hs
  | struct n ms ih => rw [typeName]; exact typeName_notAt h hk hs
  | union n d ms i ih1 ih2 => rw [typeName]; exact typeName_notAt h hk hs
  | arr n c d ih => rw [typeName]; exact ih h
  | pair x y ih1 ih2 => exact absurd h id

/-! ## The texts of labels -/

theorem plus_digits_no {c : Nat} {s : Bytes} (h : isDigit c = false) : (one isDigit).plus (c :: s) = none :=
  bind_no (one_no (by exact h))

theorem float_no {c : Nat} {s : Bytes} (h : isDigit c = false) (hd : c ≠ 46) : floatLiteral (c :: s) = none := by
  have h1 := plus_digits_no (s := s) h
  have h2 : lit "." (c :: s) = none := lit_no (strip_head (w := ".") rfl (by exact hd))
  simp only [floatLiteral, choice, P.or, bind_run, h1, h2, Option.bind_none]

theorem integer_no {c : Nat} {s : Bytes} (h : isDigit c = false) : integerLiteral (c :: s) = none := by
  have h0 : c ≠ 48 := by rintro rfl; exact absurd h (by decide)
  have h2 : lit "0" (c :: s) = none := lit_no (strip_head (w := "0") rfl (by exact h0))
  have h3 : one (fun c => 49 ≤ c && c ≤ 57) (c :: s) = none := by
    refine one_no ?_
    simp only [Head, Bool.and_eq_false_imp, decide_eq_true_eq, decide_eq_false_iff_not]
    simp only [isDigit, Bool.and_eq_false_imp, decide_eq_true_eq, decide_eq_false_iff_not] at h
    omega
  simp only [integerLiteral, P.or, bind_run, h2, h3, Option.bind_none]

theorem char_no {c : Nat} {s : Bytes} (h : c ≠ 39) : charLiteral (c :: s) = none := by
  have h2 : lit "'" (c :: s) = none := lit_no (strip_head (w := "'") rfl (by exact h))
  simp only [charLiteral, P.or, bind_run, h2, Option.bind_none]

theorem token_no {p : P α} {s : Bytes} (h : p s = none) : token p s = none := by
  rw [token, h]; rfl

theorem dec_label (n : Nat) : Atom (dec n) (.lit (.text (dec n))) := by
  obtain ⟨d, t, e, hd, _⟩ := dec_head n
  refine ⟨⟨48 + d, t, e, ?_⟩, fun z s hz => ?_⟩
  · simp only [blank, Bool.or_eq_false_iff, decide_eq_false_iff_not]
    refine ⟨⟨⟨⟨?_, ?_⟩, ?_⟩, ?_⟩, ?_⟩ <;> omega
  · have hdig := dec_digits n
    have hch : (one isDigit).plus (dec n ++ z :: s) = some (dec n, z :: s) := by
      rw [e] at hdig ⊢
      rw [List.cons_append, plus_chain (one_ok (hdig (48 + d) (by simp)) _)
        (chain_class (fun c hc => hdig c (List.mem_cons_of_mem _ hc)) (by exact hz.not (by decide) (by decide)))]
    have h1 : lit "." (z :: s) = none := lit_no (strip_head (w := ".") rfl (by exact hz.ne (by decide) (by decide)))
    have h2 : expOrSuffix (z :: s) = none := by
      have a1 : one (fun c => c = 101 || c = 69) (z :: s) = none := one_no (by exact hz.not (f := fun c => c = 101 || c = 69) rfl rfl)
      have a2 : one (fun c => c = 100 || c = 68) (z :: s) = none := one_no (by exact hz.not (f := fun c => c = 100 || c = 68) rfl rfl)
      simp only [expOrSuffix, P.or, bind_run, a1, a2, Option.bind_none]
    have h3 : lit "." (dec n ++ z :: s) = none := by
      rw [e]; exact lit_no (strip_head (w := ".") rfl (by show 48 + d ≠ 46; omega))
    have hf : floatLiteral (dec n ++ z :: s) = none := by
      simp only [floatLiteral, choice, P.or, bind_run, hch, h1, h2, h3, Option.bind_none, Option.bind_some]
    unfold scopedOrLiteral
    rw [choice, or_second (bind_no (token_no hf))]
    refine or_first ?_
    rw [bind_ok (number_ok n (by exact hz.not (by decide) (by decide)))]
    rfl

theorem bool_label {w : String} (hw : w = "TRUE" ∨ w = "FALSE") : Atom (bytes w) (.lit (.text (bytes w))) := by
  have key : ∀ c r, bytes w = c :: r → isDigit c = false → c ≠ 46 → c ≠ 39 → c ≠ 76 → ∀ z s,
      scopedOrLiteral (bytes w ++ z :: s) = some (.lit (.text (bytes w)), z :: s) := by
    intro c r e h1 h2 h3 h4 z s
    have hl : ((lit "TRUE").or (lit "FALSE")) (bytes w ++ z :: s) = some ((), z :: s) := by
      rcases hw with rfl | rfl
      · exact or_first (lit_ok _ _)
      · rw [or_second (lit_no (clash_strip (by decide) _))]; exact lit_ok _ _
    have hl := token_ok hl
    have e' : bytes w ++ z :: s = c :: (r ++ z :: s) := by rw [e]; rfl
    unfold scopedOrLiteral
    have f1 := float_no (s := r ++ z :: s) h1 h2
    have f2 := integer_no (s := r ++ z :: s) h1
    have f3 := char_no (s := r ++ z :: s) h3
    have f4 : lit "L" (c :: (r ++ z :: s)) = none := lit_no (strip_head (w := "L") rfl (by exact h4))
    rw [e'] at hl ⊢
    rw [choice, or_second (bind_no (token_no f1)), choice, or_second (bind_no f2), choice, or_second (bind_no (token_no f3)), choice,
      or_second (bind_no (token_no (bind_no f4))), choice]
    refine or_first ?_
    rw [bind_ok hl]; rfl
  rcases hw with rfl | rfl
  · exact ⟨⟨84, bytes "RUE", rfl, by decide⟩, fun z s _ => key 84 (bytes "RUE") rfl (by decide) (by decide) (by decide) (by decide) z s⟩
  · exact ⟨⟨70, bytes "ALSE", rfl, by decide⟩, fun z s _ => key 70 (bytes "ALSE") rfl (by decide) (by decide) (by decide) (by decide) z s⟩

theorem char_ok {n : Nat} (h : n ≠ 34 ∧ n ≠ 39 ∧ n ≠ 92) (s : Bytes) : charLiteral (39 :: n :: 39 :: s) = some ((), s) := by
  unfold charLiteral
  refine or_first ?_
  have h1 : lit "'" (39 :: n :: 39 :: s) = some ((), n :: 39 :: s) := lit_ok "'" _
  have h2 : (one fun c => c ≠ 34 && c ≠ 39 && c ≠ 92).plus (n :: 39 :: s) = some ([n], 39 :: s) :=
    plus_chain (one_ok (by simp [h]) _) (.nil rfl)
  rw [bind_ok h1, bind_ok h2]
  exact lit_ok "'" _

theorem char_label {n : Nat} (h : n ≠ 34 ∧ n ≠ 39 ∧ n ≠ 92) : Atom [39, n, 39] (.lit (.text [39, n, 39])) := by
  refine ⟨⟨39, [n, 39], rfl, by decide⟩, fun z s _ => ?_⟩
  have hc : token charLiteral ([39, n, 39] ++ z :: s) = some ([39, n, 39], z :: s) := token_ok (char_ok h (z :: s))
  have f1 : floatLiteral ([39, n, 39] ++ z :: s) = none := float_no (by decide) (by decide)
  have f2 : integerLiteral ([39, n, 39] ++ z :: s) = none := integer_no (by decide)
  unfold scopedOrLiteral
  rw [choice, or_second (bind_no (token_no f1)), choice, or_second (bind_no f2), choice]
  refine or_first ?_
  rw [bind_ok hc]; rfl

theorem wide_label {n : Nat} (h : n ≠ 34 ∧ n ≠ 39 ∧ n ≠ 92) : Atom [76, 39, n, 39] (.lit (.text [76, 39, n, 39])) := by
  refine ⟨⟨76, [39, n, 39], rfl, by decide⟩, fun z s _ => ?_⟩
  have f1 : floatLiteral ([76, 39, n, 39] ++ z :: s) = none := float_no (by decide) (by decide)
  have f2 : integerLiteral ([76, 39, n, 39] ++ z :: s) = none := integer_no (by decide)
  have f3 : charLiteral ([76, 39, n, 39] ++ z :: s) = none := char_no (by decide)
  have hL : lit "L" ([76, 39, n, 39] ++ z :: s) = some ((), 39 :: n :: 39 :: z :: s) := lit_ok "L" _
  have hc : token (do lit "L"; charLiteral : P Unit) ([76, 39, n, 39] ++ z :: s) = some ([76, 39, n, 39], z :: s) :=
    token_ok (by rw [bind_ok hL]; exact char_ok h _)
  unfold scopedOrLiteral
  rw [choice, or_second (bind_no (token_no f1)), choice, or_second (bind_no f2), choice, or_second (bind_no (token_no f3)), choice]
  refine or_first ?_
  rw [bind_ok hc]; rfl

theorem quoted_no {q c : Nat} {s : Bytes} (h : c ≠ q) : quotedText q (c :: s) = none :=
  bind_no (one_no (by simp only [Head, decide_eq_false_iff_not]; exact h))

theorem substring_no {c : Nat} {s : Bytes} (h1 : c ≠ 34) (h2 : c ≠ 39) : substringLiteral (c :: s) = none := by
  unfold substringLiteral
  exact bind_no (token_no (by rw [or_second (quoted_no h1)]; exact quoted_no h2))

/-- A string literal. -/
theorem quoted_ok {t : Bytes} (h : ∀ c ∈ t, c ≠ 34 ∧ c ≠ 92) (s : Bytes) : quotedText 34 (34 :: (t ++ 34 :: s)) = some ((), s) := by
  have hesc : ∀ {c : Nat} {s : Bytes}, c ≠ 92 → escape (c :: s) = none := by
    intro c s hc
    have : lit "\\" (c :: s) = none := lit_no (strip_head (w := "\\") rfl (by exact hc))
    simp only [escape, bind_run, this, Option.bind_none]
  have hch : ∀ t : Bytes, (∀ c ∈ t, c ≠ 34 ∧ c ≠ 92) →
      Chain (escape.or (do let _ ← one (fun c => c ≠ 34 && c ≠ 92); pure ())) (t ++ 34 :: s) (t.map fun _ => ()) (34 :: s) := by
    intro t
    induction t with
    | nil =>
      intro _
      refine .nil ?_
      show (escape.or _) (34 :: s) = none
      rw [or_second (hesc (by decide))]
      rfl
    | cons c t ih =>
      intro h
      obtain ⟨h1, h2⟩ := h c (by simp)
      refine .cons (r := t ++ 34 :: s) ?_ (by simp) (ih fun c hc => h c (List.mem_cons_of_mem _ hc))
      show (escape.or _) (c :: (t ++ 34 :: s)) = _
      rw [or_second (hesc h2), bind_ok (one_ok (by simp [h1, h2]) _)]
      rfl
  unfold quotedText
  rw [bind_ok (one_ok (by simp) _), bind_ok (star_chain (hch t h)), bind_ok (one_ok (by simp) _)]
  rfl

theorem string_label {t : Bytes} (h : ∀ c ∈ t, c ≠ 34 ∧ c ≠ 92) :
    Atom (34 :: (t ++ [34])) (.lit (.text (34 :: (t ++ [34])))) := by
  refine ⟨⟨34, t ++ [34], rfl, by decide⟩, fun z s hz => ?_⟩
  have e0 : 34 :: (t ++ [34]) ++ z :: s = 34 :: (t ++ 34 :: z :: s) := by simp
  have hq : ((quotedText 34).or (quotedText 39)) (34 :: (t ++ [34]) ++ z :: s) = some ((), z :: s) := by
    rw [e0]; exact or_first (quoted_ok h _)
  have hq := token_ok hq
  have hws : P.or (do lit "\""; wsOpt; lit "\"" : P Unit) wsOpt (z :: s) = some ((), z :: s) := by
    rw [or_second (bind_no (lit_no (strip_head (w := "\"") rfl (by exact hz.ne (by decide) (by decide)))))]
    exact wsOpt_clean hz.clean
  have hs : substringLiteral (34 :: (t ++ [34]) ++ z :: s) = some (34 :: (t ++ [34]), z :: s) := by
    unfold substringLiteral
    rw [bind_ok hq, bind_ok hws]; rfl
  have hp : substringLiteral.plus (34 :: (t ++ [34]) ++ z :: s) = some ([34 :: (t ++ [34])], z :: s) :=
    plus_chain hs (.nil (substring_no (hz.ne (by decide) (by decide)) (hz.ne (by decide) (by decide))))
  have f1 : floatLiteral (34 :: (t ++ [34]) ++ z :: s) = none := float_no (by decide) (by decide)
  have f2 : integerLiteral (34 :: (t ++ [34]) ++ z :: s) = none := integer_no (by decide)
  have f3 : charLiteral (34 :: (t ++ [34]) ++ z :: s) = none := char_no (by decide)
  have f4 : ∀ w : String, ∀ c r, bytes w = c :: r → c ≠ 34 → lit w (34 :: (t ++ [34]) ++ z :: s) = none := fun w c r e hc =>
    lit_no (by rw [strip_head (w := w) e]; exact fun h => hc h.symm)
  have f5 : ((lit "TRUE").or (lit "FALSE")) (34 :: (t ++ [34]) ++ z :: s) = none := by
    rw [or_second (f4 "TRUE" 84 (bytes "RUE") rfl (by decide))]; exact f4 "FALSE" 70 (bytes "ALSE") rfl (by decide)
  unfold scopedOrLiteral
  rw [choice, or_second (bind_no (token_no f1)), choice, or_second (bind_no f2), choice, or_second (bind_no (token_no f3)), choice,
    or_second (bind_no (token_no (bind_no (f4 "L" 76 [] rfl (by decide))))), choice, or_second (bind_no (token_no f5)), choice]
  refine or_first ?_
  rw [bind_ok hp]; rfl

theorem scoped_end {b : Bytes} (h : IsId b) {z : Nat} {s : Bytes} (hz : Ends z s) :
    scopedId (b ++ z :: s) = some (b, z :: s) := by
  have hr := isId_read h (s := z :: s) (by exact hz.not (by decide) (by decide))
  have hn : strip (bytes "::") (z :: s) = none := by
    rcases hz with ⟨rfl, hs⟩ | rfl
    · cases s with
      | nil => rfl
      | cons c s =>
        have : (58 : Nat) ≠ c := fun e => hs e.symm
        show (if (58 : Nat) = 58 then (if (58 : Nat) = c then _ else none) else none) = none
        rw [if_pos rfl, if_neg this]
    · exact strip_head (c := 58) (w := "::") rfl (by exact (by decide : 59 ≠ 58))
  have hn2 : strip (bytes "::") (b ++ z :: s) = none := by
    obtain ⟨c, r, rfl, hc, _⟩ := h
    refine strip_head (c := 58) (w := "::") rfl ?_
    show c ≠ 58
    rintro rfl; exact absurd hc (by decide)
  unfold scopedId
  rw [scopedIdFrom_succ, or_second (by rw [bind_ok hr]; exact bind_no (lit_no hn)), or_second (bind_no (lit_no hn2))]
  exact hr

theorem start_not {c : Nat} (h : idStart c = true) : isDigit c = false ∧ c ≠ 46 ∧ c ≠ 39 ∧ c ≠ 34 ∧ blank c = false ∧ c ≠ 47 ∧
    c ≠ 45 ∧ c ≠ 43 ∧ c ≠ 126 ∧ c ≠ 40 := by
  simp only [idStart, Bool.or_eq_true, Bool.and_eq_true, decide_eq_true_eq] at h
  simp only [isDigit, blank, Bool.or_eq_false_iff, Bool.and_eq_false_imp, decide_eq_true_eq, decide_eq_false_iff_not]
  omega

theorem ident_label {b : Bytes} (h : IsId b) (h1 : ∀ r, b ≠ bytes "TRUE" ++ r) (h2 : ∀ r, b ≠ bytes "FALSE" ++ r) :
    Atom b (.name b) := by
  have hid := h
  obtain ⟨c, r, e, hc, _, hr⟩ := h
  obtain ⟨d1, d2, d3, d4, d5, d6⟩ := start_not hc
  refine ⟨⟨c, r, e, d5, d6⟩, fun z s hz => ?_⟩
  have hl : ∀ w : String, (∀ r, b ≠ bytes w ++ r) → (∀ x ∈ bytes w, x ≠ 58 ∧ x ≠ 59) → lit w (b ++ z :: s) = none := by
    intro w hw hx
    refine lit_no ?_
    cases hst : strip (bytes w) (b ++ z :: s) with
    | none => rfl
    | some q =>
      exfalso
      rcases List.append_eq_append_iff.mp (strip_some hst) with ⟨t, e1, e2⟩ | ⟨t, e1, e2⟩
      · cases t with
        | nil => exact hw [] (by simpa using e1.symm)
        | cons y t =>
          rw [List.cons_append, List.cons.injEq] at e2
          exact absurd e2.1 (hz.ne (hx y (by rw [e1]; simp)).1 (hx y (by rw [e1]; simp)).2)
      · exact hw t e1
  have ht : ((lit "TRUE").or (lit "FALSE")) (b ++ z :: s) = none := by
    rw [or_second (hl _ h1 (by decide))]; exact hl _ h2 (by decide)
  have hsc := scoped_end hid hz
  have plus_no : ∀ {p : P Bytes} {x : Bytes}, p x = none → p.plus x = none := fun h => bind_no h
  -- `L` is not followed by a quote
  have hq : ∀ x, lit "L" (b ++ z :: s) = some ((), x) → ∃ y w, x = y :: w ∧ y ≠ 39 ∧ y ≠ 34 := by
    intro x hx
    rw [e] at hx
    have hx : (strip [76] (c :: (r ++ z :: s))).map (fun r => ((), r)) = some ((), x) := hx
    rw [strip] at hx
    split at hx
    · simp only [strip, Option.map_some, Option.some.injEq, Prod.mk.injEq, true_and] at hx
      cases r with
      | nil => exact ⟨z, s, hx.symm, hz.ne (by decide) (by decide), hz.ne (by decide) (by decide)⟩
      | cons y w =>
        refine ⟨y, w ++ z :: s, hx.symm, ?_⟩
        have := hr y (by simp)
        constructor <;> rintro rfl <;> exact absurd this (by decide)
    · cases hx
  have hLc : (do lit "L"; charLiteral : P Unit) (b ++ z :: s) = none := by
    cases hL : lit "L" (b ++ z :: s) with
    | none => exact bind_no hL
    | some x =>
      obtain ⟨⟨⟩, x⟩ := x
      obtain ⟨y, w, rfl, hy, _⟩ := hq x hL
      rw [bind_ok hL]; exact char_no hy
  have hLs : (do lit "L"; token substringLiteral : P Bytes) (b ++ z :: s) = none := by
    cases hL : lit "L" (b ++ z :: s) with
    | none => exact bind_no hL
    | some x =>
      obtain ⟨⟨⟩, x⟩ := x
      obtain ⟨y, w, rfl, hy, hy2⟩ := hq x hL
      rw [bind_ok hL]; exact token_no (substring_no hy2 hy)
  have e' : b ++ z :: s = c :: (r ++ z :: s) := by rw [e]; rfl
  have f1 := float_no (s := r ++ z :: s) d1 d2
  have f2 := integer_no (s := r ++ z :: s) d1
  have f3 := char_no (s := r ++ z :: s) d3
  have f4 := substring_no (s := r ++ z :: s) d4 d3
  rw [← e'] at f1 f2 f3 f4
  unfold scopedOrLiteral
  rw [choice, or_second (bind_no (token_no f1)), choice, or_second (bind_no f2), choice, or_second (bind_no (token_no f3)), choice,
    or_second (bind_no (token_no hLc)), choice, or_second (bind_no (token_no ht)), choice, or_second (bind_no (plus_no f4)), choice, or_second (bind_no (plus_no hLs)), choice]
  refine or_first ?_
  rw [bind_ok hsc]; rfl

end Verif.Idl.Syn
