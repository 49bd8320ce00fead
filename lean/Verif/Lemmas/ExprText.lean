import Verif.Spec.ExprText
import Verif.Lemmas.IdlDecls
import Verif.Props.Expr
import Verif.Model.IdlBuild
/-!
# Reading the text of a constant expression
-/

namespace Verif.Idl.Syn
open Text Expr

/-! ## Numbers and names -/

/-- What may follow a number or a name. -/
def Tail (s : Bytes) : Prop :=
  ∃ c r, s = c :: r ∧ idChar c = false ∧ c ≠ 46 ∧ c ≠ 34 ∧ c ≠ 39 ∧ (c = 58 → Head (fun x => x ≠ 58) r)

theorem Tail.colon {s : Bytes} (h : Tail s) : strip (bytes "::") s = none := by
  obtain ⟨c, r, rfl, _, _, _, _, h⟩ := h
  by_cases hc : c = 58
  · subst hc
    cases r with
    | nil => rfl
    | cons x r =>
      have : (58 : Nat) ≠ x := fun e => h rfl e.symm
      show (if (58 : Nat) = 58 then (if (58 : Nat) = x then _ else none) else none) = none
      rw [if_pos rfl, if_neg this]
  · exact strip_head (c := 58) (w := "::") rfl (by exact hc)

theorem Tail.id {s : Bytes} (h : Tail s) : Head (fun c => idChar c = false) s := by
  obtain ⟨c, r, rfl, h1, _⟩ := h
  exact h1

/-- A text that the rule for a literal or a name reads, whatever follows. -/
structure Leaf (t : Bytes) (e : CExpr) : Prop where
  front : ∃ c r, t = c :: r ∧ blank c = false ∧ c ≠ 47 ∧ c ≠ 45 ∧ c ≠ 43 ∧ c ≠ 126 ∧ c ≠ 40
  read : ∀ s, Tail s → scopedOrLiteral (t ++ s) = some (e, s)

theorem hexDigit_digit {d c : Nat} (h : HexDigit d c) : digit c = d ∧ d < 16 := by
  unfold digit
  rcases h with ⟨h1, rfl⟩ | ⟨h1, h2, rfl | rfl⟩
  · rw [if_pos (by omega)]; omega
  · rw [if_neg (by omega), if_pos (by omega)]; omega
  · rw [if_neg (by omega), if_neg (by omega), if_pos (by omega)]; omega

theorem not_hex {c : Nat} (h : idChar c = false) : ¬ digit c < 16 := by
  simp only [idChar, idStart, isDigit, Bool.or_eq_false_iff, Bool.and_eq_false_imp, decide_eq_true_eq, decide_eq_false_iff_not] at h
  unfold digit
  split
  · omega
  · split
    · omega
    · split <;> omega

theorem suffix_no {c : Nat} {s : Bytes} (h : c ≠ 101 ∧ c ≠ 69 ∧ c ≠ 100 ∧ c ≠ 68) : expOrSuffix (c :: s) = none := by
  have a1 : one (fun c => c = 101 || c = 69) (c :: s) = none := one_no (by simp [Head, h])
  have a2 : one (fun c => c = 100 || c = 68) (c :: s) = none := one_no (by simp [Head, h])
  simp only [expOrSuffix, P.or, bind_run, a1, a2, Option.bind_none]

/-- Digits that are not followed by a point or an exponent are no floating point literal. -/
theorem float_digits {t : Bytes} {d : Nat} {r : Bytes} (ht : t = d :: r) (hd : ∀ c ∈ t, isDigit c = true) {c : Nat} {s : Bytes}
    (h0 : isDigit c = false) (h1 : c ≠ 46) (h2 : c ≠ 101 ∧ c ≠ 69 ∧ c ≠ 100 ∧ c ≠ 68) : floatLiteral (t ++ c :: s) = none := by
  subst ht
  have hch : (one isDigit).plus (d :: r ++ c :: s) = some (d :: r, c :: s) := by
    rw [List.cons_append, plus_chain (one_ok (hd d (by simp)) _)
      (chain_class (fun c hc => hd c (List.mem_cons_of_mem _ hc)) (by exact h0))]
  have h3 : lit "." (c :: s) = none := lit_no (strip_head (w := ".") rfl (by exact h1))
  have h4 : expOrSuffix (c :: s) = none := suffix_no h2
  have h5 : lit "." (d :: r ++ c :: s) = none := by
    refine lit_no (strip_head (w := ".") rfl ?_)
    have := hd d (by simp)
    show d ≠ 46
    rintro rfl; exact absurd this (by decide)
  simp only [floatLiteral, choice, P.or, bind_run, hch, h3, h4, h5, Option.bind_none, Option.bind_some]

theorem isDigit_code {d : Nat} (h : d < 10) : isDigit (48 + d) = true := by
  simp only [isDigit, Bool.and_eq_true, decide_eq_true_eq]; omega

theorem idChar_not {c : Nat} (h : idChar c = false) : isDigit c = false ∧ (c ≠ 101 ∧ c ≠ 69 ∧ c ≠ 100 ∧ c ≠ 68) ∧ c ≠ 120 ∧ c ≠ 88 := by
  simp only [idChar, idStart, isDigit, Bool.or_eq_false_iff, Bool.and_eq_false_imp, decide_eq_true_eq, decide_eq_false_iff_not] at h ⊢
  omega

theorem lit0_ok (s : Bytes) : lit "0" (48 :: s) = some ((), s) := lit_ok "0" s

theorem octal_no {c : Nat} {s : Bytes} (h : ¬ (48 ≤ c ∧ c ≤ 55)) :
    (do lit "0"; let r ← (one fun c => 48 ≤ c && c ≤ 55).plus; pure (48 :: r) : P Bytes) (48 :: c :: s) = none := by
  rw [bind_ok (lit0_ok _)]
  refine bind_no (bind_no (one_no ?_))
  simp only [Head, Bool.and_eq_false_imp, decide_eq_true_eq, decide_eq_false_iff_not]
  omega

/-- The rule for integers reads a numeral. -/
theorem numeral_read {n : Nat} {t : Bytes} (h : Numeral n t) {s : Bytes} (hs : Tail s) :
    integerLiteral (t ++ s) = some (t, s) ∧ floatLiteral (t ++ s) = none := by
  obtain ⟨c, r, rfl, hid, h46, _⟩ := hs
  obtain ⟨hd, hx, h120, h88⟩ := idChar_not hid
  have hd' : ¬ (48 ≤ c ∧ c ≤ 57) := by
    simp only [isDigit, Bool.and_eq_false_imp, decide_eq_true_eq, decide_eq_false_iff_not] at hd; omega
  cases h with
  | zero =>
    refine ⟨?_, float_digits (t := [48]) rfl (by simp [isDigit]) hd h46 hx⟩
    unfold integerLiteral
    rw [List.cons_append, List.nil_append, or_second (octal_no (by omega)), or_second, or_second]
    · rw [bind_ok (lit0_ok _)]; rfl
    · exact bind_no (one_no (by exact (by decide : (decide (49 ≤ 48) && decide (48 ≤ 57)) = false)))
    · rw [bind_ok (lit0_ok _)]
      exact bind_no (one_no (by simp [Head, h120, h88]))
  | @dec d ds h1 h2 =>
    have hall : ∀ c ∈ (d :: ds).map (48 + ·), isDigit c = true := by
      intro c hc
      obtain ⟨x, hx, rfl⟩ := List.mem_map.mp hc
      exact isDigit_code (h2 x hx)
    have h10 := h2 d (by simp)
    refine ⟨?_, float_digits (by rw [List.map_cons]) hall hd h46 hx⟩
    unfold integerLiteral
    rw [List.map_cons, List.cons_append]
    have l0 : lit "0" ((48 + d) :: (ds.map (48 + ·) ++ c :: r)) = none :=
      lit_no (strip_head (w := "0") (c := 48) rfl (by show 48 + d ≠ 48; omega))
    rw [or_second (bind_no l0), or_second (bind_no l0)]
    refine or_first ?_
    rw [bind_ok (one_ok (by simp only [Bool.and_eq_true, decide_eq_true_eq]; omega) _),
      bind_ok (star_chain (chain_class (fun x hx => hall x (by rw [List.map_cons]; exact List.mem_cons_of_mem _ hx)) (by exact hd)))]
    rfl
  | @oct ds h1 h2 =>
    have hall : ∀ c ∈ 48 :: ds.map (48 + ·), isDigit c = true := by
      intro c hc
      rcases List.mem_cons.mp hc with rfl | hc
      · rfl
      · obtain ⟨x, hx, rfl⟩ := List.mem_map.mp hc
        have := h2 x hx
        exact isDigit_code (by omega)
    refine ⟨?_, float_digits rfl hall hd h46 hx⟩
    have hoct : ∀ c ∈ ds.map (48 + ·), (decide (48 ≤ c) && decide (c ≤ 55)) = true := by
      intro c hc
      obtain ⟨x, hx, rfl⟩ := List.mem_map.mp hc
      have := h2 x hx
      simp only [Bool.and_eq_true, decide_eq_true_eq]; omega
    unfold integerLiteral
    refine or_first ?_
    rw [List.cons_append, bind_ok (lit0_ok _)]
    cases e : ds.map (48 + ·) with
    | nil => exact absurd (List.map_eq_nil_iff.mp e) h1
    | cons x t =>
      rw [e] at hoct
      rw [List.cons_append, bind_ok (plus_chain (one_ok (hoct x (by simp)) _) (chain_class (t := t) (r := c :: r)
        (fun y hy => hoct y (List.mem_cons_of_mem _ hy)) (by
          simp only [Head, Bool.and_eq_false_imp, decide_eq_true_eq, decide_eq_false_iff_not]; omega)))]
      rfl
  | @hex x l h1 h2 h3 =>
    have hx0 : isDigit x = false ∧ x ≠ 46 ∧ (x ≠ 101 ∧ x ≠ 69 ∧ x ≠ 100 ∧ x ≠ 68) ∧ ¬ (48 ≤ x ∧ x ≤ 55) := by
      rcases h1 with rfl | rfl <;> decide
    refine ⟨?_, float_digits (t := [48]) rfl (by simp [isDigit]) hx0.1 hx0.2.1 hx0.2.2.1⟩
    have hhex : ∀ c ∈ l.map (·.2), decide (digit c < 16) = true := by
      intro c hc
      obtain ⟨p, hp, rfl⟩ := List.mem_map.mp hc
      have := hexDigit_digit (h3 p hp)
      simp only [decide_eq_true_eq]; omega
    unfold integerLiteral
    rw [List.cons_append, List.cons_append, or_second (octal_no hx0.2.2.2)]
    refine or_first ?_
    have e0 : one (fun c => c = 120 || c = 88) (x :: (l.map (·.2) ++ c :: r)) = some (x, l.map (·.2) ++ c :: r) :=
      one_ok (by rcases h1 with rfl | rfl <;> rfl) _
    rw [bind_ok (lit0_ok _), bind_ok e0]
    cases e : l.map (·.2) with
    | nil => exact absurd (List.map_eq_nil_iff.mp e) h2
    | cons y t =>
      rw [e] at hhex
      rw [List.cons_append, bind_ok (plus_chain (one_ok (hhex y (by simp)) _) (chain_class (t := t) (r := c :: r)
        (fun z hz => hhex z (List.mem_cons_of_mem _ hz)) (by
          simp only [Head, decide_eq_false_iff_not]; exact not_hex hid)))]
      rfl

theorem numeral_front {n : Nat} {t : Bytes} (h : Numeral n t) : ∃ d r, t = (48 + d) :: r ∧ d < 10 := by
  cases h with
  | zero => exact ⟨0, [], rfl, by decide⟩
  | @dec d ds _ h => exact ⟨d, _, rfl, h d (by simp)⟩
  | oct => exact ⟨0, _, rfl, by decide⟩
  | hex => exact ⟨0, _, rfl, by decide⟩

theorem numeral_leaf {n : Nat} {t : Bytes} (h : Numeral n t) : Leaf t (.lit (.text t)) := by
  refine ⟨?_, fun s hs => ?_⟩
  · obtain ⟨d, r, rfl, hd⟩ := numeral_front h
    refine ⟨48 + d, r, rfl, ?_⟩
    simp only [blank, Bool.or_eq_false_iff, decide_eq_false_iff_not]
    refine ⟨⟨⟨⟨?_, ?_⟩, ?_⟩, ?_⟩, ?_⟩ <;> omega
  · obtain ⟨h1, h2⟩ := numeral_read h hs
    unfold scopedOrLiteral
    rw [choice, or_second (bind_no (token_no h2))]
    refine or_first ?_
    rw [bind_ok h1]
    rfl

theorem codes_bytes (s : String) : codes s = bytes s := (bytes_toList s).symm

theorem constName_ids {s : String} (h : ConstName s) : ∃ l : List Bytes, l ≠ [] ∧ bytes s = joinB l ∧ ∀ a ∈ l, IsId a := by
  obtain ⟨⟨l, hl, e, hu⟩, _⟩ := h
  refine ⟨l.map bytes, by simpa using hl, by rw [bytes_toList, e, joined_bytes], ?_⟩
  intro a ha
  obtain ⟨x, hx, rfl⟩ := List.mem_map.mp ha
  exact ident_is (hu x hx)

theorem constName_scoped {s : String} (h : ConstName s) {r : Bytes} (hr : Tail r) : scopedId (bytes s ++ r) = some (bytes s, r) := by
  obtain ⟨l, hl, e, hi⟩ := constName_ids h
  rw [e]
  refine scopedFrom_ok hr.id hr.colon _ hl hi _ ?_
  have := joinB_length _ hi
  simp only [List.length_append]
  omega

/-- The first identifier of a name. -/
theorem constName_front {s : String} (h : ConstName s) : ∃ c r, bytes s = c :: r ∧ idStart c = true ∧
    (r = [] ∨ ∃ y w, r = y :: w ∧ y ≠ 39 ∧ y ≠ 34) := by
  obtain ⟨l, hl, e, hi⟩ := constName_ids h
  match l, hl, e, hi with
  | a :: l, _, e, hi =>
    obtain ⟨c, r, rfl, hc, _, hr⟩ := hi a (by simp)
    cases r with
    | cons y w =>
      have hy := hr y (by simp)
      have hne : y ≠ 39 ∧ y ≠ 34 := by constructor <;> rintro rfl <;> exact absurd hy (by decide)
      cases l with
      | nil => exact ⟨c, y :: w, e, hc, .inr ⟨y, w, rfl, hne⟩⟩
      | cons b l => exact ⟨c, y :: (w ++ 58 :: 58 :: joinB (b :: l)), e, hc, .inr ⟨y, _, rfl, hne⟩⟩
    | nil =>
      cases l with
      | nil => exact ⟨c, [], e, hc, .inl rfl⟩
      | cons b l => exact ⟨c, 58 :: 58 :: joinB (b :: l), e, hc, .inr ⟨58, _, rfl, by decide⟩⟩

theorem name_leaf {n : String} (h : ConstName n) : Leaf (bytes n) (.name (bytes n)) := by
  obtain ⟨c, r, e, hc, hr⟩ := constName_front h
  obtain ⟨d1, d2, d3, d4, d5, d6⟩ := start_not hc
  refine ⟨⟨c, r, e, d5, d6⟩, fun s hs => ?_⟩
  obtain ⟨z, s, rfl, hz1, hz46, hz34, hz39, hz58⟩ := id hs
  have hl : ∀ w : String, (∀ r, n.toList ≠ w.toList ++ r) → (∀ x ∈ bytes w, idChar x = true) → lit w (bytes n ++ z :: s) = none := by
    intro w hw hx
    refine lit_no ?_
    have hw' : ∀ r : Bytes, bytes n ≠ bytes w ++ r := by
      intro r e
      rw [bytes_toList, bytes_toList] at e
      obtain ⟨a, b, e1, e2, e3⟩ := List.map_eq_append_iff.mp e
      exact hw b (by rw [e1, map_toNat_inj e2])
    cases hst : strip (bytes w) (bytes n ++ z :: s) with
    | none => rfl
    | some q =>
      exfalso
      rcases List.append_eq_append_iff.mp (strip_some hst) with ⟨t, e1, e2⟩ | ⟨t, e1, e2⟩
      · cases t with
        | nil => exact hw' [] (by simpa using e1.symm)
        | cons y t =>
          rw [List.cons_append, List.cons.injEq] at e2
          have := hx y (by rw [e1]; simp)
          rw [← e2.1, hz1] at this
          cases this
      · exact hw' t e1
  have ht : ((lit "TRUE").or (lit "FALSE")) (bytes n ++ z :: s) = none := by
    rw [or_second (hl _ h.2.1 (by decide))]; exact hl _ h.2.2 (by decide)
  have hsc := constName_scoped h hs
  have plus_no : ∀ {p : P Bytes} {x : Bytes}, p x = none → p.plus x = none := fun h => bind_no h
  -- `L` is not followed by a quote
  have hq : ∀ x, lit "L" (bytes n ++ z :: s) = some ((), x) → ∃ y w, x = y :: w ∧ y ≠ 39 ∧ y ≠ 34 := by
    intro x hx
    rw [e] at hx
    have hx : (strip [76] (c :: (r ++ z :: s))).map (fun r => ((), r)) = some ((), x) := hx
    rw [strip] at hx
    split at hx
    · simp only [strip, Option.map_some, Option.some.injEq, Prod.mk.injEq, true_and] at hx
      rcases hr with rfl | ⟨y, w, rfl, hy⟩
      · exact ⟨z, s, hx.symm, hz39, hz34⟩
      · exact ⟨y, w ++ z :: s, hx.symm, hy⟩
    · cases hx
  have hLc : (do lit "L"; charLiteral : P Unit) (bytes n ++ z :: s) = none := by
    cases hL : lit "L" (bytes n ++ z :: s) with
    | none => exact bind_no hL
    | some x =>
      obtain ⟨⟨⟩, x⟩ := x
      obtain ⟨y, w, rfl, hy, _⟩ := hq x hL
      rw [bind_ok hL]; exact char_no hy
  have hLs : (do lit "L"; token substringLiteral : P Bytes) (bytes n ++ z :: s) = none := by
    cases hL : lit "L" (bytes n ++ z :: s) with
    | none => exact bind_no hL
    | some x =>
      obtain ⟨⟨⟩, x⟩ := x
      obtain ⟨y, w, rfl, hy, hy2⟩ := hq x hL
      rw [bind_ok hL]; exact token_no (substring_no hy2 hy)
  have e' : bytes n ++ z :: s = c :: (r ++ z :: s) := by rw [e]; rfl
  have f1 := float_no (s := r ++ z :: s) d1 d2
  have f2 := integer_no (s := r ++ z :: s) d1
  have f3 := char_no (s := r ++ z :: s) d3
  have f4 := substring_no (s := r ++ z :: s) d4 d3
  rw [← e'] at f1 f2 f3 f4
  unfold scopedOrLiteral
  rw [choice, or_second (bind_no (token_no f1)), choice, or_second (bind_no f2), choice, or_second (bind_no (token_no f3)), choice,
    or_second (bind_no (token_no hLc)), choice, or_second (bind_no (token_no ht)), choice, or_second (bind_no (plus_no f4)), choice, or_second (bind_no (plus_no hLs)), choice]
  refine or_first ?_
  rw [bind_ok hsc]; rfl

/-! ## Operators -/

/-- The operators of one class. -/
def ops : Nat → P Ops.Op
  | 0 => opSym "|" .or
  | 1 => opSym "^" .xor
  | 2 => opSym "&" .and
  | 3 => choice [opSym "<<" .shl, opSym ">>" .shr]
  | 4 => choice [opSym "+" .add, opSym "-" .sub]
  | _ => choice [opSym "*" .mul, opSym "/" .div, opSym "%" .mod]

/-- The rules from `PRIMARY_EXPR` up to `CONST_EXPR`; the last number bounds the operators. -/
def rung (f : Nat) : Nat → Nat → P CExpr
  | 0, _ => primaryExpr (constExpr f)
  | 1, _ => unaryExpr (primaryExpr (constExpr f))
  | k + 2, g => binary (rung f (k + 1) (f + 1)) (ops (5 - k)) g

/-- The rule for expressions of class `n`. -/
def lev (f g n : Nat) : P CExpr := rung f (7 - n) g

theorem constExpr_lev (f : Nat) : constExpr (f + 1) = lev f (f + 1) 0 := rfl
theorem lev_seven (f g : Nat) : lev f g 7 = primaryExpr (constExpr f) := rfl
theorem lev_six (f g : Nat) : lev f g 6 = unaryExpr (lev f g 7) := rfl
theorem lev_bin (f g : Nat) {n : Nat} (h : n ≤ 5) : lev f g n = binary (lev f (f + 1) (n + 1)) (ops n) g := by
  match n, h with
  | 0, _ => rfl
  | 1, _ => rfl
  | 2, _ => rfl
  | 3, _ => rfl
  | 4, _ => rfl
  | 5, _ => rfl

theorem sym_read {w : String} {a b s : Bytes} (ha : Layout a) (hb : Layout b) (h : Start (bytes w ++ (b ++ s))) (hs : Start s) :
    sym w (a ++ (bytes w ++ (b ++ s))) = some ((), s) := by
  unfold sym
  rw [bind_ok (wsOpt_start ha h), bind_ok (lit_ok w _)]
  exact wsOpt_start hb hs

theorem sym_fail {w : String} {a s : Bytes} (ha : Layout a) (h : Start s) (hn : strip (bytes w) s = none) : sym w (a ++ s) = none := by
  unfold sym
  rw [bind_ok (wsOpt_start ha h)]
  exact bind_no (lit_no hn)

theorem opSym_read {w : String} {a b s : Bytes} (ha : Layout a) (hb : Layout b) (h : Start (bytes w ++ (b ++ s))) (hs : Start s)
    (o : Ops.Op) : opSym w o (a ++ (bytes w ++ (b ++ s))) = some (o, s) := by
  unfold opSym
  rw [bind_ok (sym_read ha hb h hs)]; rfl

theorem opSym_fail {w : String} {a s : Bytes} (ha : Layout a) (h : Start s) (hn : strip (bytes w) s = none) (o : Ops.Op) :
    opSym w o (a ++ s) = none := bind_no (sym_fail ha h hn)

theorem op_front (o : Ops.Op) : ∃ c t, bytes (opText o) = c :: t ∧ blank c = false ∧ idChar c = false ∧ c ≠ 46 ∧ c ≠ 34 ∧ c ≠ 39 ∧
    c ≠ 58 ∧ (o ≠ .div → c ≠ 47) ∧ (o = .div → t = []) := by
  cases o
  case mul => exact ⟨42, [], rfl, by decide⟩
  case div => exact ⟨47, [], rfl, by decide⟩
  case mod => exact ⟨37, [], rfl, by decide⟩
  case add => exact ⟨43, [], rfl, by decide⟩
  case sub => exact ⟨45, [], rfl, by decide⟩
  case shl => exact ⟨60, [60], rfl, by decide⟩
  case shr => exact ⟨62, [62], rfl, by decide⟩
  case and => exact ⟨38, [], rfl, by decide⟩
  case xor => exact ⟨94, [], rfl, by decide⟩
  case or => exact ⟨124, [], rfl, by decide⟩

theorem op_start (o : Ops.Op) {s : Bytes} (h : o = .div → NoComment s) : Start (bytes (opText o) ++ s) := by
  by_cases ho : o = .div
  · subst ho
    have h := h rfl
    show Start (47 :: s)
    refine ⟨by exact (by decide : blank 47 = false), ?_, ?_⟩
    · rw [show bytes "//" = [47, 47] from rfl, strip, if_pos rfl]
      cases s with
      | nil => rfl
      | cons c s => rw [strip, if_neg (Ne.symm h.1)]
    · rw [show bytes "/*" = [47, 42] from rfl, strip, if_pos rfl]
      cases s with
      | nil => rfl
      | cons c s => rw [strip, if_neg (Ne.symm h.2)]
  · obtain ⟨c, t, e, h1, _, _, _, _, _, h2, _⟩ := op_front o
    refine Clean.start ?_
    rw [e]
    exact ⟨h1, h2 ho⟩

theorem op_clash (o o' : Ops.Op) (h : o ≠ o') (s : Bytes) : strip (bytes (opText o)) (bytes (opText o') ++ s) = none := by
  refine clash_strip ?_ s
  revert h
  cases o <;> cases o' <;> decide

/-- What may follow an expression of class `n`: an operator of a weaker class, a closing parenthesis or a semicolon. -/
def Follows (n : Nat) (s : Bytes) : Prop :=
  (∃ o R, s = bytes (opText o) ++ R ∧ level o < n ∧ (o = .div → NoComment R)) ∨ ∃ c R, s = c :: R ∧ (c = 41 ∨ c = 59)

theorem Follows.start {n : Nat} {s : Bytes} (h : Follows n s) : Start s := by
  rcases h with ⟨o, R, rfl, _, h⟩ | ⟨c, R, rfl, h⟩
  · exact op_start o h
  · refine Clean.start ?_
    rcases h with rfl | rfl <;> exact ⟨by decide, by decide⟩

theorem Follows.le {n m : Nat} {s : Bytes} (h : Follows n s) (hm : n ≤ m) : Follows m s := by
  rcases h with ⟨o, R, e, h1, h2⟩ | h
  · exact .inl ⟨o, R, e, by omega, h2⟩
  · exact .inr h

theorem Follows.tail {n : Nat} {s : Bytes} (h : Follows n s) {w : Bytes} (hw : Layout w) : Tail (w ++ s) := by
  have h1 := layout_head hw
  cases w with
  | nil =>
    rcases h with ⟨o, R, rfl, _, _⟩ | ⟨c, R, rfl, h⟩
    · obtain ⟨c, t, e, _, h1, h2, h3, h4, h5, _⟩ := op_front o
      exact ⟨c, t ++ R, by rw [e]; rfl, h1, h2, h3, h4, fun e => absurd e h5⟩
    · have : idChar c = false ∧ c ≠ 46 ∧ c ≠ 34 ∧ c ≠ 39 ∧ c ≠ 58 := by rcases h with rfl | rfl <;> decide
      exact ⟨c, R, rfl, this.1, this.2.1, this.2.2.1, this.2.2.2.1, fun e => absurd e this.2.2.2.2⟩
  | cons c w =>
    simp only [Head] at h1
    have : idChar c = false ∧ c ≠ 46 ∧ c ≠ 34 ∧ c ≠ 39 ∧ c ≠ 58 := by rcases h1 with rfl | rfl | rfl | rfl | rfl <;> decide
    exact ⟨c, w ++ s, rfl, this.1, this.2.1, this.2.2.1, this.2.2.2.1, fun e => absurd e this.2.2.2.2⟩

theorem Follows.ops {n : Nat} {s : Bytes} (h : Follows n s) {w : Bytes} (hw : Layout w) {m : Nat} (hm : n ≤ m) (h5 : m ≤ 5) :
    ops m (w ++ s) = none := by
  have hs : ∀ o : Ops.Op, level o = m → strip (bytes (opText o)) s = none := by
    intro o ho
    rcases h with ⟨o', R, rfl, h1, _⟩ | ⟨c, R, rfl, h⟩
    · exact op_clash o o' (by rintro rfl; omega) R
    · have : ∀ c : Nat, (c = 41 ∨ c = 59) → clash (bytes (opText o)) [c] = true := by
        intro c hc
        rcases hc with rfl | rfl <;> cases o <;> decide
      exact clash_strip (v := [c]) (this c h) R
  have k : ∀ o : Ops.Op, level o = m → ∀ w' : String, w' = opText o → opSym w' o (w ++ s) = none := by
    intro o ho w' e
    subst e
    exact opSym_fail hw h.start (hs o ho) o
  match m, h5 with
  | 0, _ => exact k .or rfl _ rfl
  | 1, _ => exact k .xor rfl _ rfl
  | 2, _ => exact k .and rfl _ rfl
  | 3, _ => exact choice_next (k .shl rfl _ rfl) (choice_next (k .shr rfl _ rfl) rfl)
  | 4, _ => exact choice_next (k .add rfl _ rfl) (choice_next (k .sub rfl _ rfl) rfl)
  | 5, _ => exact choice_next (k .mul rfl _ rfl) (choice_next (k .div rfl _ rfl) (choice_next (k .mod rfl _ rfl) rfl))

theorem ops_read (o : Ops.Op) {a b s : Bytes} (ha : Layout a) (hb : Layout b) (hd : o = .div → NoComment (b ++ s)) (hs : Start s) :
    ops (level o) (a ++ (bytes (opText o) ++ (b ++ s))) = some (o, s) := by
  have hst := op_start o hd
  have no : ∀ o' : Ops.Op, o' ≠ o → opSym (opText o') o' (a ++ (bytes (opText o) ++ (b ++ s))) = none := fun o' h =>
    opSym_fail ha hst (op_clash o' o h _) o'
  have yes := opSym_read ha hb hst hs o
  cases o with
  | or => exact yes
  | xor => exact yes
  | and => exact yes
  | shl => exact choice_first yes
  | shr => exact choice_next (no .shl (by decide)) (choice_first yes)
  | add => exact choice_first yes
  | sub => exact choice_next (no .add (by decide)) (choice_first yes)
  | mul => exact choice_first yes
  | div => exact choice_next (no .mul (by decide)) (choice_first yes)
  | mod => exact choice_next (no .mul (by decide)) (choice_next (no .div (by decide)) (choice_first yes))

/-! ## Expressions -/

/-- The tree the reader builds is this tree of tokens. -/
inductive Same : E → CExpr → Prop
  | lit {n t} : Numeral n t → Same (.lit n) (.lit (.text t))
  | name {s} : ConstName s → Same (.name s) (.name (bytes s))
  | un {e x} (u) : Same e x → Same (.un u e) (.un u x)
  | bin {l r x y} (o) : Same l x → Same r y → Same (.bin o l r) (.bin o x y)

theorem noComment_append {a : Bytes} (h : NoComment a) (hne : a ≠ []) (b : Bytes) : NoComment (a ++ b) := by
  cases a with
  | nil => exact absurd rfl hne
  | cons c a => exact h

theorem noComment_left {a b : Bytes} (h : NoComment (a ++ b)) : NoComment a := by
  cases a with
  | nil => trivial
  | cons c a => exact h

theorem spells_ne {k : Tok} {t : Bytes} (h : Spells k t) : t ≠ [] := by
  cases h with
  | lit h => obtain ⟨d, r, rfl, _⟩ := numeral_front h; simp
  | name h => obtain ⟨c, r, e, _⟩ := constName_front h; rw [codes_bytes, e]; simp
  | op o => obtain ⟨c, r, e, _⟩ := op_front o; rw [codes_bytes, e]; simp
  | tilde => decide
  | lpar => decide
  | rpar => decide

theorem spelled_ne {ts : List Tok} {t : Bytes} (h : Spelled ts t) : t ≠ [] ∧ ts.length ≤ t.length := by
  induction h with
  | one h =>
    have := spells_ne h
    refine ⟨this, ?_⟩
    have := List.length_pos_iff.mpr this
    simp; omega
  | cons h _ _ _ ih =>
    have := spells_ne h
    refine ⟨by simp [this], ?_⟩
    have := List.length_pos_iff.mpr this
    simp; omega

theorem spelled_one {k : Tok} {t : Bytes} (h : Spelled [k] t) : Spells k t := by
  cases h with
  | one h => exact h
  | cons _ _ _ h => nomatch h

theorem spelled_cons {k : Tok} {ts : List Tok} {t : Bytes} (h : Spelled (k :: ts) t) (hne : ts ≠ []) :
    ∃ a w b, t = a ++ (w ++ b) ∧ Spells k a ∧ Layout w ∧ Spelled ts b ∧ (k = .op .div → NoComment (w ++ b)) := by
  cases h with
  | one h => exact absurd rfl hne
  | cons h1 h2 h3 h4 => exact ⟨_, _, _, rfl, h1, h2, h4, h3⟩

theorem spelled_append {b : List Tok} (hb : b ≠ []) : ∀ {a : List Tok} {t : Bytes}, Spelled (a ++ b) t → a ≠ [] →
    ∃ x w y, t = x ++ (w ++ y) ∧ Spelled a x ∧ Layout w ∧ Spelled b y
  | [], _, _, h => absurd rfl h
  | [k], t, h, _ => by
    obtain ⟨x, w, y, e, h1, h2, h3, _⟩ := spelled_cons h hb
    exact ⟨x, w, y, e, .one h1, h2, h3⟩
  | k :: k' :: a, t, h, _ => by
    obtain ⟨x, w, y, e, h1, h2, h3, h4⟩ := spelled_cons h (by simp)
    obtain ⟨x', w', y', e', h1', h2', h3'⟩ := spelled_append hb (a := k' :: a) h3 (by simp)
    refine ⟨x ++ (w ++ x'), w', y', by rw [e, e']; simp, .cons h1 h2 (fun hk => ?_) h1', h2', h3'⟩
    have := h4 hk
    rw [e', ← List.append_assoc] at this
    exact noComment_left this

/-- How an expression begins. -/
theorem derives_head {n : Nat} {s : S} {ts : List Tok} (h : Derives n s ts) : ∃ t r, ts = t :: r ∧
    ((∃ n, t = .lit n) ∨ (∃ s, t = .name s) ∨ t = .lpar ∨ t = .op .sub ∨ t = .op .add ∨ t = .tilde) := by
  induction h with
  | lit n => exact ⟨_, _, rfl, .inl ⟨_, rfl⟩⟩
  | name s => exact ⟨_, _, rfl, .inr (.inl ⟨_, rfl⟩)⟩
  | paren _ _ => exact ⟨_, _, rfl, .inr (.inr (.inl rfl))⟩
  | un u _ _ => exact ⟨_, _, rfl, by cases u <;> simp [UOp.tok]⟩
  | weaken _ _ ih => exact ih
  | bin o _ _ ih _ =>
    obtain ⟨t, r, rfl, h⟩ := ih
    exact ⟨t, _, rfl, h⟩

theorem spells_clean {k : Tok} {t : Bytes} (h : Spells k t)
    (hk : (∃ n, k = .lit n) ∨ (∃ s, k = .name s) ∨ k = .lpar ∨ k = .op .sub ∨ k = .op .add ∨ k = .tilde) (s : Bytes) : Clean (t ++ s) := by
  cases h with
  | lit h => obtain ⟨c, r, rfl, h1, h2, _⟩ := (numeral_leaf h).front; exact ⟨h1, h2⟩
  | name h =>
    rw [codes_bytes]
    obtain ⟨c, r, e, h1, h2, _⟩ := (name_leaf h).front
    rw [e]; exact ⟨h1, h2⟩
  | op o =>
    have : o = .sub ∨ o = .add := by simpa using hk
    rcases this with rfl | rfl <;> exact ⟨by decide, by decide⟩
  | tilde => exact ⟨by decide, by decide⟩
  | lpar => exact ⟨by decide, by decide⟩
  | rpar => simp at hk

theorem expr_clean {n : Nat} {s : S} {ts : List Tok} (h : Derives n s ts) {t : Bytes} (ht : Spelled ts t) (r : Bytes) : Clean (t ++ r) := by
  obtain ⟨k, l, rfl, hk⟩ := derives_head h
  cases ht with
  | one h => exact spells_clean h hk r
  | cons h _ _ _ => rw [List.append_assoc]; exact spells_clean h hk _

/-- What is shown of the text of every expression. -/
structure TGood (n : Nat) (s : S) (ts : List Tok) (t : Bytes) : Prop where
  ends : ∃ e, Same (regroup s none) e ∧ ∀ w r, Layout w → Follows n r → ∃ v, Layout v ∧
    ∀ f g, ts.length ≤ f + 1 → ts.length ≤ g → lev f g n (t ++ (w ++ r)) = some (e, v ++ r)
  goes : ∀ o x y, level o = n → Same x y → ∃ e, Same (regroup s (some (o, x))) e ∧ ∀ w1 w2 r r2, Layout w1 → Layout w2 → Clean r →
    (o = .div → NoComment (w2 ++ r)) → ∀ f G, ts.length ≤ f + 1 → (∀ g, G ≤ g → lev f g n r = some (y, r2)) →
    ∀ g, G + ts.length ≤ g → lev f g n (t ++ (w1 ++ (bytes (opText o) ++ (w2 ++ r)))) = some (e, r2)

theorem level_le (o : Ops.Op) : level o ≤ 5 := by cases o <;> decide

theorem primary_leaf {t : Bytes} {e : CExpr} (h : Leaf t e) {s : Bytes} (hs : Tail s) (x : P CExpr) :
    primaryExpr x (t ++ s) = some (e, s) := by
  have hr := h.read s hs
  obtain ⟨c, r, rfl, h1, h2, h3, h4, h5, h6⟩ := h.front
  have hcl : Clean (c :: r ++ s) := ⟨h1, h2⟩
  unfold primaryExpr
  rw [or_second (bind_no (sym_no' (w := "(") (by rfl) hcl h6))]
  exact hr

/-- A primary does not begin with a sign. -/
theorem unary_none {c : Nat} {t : Bytes} (h1 : blank c = false) (h2 : c ≠ 47) (h3 : c ≠ 45) (h4 : c ≠ 43) (h5 : c ≠ 126) (p : P CExpr) :
    unaryExpr p (c :: t) = p (c :: t) := by
  have hcl : Clean (c :: t) := ⟨h1, h2⟩
  have no : ∀ {w : String} {x : Nat} {y : Bytes}, bytes w = x :: y → c ≠ x → ∀ u : Expr.UOp,
      (do sym w; pure u : P Expr.UOp) (c :: t) = none :=
    fun hw hne _ => bind_no (sym_no' hw hcl hne)
  unfold unaryExpr
  rw [or_second]
  refine bind_no ?_
  simp only [choice, P.or, no (w := "-") rfl h3, no (w := "+") rfl h4, no (w := "~") rfl h5]

theorem spells_primary {k : Tok} {t : Bytes} (h : Spells k t) (hk : (∃ n, k = .lit n) ∨ (∃ s, k = .name s) ∨ k = .lpar) :
    ∃ c r, t = c :: r ∧ blank c = false ∧ c ≠ 47 ∧ c ≠ 45 ∧ c ≠ 43 ∧ c ≠ 126 := by
  cases h with
  | lit h => obtain ⟨c, r, e, h1, h2, h3, h4, h5, _⟩ := (numeral_leaf h).front; exact ⟨c, r, e, h1, h2, h3, h4, h5⟩
  | name h =>
    obtain ⟨c, r, e, h1, h2, h3, h4, h5, _⟩ := (name_leaf h).front
    exact ⟨c, r, by rw [codes_bytes, e], h1, h2, h3, h4, h5⟩
  | lpar => exact ⟨40, [], rfl, by decide⟩
  | _ => simp at hk

theorem tgood_weaken {n : Nat} {s : S} {ts : List Tok} {t : Bytes} (hn : n < 7) (hd : Derives (n + 1) s ts) (ht : Spelled ts t)
    (ih : TGood (n + 1) s ts t) : TGood n s ts t := by
  have hlen : 1 ≤ ts.length := List.length_pos_iff.mpr (derives_ne_nil hd)
  obtain ⟨e, he, hr⟩ := ih.ends
  by_cases h5 : n ≤ 5
  · constructor
    · refine ⟨e, he, fun w r hw hf => ?_⟩
      obtain ⟨v, hv, h⟩ := hr w r hw (hf.le (by omega))
      refine ⟨v, hv, fun f g h1 h2 => ?_⟩
      obtain ⟨g, rfl⟩ : ∃ k, g = k + 1 := ⟨g - 1, by omega⟩
      rw [lev_bin f _ h5]
      exact binary_one (h f (f + 1) h1 (by omega)) (hf.ops hv (Nat.le_refl _) h5) g
    · intro o x y ho hxy
      refine ⟨.bin o e y, ?_, fun w1 w2 r r2 hw1 hw2 hcl hdiv f G h1 hG g hg => ?_⟩
      · rw [regroup_some s n o x ho (derives_level hd)]
        exact .bin o he hxy
      · obtain ⟨v, hv, h⟩ := hr w1 (bytes (opText o) ++ (w2 ++ r)) hw1 (.inl ⟨o, _, rfl, by omega, hdiv⟩)
        obtain ⟨g, rfl⟩ : ∃ k, g = k + 1 := ⟨g - 1, by omega⟩
        have h2 := hG g (by omega)
        rw [lev_bin f _ h5] at h2 ⊢
        rw [binary]
        refine or_first ?_
        have h3 := ops_read o hv hw2 hdiv hcl.start
        rw [ho] at h3
        rw [bind_ok (h f (f + 1) h1 (by omega)), bind_ok h3, bind_ok h2]
        rfl
  · obtain rfl : n = 6 := by omega
    refine ⟨⟨e, he, fun w r hw hf => ?_⟩, fun o x y ho => ?_⟩
    · obtain ⟨v, hv, h⟩ := hr w r hw (hf.le (by omega))
      refine ⟨v, hv, fun f g h1 h2 => ?_⟩
      have h3 := h f g h1 h2
      rw [lev_six]
      obtain ⟨k, l, rfl, hk⟩ := derives_primary_head hd rfl
      have : ∃ c r, t = c :: r ∧ blank c = false ∧ c ≠ 47 ∧ c ≠ 45 ∧ c ≠ 43 ∧ c ≠ 126 := by
        clear h h3 hr
        cases ht with
        | one q => exact spells_primary q hk
        | cons q _ _ _ =>
          obtain ⟨c, r, rfl, hc⟩ := spells_primary q hk
          exact ⟨c, _, rfl, hc⟩
      obtain ⟨c, q, rfl, a1, a2, a3, a4, a5⟩ := this
      rw [List.cons_append] at h3 ⊢
      rw [unary_none a1 a2 a3 a4 a5]
      exact h3
    · have := level_le o
      omega

theorem tgood_leaf {s : S} {k : Tok} {t : Bytes} {e : CExpr} (h : Leaf t e) (hs : Same (regroup s none) e) : TGood 7 s [k] t := by
  refine ⟨⟨e, hs, fun w r hw hf => ⟨w, hw, fun f g _ _ => ?_⟩⟩, fun o x y ho => ?_⟩
  · rw [lev_seven]
    exact primary_leaf h (hf.tail hw) _
  · have := level_le o
    omega

theorem tgood_of_derives {n : Nat} {s : S} {ts : List Tok} (h : Derives n s ts) : ∀ {t : Bytes}, Spelled ts t → TGood n s ts t := by
  induction h with
  | lit m =>
    intro t ht
    cases spelled_one ht with
    | lit h => exact tgood_leaf (numeral_leaf h) (.lit h)
  | name m =>
    intro t ht
    cases spelled_one ht with
    | name h => rw [codes_bytes]; exact tgood_leaf (name_leaf h) (.name h)
  | @paren e ts hd ih =>
    intro t ht
    obtain ⟨a, w, b, rfl, h1, hw, hb, _⟩ := spelled_cons ht (by simp)
    obtain ⟨x, w', y, rfl, h2, hw', h3⟩ := spelled_append (by simp) hb (derives_ne_nil hd)
    have ea : a = [40] := by cases h1; rfl
    have ey : y = [41] := by cases spelled_one h3; rfl
    subst ea ey
    obtain ⟨z, hz, hr⟩ := (ih h2).ends
    refine ⟨⟨z, hz, fun w0 r hw0 hf => ⟨[], blanks_nil, fun f g hlf _ => ?_⟩⟩, fun o x y ho => ?_⟩
    · obtain ⟨v, hv, h⟩ := hr w' (41 :: (w0 ++ r)) hw' (.inr ⟨41, _, rfl, .inl rfl⟩)
      obtain ⟨f, rfl⟩ : ∃ k, f = k + 1 := ⟨f - 1, by simp at hlf; omega⟩
      have h := h f (f + 1) (by simp at hlf; omega) (by simp at hlf; omega)
      rw [lev_seven, constExpr_lev]
      unfold primaryExpr
      refine or_first ?_
      have e1 : [40] ++ (w ++ (x ++ (w' ++ [41]))) ++ (w0 ++ r) = [] ++ (bytes "(" ++ (w ++ (x ++ (w' ++ 41 :: (w0 ++ r))))) := by
        rw [show bytes "(" = [40] from rfl]; simp
      have e2 := sym_read (w := "(") (a := []) (b := w) (s := x ++ (w' ++ 41 :: (w0 ++ r))) blanks_nil hw
        (Clean.start (by exact ⟨by decide, by decide⟩)) (expr_clean hd h2 _).start
      have e3 := sym_read (w := ")") (a := v) (b := w0) (s := r) hv hw0 (Clean.start (by exact ⟨by decide, by decide⟩)) hf.start
      rw [show bytes ")" = [41] from rfl, List.cons_append, List.nil_append] at e3
      rw [e1, bind_ok e2, bind_ok h, bind_ok e3]
      rfl
    · have := level_le o
      omega
  | @un e ts u hd ih =>
    intro t ht
    obtain ⟨a, w, b, rfl, h1, hw, hb, _⟩ := spelled_cons ht (derives_ne_nil hd)
    obtain ⟨z, hz, hr⟩ := (ih hb).ends
    refine ⟨⟨.un u z, .un u hz, fun w0 r hw0 hf => ?_⟩, fun o x y ho => ?_⟩
    · obtain ⟨v, hv, h⟩ := hr w0 r hw0 (hf.le (by omega))
      refine ⟨v, hv, fun f g hlf hlg => ?_⟩
      have h := h f g (by simp at hlf; omega) (by simp at hlg; omega)
      rw [lev_six]
      unfold unaryExpr
      refine or_first ?_
      have hcl : Clean (b ++ (w0 ++ r)) := expr_clean hd hb _
      have yes : ∀ {x : String} {c : Nat}, bytes x = [c] → blank c = false → c ≠ 47 → ∀ u : UOp,
          (do sym x; pure u : P UOp) (bytes x ++ (w ++ (b ++ (w0 ++ r)))) = some (u, b ++ (w0 ++ r)) := by
        intro x c hx h1 h2 u
        have e := sym_read (w := x) (a := []) (b := w) (s := b ++ (w0 ++ r)) blanks_nil hw
          (Clean.start (by rw [hx]; exact ⟨h1, h2⟩)) hcl.start
        rw [List.nil_append] at e
        rw [bind_ok e]; rfl
      have no : ∀ {x y : String} {c d : Nat}, bytes x = [c] → bytes y = [d] → blank c = false → c ≠ 47 → c ≠ d → ∀ u : UOp,
          (do sym y; pure u : P UOp) (bytes x ++ (w ++ (b ++ (w0 ++ r)))) = none := by
        intro x y c d hx hy h1 h2 hne u
        exact bind_no (sym_no' hy (by rw [hx]; exact ⟨h1, h2⟩) (by rw [hx]; exact hne))
      have e1 : a ++ (w ++ b) ++ (w0 ++ r) = a ++ (w ++ (b ++ (w0 ++ r))) := by simp
      rw [e1]
      have e2 : choice [(do sym "-"; pure .minus : P Expr.UOp), (do sym "+"; pure .plus), (do sym "~"; pure .tilde)]
          (a ++ (w ++ (b ++ (w0 ++ r)))) = some (u, b ++ (w0 ++ r)) := by
        cases u with
        | minus =>
          have ea : a = bytes "-" := by cases h1; rfl
          rw [ea]
          exact choice_first (yes (x := "-") rfl (by decide) (by decide) _)
        | plus =>
          have ea : a = bytes "+" := by cases h1; rfl
          rw [ea]
          exact choice_next (no (x := "+") (y := "-") rfl rfl (by decide) (by decide) (by decide) _)
            (choice_first (yes (x := "+") rfl (by decide) (by decide) _))
        | tilde =>
          have ea : a = bytes "~" := by cases h1; rfl
          rw [ea]
          exact choice_next (no (x := "~") (y := "-") rfl rfl (by decide) (by decide) (by decide) _)
            (choice_next (no (x := "~") (y := "+") rfl rfl (by decide) (by decide) (by decide) _)
              (choice_first (yes (x := "~") rfl (by decide) (by decide) _)))
      rw [bind_ok e2, bind_ok h]
      rfl
    · have := level_le o
      omega
  | weaken hn hd ih => exact fun ht => tgood_weaken hn hd ht (ih ht)
  | @bin l r tl tr o hl hr ihl ihr =>
    intro t ht
    obtain ⟨x, w1, y, rfl, hx, hw1, hy⟩ := spelled_append (b := .op o :: tr) (by simp) ht (derives_ne_nil hl)
    obtain ⟨a, w2, z, rfl, ha, hw2, hz, hdiv⟩ := spelled_cons hy (derives_ne_nil hr)
    have ea : a = bytes (opText o) := by cases ha; exact codes_bytes _
    subst ea
    have gl := ihl hx
    have gr := tgood_weaken (by have := level_le o; omega) hr hz (ihr hz)
    have hdiv' : ∀ q, o = .div → NoComment (w2 ++ (z ++ q)) := fun q ho => by
      rw [← List.append_assoc]
      exact noComment_append (hdiv (by rw [ho])) (by simp [(spelled_ne hz).1]) q
    have hcl : ∀ q, Clean (z ++ q) := expr_clean hr hz
    constructor
    · obtain ⟨e, he, h⟩ := gr.ends
      obtain ⟨E, hE, H⟩ := gl.goes o (regroup r none) e rfl he
      refine ⟨E, by rw [regroup]; exact hE, fun w q hw hf => ?_⟩
      obtain ⟨v, hv, h⟩ := h w q hw hf
      refine ⟨v, hv, fun f g h1 h2 => ?_⟩
      have e1 : x ++ (w1 ++ (bytes (opText o) ++ (w2 ++ z))) ++ (w ++ q) =
          x ++ (w1 ++ (bytes (opText o) ++ (w2 ++ (z ++ (w ++ q))))) := by simp
      rw [e1]
      simp only [List.length_append, List.length_cons] at h1 h2
      exact H w1 w2 (z ++ (w ++ q)) (v ++ q) hw1 hw2 (hcl _) (hdiv' _) f tr.length (by omega)
        (fun g hg => h f g (by omega) hg) g (by omega)
    · intro o2 x' y' ho hxy
      obtain ⟨e, he, h⟩ := gr.goes o2 x' y' ho hxy
      obtain ⟨E, hE, H⟩ := gl.goes o (regroup r (some (o2, x'))) e rfl he
      refine ⟨E, ?_, fun v1 v2 q q2 hv1 hv2 hq hd2 f G h1 hG g hg => ?_⟩
      · rw [regroup, if_pos ho.symm, ← regroup_some r (level o) o2 x' ho (derives_level hr)]
        exact hE
      · have e1 : x ++ (w1 ++ (bytes (opText o) ++ (w2 ++ z))) ++ (v1 ++ (bytes (opText o2) ++ (v2 ++ q))) =
            x ++ (w1 ++ (bytes (opText o) ++ (w2 ++ (z ++ (v1 ++ (bytes (opText o2) ++ (v2 ++ q))))))) := by simp
        rw [e1]
        simp only [List.length_append, List.length_cons] at h1 hg
        exact H w1 w2 _ q2 hw1 hw2 (hcl _) (hdiv' _) f (G + tr.length) (by omega)
          (fun g hg => h v1 v2 q q2 hv1 hv2 hq hd2 f G (by omega) hG g hg) g (by omega)

/-- The rule for expressions reads the text of an expression. -/
theorem expression_ok {s : S} {ts : List Tok} (h : Derives 0 s ts) {t : Bytes} (ht : Spelled ts t) :
    ∃ e, Same (regroup s none) e ∧ ∀ w r, Layout w → ∃ v, Layout v ∧ expression (t ++ (w ++ 59 :: r)) = some (e, v ++ 59 :: r) := by
  obtain ⟨e, he, hr⟩ := (tgood_of_derives h ht).ends
  refine ⟨e, he, fun w r hw => ?_⟩
  obtain ⟨v, hv, h⟩ := hr w (59 :: r) hw (.inr ⟨59, r, rfl, .inr rfl⟩)
  refine ⟨v, hv, ?_⟩
  have := (spelled_ne ht).2
  unfold expression
  rw [constExpr_lev]
  exact h _ _ (by simp; omega) (by simp; omega)

/-! ## Values -/

theorem scan_digits {b : Nat} : ∀ (l : List (Nat × Nat)) (a : Nat), (∀ p ∈ l, digit p.2 = p.1 ∧ p.1 < b) →
    scan b a (l.map (·.2)) = (l.map (·.1)).foldl (fun a d => a * b + d) a
  | [], _, _ => rfl
  | p :: l, a, h => by
    obtain ⟨h1, h2⟩ := h p (by simp)
    rw [List.map_cons, List.map_cons, scan, h1, if_pos h2, List.foldl_cons]
    exact scan_digits l _ fun q hq => h q (List.mem_cons_of_mem _ hq)

theorem scan_codes {b : Nat} (hb : b ≤ 10) (ds : List Nat) (a : Nat) (h : ∀ d ∈ ds, d < b) :
    scan b a (ds.map (48 + ·)) = ds.foldl (fun a d => a * b + d) a := by
  have := scan_digits (b := b) (ds.map fun d => (d, 48 + d)) a (by
    intro p hp
    obtain ⟨d, hd, rfl⟩ := List.mem_map.mp hp
    have := h d hd
    exact ⟨digit_code (by omega), this⟩)
  simpa [List.map_map, Function.comp_def] using this

/-- A numeral is read in its base. -/
theorem magnitude_numeral {n : Nat} {t : Bytes} (h : Numeral n t) : magnitude (labelBase t) t = (false, n) := by
  have e0 : bytes "0" = [48] := rfl
  have e1 : bytes "0x" = [48, 120] := rfl
  have e2 : bytes "0X" = [48, 88] := rfl
  cases h with
  | zero => decide
  | @dec d ds h1 h2 =>
    have hb : labelBase ((d :: ds).map (48 + ·)) = 10 := by
      unfold labelBase
      rw [List.map_cons, e0, e1, e2]
      have hne : (48 == 48 + d) = false := by simp; omega
      simp only [List.isPrefixOf, hne, Bool.false_and, Bool.false_eq_true, or_self, if_false]
    have h10 := h2 d (by simp)
    rw [hb, List.map_cons, magnitude_digit (by omega) (by decide), ← List.map_cons, scan_codes (by decide) _ _ h2]
    rfl
  | @oct ds h1 h2 =>
    cases ds with
    | nil => exact absurd rfl h1
    | cons d ds =>
      have h8 := h2 d (by simp)
      have hb : labelBase (48 :: (d :: ds).map (48 + ·)) = 8 := by
        unfold labelBase
        rw [List.map_cons, e0, e1, e2]
        have hne : (120 == 48 + d) = false := by simp; omega
        have hne' : (88 == 48 + d) = false := by simp; omega
        simp [List.isPrefixOf, hne, hne']
      have e3 : 48 :: (d :: ds).map (48 + ·) = (0 :: d :: ds).map (48 + ·) := rfl
      rw [hb, e3, List.map_cons, magnitude_digit (by decide) (by decide), ← List.map_cons, scan_codes (by decide) _ _ (by
        intro x hx
        rcases List.mem_cons.mp hx with rfl | hx
        · decide
        · exact h2 x hx)]
      rfl
  | @hex x l h1 h2 h3 =>
    have hb : labelBase (48 :: x :: l.map (·.2)) = 16 := by
      unfold labelBase
      rw [e1, e2]
      rcases h1 with rfl | rfl <;> simp [List.isPrefixOf]
    cases l with
    | nil => exact absurd rfl h2
    | cons p l =>
      have hp := hexDigit_digit (h3 p (by simp))
      have hs : sign (List.dropWhile space (48 :: x :: (p :: l).map (·.2))) = (false, 48 :: x :: (p :: l).map (·.2)) :=
        sign_digit (d := 0) (by decide)
      have hpre : prefix16 (48 :: x :: (p :: l).map (·.2)) = (p :: l).map (·.2) := by
        unfold prefix16
        rcases h1 with rfl | rfl <;> simp [hp]
      rw [hb, magnitude, hs]
      simp only [if_true]
      rw [hpre, scan_digits _ _ fun q hq => hexDigit_digit (h3 q hq)]
      rfl

theorem literal_numeral {k : PK} (hk : Ops.isInt k = true) {n : Nat} {t : Bytes} (h : Numeral n t) :
    literalValue (.prim k) (.text t) = .ok (.const k (Ops.val k (Expr.literal k n))) := by
  have e1 : strtoll (labelBase t) t = min (n : Int) (2 ^ 63 - 1) := by
    unfold strtoll
    rw [magnitude_numeral h]
    simp only [Bool.false_eq_true, if_false]
    split <;> omega
  have e2 : ((strtoull (labelBase t) t : Nat) : Int) = min (n : Int) (2 ^ 64 - 1) := by
    unfold strtoull
    rw [magnitude_numeral h]
    simp only [Bool.false_eq_true, if_false]
    split <;> omega
  cases k <;> first | exact absurd hk (by decide) | skip
  all_goals
    simp only [literalValue, Ops.isInt, if_true, Ops.signed, Bool.false_eq_true, if_false, e1, e2, Expr.literal]

/-- The names of an expression. -/
def names : E → List String
  | .lit _ => []
  | .name s => [s]
  | .un _ e => names e
  | .bin _ l r => names l ++ names r

/-- What a lookup of a constant yields, as an operand. -/
def Is (x : Ops.Num) (o : Option Item) : Prop :=
  o = some (.const x.k (Ops.val x.k x.v)) ∨ o = none ∧ x = ⟨.bool, 0#8⟩

theorem toNum_const (x : Ops.Num) : toNum (.const x.k (Ops.val x.k x.v)) = some x := by
  obtain ⟨k, v⟩ := x
  rw [toNum, Ops.conv_val]

theorem solve_same {root : Mod Item} {p : Loc} {f : Nat} {k : PK} (hk : Ops.isInt k = true) {env : String → Ops.Num} {e : E} {c : CExpr}
    (h : Same e c) (hn : ∀ s ∈ names e, ∃ o, constant root p f (bytes s) = .ok o ∧ Is (env s) o) :
    solveExpr root p f (.prim k) c = ofNum (Expr.solve k env e) := by
  induction h with
  | lit h => rw [solveExpr, literal_numeral hk h]; rfl
  | @name s h =>
    obtain ⟨o, ho, hi⟩ := hn s (by simp [names])
    rw [solveExpr, ho, Expr.solve]
    simp only [Except.bind]
    rcases hi with rfl | ⟨rfl, e⟩
    · rw [namedValue]
      by_cases hkk : (env s).k = k
      · rw [if_pos (show (Item.const (env s).k _).type = .prim k from congrArg Ty.prim hkk), if_pos hkk]; rfl
      · rw [if_neg (show ¬ (Item.const (env s).k _).type = .prim k by intro h; cases h; exact hkk rfl), if_neg hkk]; rfl
    · have hb : k ≠ .bool := by rintro rfl; cases hk
      rw [namedValue, e, if_neg (by intro h; cases h; exact hb rfl), if_neg (Ne.symm hb)]; rfl
  | @un e x u h ih =>
    rw [solveExpr, ih hn, Expr.solve]
    cases hs : Expr.solve k env e with
    | ok a =>
      simp only [ofNum, Except.bind]
      split
      · rw [negItem, toNum_const]; rfl
      · rfl
    | refused => rfl
    | undefined => rfl
    | float => rfl
  | @bin l r x y o h1 h2 ih1 ih2 =>
    rw [solveExpr, ih1 fun s hs => hn s (by simp [names, hs]), ih2 fun s hs => hn s (by simp [names, hs]), Expr.solve]
    cases hl : Expr.solve k env l with
    | ok a =>
      cases hr : Expr.solve k env r with
      | ok b =>
        simp only [ofNum, Except.bind]
        rw [binItem, toNum_const, toNum_const]
        rfl
      | refused => rfl
      | undefined => rfl
      | float => rfl
    | refused => rfl
    | undefined => rfl
    | float => rfl

end Verif.Idl.Syn
