import Verif.Model.IdlGrammar
import Verif.Spec.Idl
import Verif.Lemmas.Text
/-!
# Reading with the rules of the grammar
-/

namespace Verif.Idl.Syn

open Text

variable {α β : Type}

theorem bind_run (p : P α) (k : α → P β) (s : Bytes) : (p >>= k) s = (p s).bind fun x => k x.1 x.2 := rfl
theorem pure_run (a : α) (s : Bytes) : (pure a : P α) s = some (a, s) := rfl

/-- The first character of a text, if there is one, is such. -/
def Head (f : Nat → Prop) : Bytes → Prop
  | [] => True
  | c :: _ => f c

/-- No white space and no comment begins here. -/
def Clean (s : Bytes) : Prop := Head (fun c => blank c = false ∧ c ≠ 47) s

theorem blanks_none : Blanks [] := fun _ h => by cases h

theorem blanks_layout {b : Bytes} (h : Blanks b) : Layout b := .space fun c hc => by rcases h c hc with rfl | rfl <;> simp

theorem blanks_nil : Layout [] := blanks_layout blanks_none

theorem blanks_both {a b : Bytes} (ha : Blanks a) (hb : Blanks b) : Blanks (a ++ b) :=
  fun c h => (List.mem_append.mp h).elim (ha c) (hb c)

/-- Blanks and new lines can be put before any layout. -/
theorem blanks_append {a b : Bytes} (ha : Blanks a) (hb : Layout b) : Layout (a ++ b) := by
  cases hb with
  | space h => exact .space fun c hc => (List.mem_append.mp hc).elim (fun h => by rcases ha c h with rfl | rfl <;> simp) (h c)
  | line h1 h2 h3 h4 h5 => rw [← List.append_assoc]; exact .line (blanks_both ha h1) h2 h3 h4 h5
  | block h1 h2 h3 => rw [← List.append_assoc]; exact .block (blanks_both ha h1) h2 h3

/-- Blanks and new lines can be put after any layout. -/
theorem layout_append {a b : Bytes} (ha : Layout a) (hb : Blanks b) : Layout (a ++ b) := by
  induction ha with
  | space h => exact .space fun c hc => (List.mem_append.mp hc).elim (h c) (fun h => by rcases hb c h with rfl | rfl <;> simp)
  | line h1 h2 h3 h4 _ ih => simp only [List.append_assoc, List.cons_append]; exact .line h1 h2 h3 h4 ih
  | block h1 h2 _ ih => simp only [List.append_assoc, List.cons_append]; exact .block h1 h2 ih

/-- How a layout begins. -/
theorem layout_head {b : Bytes} (h : Layout b) : Head (fun c => c = 32 ∨ c = 9 ∨ c = 13 ∨ c = 10 ∨ c = 47) b := by
  have key : ∀ {b : Bytes} {t : Bytes}, Blanks b → Head (fun c => c = 32 ∨ c = 9 ∨ c = 13 ∨ c = 10 ∨ c = 47) (b ++ 47 :: t) := by
    intro b t h
    cases b with
    | nil => simp [Head]
    | cons c b => rcases h c (by simp) with rfl | rfl <;> simp [Head]
  cases h with
  | space h =>
    cases b with
    | nil => trivial
    | cons c b => rcases h c (by simp) with rfl | rfl | rfl | rfl <;> simp [Head]
  | line h => exact key h
  | block h => exact key h

/-! ## Repetition -/

/-- A rule that matches several times, each time reading something, and then no more. -/
inductive Chain (p : P α) : Bytes → List α → Bytes → Prop
  | nil {s} : p s = none → Chain p s [] s
  | cons {s a r l e} : p s = some (a, r) → r.length < s.length → Chain p r l e → Chain p s (a :: l) e

theorem upTo_succ (p : P α) (n : Nat) (s : Bytes) : p.upTo (n + 1) s =
    match p s with | some r => (p.upTo n r.2).map fun x => (r.1 :: x.1, x.2) | none => some ([], s) := rfl

theorem upTo_chain {p : P α} {s : Bytes} {l : List α} {e : Bytes} (h : Chain p s l e) :
    ∀ n, s.length ≤ n → p.upTo n s = some (l, e) := by
  induction h with
  | @nil s h => intro n _; cases n with
    | zero => rfl
    | succ n => rw [upTo_succ, h]
  | @cons s a r l e h hl _ ih =>
    intro n hn
    cases n with
    | zero => omega
    | succ n => rw [upTo_succ, h]; simp only []; rw [ih n (by omega)]; rfl

theorem star_chain {p : P α} {s : Bytes} {l : List α} {e : Bytes} (h : Chain p s l e) : p.star s = some (l, e) :=
  upTo_chain h _ (Nat.le_refl _)

theorem plus_chain {p : P α} {s r : Bytes} {a : α} {l : List α} {e : Bytes} (h : p s = some (a, r)) (hc : Chain p r l e) :
    p.plus s = some (a :: l, e) := by
  unfold P.plus
  rw [bind_run, h]
  simp only [Option.bind_some]
  rw [bind_run, star_chain hc]
  rfl

theorem one_ok {f : Nat → Bool} {c : Nat} (h : f c = true) (r : Bytes) : one f (c :: r) = some (c, r) := by
  rw [one, if_pos h]

theorem one_no {f : Nat → Bool} {s : Bytes} (h : Head (fun c => f c = false) s) : one f s = none := by
  cases s with
  | nil => rfl
  | cons c r => rw [one, if_neg]; simp only [Head] at h; rw [h]; decide

theorem chain_class {f : Nat → Bool} : ∀ {t r : Bytes}, (∀ c ∈ t, f c = true) → Head (fun c => f c = false) r →
    Chain (one f) (t ++ r) t r
  | [], _, _, hr => .nil (one_no hr)
  | c :: t, r, ht, hr => by
    refine .cons (one_ok (ht c (List.mem_cons_self ..)) _) (by simp) (chain_class (fun x hx => ht x (List.mem_cons_of_mem _ hx)) hr)

/-! ## Literals -/

theorem strip_append (w s : Bytes) : strip w (w ++ s) = some s := by
  induction w with
  | nil => rfl
  | cons c w ih => rw [List.cons_append, strip, if_pos rfl, ih]

theorem strip_some {w s r : Bytes} (h : strip w s = some r) : s = w ++ r := by
  induction w generalizing s with
  | nil => rw [strip] at h; cases h; rfl
  | cons c w ih =>
    cases s with
    | nil => simp [strip] at h
    | cons d s =>
      rw [strip] at h
      split at h
      · rename_i hc; subst hc; rw [ih h, List.cons_append]
      · cases h

theorem lit_ok (w : String) (s : Bytes) : lit w (bytes w ++ s) = some ((), s) := by
  rw [lit, strip_append]; rfl

theorem lit_no {w : String} {s : Bytes} (h : strip (bytes w) s = none) : lit w s = none := by rw [lit, h]; rfl

theorem or_first {p q : P α} {s : Bytes} {x : α × Bytes} (h : p s = some x) : (p.or q) s = some x := by rw [P.or, h]
theorem or_second {p q : P α} {s : Bytes} (h : p s = none) : (p.or q) s = q s := by rw [P.or, h]

theorem opt_some {p : P α} {s r : Bytes} {a : α} (h : p s = some (a, r)) : p.opt s = some (some a, r) := by rw [P.opt, h]
theorem opt_none {p : P α} {s : Bytes} (h : p s = none) : p.opt s = some (none, s) := by rw [P.opt, h]

theorem bind_ok {p : P α} {k : α → P β} {s r : Bytes} {a : α} (h : p s = some (a, r)) : (p >>= k) s = k a r := by
  rw [bind_run, h]; rfl
theorem bind_no {p : P α} {k : α → P β} {s : Bytes} (h : p s = none) : (p >>= k) s = none := by rw [bind_run, h]; rfl

/-! ## White space -/

/-- No white space and no comment begins here. -/
structure Start (s : Bytes) : Prop where
  blank : Head (fun c => blank c = false) s
  line : strip (bytes "//") s = none
  block : strip (bytes "/*") s = none

theorem lead_any {b s : Bytes} (hb : Blanks b) (hs : Head (fun c => c ≠ 32 ∧ c ≠ 10) s) : lead (b ++ s) = some (b, s) := by
  refine star_chain (chain_class (fun c h => ?_) ?_)
  · rcases hb c h with h | h <;> simp [h]
  · cases s with
    | nil => trivial
    | cons c s =>
      simp only [Head, Bool.or_eq_false_iff, decide_eq_false_iff_not]
      exact hs

theorem slash_no {s : Bytes} (hs : Clean s) (w : String) (hw : (bytes w).head? = some 47) : strip (bytes w) s = none := by
  cases s with
  | nil => cases h : bytes w with
    | nil => rw [h] at hw; cases hw
    | cons a t => rfl
  | cons c s => cases h : bytes w with
    | nil => rw [h] at hw; cases hw
    | cons a t =>
      rw [h] at hw; cases hw
      rw [strip, if_neg (fun e => hs.2 e.symm)]

theorem Clean.start {s : Bytes} (hs : Clean s) : Start s := by
  refine ⟨?_, slash_no hs "//" rfl, slash_no hs "/*" rfl⟩
  cases s with
  | nil => trivial
  | cons c s => exact hs.1

/-- White space before something that is neither white space nor a comment: the comment rules fail. -/
theorem ws_space {b s : Bytes} (hb : ∀ c ∈ b, c = 32 ∨ c = 9 ∨ c = 13 ∨ c = 10) (hs : Start s) (f : Nat) :
    ws (f + 1) (b ++ s) = if b = [] then none else some ((), s) := by
  have hl : ∃ l r, lead (b ++ s) = some (l, r) ∧ strip (bytes "//") r = none ∧ strip (bytes "/*") r = none := by
    -- the blanks and new lines at the front
    have key : ∀ b : Bytes, (∀ c ∈ b, c = 32 ∨ c = 9 ∨ c = 13 ∨ c = 10) → ∃ x y, b = x ++ y ∧ Blanks x ∧
        Head (fun c => c = 9 ∨ c = 13) y := by
      intro b
      induction b with
      | nil => exact fun _ => ⟨[], [], rfl, (fun _ h => by cases h), trivial⟩
      | cons c b ih =>
        intro h
        rcases h c (by simp) with rfl | rfl | rfl | rfl
        · obtain ⟨x, y, rfl, h1, h2⟩ := ih fun c hc => h c (List.mem_cons_of_mem _ hc)
          exact ⟨32 :: x, y, rfl, fun c hc => (List.mem_cons.mp hc).elim (fun e => .inl e) (h1 c), h2⟩
        · exact ⟨[], 9 :: b, rfl, (fun _ h => by cases h), .inl rfl⟩
        · exact ⟨[], 13 :: b, rfl, (fun _ h => by cases h), .inr rfl⟩
        · obtain ⟨x, y, rfl, h1, h2⟩ := ih fun c hc => h c (List.mem_cons_of_mem _ hc)
          exact ⟨10 :: x, y, rfl, fun c hc => (List.mem_cons.mp hc).elim (fun e => .inr e) (h1 c), h2⟩
    obtain ⟨x, y, rfl, h1, h2⟩ := key b hb
    refine ⟨x, y ++ s, ?_, ?_⟩
    · rw [List.append_assoc]
      refine lead_any h1 ?_
      cases y with
      | nil =>
        have := hs.blank
        cases s with
        | nil => trivial
        | cons c s =>
          simp only [List.nil_append, Head] at this ⊢
          constructor <;> rintro rfl <;> exact absurd this (by decide)
      | cons c y =>
        simp only [List.cons_append, Head] at h2 ⊢
        omega
    · cases y with
      | nil => exact ⟨hs.line, hs.block⟩
      | cons c y =>
        simp only [Head] at h2
        have e1 : bytes "//" = [47, 47] := rfl
        have e2 : bytes "/*" = [47, 42] := rfl
        rw [List.cons_append, e1, e2, strip, strip, if_neg (by omega), if_neg (by omega)]
        exact ⟨rfl, rfl⟩
  obtain ⟨l, r, hl, h1, h2⟩ := hl
  unfold ws
  rw [or_second]
  · cases b with
    | nil =>
      rw [if_pos rfl]
      refine bind_no ?_
      unfold P.plus
      exact bind_no (one_no hs.blank)
    | cons c b =>
      rw [if_neg (by simp)]
      have hblank : ∀ x : Nat, (x = 32 ∨ x = 9 ∨ x = 13 ∨ x = 10) → blank x = true := by rintro x (rfl | rfl | rfl | rfl) <;> rfl
      rw [List.cons_append, bind_ok (plus_chain (one_ok (hblank c (hb c (by simp))) _)
        (chain_class (t := b) (r := s) (fun x hx => hblank x (hb x (List.mem_cons_of_mem _ hx))) hs.blank))]
      rfl
  · rw [or_second]
    · rw [bind_ok hl]
      exact bind_no (lit_no h2)
    · rw [bind_ok hl]
      exact bind_no (lit_no h1)

theorem eol_no {c : Nat} {s : Bytes} (h1 : c ≠ 10) (h2 : c ≠ 13) : eol (c :: s) = none := by
  have e1 : strip (bytes "\r\n") (c :: s) = none := by rw [show bytes "\r\n" = [13, 10] from rfl, strip, if_neg (Ne.symm h2)]
  have e2 : strip (bytes "\n") (c :: s) = none := by rw [show bytes "\n" = [10] from rfl, strip, if_neg (Ne.symm h1)]
  have e3 : strip (bytes "\r") (c :: s) = none := by rw [show bytes "\r" = [13] from rfl, strip, if_neg (Ne.symm h2)]
  unfold eol
  rw [or_second (lit_no e1), or_second (lit_no e2), or_second (lit_no e3)]
  rfl

theorem eol_ok {e : Bytes} (he : e = [10] ∨ e = [13, 10]) (s : Bytes) : eol (e ++ s) = some ((), s) := by
  unfold eol
  rcases he with rfl | rfl
  · have e1 : strip (bytes "\r\n") ([10] ++ s) = none := by
      rw [show bytes "\r\n" = [13, 10] from rfl, List.cons_append, strip, if_neg (by decide)]
    rw [or_second (lit_no e1)]
    exact or_first (lit_ok "\n" s)
  · exact or_first (lit_ok "\r\n" s)

/-- The text of a line comment up to the end of the line. -/
theorem line_chain {e : Bytes} (he : e = [10] ∨ e = [13, 10]) (s : Bytes) : ∀ t : Bytes, (∀ c ∈ t, c ≠ 10 ∧ c ≠ 13) →
    t.getLast? ≠ some 92 →
    Chain (nlEscape.or (do eol.not; let _ ← one fun _ => true; pure ())) (t ++ (e ++ s)) (t.map fun _ => ()) (e ++ s) := by
  intro t
  induction t with
  | nil =>
    intro _ _
    refine .nil ?_
    have h1 : nlEscape ([] ++ (e ++ s)) = none := by
      unfold nlEscape
      refine bind_no (lit_no ?_)
      rcases he with rfl | rfl
      · rw [show bytes "\\" = [92] from rfl, List.nil_append, List.cons_append, strip, if_neg (by decide)]
      · rw [show bytes "\\" = [92] from rfl, List.nil_append, List.cons_append, strip, if_neg (by decide)]
    have h2 : eol.not ([] ++ (e ++ s)) = none := by rw [P.not, List.nil_append, eol_ok he]
    rw [or_second h1]
    exact bind_no h2
  | cons c t ih =>
    intro h hl
    obtain ⟨h1, h2⟩ := h c (by simp)
    have hl' : t.getLast? ≠ some 92 := by
      cases t with
      | nil => simp
      | cons d t => rwa [List.getLast?_cons_cons] at hl
    refine .cons (r := t ++ (e ++ s)) ?_ (by simp) (ih (fun c hc => h c (List.mem_cons_of_mem _ hc)) hl')
    have hn : nlEscape (c :: (t ++ (e ++ s))) = none := by
      unfold nlEscape
      by_cases hc : c = 92
      · subst hc
        have e0 : lit "\\" (92 :: (t ++ (e ++ s))) = some ((), t ++ (e ++ s)) := lit_ok "\\" _
        rw [bind_ok e0]
        cases t with
        | nil => exact absurd rfl hl
        | cons d t => exact eol_no (h d (by simp)).1 (h d (by simp)).2
      · refine bind_no (lit_no ?_)
        rw [show bytes "\\" = [92] from rfl, strip, if_neg (Ne.symm hc)]
    rw [List.cons_append, or_second hn]
    have h3 : eol.not (c :: (t ++ (e ++ s))) = some ((), c :: (t ++ (e ++ s))) := by rw [P.not, eol_no h1 h2]
    rw [bind_ok h3, bind_ok (one_ok rfl _)]
    rfl

/-- The text of a block comment up to its end. -/
theorem block_chain (s : Bytes) : ∀ t : Bytes, (∀ x y, t ≠ x ++ 42 :: 47 :: y) →
    Chain (do (lit "*/").not; one fun _ => true) (t ++ (42 :: 47 :: s)) t (42 :: 47 :: s) := by
  intro t
  induction t with
  | nil =>
    intro _
    refine .nil (bind_no ?_)
    rw [P.not, List.nil_append]
    have : lit "*/" (42 :: 47 :: s) = some ((), s) := lit_ok "*/" s
    rw [this]
  | cons c t ih =>
    intro h
    refine .cons (r := t ++ (42 :: 47 :: s)) ?_ (by simp) (ih fun x y e => h (c :: x) y (by rw [e]; rfl))
    have hn : strip (bytes "*/") (c :: (t ++ (42 :: 47 :: s))) = none := by
      rw [show bytes "*/" = [42, 47] from rfl, strip]
      split
      · rename_i hc
        cases t with
        | nil => rw [List.nil_append, strip, if_neg (by decide)]
        | cons d t =>
          rw [List.cons_append, strip, if_neg]
          rintro rfl
          exact h [] t (by rw [← hc]; rfl)
      · rfl
    have h3 : (lit "*/").not (c :: (t ++ (42 :: 47 :: s))) = some ((), c :: (t ++ (42 :: 47 :: s))) := by rw [P.not, lit_no hn]
    rw [List.cons_append, bind_ok h3, one_ok rfl]

theorem ws_layout {b : Bytes} (hb : Layout b) {s : Bytes} (hs : Start s) : ∀ f, b.length ≤ f →
    ws (f + 1) (b ++ s) = if b = [] then none else some ((), s) := by
  induction hb with
  | space h => exact fun f _ => ws_space h hs f
  | @line b t e r hb ht hl he hr ih =>
    intro f hf
    rw [if_neg (by simp)]
    obtain ⟨g, rfl⟩ : ∃ g, f = g + 1 := ⟨f - 1, by simp at hf; omega⟩
    have hr := ih g (by simp at hf; omega)
    have ho : (ws (g + 1)).opt (r ++ s) = some (if r = [] then none else some (), s) := by
      split
      · rename_i h0; rw [if_pos h0] at hr; rw [opt_none hr, h0]; rfl
      · rename_i h0; rw [if_neg h0] at hr; rw [opt_some hr]
    have e1 : b ++ (47 :: 47 :: (t ++ (e ++ r))) ++ s = b ++ (bytes "//" ++ (t ++ (e ++ (r ++ s)))) := by
      rw [show bytes "//" = [47, 47] from rfl]; simp
    rw [ws, e1]
    refine or_first (or_first ?_)
    rw [bind_ok (lead_any hb (by exact (by decide : (47 : Nat) ≠ 32 ∧ (47 : Nat) ≠ 10))), bind_ok (lit_ok "//" _),
      bind_ok (star_chain (line_chain he _ t ht hl)), bind_ok (eol_ok he _), bind_ok ho]
    rfl
  | @block b t r hb ht hr ih =>
    intro f hf
    rw [if_neg (by simp)]
    obtain ⟨g, rfl⟩ : ∃ g, f = g + 1 := ⟨f - 1, by simp at hf; omega⟩
    have hr := ih g (by simp at hf; omega)
    have ho : (ws (g + 1)).opt (r ++ s) = some (if r = [] then none else some (), s) := by
      split
      · rename_i h0; rw [if_pos h0] at hr; rw [opt_none hr, h0]; rfl
      · rename_i h0; rw [if_neg h0] at hr; rw [opt_some hr]
    have e1 : b ++ (47 :: 42 :: (t ++ (42 :: 47 :: r))) ++ s = b ++ (bytes "/*" ++ (t ++ (42 :: 47 :: (r ++ s)))) := by
      rw [show bytes "/*" = [47, 42] from rfl]; simp
    have hl := lead_any (s := bytes "/*" ++ (t ++ (42 :: 47 :: (r ++ s)))) hb (by exact (by decide : (47 : Nat) ≠ 32 ∧ (47 : Nat) ≠ 10))
    have hn : strip (bytes "//") (bytes "/*" ++ (t ++ (42 :: 47 :: (r ++ s)))) = none := by
      rw [show bytes "//" = [47, 47] from rfl, show bytes "/*" = [47, 42] from rfl, List.cons_append, List.cons_append, strip,
        if_pos rfl, strip, if_neg (by decide)]
    rw [ws, e1]
    refine or_first ?_
    rw [or_second (by rw [bind_ok hl]; exact bind_no (lit_no hn)), bind_ok hl, bind_ok (lit_ok "/*" _),
      bind_ok (star_chain (block_chain _ t ht)),
      bind_ok (show lit "*/" (42 :: 47 :: (r ++ s)) = some ((), r ++ s) from lit_ok "*/" _), bind_ok ho]
    rfl

theorem wsOpt_run (s : Bytes) : wsOpt s = ((ws (s.length + 1)).opt s).map fun x => ((), x.2) := by
  show ((ws (s.length + 1)).opt s).bind _ = _
  cases (ws (s.length + 1)).opt s <;> rfl

theorem wsOpt_start {b s : Bytes} (hb : Layout b) (hs : Start s) : wsOpt (b ++ s) = some ((), s) := by
  have h := ws_layout hb hs (b ++ s).length (by simp)
  rw [wsOpt_run]
  by_cases he : b = []
  · rw [if_pos he] at h
    rw [opt_none h, he]; rfl
  · rw [if_neg he] at h
    rw [opt_some h]; rfl

theorem wsOpt_ok {b s : Bytes} (hb : Layout b) (hs : Clean s) : wsOpt (b ++ s) = some ((), s) := wsOpt_start hb hs.start

theorem wsOpt_clean {s : Bytes} (hs : Clean s) : wsOpt s = some ((), s) := by
  have h := wsOpt_ok blanks_nil hs
  rwa [List.nil_append] at h

/-! ## Words -/

theorem identifier_ok {n r : Bytes} {c : Nat} (hc : idStart c = true) (hn : ∀ x ∈ n, idChar x = true)
    (hr : Head (fun x => idChar x = false) r) : identifier (c :: (n ++ r)) = some (c :: n, r) := by
  unfold identifier
  rw [bind_ok (one_ok hc _), bind_ok (star_chain (chain_class hn hr))]
  rfl

theorem identifier_no {s : Bytes} (h : Head (fun c => idStart c = false) s) : identifier s = none := by
  unfold identifier; exact bind_no (one_no h)

theorem idStart_clean {c : Nat} (h : idStart c = true) : blank c = false ∧ c ≠ 47 := by
  simp only [idStart, Bool.or_eq_true, Bool.and_eq_true, decide_eq_true_eq] at h
  simp only [blank, Bool.or_eq_false_iff, decide_eq_false_iff_not]
  omega

theorem identifier_yes {c : Nat} {s : Bytes} (h : idStart c = true) : ∃ x r, identifier (c :: s) = some (x, r) := by
  unfold identifier
  rw [bind_ok (one_ok h _)]
  have key : ∀ n s, ∃ l r, (one idChar).upTo n s = some (l, r) := by
    intro n
    induction n with
    | zero => intro s; exact ⟨_, _, rfl⟩
    | succ n ih =>
      intro s
      rw [upTo_succ]
      cases h : one idChar s with
      | none => exact ⟨_, _, rfl⟩
      | some x =>
        obtain ⟨l, r, e⟩ := ih x.2
        simp only [e]
        exact ⟨_, _, rfl⟩
  obtain ⟨l, r, e⟩ := key s.length s
  have e' : (one idChar).star s = some (l, r) := e
  exact ⟨c :: l, r, by rw [bind_ok e']; rfl⟩

theorem endKw_ok {s : Bytes} (h : Head (fun c => idStart c = false) s) : endKw s = some ((), s) := by
  unfold endKw; rw [P.not, identifier_no h]

theorem endKw_no {c : Nat} {s : Bytes} (h : idStart c = true) : endKw (c :: s) = none := by
  obtain ⟨x, r, e⟩ := identifier_yes (s := s) h
  unfold endKw; rw [P.not, e]

/-- A word of letters. -/
def Word (w : String) : Prop := Head (fun c => idStart c = true) (bytes w) ∧ bytes w ≠ []

theorem word_clean {w : String} (hw : Word w) (s : Bytes) : Clean (bytes w ++ s) := by
  obtain ⟨h1, h2⟩ := hw
  cases h : bytes w with
  | nil => exact absurd h h2
  | cons c t => rw [h] at h1; exact idStart_clean h1

theorem kw_ok {w : String} (hw : Word w) {a b s : Bytes} (ha : Layout a) (hb : Layout b) (hs : Clean s)
    (he : Head (fun c => idStart c = false) (b ++ s)) : kw w (a ++ (bytes w ++ (b ++ s))) = some ((), s) := by
  unfold kw
  rw [bind_ok (wsOpt_ok ha (word_clean hw _)), bind_ok (lit_ok w _), bind_ok (endKw_ok he)]
  exact wsOpt_ok hb hs

/-- The word is not at the front of the text, or only as the beginning of a longer one. -/
def NotAt (w : String) (s : Bytes) : Prop := ∀ r, strip (bytes w) s = some r → ∃ c t, r = c :: t ∧ idStart c = true

theorem kw_no {w : String} {a s : Bytes} (ha : Layout a) (hs : Clean s) (h : NotAt w s) : kw w (a ++ s) = none := by
  unfold kw
  rw [bind_ok (wsOpt_ok ha hs)]
  cases e : strip (bytes w) s with
  | none => exact bind_no (lit_no e)
  | some r =>
    obtain ⟨c, t, rfl, hc⟩ := h r e
    have : lit w s = some ((), c :: t) := by rw [lit, e]; rfl
    rw [bind_ok this]
    exact bind_no (endKw_no hc)

theorem wsReq_no {s : Bytes} (hs : Clean s) : wsReq s = none := by
  unfold wsReq
  have h := ws_layout blanks_nil hs.start s.length (by simp)
  rw [if_pos rfl] at h
  exact h

theorem wsReq_ok {b s : Bytes} (hb : Layout b) (hne : b ≠ []) (hs : Clean s) : wsReq (b ++ s) = some ((), s) := by
  unfold wsReq
  have h := ws_layout hb hs.start (b ++ s).length (by simp)
  rw [if_neg hne] at h
  exact h

theorem kw2_no {v w : String} {a s : Bytes} (ha : Layout a) (hs : Clean s) (h : NotAt v s) : kw2 v w (a ++ s) = none := by
  unfold kw2
  rw [bind_ok (wsOpt_ok ha hs)]
  cases e : strip (bytes v) s with
  | none => exact bind_no (lit_no e)
  | some r =>
    obtain ⟨c, t, rfl, hc⟩ := h r e
    have : lit v s = some ((), c :: t) := by rw [lit, e]; rfl
    rw [bind_ok this]
    exact bind_no (wsReq_no (idStart_clean hc))

theorem kw3_no {u v w : String} {a s : Bytes} (ha : Layout a) (hs : Clean s) (h : NotAt u s) : kw3 u v w (a ++ s) = none := by
  unfold kw3
  rw [bind_ok (wsOpt_ok ha hs)]
  cases e : strip (bytes u) s with
  | none => exact bind_no (lit_no e)
  | some r =>
    obtain ⟨c, t, rfl, hc⟩ := h r e
    have : lit u s = some ((), c :: t) := by rw [lit, e]; rfl
    rw [bind_ok this]
    exact bind_no (wsReq_no (idStart_clean hc))

theorem kw2_ok {v w : String} (hv : Word v) (hw : Word w) {a b d s : Bytes} (ha : Layout a) (hb : Layout b) (hne : b ≠ [])
    (hd : Layout d) (hs : Clean s) (he : Head (fun c => idStart c = false) (d ++ s)) :
    kw2 v w (a ++ (bytes v ++ (b ++ (bytes w ++ (d ++ s))))) = some ((), s) := by
  unfold kw2
  rw [bind_ok (wsOpt_ok ha (word_clean hv _)), bind_ok (lit_ok v _), bind_ok (wsReq_ok hb hne (word_clean hw _)),
    bind_ok (lit_ok w _), bind_ok (endKw_ok he)]
  exact wsOpt_ok hd hs

theorem sym_ok {w : String} (hw : Clean (bytes w)) (hne : bytes w ≠ []) {a b s : Bytes} (ha : Layout a) (hb : Layout b)
    (hs : Clean s) : sym w (a ++ (bytes w ++ (b ++ s))) = some ((), s) := by
  have hc : Clean (bytes w ++ (b ++ s)) := by
    cases h : bytes w with
    | nil => exact absurd h hne
    | cons c t => rw [h] at hw; exact hw
  unfold sym
  rw [bind_ok (wsOpt_ok ha hc), bind_ok (lit_ok w _)]
  exact wsOpt_ok hb hs

theorem sym_no {w : String} {a s : Bytes} (ha : Layout a) (hs : Clean s) (h : strip (bytes w) s = none) :
    sym w (a ++ s) = none := by
  unfold sym
  rw [bind_ok (wsOpt_ok ha hs)]
  exact bind_no (lit_no h)

end Verif.Idl.Syn
