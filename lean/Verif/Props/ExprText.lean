import Verif.Spec.ConstText
import Verif.Lemmas.ConstText
import Verif.Props.IdlConst
/-!
# C44 from the text on

Constant declarations as they are written, in any layout, and the constants the module has after the text is parsed.
-/

namespace Verif.Idl
open Syn Gen Text Expr
open Ops (Num represents isInt represents_eq)

theorem operand_ev {root : Mod Item} {x : String} {v : Num} (h : IsConstant root x v ∨ Missing root x ∧ v = ⟨.bool, 0#8⟩) :
    Ev fun f => ∃ o, Syn.constant root [] f (bytes x) = .ok o ∧ Is v o := by
  rcases h with ⟨q, y, hl, hf⟩ | ⟨⟨r, ⟨n, hl⟩, hne, hf⟩, rfl⟩
  · refine (look_ev hl).mono fun f h => ⟨_, ?_, .inl rfl⟩
    rw [Syn.constant, nm_bytes, h, ← represents_eq, ← hf]
    rfl
  · refine ⟨n, fun f hnf => ⟨none, ?_, .inr ⟨rfl, rfl⟩⟩⟩
    have : look root [] f x.toList = .ok r := by
      unfold look
      rw [resolve_le root hnf hl]
      cases r with
      | ub => exact absurd rfl hne
      | _ => rfl
    rw [Syn.constant, nm_bytes, this, ← hf]
    rfl

theorem solve_ev {root : Mod Item} {d : Line} (hk : isInt d.kind = true) {s : S} {e : CExpr} (hd : Derives 0 s d.tokens)
    (he : Syn.Same (regroup s none) e) {env : String → Num}
    (hn : ∀ x, .name x ∈ d.tokens → IsConstant root x (env x) ∨ Missing root x ∧ env x = ⟨.bool, 0#8⟩) :
    ∃ o, Expr.constant d.kind env d.tokens = some o ∧ Ev fun f => solveExpr root [] f (.prim d.kind) e = ofNum o := by
  refine ⟨_, by rw [Expr.constant, C44_parsed_with_right_grouping s _ hd]; rfl, ?_⟩
  have : ∀ x ∈ names (regroup s none), Ev fun f => ∃ o, Syn.constant root [] f (bytes x) = .ok o ∧ Is (env x) o := by
    intro x hx
    rcases names_regroup hd none x hx with h | ⟨_, _, h, _⟩
    · exact operand_ev (hn x h)
    · cases h
  exact (Ev.list this).mono fun f h => solve_same hk he h

theorem written_kind {d : Line} {t : Bytes} (h : Written d t) : isInt d.kind = true ∧ Usable d.name := by
  cases h with
  | mk hn ht => exact ⟨by cases ht <;> rfl, hn⟩

theorem lines_kind {l : List Line} {t : Bytes} (h : Lines l t) : ∀ d ∈ l, isInt d.kind = true ∧ Usable d.name := by
  induction h with
  | nil _ => simp
  | cons _ hw _ ih => exact List.forall_mem_cons.mpr ⟨written_kind hw, ih⟩

theorem solve_kind {k : PK} (hk : isInt k = true) {env : String → Num} : ∀ {e : E} {v : Num}, Expr.solve k env e = .ok v → v.k = k := by
  intro e
  induction e with
  | lit n => intro v h; rw [Expr.solve, Ops.Out.ok.injEq] at h; rw [← h]
  | name s =>
    intro v h
    rw [Expr.solve] at h
    split at h
    · rename_i hs; rw [Ops.Out.ok.injEq] at h; rw [← h, hs]
    · cases h
  | un u e ih =>
    intro v h
    rw [Expr.solve] at h
    cases he : Expr.solve k env e with
    | ok x =>
      rw [he] at h
      simp only [] at h
      have hx := ih he
      split at h
      · obtain ⟨xk, xv⟩ := x
        simp only [] at hx
        subst hx
        cases xk <;> first | exact absurd hk (by decide) | skip
        all_goals
          simp only [Ops.neg, PK.isFloat, Bool.false_eq_true, if_false] at h
          first
          | cases h
          | (split at h
             · rw [Ops.Out.ok.injEq] at h; rw [← h]
             · cases h)
      · rw [Ops.Out.ok.injEq] at h; rw [← h]; exact hx
    | refused => rw [he] at h; cases h
    | undefined => rw [he] at h; cases h
    | float => rw [he] at h; cases h
  | bin o l r ihl ihr =>
    intro v h
    rw [Expr.solve] at h
    cases hl : Expr.solve k env l with
    | ok x =>
      rw [hl] at h
      simp only [] at h
      cases hr : Expr.solve k env r with
      | ok y =>
        rw [hr] at h
        simp only [Ops.binop] at h
        split at h
        · split at h <;> cases h
        · split at h
          · split at h
            · split at h
              · rw [Ops.Out.ok.injEq] at h; subst h; exact ihl (v := x) hl
              · cases h
              · cases h
              · cases h
            · cases h
          · cases h
      | refused => rw [hr] at h; cases h
      | undefined => rw [hr] at h; cases h
      | float => rw [hr] at h; cases h
    | refused => rw [hl] at h; cases h
    | undefined => rw [hl] at h; cases h
    | float => rw [hl] at h; cases h

theorem constant_kind {k : PK} (hk : isInt k = true) {env : String → Num} {ts : List Tok} {v : Num}
    (h : Expr.constant k env ts = some (.ok v)) : v.k = k := by
  rw [Expr.constant, Option.map_eq_some_iff] at h
  obtain ⟨e, _, h⟩ := h
  exact solve_kind hk h

theorem build_const (c : Ctx) (root : Mod Item) {d : Line} (hk : isInt d.kind = true) (hu : Usable d.name) {e : CExpr} {f : Nat} {o : Ops.Out Num}
    (h : solveExpr root [] f (.prim d.kind) e = ofNum o) :
    (∀ v, o = .ok v → v.k = d.kind → build c f [] root (.const (.prim d.kind) (bytes d.name) e) =
      (if omHas (root.content.get .const) d.name.toList = true then root else declared root d.name v, none)) ∧
    (o = .refused → build c f [] root (.const (.prim d.kind) (bytes d.name) e) = (root, some .refused)) ∧
    (o = .undefined → build c f [] root (.const (.prim d.kind) (bytes d.name) e) = (root, some .ub)) := by
  have h1 : evalType c root [] f (.prim d.kind) = .ok (.prim d.kind) := by
    revert hk
    generalize d.kind = k
    intro hk
    cases k <;> first | exact absurd hk (by decide) | rfl
  have h2 : constKind (.prim d.kind) = .ok (.prim d.kind) := by
    revert hk
    generalize d.kind = k
    intro hk
    cases k <;> first | exact absurd hk (by decide) | rfl
  have hb : build c f [] root (.const (.prim d.kind) (bytes d.name) e) =
      orStop root (ofNum o) fun i => orStop root (logged i) fun _ => ((register root [] .const (nm (bytes d.name)) i).1, none) := by
    rw [build, buildConst, h1, orStop, h2, orStop, h]
  rw [hb]
  refine ⟨fun v hv hkv => ?_, fun hv => by subst hv; rfl, fun hv => by subst hv; rfl⟩
  subst hv
  have h3 : logged (.const v.k (Ops.val v.k v.v)) = .ok () := by
    rw [← hkv] at hk
    clear hb h
    obtain ⟨k, w⟩ := v
    replace hk : isInt k = true := hk
    clear hkv
    cases k <;> first | exact absurd hk (by decide) | rfl
  simp only [ofNum, orStop, h3, nm_bytes]
  have hco := ident_colon hu.1
  by_cases ha : omHas (root.content.get .const) d.name.toList = true
  · rw [if_pos ha, register_at (show root.at [] = some root from rfl)]
    have : (registerCore .const d.name.toList (Item.const v.k (Ops.val v.k v.v)) false root).1 = root := by
      rw [registerCore]
      split
      · rfl
      · simp only [Bool.false_eq_true, if_false]
        rw [omEmplace, if_pos ha]
        cases root with
        | mk a b => rfl
    rw [this]; rfl
  · rw [if_neg ha, register_put (show root.at [] = some root from rfl) hco (by simpa using ha)]
    unfold declared
    rw [enter_at (show root.at [] = some root from rfl), represents_eq]
    cases root with
    | mk a b => rfl

/-- C44: a text of constant declarations of integer types, in any layout, with numbers in base 8, 10 or 16 and names of constants,
has the outcome `Computes` describes. -/
theorem C44_text_exact (c : Ctx) (root : Mod Item) (l : List Line) (t : List Nat) (o : Out) (hne : l ≠ [])
    (hd : ∀ d ∈ l, ∃ s, Derives 0 s d.tokens) (ht : Lines l t) (h : Computes root l o) : Reads c root t o := by
  obtain ⟨ds, hdoc, hf⟩ := lines_read ht hne hd
  have hk := lines_kind ht
  have key : Ev fun f => buildAll c f [] root ds = o := by
    clear hdoc hne hd ht
    induction hf generalizing root o with
    | nil => cases h; exact Ev.of fun f => by rw [buildAll]
    | @cons d x l ds hx _ ih =>
      obtain ⟨s, e, hs, he, rfl⟩ := hx
      obtain ⟨k1, k2⟩ := hk d (by simp)
      have hk' := fun d hd => hk d (List.mem_cons_of_mem _ hd)
      cases h with
      | new hn hc hu hr =>
        obtain ⟨q, hq, hev⟩ := solve_ev k1 hs he hn
        refine (hev.and (ih _ _ hr hk')).mono fun f ⟨h1, h2⟩ => ?_
        rw [hc, Option.some.injEq] at hq
        subst hq
        rw [buildAll, (build_const c root k1 k2 h1).1 _ rfl (constant_kind k1 hc), if_neg (by rw [← omGet_isSome, hu]; simp)]
        exact h2
      | again hn hc hu hr =>
        obtain ⟨q, hq, hev⟩ := solve_ev k1 hs he hn
        refine (hev.and (ih _ _ hr hk')).mono fun f ⟨h1, h2⟩ => ?_
        rw [hc, Option.some.injEq] at hq
        subst hq
        rw [buildAll, (build_const c root k1 k2 h1).1 _ rfl (constant_kind k1 hc), if_pos (by
          rw [← omGet_isSome, Option.isSome_iff_ne_none]
          exact hu)]
        exact h2
      | refused hn hc =>
        obtain ⟨q, hq, hev⟩ := solve_ev k1 hs he hn
        refine hev.mono fun f h1 => ?_
        rw [hc, Option.some.injEq] at hq
        subst hq
        rw [buildAll, (build_const c root k1 k2 h1).2.1 rfl]
      | undefined hn hc =>
        obtain ⟨q, hq, hev⟩ := solve_ev k1 hs he hn
        refine hev.mono fun f h1 => ?_
        rw [hc, Option.some.injEq] at hq
        subst hq
        rw [buildAll, (build_const c root k1 k2 h1).2.2 rfl]
  obtain ⟨n, hn⟩ := key
  refine ⟨n, fun f hf => ?_⟩
  rw [Syn.parse, hdoc]
  exact congrArg Parsed.built (hn f hf)

/-- **C44 (partial)** from the text on: a text of constant declarations of integer types, in any layout, with numbers in base 8, 10 or
16 and names of constants declared before, is accepted and each constant gets the value of the standard reading, for the
expressions `Fine` allows. Missing: chains such as `a - b - c`, unary `~`, unary minus on unsigned types (the theorems below and in
Props/Expr show the code gets these wrong), and floating point types. -/
theorem C44_text_value_partial (c : Ctx) (root root' : Mod Item) (l : List Line) (t : List Nat) (hne : l ≠ [])
    (ht : Lines l t) (h : Yields root l root') : Reads c root t (root', none) := by
  have hk := lines_kind ht
  have : (∀ d ∈ l, ∃ s, Derives 0 s d.tokens) ∧ Computes root l (root', none) := by
    clear ht hne
    induction h with
    | nil root => exact ⟨by simp, .nil _⟩
    | cons hu hn hd hf hv _ ih =>
      obtain ⟨h1, h2⟩ := ih fun d hd => hk d (List.mem_cons_of_mem _ hd)
      exact ⟨List.forall_mem_cons.mpr ⟨⟨_, hd⟩, h1⟩, .new (fun x hx => .inl (hn x hx))
        (C44_constant_expression_value_partial _ (hk _ (by simp)).1 _ _ _ hd hf _ hv) hu h2⟩
  exact C44_text_exact c root l t _ hne this.1 ht this.2

/-- What `Yields` promises of a declaration: the module has the constant. -/
theorem declared_has (root : Mod Item) (n : String) (v : Num) (hu : Unused root n) :
    omGet ((declared root n v).content.get .const) n.toList = some (.const v.k (represents v.k v.v)) := by
  cases root with
  | mk a b =>
    have hu : omGet a.consts n.toList = none := hu
    show omGet (omIns n.toList _ a.consts) n.toList = _
    rw [omGet_omIns (omGet_eq_none.mp hu)]; simp

/-! ### A text that meets the hypotheses -/

/-- Two declarations. -/
def exLines : List Line := [
  ⟨.u32, "N", [.lit 7]⟩,
  ⟨.u32, "M", [.name "N", .op .mul, .lpar, .lit 2, .op .add, .lit 8, .rpar, .op .or, .lit 1, .op .shl, .lit 4]⟩]

/-- The same, written. -/
def exText : String := "const unsigned/* 32 bits */long N=0x7;
const uint32 M = N *(2+010)
  |1<<4 ; // the end
"

/-- A part of a text that is only white space. -/
theorem space_of {b : List Nat} (h : b.all (fun c => c = 32 || c = 9 || c = 13 || c = 10) = true) : Layout b :=
  .space fun c hc => by
    have := List.all_eq_true.mp h c hc
    simp only [Bool.or_eq_true, decide_eq_true_eq] at this
    tauto

theorem exText_lines : Lines exLines (codes exText) := by
  have hN : ConstName "N" := ⟨⟨["N"], by decide, rfl, fun a ha => by
      rw [List.mem_singleton] at ha; subst ha; exact (usable_of (by decide +kernel)).1⟩,
    fun r h => absurd (congrArg (·.head?) h) (by simp), fun r h => absurd (congrArg (·.head?) h) (by simp)⟩
  have lit : ∀ d, 1 ≤ d → d < 10 → Spells (.lit d) [48 + d] := fun d h1 h2 => by
    have := Numeral.dec (d := d) (ds := []) h1 (by simp; omega)
    simp only [value, List.foldl, List.map] at this
    exact .lit (by simpa using this)
  have e : codes exText = [] ++ ((codes "const" ++ (codes " " ++ ((codes "unsigned" ++ (codes "/* 32 bits */" ++ codes "long")) ++ (codes " " ++ (codes "N" ++
      ([] ++ 61 :: ([] ++ (codes "0x7" ++ ([] ++ [59]))))))))) ++ ([10] ++ ((codes "const" ++ (codes " " ++ (codes "uint32" ++ (codes " " ++ (codes "M" ++
      (codes " " ++ 61 :: (codes " " ++ ((codes "N" ++ ([32] ++ (codes "*" ++ ([] ++ (codes "(" ++ ([] ++ ([50] ++ ([] ++ (codes "+" ++ ([] ++ (codes "010" ++ ([] ++
        (codes ")" ++ (codes "\n  " ++ (codes "|" ++ ([] ++ ([49] ++ ([] ++ (codes "<<" ++ ([] ++ [52])))))))))))))))))))) ++ (codes " " ++ [59]))))))))) ++
      codes " // the end\n"))) := by decide +kernel
  rw [e]
  refine .cons blanks_nil (.mk (usable_of (by decide +kernel)) (.unsignedLong ?_ (by decide)) (.one ?_) blank_space (by decide) blank_space
    (by decide) blanks_nil blanks_nil blanks_nil) (.cons (space_of rfl) (.mk (usable_of (by decide +kernel)) .uint32 ?_ blank_space (by decide)
    blank_space (by decide) blank_space blank_space blank_space) (.nil ?_))
  · exact Layout.block (b := []) (t := codes " 32 bits ") (r := []) blanks_none (by
      intro x y h
      have : (42 : Nat) ∈ codes " 32 bits " := by rw [h]; simp
      exact absurd this (by decide)) blanks_nil
  · exact .lit (.hex (x := 120) (l := [(7, 55)]) (.inl rfl) (by simp) (by simp [HexDigit]))
  · have no : ∀ {k : Tok} {u : List Nat}, k ≠ .op .div → (k = .op .div → NoComment u) := fun h h' => absurd h' h
    refine .cons (.name hN) (space_of rfl) (no (by decide)) (.cons (.op .mul) blanks_nil (no (by decide)) (.cons .lpar blanks_nil (no (by decide))
      (.cons (lit 2 (by decide) (by decide)) blanks_nil (no (by decide)) (.cons (.op .add) blanks_nil (no (by decide)) (.cons ?_ blanks_nil (no (by decide))
      (.cons .rpar (space_of rfl) (no (by decide)) (.cons (.op .or) blanks_nil (no (by decide)) (.cons (lit 1 (by decide) (by decide)) blanks_nil
      (no (by decide)) (.cons (.op .shl) blanks_nil (no (by decide)) (.one (lit 4 (by decide) (by decide))))))))))))
    exact .lit (.oct (ds := [1, 0]) (by simp) (by simp))
  · exact Layout.line (b := [32]) (t := codes " the end") (e := [10]) (r := []) (by simp [Blanks]) (by decide) (by decide) (.inl rfl) blanks_nil

/-- The hypotheses of the partial theorem are met by `exText`; `M` is 7 * (2 + 8) | 1 << 4 = 86. -/
theorem exLines_yield : Yields .empty exLines (declared (declared .empty "N" ⟨.u32, 7#32⟩) "M" ⟨.u32, 86#32⟩) := by
  have w : ∀ e ts n j, j ≤ n → Derives n e ts → n ≤ 7 → Derives (n - j) e ts := by
    intro e ts n j hj h hn
    induction j with
    | zero => exact h
    | succ j ih =>
      have := ih (by omega)
      have e : n - j = (n - (j + 1)) + 1 := by omega
      rw [e] at this
      exact .weaken (by omega) this
  unfold exLines
  refine .cons (d := ⟨.u32, "N", [.lit 7]⟩) (s := .lit 7) (env := fun _ => ⟨.bool, 0#8⟩) (v := 7#32) rfl (by simp) (w _ _ 7 7 (by decide) (.lit 7) (by decide)) trivial
    (Val.lit (k := .u32) 7 7#32 rfl) ?_
  refine .cons (d := ⟨.u32, "M", [.name "N", .op .mul, .lpar, .lit 2, .op .add, .lit 8, .rpar, .op .or, .lit 1, .op .shl, .lit 4]⟩)
    (s := .bin .or (.bin .mul (.name "N") (.paren (.bin .add (.lit 2) (.lit 8)))) (.bin .shl (.lit 1) (.lit 4)))
    (env := fun _ => ⟨.u32, 7#32⟩) (v := 86#32) (by unfold Unused; decide +kernel) ?_ ?_ ?_ ?_ (.nil _)
  · intro x hx
    have : x = "N" := by simpa using hx
    subst this
    exact ⟨[], "N".toList, ⟨2, by decide +kernel⟩, by decide +kernel⟩
  · have h4 : Derives 4 (.bin .add (.lit 2) (.lit 8)) [.lit 2, .op .add, .lit 8] :=
      .bin .add (tl := [.lit 2]) (tr := [.lit 8]) (w _ _ 7 3 (by decide) (.lit 2) (by decide)) (w _ _ 7 2 (by decide) (.lit 8) (by decide))
    have hp : Derives 7 (.paren (.bin .add (.lit 2) (.lit 8))) [.lpar, .lit 2, .op .add, .lit 8, .rpar] :=
      .paren (w _ _ 4 4 (by decide) h4 (by decide))
    have hm := Derives.bin .mul (w _ _ 7 2 (by decide) (.name "N") (by decide)) (w _ _ 7 1 (by decide) hp (by decide))
    have hs : Derives 3 (.bin .shl (.lit 1) (.lit 4)) [.lit 1, .op .shl, .lit 4] :=
      .bin .shl (tl := [.lit 1]) (tr := [.lit 4]) (w _ _ 7 4 (by decide) (.lit 1) (by decide)) (w _ _ 7 3 (by decide) (.lit 4) (by decide))
    exact .bin .or (tr := [.lit 1, .op .shl, .lit 4]) (w _ _ 5 5 (by decide) hm (by decide)) (w _ _ 3 2 (by decide) hs (by decide))
  · simp [Fine, S.top, level]
  · have h : Val .u32 (fun _ => ⟨.u32, 7#32⟩) (.bin .or (.bin .mul (.name "N") (.paren (.bin .add (.lit 2) (.lit 8)))) (.bin .shl (.lit 1) (.lit 4)))
        (Ops.machine .or (Ops.signed .u32) (Ops.machine .mul (Ops.signed .u32) 7#32 (Ops.machine .add (Ops.signed .u32) 2#32 8#32))
          (Ops.machine .shl (Ops.signed .u32) 1#32 4#32)) := by
      refine .bin _ (.bin _ (.name _ _ rfl) (.paren (.bin _ (Val.lit (k := .u32) 2 2#32 rfl) (Val.lit (k := .u32) 8 8#32 rfl) ?_)) ?_)
        (.bin _ (Val.lit (k := .u32) 1 1#32 rfl) (Val.lit (k := .u32) 4 4#32 rfl) ?_) ?_
      · simp [Ops.Undef, Ops.Overflows]
      · simp [Ops.Undef, Ops.Overflows]
      · simp [Ops.Undef, represents, Ops.shiftLimit]
      · simp [Ops.Undef]
    exact h

/-- So parsing `exText` gives these constants. -/
example : Reads {} .empty (codes exText) (declared (declared .empty "N" ⟨.u32, 7#32⟩) "M" ⟨.u32, 86#32⟩, none) :=
  C44_text_value_partial {} _ _ _ _ (by decide) exText_lines exLines_yield

/-- `Computes` covers a missing name, which is refused, and a constant declared twice. -/
example : Computes .empty [⟨.i32, "A", [.lit 1]⟩, ⟨.i32, "A", [.lit 2]⟩, ⟨.i32, "B", [.name "C"]⟩, ⟨.i32, "D", [.lit 1]⟩]
    (declared .empty "A" ⟨.i32, 1#32⟩, some .refused) := by
  refine .new (env := fun _ => ⟨.bool, 0#8⟩) (by simp) (by decide +kernel) rfl (.again (env := fun _ => ⟨.bool, 0#8⟩) (v := ⟨.i32, 2#32⟩) (by simp)
    (by decide +kernel) (by unfold Unused; decide +kernel) (.refused (env := fun _ => ⟨.bool, 0#8⟩) ?_ (by decide +kernel)))
  intro x hx
  have : x = "C" := by simpa using hx
  subst this
  exact .inr ⟨⟨.fail, ⟨3, by decide +kernel⟩, by decide, by decide +kernel⟩, rfl⟩

/-! ## Where the value is another -/

/-- C44, the other way: a chain of subtractions is grouped to the right, `~` does nothing, and minus an unsigned number is refused. -/
theorem C44_text_not_standard :
    (∃ root', Reads {} .empty (bytes "const long X = 10 - 3 - 2;") (root', none) ∧
      omGet (root'.content.get .const) "X".toList = some (.const .i32 9)) ∧
    (∃ root', Reads {} .empty (bytes "const long X = ~5;") (root', none) ∧
      omGet (root'.content.get .const) "X".toList = some (.const .i32 5)) ∧
    (∃ root', Reads {} .empty (bytes "const unsigned long X = -1;") (root', some .refused) ∧
      omGet (root'.content.get .const) "X".toList = none) ∧
    ∃ root', Reads {} .empty (bytes "const long X = 7 / 0;") (root', some .ub) ∧
      omGet (root'.content.get .const) "X".toList = none :=
  ⟨reads_entry .const "X" (by decide) (by decide +kernel), reads_entry .const "X" (by decide) (by decide +kernel),
   reads_entry .const "X" (by decide) (by decide +kernel), reads_entry .const "X" (by decide) (by decide +kernel)⟩

/-- C44, the other way: two signs in a row are no expression; a name that begins with `TRUE` is the literal, and the text is
rejected; a division sign followed by a comment is a comment. -/
theorem C44_text_rejected :
    Rejects (bytes "const long X = - -1;") ∧ Rejects (bytes "const long TRUE_N = 1; const long X = TRUE_N;") ∧
    Rejects (bytes "const long X = 6 //* three */ 3;") :=
  ⟨rejects_of (by decide +kernel), rejects_of (by decide +kernel), rejects_of (by decide +kernel)⟩

end Verif.Idl
