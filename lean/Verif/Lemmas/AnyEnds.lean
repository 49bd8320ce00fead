import Verif.Lemmas.IdlSteps
import Verif.Lemmas.AnyKeep
/-!
# Reading a text without four colons in a row ends
-/

namespace Verif.Idl.Syn
open Text

/-- Finished; and not by a recursion without end, unless `A`. -/
def Done {α} (A : Prop) (x : Except Stop α) : Prop := x ≠ .error .unfinished ∧ (A ∨ x ≠ .error .diverges)

/-- With enough steps the value is known. -/
def Settles {α} (A : Prop) (g : Nat → Except Stop α) : Prop := ∃ r, Done A r ∧ Ev fun f => g f = r

variable {A : Prop}

theorem Settles.const {α} {x : Except Stop α} (h : Done A x) : Settles A fun _ => x := ⟨x, h, Ev.of fun _ => rfl⟩

theorem done_ok {α} (a : α) : Done A (.ok a : Except Stop α) := ⟨by simp, .inr (by simp)⟩
theorem done_error {α} {e : Stop} (h1 : e ≠ .unfinished) (h2 : e ≠ .diverges) : Done A (.error e : Except Stop α) :=
  ⟨by simpa using h1, .inr (by simpa using h2)⟩
theorem done_A {α} {e : Stop} (h1 : e ≠ .unfinished) (h2 : A) : Done A (.error e : Except Stop α) := ⟨by simpa using h1, .inl h2⟩

theorem Settles.bind {α β} {g : Nat → Except Stop α} {k : Nat → α → Except Stop β} (h : Settles A g) (hk : ∀ a, (Ev fun f => g f = .ok a) → Settles A fun f => k f a) :
    Settles A fun f => (g f).bind (k f) := by
  obtain ⟨r, h1, h2⟩ := h
  cases r with
  | error e =>
    refine ⟨.error e, ⟨by simpa using h1.1, h1.2.imp id (by simp)⟩, h2.mono fun f hf => by dsimp only; rw [hf]; rfl⟩
  | ok a =>
    obtain ⟨r, h3, h4⟩ := hk a h2
    exact ⟨r, h3, (h2.and h4).mono fun f hf => by dsimp only; rw [hf.1]; exact hf.2⟩

theorem Settles.map {α β} {g : Nat → Except Stop α} (h : Settles A g) (k : α → β) : Settles A fun f => (g f).map k := by
  obtain ⟨r, h1, h2⟩ := h
  cases r with
  | error e => exact ⟨.error e, ⟨by simpa using h1.1, h1.2.imp id (by simp)⟩, h2.mono fun f hf => by dsimp only; rw [hf]; rfl⟩
  | ok a => exact ⟨.ok (k a), done_ok _, h2.mono fun f hf => by dsimp only; rw [hf]; rfl⟩

theorem Settles.list {α β} {g : Nat → α → Except Stop β} : ∀ {l : List α}, (∀ a ∈ l, Settles A fun f => g f a) → Settles A fun f => forAll (g f) l
  | [], _ => .const (done_ok _)
  | a :: l, h => by
    simp only [forAll]
    exact (h a (by simp)).bind fun b _ => (Settles.list fun x hx => h x (List.mem_cons_of_mem _ hx)).map _

theorem done_bind {α β} {x : Except Stop α} {k : α → Except Stop β} (h : Done A x) (hk : ∀ a, Done A (k a)) : Done A (x.bind k) := by
  cases x with
  | error e => exact ⟨fun e' => h.1 (by cases e'; rfl), h.2.imp id fun hh e' => hh (by cases e'; rfl)⟩
  | ok a => exact hk a

theorem done_map {α β} {x : Except Stop α} (h : Done A x) (k : α → β) : Done A (x.map k) := by
  cases x with
  | error e => exact ⟨fun e' => h.1 (by cases e'; rfl), h.2.imp id fun hh e' => hh (by cases e'; rfl)⟩
  | ok a => exact done_ok _

theorem forAll_done {α β} {g : α → Except Stop β} (h : ∀ a, Done A (g a)) : ∀ l, Done A (forAll g l)
  | [] => done_ok _
  | a :: l => done_bind (h a) fun _ => done_map (forAll_done h l) _

theorem char_colon {b : Nat} (h : Char.ofNat b = ':') : b = 58 := by
  by_cases hv : b.isValidChar
  · have h1 : (Char.ofNat b).val.toNat = b := by
      unfold Char.ofNat
      rw [dif_pos hv]
      show (UInt32.ofNatLT b _).toNat = b
      simp
    rw [h] at h1
    exact h1.symm
  · exfalso
    unfold Char.ofNat at h
    rw [dif_neg hv] at h
    exact absurd (congrArg Char.val h) (by decide)

theorem noGap_of {b : Bytes} (h : NoQuad b) : NoGap (nm b) := by
  rintro ⟨x, y, e⟩
  rw [nm, List.append_assoc] at e
  obtain ⟨l1, l2, rfl, _, h2⟩ := List.map_eq_append_iff.mp e.symm
  obtain ⟨l3, l4, rfl, h3, _⟩ := List.map_eq_append_iff.mp h2
  refine h ⟨l1, l4, ?_⟩
  have key : ∀ l : Bytes, l.map Char.ofNat = [':', ':', ':', ':'] → l = [58, 58, 58, 58] := by
    intro l hl
    rcases l with _ | ⟨a, _ | ⟨b, _ | ⟨c, _ | ⟨d, _ | ⟨e, l⟩⟩⟩⟩⟩ <;> simp only [List.map_cons, List.map_nil, List.cons.injEq, reduceCtorEq, and_false, and_true] at hl
    rw [char_colon hl.1, char_colon hl.2.1, char_colon hl.2.2.1, char_colon hl.2.2.2]
  have := key l3 h3
  rw [this, List.append_assoc]

variable {c : Ctx} {root : Mod Item} {p : Loc}

theorem look_settles {x : Name} (h : NoGap x) : Settles A fun f => look root p f x := by
  obtain ⟨r, n, hr⟩ := lookup_ends root p h
  cases r with
  | ub => exact ⟨.error .ub, done_error (by simp) (by simp), n, fun f hf => by dsimp only; rw [look, resolve_le root hf hr]⟩
  | fail => exact ⟨.ok .fail, done_ok _, n, fun f hf => by dsimp only; rw [look, resolve_le root hf hr]⟩
  | found q y => exact ⟨.ok (.found q y), done_ok _, n, fun f hf => by dsimp only; rw [look, resolve_le root hf hr]⟩

theorem constant_settles {b : Bytes} (h : NoQuad b) : Settles A fun f => constant root p f b := (look_settles (noGap_of h)).map _

theorem constDim_settles {b : Bytes} (h : NoQuad b) : Settles A fun f => constDim root p f b := by
  refine (constant_settles h).bind fun a _ => .const ?_
  split
  · split
    · exact done_ok _
    · exact done_error (by simp) (by simp)
  · exact done_error (by simp) (by simp)

theorem dimension_settles {d : Dim} (h : PlainDim d) : Settles A fun f => dimension root p f d := by
  cases d with
  | literal t =>
    refine .const ?_
    split
    · exact done_ok _
    · exact done_error (by simp) (by simp)
  | name t => exact (constDim_settles (b := t) h).map _

theorem intBound_done (t : Bytes) : Done A (intBound t) := by
  unfold intBound
  split
  · exact done_ok _
  · exact done_error (by simp) (by simp)

theorem typeByName_settles {b : Bytes} (h : NoQuad b) : Settles A fun f => typeByName root p f b := by
  refine (look_settles (noGap_of h)).bind fun r _ => .const ?_
  split
  · exact done_ok _
  · exact done_error (by simp) (by simp)
  · exact done_error (by simp) (by simp)

theorem evalType_settles : ∀ {t : TSpec}, PlainT A t → Settles A fun f => evalType c root p f t
  | .prim k, _ => by cases k <;> exact .const (done_ok _)
  | .any, h => .const (done_A (by simp) h)
  | .fixed, h => .const (done_A (by simp) h)
  | .name t, h => typeByName_settles h
  | .string none, _ => .const (done_ok _)
  | .string (some t), h => by
    simp only [evalType]
    refine (constant_settles (h t rfl)).bind fun a _ => ?_
    cases a with
    | some _ => exact (constDim_settles (h t rfl)).map _
    | none => exact (Settles.const (intBound_done t)).map _
  | .wstring none, _ => .const (done_ok _)
  | .wstring (some t), _ => by
    simp only [evalType]
    exact (Settles.const (intBound_done t)).map _
  | .seq t n, h => by
    simp only [evalType]
    refine (evalType_settles h.1).bind fun a _ => ?_
    cases n with
    | none => exact .const (done_ok _)
    | some d => exact (dimension_settles (h.2 d rfl)).map _
  | .map k v n, h => by
    simp only [evalType]
    refine (evalType_settles h.1).bind fun a _ => (evalType_settles h.2.1).bind fun b _ => ?_
    cases n with
    | none => exact .const (done_ok _)
    | some d => exact (dimension_settles (h.2.2 d rfl)).map _

theorem resolveId_done (b : Bytes) (u : Bool) : Done A (resolveId c root p b u) := by
  unfold resolveId
  split
  · exact done_ok _
  · split
    · exact done_error (by simp) (by simp)
    · split
      · exact done_error (by simp) (by simp)
      · exact done_ok _

theorem declr_settles {d : Declr} (h : PlainD d) : Settles A fun f => declr c root p f d :=
  (Settles.const (resolveId_done _ _)).bind fun _ _ => (Settles.list fun x hx => dimension_settles (h.2 x hx)).map _

theorem addDeclrs_done (t : Ty) : ∀ (l : List (String × List Nat)) (acc : List (String × Ty)), Done A (addDeclrs t acc l)
  | [], _ => done_ok _
  | (n, ds) :: r, acc => by
    unfold addDeclrs
    split
    · exact done_error (by simp) (by simp)
    · exact addDeclrs_done t r _

theorem members_settles : ∀ {l : List (TSpec × List Declr)} (acc : List (String × Ty)), (∀ m ∈ l, PlainT A m.1 ∧ ∀ d ∈ m.2, PlainD d) →
    Settles A fun f => members c root p f acc l
  | [], _, _ => .const (done_ok _)
  | (t, ds) :: r, acc, h => by
    simp only [members]
    have h1 := h (t, ds) (by simp)
    exact (evalType_settles h1.1).bind fun _ _ => (Settles.list fun d hd => declr_settles (h1.2 d hd)).bind fun _ _ =>
      (Settles.const (addDeclrs_done _ _ _)).bind fun a _ => members_settles a fun m hm => h m (List.mem_cons_of_mem _ hm)

theorem structMembers_settles {x : Name} (h : NoGap x) : Settles A fun f => structMembers root p f x := by
  refine (look_settles h).bind fun r _ => .const ?_
  split
  · exact done_ok _
  · exact done_error (by simp) (by simp)

theorem parentMembers_settles {q : Option Bytes} (h : ∀ x, q = some x → NoQuad x) : Settles A fun f => parentMembers root p f q := by
  cases q with
  | none => exact .const (done_ok _)
  | some x => exact (structMembers_settles (noGap_of (h x rfl))).map _

theorem label_settles {b : Bytes} (h : NoQuad b) : Settles A fun f => label root p f b := by
  refine (constant_settles h).bind fun a _ => .const ?_
  split
  · exact done_ok _
  · exact done_ok _
  · exact done_ok _
  · exact done_error (by simp) (by simp)

theorem caseOf_settles {x : Case} (h : (∀ l ∈ x.labels, NoQuad l) ∧ PlainT A x.type ∧ PlainD x.name) : Settles A fun f => caseOf c root p f x :=
  (Settles.list fun l hl => label_settles (h.1 l hl)).bind fun _ _ => (evalType_settles h.2.1).bind fun _ _ => (declr_settles h.2.2).map _

theorem unionNamed_settles {x : Name} (h : NoGap x) : Settles A fun f => unionNamed root p f x := by
  refine (look_settles h).bind fun r _ => .const ?_
  split
  · exact done_ok _
  · exact done_error (by simp) (by simp)

/-! ## Constants -/

/-- A constant that is no half of a pair. -/
def Whole (i : Item) : Prop := ∀ v, i = .const .c16 v → ¬ (0xD800 ≤ v ∧ v ≤ 0xDFFF)

theorem whole_ascii {t : Bytes} (h : Ascii t) {u : List Nat} (hu : utf16 t = some u) (k : PK) : Whole (.const k (u.headD 0 : Nat)) := by
  intro v hv
  rw [Item.const.injEq] at hv
  obtain ⟨_, rfl⟩ := hv
  cases t with
  | nil => cases hu; simp
  | cons b r =>
    have hb : b < 0x80 := h b rfl
    unfold utf16 at hu
    rw [if_pos hb, Option.map_eq_some_iff] at hu
    obtain ⟨w, _, rfl⟩ := hu
    simp only [List.headD_cons]
    omega

theorem whole_other {k : PK} (h : k ≠ .c16) (v : Int) : Whole (.const k v) := fun w e => absurd (Item.const.inj e).1 h
theorem whole_text (b : Nat) (s : Bytes) : Whole (.text b s) := fun w e => by cases e

theorem literalValue_whole {t : Ty} {l : Lit} {i : Item} (hl : PlainLit l) (h : literalValue t l = .ok i) : Whole i := by
  unfold literalValue at h
  split at h
  · cases h; exact whole_other (by decide) _
  · cases h; exact whole_other (by decide) _
  · cases h; exact whole_other (by decide) _
  · cases h
  · split at h
    · cases h; exact whole_ascii hl ‹_› _
    · cases h
  · cases h; intro v hv; cases hv; decide
  · split at h
    · cases h; exact whole_ascii hl ‹_› _
    · cases h
  · cases h; exact whole_other (by decide) _
  · split at h
    · rename_i hk
      cases h
      exact whole_other (by rintro rfl; cases hk) _
    · cases h
  · cases h
  · cases h; exact whole_text _ _
  · cases h; exact whole_text _ _
  · cases h

theorem literalValue_done (t : Ty) (l : Lit) : Done A (literalValue t l) := by
  unfold literalValue
  split <;> first
    | exact done_ok _
    | (refine done_error (by decide) (by decide); done)
    | (split <;> first | exact done_ok _ | exact done_error (by decide) (by decide))

theorem neg_kind {a b : Ops.Num} (h : Ops.neg a = .ok b) : b.k ≠ .c16 := by
  unfold Ops.neg at h
  split at h
  · cases h
  · split at h
    iterate 4
      · split at h
        · cases h; intro e; cases e
        · cases h
    cases h

theorem binop_kind {o : Ops.Op} {x y b : Ops.Num} (h : Ops.binop o x y = .ok b) : b.k ≠ .c16 := by
  unfold Ops.binop at h
  split at h
  · split at h <;> cases h
  · split at h
    · rename_i hi
      split at h
      · split at h
        · cases h
          show x.k ≠ .c16
          intro e; rw [e] at hi; cases hi
        all_goals cases h
      · cases h
    · cases h

theorem ofNum_done (x : Ops.Out Ops.Num) : Done A (ofNum x) := by
  unfold ofNum
  split <;> first | exact done_ok _ | exact done_error (by simp) (by simp)

theorem negItem_done (x : Item) : Done A (negItem x) := by
  unfold negItem
  split
  · exact ofNum_done _
  · exact done_error (by simp) (by simp)

theorem binItem_done (o : Ops.Op) (x y : Item) : Done A (binItem o x y) := by
  unfold binItem
  split
  · exact ofNum_done _
  · exact done_error (by simp) (by simp)

theorem negItem_whole {x i : Item} (h : negItem x = .ok i) : Whole i := by
  unfold negItem at h
  split at h
  · rename_i a _
    cases hn : Ops.neg a with
    | ok b => rw [hn] at h; cases h; exact whole_other (neg_kind hn) _
    | refused => rw [hn] at h; cases h
    | undefined => rw [hn] at h; cases h
    | float => rw [hn] at h; cases h
  · cases h

theorem binItem_whole {o : Ops.Op} {x y i : Item} (h : binItem o x y = .ok i) : Whole i := by
  unfold binItem at h
  split at h
  · rename_i a b _ _
    cases hn : Ops.binop o a b with
    | ok b => rw [hn] at h; cases h; exact whole_other (binop_kind hn) _
    | refused => rw [hn] at h; cases h
    | undefined => rw [hn] at h; cases h
    | float => rw [hn] at h; cases h
  · cases h

theorem namedValue_done (t : Ty) (x : Option Item) : Done A (namedValue t x) := by
  unfold namedValue
  split
  · split
    · exact done_ok _
    · exact done_error (by simp) (by simp)
  · split
    · exact done_ok _
    · exact done_error (by simp) (by simp)

theorem solveExpr_settles (t : Ty) : ∀ {e : CExpr}, PlainE e → Settles A fun f => solveExpr root p f t e
  | .lit l, _ => .const (literalValue_done t l)
  | .name x, h => (constant_settles h).bind fun a _ => .const (namedValue_done t a)
  | .un u e, h => (solveExpr_settles (e := e) t h).bind fun x _ => by
      refine .const ?_
      split
      · exact negItem_done _
      · exact done_ok _
  | .bin o l r, h => (solveExpr_settles t h.1).bind fun x _ => (solveExpr_settles t h.2).bind fun y _ => .const (binItem_done _ _ _)

/-- Every constant is. -/
def WholeAt (_ : Loc) (_ : Cat) (_ : Name) (i : Item) : Prop := Whole i

theorem fetch_entry {k : Cat} {r : Res} {i : Item} (h : fetch root k r = some i) : ∃ q y, entry root q k y = some i := by
  cases r with
  | found q y => exact ⟨q, y, h⟩
  | fail => cases h
  | ub => cases h

theorem solveExpr_whole (hr : All WholeAt root) {t : Ty} {f : Nat} : ∀ {e : CExpr} {i : Item}, PlainE e → solveExpr root p f t e = .ok i → Whole i
  | .lit l, i, h, hs => literalValue_whole h hs
  | .name x, i, h, hs => by
    simp only [solveExpr] at hs
    cases hc : constant root p f x with
    | error e => rw [hc] at hs; cases hs
    | ok a =>
      rw [hc] at hs
      have hs : namedValue t a = .ok i := hs
      unfold constant at hc
      cases hl : look root p f (nm x) with
      | error e => rw [hl] at hc; cases hc
      | ok r =>
        rw [hl] at hc
        have hc : Except.ok (ε := Stop) (fetch root .const r) = .ok a := hc
        cases hc
        unfold namedValue at hs
        split at hs
        · rename_i j hj
          split at hs
          · cases hs
            obtain ⟨q, y, he⟩ := fetch_entry hj
            exact hr q .const y i he
          · cases hs
        · split at hs
          · cases hs; exact whole_other (by decide) _
          · cases hs
  | .un u e, i, h, hs => by
    simp only [solveExpr] at hs
    cases hx : solveExpr root p f t e with
    | error e => rw [hx] at hs; cases hs
    | ok x =>
      rw [hx] at hs
      have hs : (if u = .minus then negItem x else .ok x) = .ok i := hs
      split at hs
      · exact negItem_whole hs
      · cases hs; exact solveExpr_whole (e := e) hr h hx
  | .bin o l r, i, h, hs => by
    simp only [solveExpr] at hs
    cases hx : solveExpr root p f t l with
    | error e => rw [hx] at hs; cases hs
    | ok x =>
      rw [hx] at hs
      cases hy : solveExpr root p f t r with
      | error e =>
        have hs : (solveExpr root p f t r).bind (fun y => binItem o x y) = .ok i := hs
        rw [hy] at hs; cases hs
      | ok y =>
        have hs : (solveExpr root p f t r).bind (fun y => binItem o x y) = .ok i := hs
        rw [hy] at hs
        exact binItem_whole hs

theorem logged_done {i : Item} (h : A ∨ Whole i) : Done A (logged i) := by
  unfold logged
  split
  · exact done_error (by simp) (by simp)
  · rename_i v
    split
    · exact done_ok _
    · rename_i hu
      split
      · rename_i hv
        rcases h with h | h
        · exact done_A (by simp) h
        · exfalso
          refine h v rfl ?_
          unfold utf8 at hu
          split at hu
          · simp at hu
          · split at hu
            · simp at hu
            · split at hu
              · omega
              · simp at hu
      · exact done_error (by simp) (by simp)
  · exact done_ok _

theorem constKind_done (t : Ty) : Done A (constKind t) := by
  unfold constKind
  split
  · split
    · exact done_error (by simp) (by simp)
    · exact done_ok _
  · exact done_ok _
  · exact done_error (by simp) (by simp)

theorem step_whole {root root' : Mod Item} (h : Step PlainE c root root') (hr : All WholeAt root) : All WholeAt root' := by
  have ht : ∀ t, Whole (.ty t) := fun t v e => by cases e
  cases h with
  | struct p x => exact hr.register _ _ _ _ _ fun _ _ => ht _
  | fill _ _ _ _ => exact hr.register _ _ _ _ _ fun _ _ => ht _
  | union _ hu => exact hr.register _ _ _ _ _ fun _ _ => ht _
  | cases _ _ _ _ => exact hr.register _ _ _ _ _ fun _ _ => ht _
  | enumerator p x v => exact hr.register _ _ _ _ _ fun _ _ => whole_other (by decide) _
  | note x hp => exact hr.note hp x
  | enum x _ => exact hr.register _ _ _ _ _ fun _ _ => ht _
  | const x he _ hs => exact hr.register _ _ _ _ _ fun _ _ => solveExpr_whole hr he hs
  | «alias» x ds r _ =>
    unfold createAlias
    split
    · exact hr
    · exact hr.register _ _ _ _ _ fun _ _ => ht _
  | module hm hs => exact hr.module hm hs

theorem steps_whole {root root' : Mod Item} (h : Steps PlainE c root root') (hr : All WholeAt root) : All WholeAt root' := by
  induction h with
  | refl => exact hr
  | tail _ hs ih => exact step_whole hs ih

/-! ## Declarations -/

/-- With enough steps the outcome is known. -/
def SettlesO (A : Prop) (g : Nat → Out) : Prop := ∃ o : Out, o.2 ≠ some .unfinished ∧ (A ∨ o.2 ≠ some .diverges) ∧ Ev fun f => g f = o

theorem SettlesO.const {o : Out} (h1 : o.2 ≠ some .unfinished) (h2 : o.2 ≠ some .diverges) : SettlesO A fun _ => o := ⟨o, h1, .inr h2, Ev.of fun _ => rfl⟩

theorem orStop_settles {α} {g : Nat → Except Stop α} {k : Nat → α → Out} (h : Settles A g) (hk : ∀ a, (Ev fun f => g f = .ok a) → SettlesO A fun f => k f a) :
    SettlesO A fun f => orStop root (g f) (k f) := by
  obtain ⟨r, h1, h2⟩ := h
  cases r with
  | error e =>
    refine ⟨(root, some e), by simpa using h1.1, h1.2.imp id (by simp), h2.mono fun f hf => by dsimp only; rw [hf]; rfl⟩
  | ok a =>
    obtain ⟨o, h3, h4, h5⟩ := hk a h2
    exact ⟨o, h3, h4, (h2.and h5).mono fun f hf => by dsimp only; rw [hf.1]; exact hf.2⟩

theorem resolveId_quad {b n : Bytes} {u : Bool} (h : NoQuad b) (hr : resolveId c root p b u = .ok n) : NoQuad n := by
  unfold resolveId at hr
  split at hr
  · cases hr; exact NoQuad.part h (List.suffix_cons _ _).isInfix
  · split at hr
    · cases hr
    · split at hr
      · cases hr
      · cases hr; exact h

theorem Ev.elim {P : Prop} (h : Ev fun _ => P) : P := by obtain ⟨n, h⟩ := h; exact h n (le_refl _)

theorem ite_settles {q : Prop} [Decidable q] {a b : Out} (ha : a.2 ≠ some .unfinished ∧ a.2 ≠ some .diverges) (hb : b.2 ≠ some .unfinished ∧ b.2 ≠ some .diverges) :
    SettlesO A fun _ => if q then a else b := by
  by_cases h : q
  · simp only [h, if_true]; exact .const ha.1 ha.2
  · simp only [h, if_false]; exact .const hb.1 hb.2

theorem build_settles : ∀ (d : Def) (p : Loc) (root : Mod Item), PlainDef A d → (A ∨ All WholeAt root) → SettlesO A fun f => build c f p root d := by
  intro d
  refine Def.rec (motive_1 := fun d => ∀ (p : Loc) (root : Mod Item), PlainDef A d → (A ∨ All WholeAt root) → SettlesO A fun f => build c f p root d)
    (motive_2 := fun ds => ∀ (p : Loc) (root : Mod Item), (∀ d ∈ ds, PlainDef A d) → (A ∨ All WholeAt root) → SettlesO A fun f => buildAll c f p root ds)
    ?_ ?_ ?_ ?_ ?_ ?_ ?_ ?_ ?_ ?_ ?_ ?_ d
  · intro n q ms p root h _
    cases h with
    | struct hn hq hm =>
    simp only [build, buildStruct]
    refine orStop_settles (.const (resolveId_done _ _)) fun x hx => orStop_settles (parentMembers_settles hq) fun pm _ =>
      orStop_settles (members_settles _ hm) fun l _ => orStop_settles (structMembers_settles (noGap_of (resolveId_quad hn hx.elim))) fun old _ => ?_
    refine ite_settles ?_ ?_
    · cases c.ignoreRedef <;> simp
    · dsimp only; cases (addAll _ l).2 <;> simp
  · intro n p root h _
    simp only [build, buildForward]
    refine orStop_settles (.const (resolveId_done _ _)) fun x hx => ?_
    exact ite_settles (by simp) (by simp)
  · intro n t cs p root h _
    cases h with
    | union hn ht hc =>
    simp only [build, buildUnion]
    refine orStop_settles (.const (resolveId_done _ _)) fun x hx => orStop_settles (evalType_settles ht) fun d _ => ?_
    cases UnionB.new (String.ofList (scopedName p (nm x))) d with
    | none => exact .const (by simp) (by simp)
    | some u =>
      have hb : ∀ y ∈ bodyOf cs, y ∈ cs := by
        intro y hy
        match cs, hy with
        | [], hy => cases hy
        | [_], hy => cases hy
        | _ :: _ :: _, hy => exact hy
      refine orStop_settles (Settles.list fun y hy => caseOf_settles (hc y (hb y hy))) fun l _ =>
        orStop_settles (unionNamed_settles (noGap_of (resolveId_quad hn hx.elim))) fun old _ => ?_
      refine ite_settles ?_ ?_
      · cases c.ignoreRedef <;> simp
      · split
        · simp
        · dsimp only; cases (addCases _ l).2 <;> simp
  · intro n p root h _
    simp only [build, buildForward]
    refine orStop_settles (.const (resolveId_done _ _)) fun x hx => ?_
    exact ite_settles (by simp) (by simp)
  · intro n ids p root _ _
    simp only [build, buildEnum]
    split <;> exact .const (by simp) (by simp)
  · intro t n e p root h hw
    cases h with
    | const ht hn he =>
    simp only [build, buildConst]
    refine orStop_settles (evalType_settles ht) fun T _ => orStop_settles (.const (constKind_done T)) fun T' _ =>
      orStop_settles (solveExpr_settles T' he) fun i hi => orStop_settles (.const (logged_done ?_)) fun _ _ => .const (by simp) (by simp)
    obtain ⟨f, hf⟩ := hi
    exact hw.imp id fun hw => solveExpr_whole hw he (hf f (le_refl _))
  · intro t ds p root h _
    cases h with
    | typedef ht hd =>
    simp only [build, buildAlias]
    refine orStop_settles (evalType_settles ht) fun T _ => orStop_settles (.const ?_) fun x hx => orStop_settles (look_settles ?_) fun r _ =>
      .const (by simp) (by simp)
    · split
      · exact done_bind (resolveId_done _ _) fun _ => done_map (forAll_done (g := aliasDim) (fun x => by cases x <;> exact intBound_done _) _) _
      · exact done_ok _
    · obtain ⟨k, hx⟩ := hx
      have hx := hx k (le_refl _)
      dsimp only at hx
      clear * - hx hd
      split at hx
      · rename_i d
        cases h1 : resolveId c root p d.name c.ignoreRedef with
        | error e => rw [h1] at hx; cases hx
        | ok n =>
          rw [h1] at hx
          have hx : (forAll aliasDim d.dims).map (fun ds => (n, declType T ds)) = .ok x := hx
          cases h2 : forAll aliasDim d.dims with
          | error e => rw [h2] at hx; cases hx
          | ok l => rw [h2] at hx; cases hx; exact noGap_of (resolveId_quad (hd d (by simp)).1 h1)
      · cases hx; exact noGap_of (noQuad_of (by simp))
  · intro n p root _ _
    simp only [build]
    exact orStop_settles (.const (resolveId_done _ _)) fun _ _ => .const (by simp) (by simp)
  · intro p root _ _; simp only [build]; exact .const (by simp) (by simp)
  · intro n ds ih p root h hw
    cases h with
    | module hn hd =>
    simp only [build]
    refine orStop_settles (.const (resolveId_done _ _)) fun x hx => ?_
    cases hm : root.at p with
    | none => exact .const (by simp) (by simp)
    | some m =>
      simp only [Option.bind_some]
      cases hs : createSubCore (nm x) m with
      | none => exact .const (by simp) (by simp)
      | some m' => exact ih _ _ hd (hw.imp id fun hw => hw.module hm hs)
  · intro p root _ _; simp only [buildAll]; exact .const (by simp) (by simp)
  · intro d ds ihd ihs p root h hw
    simp only [buildAll]
    obtain ⟨o, h1, h2, n, h3⟩ := ihd p root (h d (by simp)) hw
    have h3 : ∀ f, n ≤ f → build c f p root d = o := h3
    obtain ⟨r, e⟩ := o
    cases e with
    | some e =>
      refine ⟨(r, some e), h1, h2, n, fun f hf => ?_⟩
      dsimp only; rw [h3 f hf]
    | none =>
      have hs : A ∨ All WholeAt r := by
        refine hw.imp id fun hw => ?_
        have := build_steps (E := PlainE) (c := c) n d p root (exprs_plain (h d (by simp)))
        rw [h3 n (le_refl _)] at this
        exact steps_whole this hw
      obtain ⟨o, k1, k2, k3⟩ := ihs p r (fun d hd => h d (List.mem_cons_of_mem _ hd)) hs
      exact ⟨o, k1, k2, (show Ev _ from ⟨n, h3⟩).and k3 |>.mono fun f hf => by dsimp only; rw [hf.1]; exact hf.2⟩

theorem buildAll_settles (p : Loc) : ∀ (ds : List Def) (root : Mod Item), (∀ d ∈ ds, PlainDef A d) → (A ∨ All WholeAt root) → SettlesO A fun f => buildAll c f p root ds := by
  intro ds
  induction ds with
  | nil => intro root _ _; simp only [buildAll]; exact .const (by simp) (by simp)
  | cons d ds ihs =>
    intro root h hw
    simp only [buildAll]
    obtain ⟨o, h1, h2, n, h3⟩ := build_settles (c := c) d p root (h d (by simp)) hw
    have h3 : ∀ f, n ≤ f → build c f p root d = o := h3
    obtain ⟨r, e⟩ := o
    cases e with
    | some e =>
      refine ⟨(r, some e), h1, h2, n, fun f hf => ?_⟩
      dsimp only; rw [h3 f hf]
    | none =>
      have hs : A ∨ All WholeAt r := by
        refine hw.imp id fun hw => ?_
        have := build_steps (E := PlainE) (c := c) n d p root (exprs_plain (h d (by simp)))
        rw [h3 n (le_refl _)] at this
        exact steps_whole this hw
      obtain ⟨o, k1, k2, k3⟩ := ihs r (fun d hd => h d (List.mem_cons_of_mem _ hd)) hs
      exact ⟨o, k1, k2, (show Ev _ from ⟨n, h3⟩).and k3 |>.mono fun f hf => by dsimp only; rw [hf.1]; exact hf.2⟩

end Verif.Idl.Syn
