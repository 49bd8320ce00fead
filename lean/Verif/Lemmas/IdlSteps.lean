import Verif.Lemmas.IdlEnter
/-!
# An outcome does not depend on the number of steps
-/

namespace Verif.Idl.Syn
open Text Gen

/-- Not finished, or the same. -/
def Le {α} (x y : Except Stop α) : Prop := x = .error .unfinished ∨ x = y

theorem Le.refl {α} (x : Except Stop α) : Le x x := .inr rfl

theorem Le.bind {α β} {x y : Except Stop α} (h : Le x y) {g k : α → Except Stop β} (hg : ∀ a, Le (g a) (k a)) :
    Le (x.bind g) (y.bind k) := by
  rcases h with rfl | rfl
  · exact .inl rfl
  · cases x with
    | error e => exact .inr rfl
    | ok a => exact hg a

theorem Le.map {α β} {x y : Except Stop α} (h : Le x y) (g : α → β) : Le (x.map g) (y.map g) := by
  rcases h with rfl | rfl
  · exact .inl rfl
  · exact .inr rfl

variable {c : Ctx} {root : Mod Item} {p : Loc} {f g : Nat}

theorem look_le (h : f ≤ g) (x : Name) : Le (look root p f x) (look root p g x) := by
  unfold look
  cases hr : resolve root f p x x true with
  | none => exact .inl rfl
  | some r =>
    have := resolve_le root h hr
    rw [this]; exact .inr rfl

theorem constant_le (h : f ≤ g) (b : Bytes) : Le (constant root p f b) (constant root p g b) := (look_le h _).map _

theorem constDim_le (h : f ≤ g) (b : Bytes) : Le (constDim root p f b) (constDim root p g b) :=
  (constant_le h b).bind fun _ => .refl _

theorem dimension_le (h : f ≤ g) (d : Dim) : Le (dimension root p f d) (dimension root p g d) := by
  cases d with
  | literal t => exact .refl _
  | name t => exact (constDim_le h t).map _

theorem typeByName_le (h : f ≤ g) (b : Bytes) : Le (typeByName root p f b) (typeByName root p g b) :=
  (look_le h _).bind fun _ => .refl _

theorem evalType_le (h : f ≤ g) : ∀ t : TSpec, Le (evalType c root p f t) (evalType c root p g t)
  | .prim k => by cases k <;> exact .refl _
  | .any => .refl _
  | .fixed => .refl _
  | .name t => typeByName_le h t
  | .string none => .refl _
  | .string (some t) => by
    simp only [evalType]
    refine (constant_le h t).bind fun a => ?_
    cases a with
    | none => exact .refl _
    | some v => exact (constDim_le h t).map _
  | .wstring none => .refl _
  | .wstring (some t) => .refl _
  | .seq t n => by
    simp only [evalType]
    refine (evalType_le h t).bind fun a => ?_
    cases n with
    | none => exact .refl _
    | some d => exact (dimension_le h d).map _
  | .map k v n => by
    simp only [evalType]
    refine (evalType_le h k).bind fun a => (evalType_le h v).bind fun b => ?_
    cases n with
    | none => exact .refl _
    | some d => exact (dimension_le h d).map _

theorem forAll_le {α β} {a b : α → Except Stop β} (h : ∀ x, Le (a x) (b x)) : ∀ l, Le (forAll a l) (forAll b l)
  | [] => .refl _
  | x :: l => by
    simp only [forAll]
    exact (h x).bind fun _ => (forAll_le h l).map _

theorem declr_le (h : f ≤ g) (d : Declr) : Le (declr c root p f d) (declr c root p g d) :=
  (Le.refl _).bind fun _ => (forAll_le (dimension_le h) _).map _

theorem members_le (h : f ≤ g) : ∀ (l : List (TSpec × List Declr)) (acc : List (String × Ty)),
    Le (members c root p f acc l) (members c root p g acc l)
  | [], _ => .refl _
  | (t, ds) :: r, acc => by
    simp only [members]
    exact (evalType_le h t).bind fun _ => (forAll_le (declr_le h) ds).bind fun _ => (Le.refl _).bind fun a => members_le h r a

theorem structMembers_le (h : f ≤ g) (x : Name) : Le (structMembers root p f x) (structMembers root p g x) :=
  (look_le h x).bind fun _ => .refl _

theorem parentMembers_le (h : f ≤ g) (x : Option Bytes) : Le (parentMembers root p f x) (parentMembers root p g x) := by
  cases x with
  | none => exact .refl _
  | some x => exact (structMembers_le h _).map _

theorem label_le (h : f ≤ g) (b : Bytes) : Le (label root p f b) (label root p g b) :=
  (constant_le h b).bind fun _ => .refl _

theorem caseOf_le (h : f ≤ g) (x : Case) : Le (caseOf c root p f x) (caseOf c root p g x) :=
  (forAll_le (label_le h) _).bind fun _ => (evalType_le h _).bind fun _ => (declr_le h _).map _

theorem unionNamed_le (h : f ≤ g) (x : Name) : Le (unionNamed root p f x) (unionNamed root p g x) :=
  (look_le h x).bind fun _ => .refl _

/-- Not finished, or the same. -/
def LeO (x y : Out) : Prop := x.2 = some .unfinished ∨ x = y

theorem LeO.refl (x : Out) : LeO x x := .inr rfl

theorem orStop_le {α} {x y : Except Stop α} (h : Le x y) {a b : α → Out} (hk : ∀ v, LeO (a v) (b v)) :
    LeO (orStop root x a) (orStop root y b) := by
  rcases h with rfl | rfl
  · exact .inl rfl
  · cases x with
    | error e => exact .refl _
    | ok v => exact hk v

theorem solveExpr_le (h : f ≤ g) (t : Ty) : ∀ e, Le (solveExpr root p f t e) (solveExpr root p g t e)
  | .lit l => .refl _
  | .name x => (constant_le h x).bind fun _ => .refl _
  | .un u e => (solveExpr_le h t e).bind fun _ => .refl _
  | .bin o l r => (solveExpr_le h t l).bind fun _ => (solveExpr_le h t r).bind fun _ => .refl _

theorem build_le (h : f ≤ g) : ∀ (d : Def) (p : Loc) (root : Mod Item), LeO (build c f p root d) (build c g p root d) := by
  intro d
  refine Def.rec (motive_1 := fun d => ∀ (p : Loc) (root : Mod Item), LeO (build c f p root d) (build c g p root d))
    (motive_2 := fun ds => ∀ (p : Loc) (root : Mod Item), LeO (buildAll c f p root ds) (buildAll c g p root ds))
    ?_ ?_ ?_ ?_ ?_ ?_ ?_ ?_ ?_ ?_ ?_ ?_ d
  · intro n q ms p root
    simp only [build, buildStruct]
    exact orStop_le (.refl _) fun n => orStop_le (parentMembers_le h _) fun pm => orStop_le (members_le h _ _) fun ms =>
      orStop_le (structMembers_le h _) fun old => .refl _
  · intro n p root; simp only [build]; exact .refl _
  · intro n d cs p root
    simp only [build, buildUnion]
    refine orStop_le (.refl _) fun n => orStop_le (evalType_le h _) fun t => ?_
    cases UnionB.new (String.ofList (scopedName p (nm n))) t with
    | none => exact .refl _
    | some u => exact orStop_le (forAll_le (caseOf_le h) _) fun _ => orStop_le (unionNamed_le h _) fun _ => .refl _
  · intro n p root; simp only [build]; exact .refl _
  · intro n ids p root; simp only [build]; exact .refl _
  · intro t n e p root
    simp only [build, buildConst]
    exact orStop_le (evalType_le h _) fun t => orStop_le (.refl _) fun t => orStop_le (solveExpr_le h t e) fun i =>
      orStop_le (.refl _) fun _ => .refl _
  · intro t ds p root
    simp only [build, buildAlias]
    exact orStop_le (evalType_le h _) fun t => orStop_le (.refl _) fun nt => orStop_le (look_le h _) fun r => .refl _
  · intro n p root; simp only [build]; exact .refl _
  · intro p root; simp only [build]; exact .refl _
  · intro n ds ih p root
    simp only [build]
    refine orStop_le (.refl _) fun n => ?_
    cases (root.at p).bind (createSubCore (nm n)) with
    | none => exact .refl _
    | some m => exact ih _ _
  · intro p root; simp only [buildAll]; exact .refl _
  · intro d ds ihd ihs p root
    simp only [buildAll]
    rcases ihd p root with hd | hd
    · refine .inl ?_
      generalize build c f p root d = o at hd
      obtain ⟨r, e⟩ := o
      have hd : e = some .unfinished := hd
      subst hd; rfl
    · rw [← hd]
      generalize build c f p root d = o
      obtain ⟨r, e⟩ := o
      cases e with
      | none => exact ihs _ _
      | some e => exact .refl _

theorem buildAll_le (h : f ≤ g) : ∀ (ds : List Def) (p : Loc) (root : Mod Item), LeO (buildAll c f p root ds) (buildAll c g p root ds)
  | [], _, _ => by simp only [buildAll]; exact .refl _
  | d :: ds, p, root => by
    simp only [buildAll]
    rcases build_le (c := c) h d p root with hd | hd
    · refine .inl ?_
      generalize build c f p root d = o at hd
      obtain ⟨r, e⟩ := o
      have hd : e = some .unfinished := hd
      subst hd; rfl
    · rw [← hd]
      generalize build c f p root d = o
      obtain ⟨r, e⟩ := o
      cases e with
      | none => exact buildAll_le h ds _ _
      | some e => exact .refl _

/-- One number of steps that is enough settles the outcome. -/
theorem reads_of {text : Bytes} {o : Out} (f : Nat) (h : parse c f root text = .built o) (hne : o.2 ≠ some .unfinished) :
    Reads c root text o := by
  refine ⟨f, fun g hg => ?_⟩
  unfold parse at h ⊢
  cases hd : document text with
  | none => rw [hd] at h; simp at h
  | some ds =>
    rw [hd] at h
    simp only [Parsed.built.injEq] at h ⊢
    rcases buildAll_le (c := c) hg ds [] root with h1 | h1
    · rw [h] at h1; exact absurd h1 hne
    · rw [← h1, h]

/-- There is one outcome at most. -/
theorem reads_unique {text : Bytes} {o o' : Out} (h : Reads c root text o) (h' : Reads c root text o') : o = o' := by
  obtain ⟨n, hn⟩ := h
  obtain ⟨m, hm⟩ := h'
  have h1 := hn (max n m) (by omega)
  have h2 := hm (max n m) (by omega)
  rw [h1] at h2
  exact Parsed.built.inj h2

theorem rejects_of {text : Bytes} (h : document text = none) : Rejects text := by
  intro c f root
  rw [parse, h]

end Verif.Idl.Syn
