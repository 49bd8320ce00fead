import Verif.Lemmas.DepTree
import Mathlib.Data.Fintype.Card
import Mathlib.Data.Fintype.EquivFin
import Mathlib.Data.Fintype.Sets
/-! What `solve` records, and when the generation ends. -/

namespace Verif.Idl.Dep

/-- What one call of `set_dependency` records. -/
def effect (root : Mod Decl) (d : Node) (master : Name) : Option Tables :=
  setDependency root d master {}

/-- Union of tables. -/
def Tables.merge (t u : Tables) : Tables :=
  ⟨u.modAnc.foldl addPair t.modAnc, u.nodeAnc.foldl addPair t.nodeAnc, u.nodePar.foldl addPair t.nodePar,
    u.nodeChild.foldl addPair t.nodeChild⟩

theorem addPair_nil {α : Type} [DecidableEq α] (x : α) : addPair [] x = [x] := by simp [addPair]

theorem setDependency_effect (root : Mod Decl) (d : Node) (x : Name) (t : Tables) :
    setDependency root d x t = (effect root d x).map t.merge := by
  unfold effect setDependency
  split
  · rfl
  · split
    · split <;> simp [Tables.merge, addPair_nil]
    · split
      · rfl
      · simp only
        split
        · simp [Tables.merge, addPair_nil]
        · unfold setHier
          split
          · simp [Tables.merge, addPair_nil]
          · cases siblings d.loc _ <;> simp [Tables.merge, addPair_nil]

theorem mem_foldl_addPair {α : Type} [DecidableEq α] {l u : List α} {y : α} :
    y ∈ u.foldl addPair l ↔ y ∈ l ∨ y ∈ u := by
  induction u generalizing l with
  | nil => simp
  | cons x u ih => rw [List.foldl_cons, ih, mem_addPair, List.mem_cons]; tauto

/-- A view of the tables: one of the four relations. -/
inductive Rel : Type → Type 1 where
  | modAnc : Rel (Loc × Loc)
  | nodeAnc : Rel (Node × Node)
  | nodePar : Rel (Node × Loc)
  | nodeChild : Rel (Node × Loc)

/-- The pairs of a relation. -/
def Tables.rel (t : Tables) : {α : Type} → Rel α → List α
  | _, .modAnc => t.modAnc
  | _, .nodeAnc => t.nodeAnc
  | _, .nodePar => t.nodePar
  | _, .nodeChild => t.nodeChild

theorem merge_rel {α : Type} (t u : Tables) (R : Rel α) (e : α) :
    e ∈ (t.merge u).rel R ↔ e ∈ t.rel R ∨ e ∈ u.rel R := by
  cases R <;> exact mem_foldl_addPair

/-- All dependencies `(n, x)`: the node `n` names `x`. -/
def deps (root : Mod Decl) : List (Node × Name) :=
  ((mods [] root).flatMap (nodesAt root)).flatMap fun n =>
    match declOf root n with
    | some d => (depNames n.kind d).map fun x => (n, x)
    | none => []

theorem foldlM_flatMap {σ α β : Type} (f : σ → β → Option σ) (g : α → List β) (l : List α) (s : σ) :
    (l.flatMap g).foldlM f s = l.foldlM (fun s a => (g a).foldlM f s) s := by
  induction l generalizing s with
  | nil => rfl
  | cons a l ih =>
    rw [List.flatMap_cons, List.foldlM_append, List.foldlM_cons]
    cases (g a).foldlM f s with
    | none => rfl
    | some t => exact ih t

theorem solve_deps (root : Mod Decl) :
    solve root = (deps root).foldlM (fun t e => setDependency root e.1 e.2 t) {} := by
  unfold solve deps
  rw [foldlM_flatMap (β := Node × Name) (f := fun t e => setDependency root e.1 e.2 t)]
  congr 1
  funext t n
  unfold setNode
  cases declOf root n with
  | none => rfl
  | some d => simp only [List.foldlM_map]

theorem fold_effects (root : Mod Decl) (l : List (Node × Name)) (t : Tables) :
    (∀ t', l.foldlM (fun t e => setDependency root e.1 e.2 t) t = some t' →
      (∀ e ∈ l, (effect root e.1 e.2).isSome) ∧
      ∀ {α : Type} (R : Rel α) (y : α), y ∈ t'.rel R ↔ y ∈ t.rel R ∨
        ∃ e ∈ l, ∃ u, effect root e.1 e.2 = some u ∧ y ∈ u.rel R) ∧
    ((∀ e ∈ l, (effect root e.1 e.2).isSome) →
      ∃ t', l.foldlM (fun t e => setDependency root e.1 e.2 t) t = some t') := by
  induction l generalizing t with
  | nil =>
    refine ⟨?_, fun _ => ⟨t, rfl⟩⟩
    intro t' h
    simp at h; subst h
    exact ⟨by simp, by simp⟩
  | cons a l ih =>
    constructor
    · intro t' h
      obtain ⟨u, h1, h2⟩ := foldlM_cons_some h
      rw [setDependency_effect] at h1
      cases he : effect root a.1 a.2 with
      | none => rw [he] at h1; cases h1
      | some v =>
        rw [he] at h1
        simp only [Option.map_some, Option.some.injEq] at h1
        subst h1
        obtain ⟨g1, g2⟩ := (ih (t.merge v)).1 t' h2
        refine ⟨?_, ?_⟩
        · intro e hm
          rcases List.mem_cons.mp hm with rfl | hm
          · rw [he]; rfl
          · exact g1 e hm
        · intro α R y
          rw [g2, merge_rel]
          constructor
          · rintro ((h | h) | ⟨e, hm, u, hu, hy⟩)
            · exact .inl h
            · exact .inr ⟨a, List.mem_cons_self .., v, he, h⟩
            · exact .inr ⟨e, List.mem_cons_of_mem _ hm, u, hu, hy⟩
          · rintro (h | ⟨e, hm, u, hu, hy⟩)
            · exact .inl (.inl h)
            · rcases List.mem_cons.mp hm with rfl | hm
              · rw [he] at hu; cases hu; exact .inl (.inr hy)
              · exact .inr ⟨e, hm, u, hu, hy⟩
    · intro h
      have ha := h a (List.mem_cons_self ..)
      rw [Option.isSome_iff_exists] at ha
      obtain ⟨v, hv⟩ := ha
      obtain ⟨t', ht'⟩ := (ih (t.merge v)).2 (fun e he => h e (List.mem_cons_of_mem _ he))
      refine ⟨t', ?_⟩
      rw [List.foldlM_cons, setDependency_effect, hv]
      exact ht'

/-- What is in the tables. -/
theorem solve_rel {root : Mod Decl} {t : Tables} (h : solve root = some t) {α : Type} (R : Rel α) (y : α) :
    y ∈ t.rel R ↔ ∃ e ∈ deps root, ∃ u, effect root e.1 e.2 = some u ∧ y ∈ u.rel R := by
  rw [solve_deps] at h
  rw [((fold_effects root (deps root) {}).1 t h).2 R y]
  constructor
  · rintro (h | h)
    · cases R <;> cases h
    · exact h
  · exact .inr

theorem solve_isSome {root : Mod Decl} : (solve root).isSome ↔ ∀ e ∈ deps root, (effect root e.1 e.2).isSome := by
  rw [solve_deps]
  constructor
  · intro h
    rw [Option.isSome_iff_exists] at h
    obtain ⟨t, ht⟩ := h
    exact ((fold_effects root (deps root) {}).1 t ht).1
  · intro h
    obtain ⟨t, ht⟩ := (fold_effects root (deps root) {}).2 h
    rw [ht]; rfl

theorem mem_deps {root : Mod Decl} (hu : root.uniq) {n : Node} {x : Name} :
    (n, x) ∈ deps root ↔ ∃ d, declOf root n = some d ∧ x ∈ depNames n.kind d := by
  simp only [deps, List.mem_flatMap]
  constructor
  · rintro ⟨m, -, h⟩
    cases hd : declOf root m with
    | none => rw [hd] at h; cases h
    | some d =>
      rw [hd] at h
      obtain ⟨y, hy, e⟩ := List.mem_map.mp h
      cases e
      exact ⟨d, hd, hy⟩
  · rintro ⟨d, hd, hx⟩
    have hm : n ∈ nodesAt root n.loc := mem_nodesAt.mpr ⟨rfl, by rw [hd]; rfl⟩
    refine ⟨n, ⟨n.loc, (mem_mods_root hu _).mpr (nodesAt_at hm), hm⟩, ?_⟩
    rw [hd]
    exact List.mem_map.mpr ⟨x, hx, rfl⟩

/-! ### What one dependency records -/

theorem siblings_ne {p q : Loc} {x y : Name} {r : Loc} (h : siblings p q = some (x :: r, y :: r)) (hq : ¬ q <:+ p)
    (hi : innerToward p q = none) : x ≠ y := by
  induction p with
  | nil => cases h
  | cons z p ih =>
    rw [siblings] at h
    cases hi' : innerToward p q with
    | some t =>
      rw [hi'] at h
      simp only [Option.some.injEq, Prod.mk.injEq, List.cons.injEq] at h
      obtain ⟨⟨rfl, rfl⟩, rfl⟩ := h
      rintro rfl
      obtain ⟨y', e, w, rfl⟩ := innerToward_some hi'
      cases e
      rcases List.eq_nil_or_concat w with rfl | ⟨w, a, rfl⟩
      · exact hq (List.suffix_refl _)
      · rw [List.concat_eq_append, List.append_assoc, List.singleton_append, innerToward_eq] at hi
        cases hi
    | none =>
      rw [hi'] at h
      exact ih h (fun hs => hq (hs.trans (List.suffix_cons _ _))) hi'

theorem suffix_eq_of_length {a b q : Loc} (ha : a <:+ q) (hb : b <:+ q) (h : a.length = b.length) : a = b := by
  rcases List.suffix_or_suffix_of_suffix ha hb with h' | h'
  · exact h'.eq_of_length h
  · exact (h'.eq_of_length h.symm).symm

theorem siblings_eq {p q : Loc} {x y : Name} {r : Loc} (hp : x :: r <:+ p) (hq : y :: r <:+ q) (hne : x ≠ y) :
    siblings p q = some (x :: r, y :: r) := by
  induction p with
  | nil => simp at hp
  | cons z p ih =>
    rw [siblings]
    rcases List.suffix_cons_iff.mp hp with e | hp
    · cases e
      obtain ⟨w, rfl⟩ := hq
      rw [innerToward_eq]
    · have : innerToward p q = none := by
        cases hi : innerToward p q with
        | none => rfl
        | some t =>
          obtain ⟨v, rfl, hs⟩ := innerToward_some hi
          have := suffix_eq_of_length ((hp.trans (List.suffix_cons _ _)).trans hs) hq rfl
          cases this
          exact absurd rfl hne
      rw [this]
      exact ih hp

theorem local_of_search {root : Mod Decl} {d m : Node} {x : Name} (hs : search root x = some m)
    (hl : m.loc = d.loc) : Local root d x := by
  obtain ⟨h1, h2, h3, -⟩ := search_some hs
  right
  rw [hl] at h3 h1
  refine ⟨h3, ?_⟩
  obtain ⟨-, hd⟩ := mem_nodesAt.mp h1
  unfold declOf at hd
  rw [hl] at hd
  cases hr : root.at d.loc with
  | none => rw [hr] at hd; cases hd
  | some mm =>
    rw [hr, Option.bind_some, omGet_isSome, h2] at hd
    simp only [Option.map_some, Option.some.injEq, Mod.hasSymbol, Bool.or_eq_true]
    cases hk : m.kind <;> rw [hk] at hd <;> simp only [Kind.cat, Content.get] at hd <;> simp [hd]

theorem effect_cases (root : Mod Decl) (d : Node) (x : Name) :
    (Local root d x ∧ ∃ u, effect root d x = some u ∧ u.modAnc = [] ∧ u.nodePar = [] ∧ u.nodeChild = [] ∧
      (u.nodeAnc = [] ∨ ∃ a, u.nodeAnc = [(d, a)] ∧ d.name ≠ x ∧
        (nodesAt root d.loc).find? (fun n => n.kind = d.kind ∧ n.name = unscoped x) = some a)) ∨
    (¬ Local root d x ∧ search root x = none ∧ effect root d x = none) ∨
    (¬ Local root d x ∧ ∃ m, search root x = some m ∧ m.loc ≠ d.loc ∧ ∃ u, effect root d x = some u ∧ u.nodeAnc = [] ∧
      u.nodeChild = [(m, (innerToward m.loc d.loc).getD d.loc)] ∧
      ((∃ q, innerToward d.loc m.loc = some q ∧ u.nodePar = [(d, q)] ∧ u.modAnc = []) ∨
       (m.loc <:+ d.loc ∧ u.nodePar = [] ∧ u.modAnc = []) ∨
       (∃ y z r, y ≠ z ∧ y :: r <:+ d.loc ∧ z :: r <:+ m.loc ∧ u.nodePar = [] ∧ u.modAnc = [(y :: r, z :: r)]))) := by
  unfold effect setDependency
  by_cases h1 : d.name = x
  · left
    rw [if_pos h1]
    exact ⟨.inl h1, {}, rfl, rfl, rfl, rfl, .inl rfl⟩
  rw [if_neg h1]
  by_cases h2 : scopeMatch d.loc x ∧ ((root.at d.loc).map fun m => m.hasSymbol (unscoped x)) = some true
  · left
    rw [if_pos h2]
    refine ⟨.inr h2, ?_⟩
    cases hf : (nodesAt root d.loc).find? fun n => n.kind = d.kind ∧ n.name = unscoped x with
    | none => exact ⟨{}, rfl, rfl, rfl, rfl, .inl rfl⟩
    | some a => exact ⟨_, rfl, rfl, rfl, rfl, .inr ⟨a, by simp [addPair], h1, rfl⟩⟩
  right
  rw [if_neg h2]
  have hl : ¬ Local root d x := by
    rintro (h | h)
    · exact h1 h
    · exact h2 h
  cases hs : search root x with
  | none => left; exact ⟨hl, rfl, rfl⟩
  | some m =>
    right
    refine ⟨hl, m, rfl, fun e => hl (local_of_search hs e), ?_⟩
    simp only
    cases hi : innerToward d.loc m.loc with
    | some q => exact ⟨_, rfl, rfl, by simp [addPair], .inl ⟨q, rfl, by simp [addPair], rfl⟩⟩
    | none =>
      simp only [setHier]
      by_cases ho : hasOuter d.loc m.loc = true
      · rw [if_pos ho]
        refine ⟨_, rfl, rfl, by simp [addPair], .inr (.inl ⟨?_, rfl, rfl⟩)⟩
        simp only [hasOuter, Bool.decide_and, Bool.and_eq_true, decide_eq_true_eq] at ho
        exact List.isSuffixOf_iff_suffix.mp ho.1
      · rw [if_neg ho]
        have hns : ¬ m.loc <:+ d.loc := by
          intro h
          apply ho
          simp only [hasOuter, Bool.decide_and, Bool.and_eq_true, decide_eq_true_eq]
          exact ⟨List.isSuffixOf_iff_suffix.mpr h, fun e => hl (local_of_search hs e)⟩
        have hnp : ¬ d.loc <:+ m.loc := by
          rintro ⟨w, e⟩
          rcases List.eq_nil_or_concat w with rfl | ⟨w, a, rfl⟩
          · exact hl (local_of_search hs e.symm)
          · rw [← e, List.concat_eq_append, List.append_assoc, List.singleton_append, innerToward_eq] at hi
            cases hi
        have hsome : (siblings d.loc m.loc).isSome := by
          rcases siblings_exists hns with e | h | h
          · exact absurd (e ▸ List.nil_suffix) hnp
          · exact h
          · exact absurd h hnp
        rw [Option.isSome_iff_exists] at hsome
        obtain ⟨s, hsib⟩ := hsome
        obtain ⟨y, z, r, rfl, g1, g2⟩ := siblings_some hsib
        rw [hsib]
        exact ⟨_, rfl, rfl, by simp [addPair], .inr (.inr ⟨y, z, r, siblings_ne hsib hns hi, g1, g2, rfl,
          by simp [addPair]⟩)⟩

/-- The recorded dependencies between modules. -/
theorem solve_modAnc {root : Mod Decl} (hu : root.uniq) {t : Tables} (h : solve root = some t) (a b : Loc) :
    (a, b) ∈ t.modAnc ↔ Needs root a b := by
  rw [show t.modAnc = t.rel .modAnc from rfl, solve_rel h]
  constructor
  · rintro ⟨⟨n, z⟩, he, u, hue, hm⟩
    simp only at hue
    have hm : (a, b) ∈ u.modAnc := hm
    have hn := (mem_deps hu).mp he
    rcases effect_cases root n z with ⟨-, u', e, h1, -⟩ | ⟨-, -, e⟩ |
      ⟨hl, m, hs, -, u', e, -, -, h1⟩
    · rw [hue] at e; cases e; rw [h1] at hm; cases hm
    · rw [hue] at e; cases e
    · rw [hue] at e; cases e
      rcases h1 with ⟨q, -, -, h1⟩ | ⟨-, -, h1⟩ | ⟨y, y', r, hne, g1, g2, -, h1⟩
      · rw [h1] at hm; cases hm
      · rw [h1] at hm; cases hm
      · rw [h1, List.mem_singleton] at hm
        cases hm
        exact ⟨y, y', r, n, z, m, rfl, rfl, hne, g1, g2, hn, hl, hs⟩
  · rintro ⟨x, y, r, n, z, m, rfl, rfl, hne, g1, g2, hn, hl, hs⟩
    refine ⟨(n, z), (mem_deps hu).mpr hn, ?_⟩
    have hsib := siblings_eq g1 g2 hne
    rcases effect_cases root n z with ⟨hl', -⟩ | ⟨-, e, -⟩ | ⟨-, m', hs', -, u', e, -, -, h1⟩
    · exact absurd hl' hl
    · rw [hs] at e; cases e
    · rw [hs] at hs'; cases hs'
      refine ⟨u', e, ?_⟩
      show _ ∈ u'.modAnc
      rcases h1 with ⟨q, hq, -⟩ | ⟨hq, -⟩ | ⟨y1, y2, r', hne', g1', g2', -, h1⟩
      · obtain ⟨v, rfl, hv⟩ := innerToward_some hq
        have := suffix_eq_of_length ((g1.trans (List.suffix_cons _ _)).trans hv) g2 rfl
        cases this
        exact absurd rfl hne
      · have := suffix_eq_of_length (g2.trans hq) g1 rfl
        cases this
        exact absurd rfl hne
      · have := siblings_eq g1' g2' hne'
        rw [hsib] at this
        cases this
        rw [h1]; exact List.mem_singleton.mpr rfl

theorem solve_some {root : Mod Decl} (hu : root.uniq) :
    (solve root).isSome ↔ ∀ n z, Names root n z → Local root n z ∨ (search root z).isSome := by
  rw [solve_isSome]
  constructor
  · intro h n z hn
    have := h (n, z) ((mem_deps hu).mpr hn)
    rcases effect_cases root n z with ⟨hl', -⟩ | ⟨-, e, e'⟩ | ⟨-, m', hs', -⟩
    · exact .inl hl'
    · rw [e'] at this; cases this
    · exact .inr (by rw [hs']; rfl)
  · rintro h ⟨n, z⟩ he
    have := h n z ((mem_deps hu).mp he)
    rcases effect_cases root n z with ⟨hl', u, hu', -⟩ | ⟨hl, e, e'⟩ | ⟨-, m', hs', -, u', e, -⟩
    · rw [hu']; rfl
    · rcases this with h | h
      · exact absurd h hl
      · rw [e] at h; cases h
    · rw [e]; rfl

/-! ### Termination -/

theorem foldlM_mono {σ α : Type} {f f' : σ → α → Option σ} : ∀ (l : List α) (s s' : σ),
    (∀ a ∈ l, ∀ s s', f s a = some s' → f' s a = some s') → l.foldlM f s = some s' → l.foldlM f' s = some s' := by
  intro l
  induction l with
  | nil => intro s s' _ h; exact h
  | cons a l ih =>
    intro s s' hk h
    obtain ⟨t, h1, h2⟩ := foldlM_cons_some h
    rw [List.foldlM_cons, hk a (List.mem_cons_self ..) s t h1]
    exact ih t s' (fun b hb => hk b (List.mem_cons_of_mem _ hb)) h2

theorem gen_mono {g : Gr} : ∀ (f : Nat) (p : Loc) (s s' : St), gen g f p s = some s' → gen g (f + 1) p s = some s' := by
  intro f
  induction f with
  | zero => intro p s s' h; cases h
  | succ f ih =>
    intro p s s' h
    by_cases hp : p ∈ s.iter
    · rw [gen, if_pos hp] at h ⊢; exact h
    · obtain ⟨s1, s2, s3, h1, h2, h3, rfl⟩ := gen_cases h hp
      have k : ∀ (l : List Loc) (t t' : St), l.foldlM (fun s a => gen g f a s) t = some t' →
          l.foldlM (fun s a => gen g (f + 1) a s) t = some t' :=
        fun l t t' => foldlM_mono l t t' (fun a _ u u' hu => ih a u u' hu)
      rw [gen, if_neg hp, k _ _ _ h1]
      simp only [Option.bind_eq_bind, Option.bind_some]
      rw [k _ _ _ h2]
      simp only [Option.bind_some]
      rw [k _ _ _ h3]
      rfl

theorem gen_le {g : Gr} {f f' : Nat} (h : f ≤ f') {p : Loc} {s s' : St} (hg : gen g f p s = some s') :
    gen g f' p s = some s' := by
  induction h with
  | refl => exact hg
  | step _ ih => exact gen_mono _ _ _ _ ih

theorem fold_returns {g : Gr} : ∀ (l : List Loc), (∀ a ∈ l, ∀ s, ∃ f s', gen g f a s = some s') → ∀ s,
    ∃ f s', l.foldlM (fun s a => gen g f a s) s = some s' := by
  intro l
  induction l with
  | nil => intro _ s; exact ⟨0, s, rfl⟩
  | cons a l ih =>
    intro h s
    obtain ⟨f1, t, h1⟩ := h a (List.mem_cons_self ..) s
    obtain ⟨f2, s', h2⟩ := ih (fun b hb => h b (List.mem_cons_of_mem _ hb)) t
    refine ⟨max f1 f2, s', ?_⟩
    rw [List.foldlM_cons, gen_le (Nat.le_max_left _ _) h1]
    exact foldlM_mono l t s' (fun b _ u u' hu => gen_le (Nat.le_max_right _ _) hu) h2

/-- A call returns if the calls it makes do. -/
theorem gen_returns {g : Gr} {p : Loc} (h1 : ∀ a ∈ g.modAncOf p, ∀ s, ∃ f s', gen g f a s = some s')
    (h2 : ∀ a ∈ (g.nodes p).flatMap g.parOf, ∀ s, ∃ f s', gen g f a s = some s')
    (h3 : ∀ a ∈ g.inners p, ∀ s, ∃ f s', gen g f a s = some s') (s : St) : ∃ f s', gen g f p s = some s' := by
  by_cases hp : p ∈ s.iter
  · exact ⟨1, s, by rw [gen, if_pos hp]⟩
  · obtain ⟨f1, s1, e1⟩ := fold_returns _ h1 s
    obtain ⟨f2, s2, e2⟩ := fold_returns _ h2 (openMod p (emitOuter g p s1))
    obtain ⟨f3, s3, e3⟩ := fold_returns _ h3 (emitModule g p s2)
    refine ⟨max f1 (max f2 f3) + 1, closeMod p s3, ?_⟩
    rw [gen, if_neg hp, foldlM_mono _ _ _ (fun b _ u u' hu => gen_le (Nat.le_max_left _ _) hu) e1]
    simp only [Option.bind_eq_bind, Option.bind_some]
    rw [foldlM_mono _ _ _ (fun b _ u u' hu => gen_le
      (Nat.le_trans (Nat.le_max_left _ _) (Nat.le_max_right _ _)) hu) e2]
    simp only [Option.bind_some]
    rw [foldlM_mono _ _ _ (fun b _ u u' hu => gen_le
      (Nat.le_trans (Nat.le_max_right _ _) (Nat.le_max_right _ _)) hu) e3]
    rfl

/-- Over a finite tree whose recorded module dependencies have no cycle the generation returns. -/
theorem gen_acyclic {g : Gr} (hg : g.WF) (L : List Loc) (hL : ∀ p ∈ L, ∀ q ∈ g.inners p, q ∈ L)
    (hT : ∀ x r, x :: r ∈ L → r ∈ L)
    (hac : ∀ p, ¬ Relation.TransGen (fun a b => b ∈ g.modAncOf a) p p) :
    ∀ p ∈ L, ∀ s, ∃ f s', gen g f p s = some s' := by
  obtain ⟨D, hD⟩ : ∃ D, ∀ p ∈ L, p.length ≤ D := by
    clear hL hT
    induction L with
    | nil => exact ⟨0, by simp⟩
    | cons a l ih =>
      obtain ⟨D, hD⟩ := ih
      refine ⟨max a.length D, ?_⟩
      intro p hp
      rcases List.mem_cons.mp hp with rfl | hp
      · exact Nat.le_max_left _ _
      · exact Nat.le_trans (hD p hp) (Nat.le_max_right _ _)
  let T := { p : Loc // p ∈ L }
  have hfin : Finite T := _root_.Finite.of_fintype { p : Loc // p ∈ L }
  let E : T → T → Prop := Relation.TransGen fun a b : T => a.1 ∈ g.modAncOf b.1
  have hlift : ∀ a b : T, E a b → Relation.TransGen (fun a b => b ∈ g.modAncOf a) b.1 a.1 := by
    intro a b h
    induction h with
    | single h => exact .single h
    | tail _ h ih => exact .head h ih
  have : Std.Irrefl E := ⟨fun a h => hac a.1 (hlift a a h)⟩
  have : IsTrans T E := ⟨fun _ _ _ => Relation.TransGen.trans⟩
  have hwf : WellFounded E := Finite.wellFounded_of_trans_of_irrefl E
  have main : ∀ k, ∀ p : T, D - p.1.length ≤ k → ∀ s, ∃ f s', gen g f p.1 s = some s' := by
    intro k
    induction k with
    | zero =>
      intro p
      induction p using hwf.induction with
      | _ p ih =>
        intro hk
        have hno : ∀ q, q ∉ g.inners p.1 := by
          intro q hq
          have h1 := hD _ (hL _ p.2 q hq)
          obtain ⟨x, -, rfl⟩ := hg.inners _ _ hq
          simp only [List.length_cons] at h1
          omega
        refine gen_returns ?_ ?_ ?_
        · intro a ha
          obtain ⟨x, y, r, hy, e1, rfl⟩ := hg.modAnc _ _ ha
          refine ih ⟨y :: r, hL r (hT x r (e1 ▸ p.2)) _ hy⟩ (.single ha) ?_
          rw [e1] at hk
          simpa using hk
        · intro a ha
          obtain ⟨n, hn, ha⟩ := List.mem_flatMap.mp ha
          have := hg.nodePar n a ha
          rw [hg.nodes _ _ hn] at this
          exact absurd this (hno _)
        · intro a ha; exact absurd ha (hno _)
    | succ k ihk =>
      intro p
      induction p using hwf.induction with
      | _ p ih =>
        intro hk
        have hin : ∀ q ∈ g.inners p.1, ∀ s, ∃ f s', gen g f q s = some s' := by
          intro q hq
          refine ihk ⟨q, hL _ p.2 q hq⟩ ?_
          obtain ⟨x, -, rfl⟩ := hg.inners _ _ hq
          simp only [List.length_cons]
          omega
        refine gen_returns ?_ ?_ hin
        · intro a ha
          obtain ⟨x, y, r, hy, e1, rfl⟩ := hg.modAnc _ _ ha
          refine ih ⟨y :: r, hL r (hT x r (e1 ▸ p.2)) _ hy⟩ (.single ha) ?_
          rw [e1] at hk
          simpa using hk
        · intro a ha
          obtain ⟨n, hn, ha⟩ := List.mem_flatMap.mp ha
          have := hg.nodePar n a ha
          rw [hg.nodes _ _ hn] at this
          exact hin _ this
  intro p hp
  exact main _ ⟨p, hp⟩ (Nat.le_refl _)

end Verif.Idl.Dep
