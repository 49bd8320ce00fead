import Verif.Spec.Deps
import Mathlib.Logic.Relation
/-! Generation of IDL over an abstract dependency tree. -/

namespace Verif.Idl.Dep

/-! ### Texts -/

theorem place_append (c : Loc) (a b : List Event) : place c (a ++ b) = (place c a).bind (place · b) := by
  induction a generalizing c with
  | nil => rfl
  | cons e r ih =>
    cases e <;> simp only [List.cons_append, place] <;> split <;> simp [ih]

@[simp] theorem declared_append (a b : List Event) : declared (a ++ b) = declared a ++ declared b := by
  simp [declared, List.filterMap_append]
@[simp] theorem opened_append (a b : List Event) : opened (a ++ b) = opened a ++ opened b := by
  simp [opened, List.filterMap_append]
@[simp] theorem closed_append (a b : List Event) : closed (a ++ b) = closed a ++ closed b := by
  simp [closed, List.filterMap_append]

/-- What the tree builder guarantees. -/
structure Gr.WF (g : Gr) : Prop where
  nodes : ∀ p, ∀ n ∈ g.nodes p, n.loc = p
  inners : ∀ p, ∀ q ∈ g.inners p, ∃ x, x ≠ [] ∧ q = x :: p
  modAnc : ∀ a, ∀ b ∈ g.modAncOf a, ∃ x y r, y :: r ∈ g.inners r ∧ a = x :: r ∧ b = y :: r
  nodeAnc : ∀ n, ∀ a ∈ g.ancOf n, a ∈ g.nodes n.loc
  nodePar : ∀ n, ∀ q ∈ g.parOf n, q ∈ g.inners n.loc

/-- The nodes that print something. -/
def Gr.real (g : Gr) (l : List Node) : List Node := l.filter fun n => !g.fake n

/-- What happened between two states, seen from inside the module at `r`. -/
def Ext (g : Gr) (r : Loc) (s s' : St) : Prop :=
  ∃ ev, s'.out = s.out ++ ev ∧ place r ev = some r ∧ (opened ev).Perm (closed ev) ∧
    s'.iter = (closed ev).reverse ++ s.iter ∧
    g.real s'.done = (declared ev).reverse ++ g.real s.done ∧ ∃ d, s'.done = d ++ s.done

theorem Ext.refl (g : Gr) (r : Loc) (s : St) : Ext g r s s :=
  ⟨[], by simp, rfl, List.Perm.nil, rfl, rfl, [], rfl⟩

theorem Ext.trans {g : Gr} {r : Loc} {s s' s'' : St} (h : Ext g r s s') (h' : Ext g r s' s'') : Ext g r s s'' := by
  obtain ⟨e, h1, h2, h3, h4, h5, d, h6⟩ := h
  obtain ⟨e', h1', h2', h3', h4', h5', d', h6'⟩ := h'
  refine ⟨e ++ e', ?_, ?_, ?_, ?_, ?_, d' ++ d, ?_⟩
  · rw [h1', h1, List.append_assoc]
  · rw [place_append, h2]; exact h2'
  · rw [opened_append, closed_append]; exact h3.append h3'
  · rw [h4', h4, closed_append]; simp
  · rw [h5', h5, declared_append]; simp
  · rw [h6', h6, List.append_assoc]

theorem Ext.iter_mono {g : Gr} {r : Loc} {s s' : St} (h : Ext g r s s') : ∀ q ∈ s.iter, q ∈ s'.iter := by
  obtain ⟨e, -, -, -, h4, -⟩ := h
  intro q hq; rw [h4]; exact List.mem_append_right _ hq

theorem Ext.done_mono {g : Gr} {r : Loc} {s s' : St} (h : Ext g r s s') : ∀ q ∈ s.done, q ∈ s'.done := by
  obtain ⟨e, -, -, -, -, -, d, h4⟩ := h
  intro q hq; rw [h4]; exact List.mem_append_right _ hq

/-- Invariant of all states. -/
structure Inv (g : Gr) (s : St) : Prop where
  done : s.done.Nodup
  iter : s.iter.Nodup
  closed : ∀ q ∈ s.iter, (∀ n ∈ g.nodes q, n ∈ s.done) ∧ ∀ i ∈ g.inners q, i ∈ s.iter
  nodes : ∀ n ∈ s.done, n ∈ g.nodes n.loc
  mods : ∀ q ∈ s.iter, q = [] ∨ q ∈ g.inners q.tail

/-- Between two states no module was finished. -/
def SameIter (s s' : St) : Prop := s'.iter = s.iter

/-! ### Emitting nodes -/

theorem emit_ext {g : Gr} (s : St) (n : Node) {r : Loc} (hn : n.loc = r) (hnr : n ∈ g.nodes r) :
    Ext g r s (emit g s n) ∧ (emit g s n).iter = s.iter ∧ n ∈ (emit g s n).done ∧
      (Inv g s → Inv g (emit g s n)) := by
  unfold emit
  by_cases h : n ∈ s.done
  · rw [if_pos h]; exact ⟨Ext.refl _ _ _, rfl, h, id⟩
  · rw [if_neg h]
    refine ⟨?_, rfl, List.mem_cons_self .., ?_⟩
    · by_cases hf : g.fake n = true
      · refine ⟨[], by simp [hf], rfl, List.Perm.nil, rfl, ?_, [n], rfl⟩
        simp [Gr.real, hf, declared]
      · refine ⟨[.decl n], by simp [hf], by simp [place, hn], ?_, rfl, ?_, [n], rfl⟩
        · simp [opened, Idl.Dep.closed]
        · simp [Gr.real, hf, declared]
    · rintro ⟨h1, h2, h3, h4, h5⟩
      refine ⟨List.nodup_cons.mpr ⟨h, h1⟩, h2, ?_, ?_, h5⟩
      · intro q hq
        exact ⟨fun m hm => List.mem_cons_of_mem _ ((h3 q hq).1 m hm), (h3 q hq).2⟩
      · intro m hm
        rcases List.mem_cons.mp hm with rfl | hm
        · rw [hn]; exact hnr
        · exact h4 m hm

theorem emits_ext {g : Gr} (l : List Node) (s : St) {r : Loc} (hn : ∀ n ∈ l, n.loc = r ∧ n ∈ g.nodes r) :
    Ext g r s (l.foldl (emit g) s) ∧ (l.foldl (emit g) s).iter = s.iter ∧
      (∀ n ∈ l, n ∈ (l.foldl (emit g) s).done) ∧ (Inv g s → Inv g (l.foldl (emit g) s)) := by
  induction l generalizing s with
  | nil => exact ⟨Ext.refl _ _ _, rfl, by simp, id⟩
  | cons n l ih =>
    obtain ⟨a1, a2, a3, a4⟩ := emit_ext (g := g) s n (hn n (List.mem_cons_self ..)).1 (hn n (List.mem_cons_self ..)).2
    obtain ⟨b1, b2, b3, b4⟩ := ih (emit g s n) (fun m hm => hn m (List.mem_cons_of_mem _ hm))
    refine ⟨a1.trans b1, by rw [List.foldl_cons, b2, a2], ?_, fun h => b4 (a4 h)⟩
    intro m hm
    rcases List.mem_cons.mp hm with rfl | hm
    · exact b1.done_mono _ a3
    · exact b3 m hm

theorem emitModule_ext {g : Gr} (hg : g.WF) (p : Loc) (s : St) :
    Ext g p s (emitModule g p s) ∧ (emitModule g p s).iter = s.iter ∧
      (∀ n ∈ g.nodes p, n ∈ (emitModule g p s).done) ∧ (Inv g s → Inv g (emitModule g p s)) := by
  unfold emitModule
  have : ∀ (l : List Node) (s : St), (∀ n ∈ l, n ∈ g.nodes p) →
      Ext g p s (l.foldl (fun s n => emit g ((g.ancOf n).foldl (emit g) s) n) s) ∧
      (l.foldl (fun s n => emit g ((g.ancOf n).foldl (emit g) s) n) s).iter = s.iter ∧
      (∀ n ∈ l, n ∈ (l.foldl (fun s n => emit g ((g.ancOf n).foldl (emit g) s) n) s).done) ∧
      (Inv g s → Inv g (l.foldl (fun s n => emit g ((g.ancOf n).foldl (emit g) s) n) s)) := by
    intro l
    induction l with
    | nil => intro s _; exact ⟨Ext.refl _ _ _, rfl, by simp, id⟩
    | cons n l ih =>
      intro s hl
      have hn := hl n (List.mem_cons_self ..)
      have hloc := hg.nodes p n hn
      obtain ⟨c1, c2, -, c4⟩ := emits_ext (g := g) (g.ancOf n) s (r := p)
        (fun a ha => by
          have := hg.nodeAnc n a ha
          rw [hloc] at this
          exact ⟨hg.nodes _ _ this, this⟩)
      obtain ⟨a1, a2, a3, a4⟩ := emit_ext (g := g) ((g.ancOf n).foldl (emit g) s) n hloc hn
      obtain ⟨b1, b2, b3, b4⟩ := ih (emit g ((g.ancOf n).foldl (emit g) s) n)
        (fun m hm => hl m (List.mem_cons_of_mem _ hm))
      refine ⟨(c1.trans a1).trans b1, by rw [List.foldl_cons, b2, a2, c2], ?_, fun h => b4 (a4 (c4 h))⟩
      intro m hm
      rcases List.mem_cons.mp hm with rfl | hm
      · exact b1.done_mono _ a3
      · exact b3 m hm
  exact this _ s (fun _ h => h)

theorem emitOuter_ext {g : Gr} (hg : g.WF) (x : Name) (r : Loc) (s : St) :
    Ext g r s (emitOuter g (x :: r) s) ∧ (emitOuter g (x :: r) s).iter = s.iter ∧
      (Inv g s → Inv g (emitOuter g (x :: r) s)) := by
  obtain ⟨a1, a2, -, a4⟩ := emits_ext (g := g) ((g.nodes r).filter fun n => g.hasChild n (x :: r)) s (r := r)
    (fun n hn => ⟨hg.nodes r n (List.mem_filter.mp hn).1, (List.mem_filter.mp hn).1⟩)
  exact ⟨a1, a2, a4⟩

/-! ### Folds -/

theorem foldlM_cons_some {σ α : Type} {f : σ → α → Option σ} {a : α} {l : List α} {s s' : σ}
    (h : (a :: l).foldlM f s = some s') : ∃ t, f s a = some t ∧ l.foldlM f t = some s' := by
  rw [List.foldlM_cons] at h
  cases hf : f s a with
  | none => rw [hf] at h; cases h
  | some t => rw [hf] at h; exact ⟨t, rfl, h⟩

/-- A property of states kept by every step is kept by the fold; `Q` is what each step establishes and later steps
keep. -/
theorem foldlM_keep {σ α : Type} {f : σ → α → Option σ} (P : σ → Prop) :
    ∀ (l : List α) (s s' : σ), (∀ a ∈ l, ∀ s s', f s a = some s' → P s → P s') →
      l.foldlM f s = some s' → P s → P s' := by
  intro l
  induction l with
  | nil => intro s s' _ h hp; simp at h; exact h ▸ hp
  | cons a l ih =>
    intro s s' hk h hp
    obtain ⟨t, h1, h2⟩ := foldlM_cons_some h
    exact ih t s' (fun b hb => hk b (List.mem_cons_of_mem _ hb)) h2 (hk a (List.mem_cons_self ..) s t h1 hp)

/-- Each element of the list is reached in a state with property `P`. -/
theorem foldlM_reach {σ α : Type} {f : σ → α → Option σ} (P : σ → Prop) :
    ∀ (l : List α) (s s' : σ), (∀ a ∈ l, ∀ s s', f s a = some s' → P s → P s') →
      l.foldlM f s = some s' → P s → ∀ a ∈ l, ∃ t t' : σ, P t ∧ f t a = some t' ∧ ∃ l' : List α, l'.foldlM f t' = some s' ∧
        ∀ b ∈ l', b ∈ l := by
  intro l
  induction l with
  | nil => intro s s' _ _ _ a ha; cases ha
  | cons a l ih =>
    intro s s' hk h hp b hb
    obtain ⟨t, h1, h2⟩ := foldlM_cons_some h
    rcases List.mem_cons.mp hb with rfl | hb
    · exact ⟨s, t, hp, h1, l, h2, fun c hc => List.mem_cons_of_mem _ hc⟩
    · obtain ⟨u, u', hu, hu', l', hl', hm⟩ := ih t s' (fun b hb => hk b (List.mem_cons_of_mem _ hb)) h2
        (hk a (List.mem_cons_self ..) s t h1 hp) b hb
      exact ⟨u, u', hu, hu', l', hl', fun c hc => List.mem_cons_of_mem _ (hm c hc)⟩

/-- The steps of `gen`. -/
theorem gen_cases {g : Gr} {f : Nat} {p : Loc} {s s' : St} (h : gen g (f + 1) p s = some s') (hp : p ∉ s.iter) :
    ∃ s1 s2 s3, (g.modAncOf p).foldlM (fun s a => gen g f a s) s = some s1 ∧
      ((g.nodes p).flatMap g.parOf).foldlM (fun s q => gen g f q s) (openMod p (emitOuter g p s1)) = some s2 ∧
      (g.inners p).foldlM (fun s q => gen g f q s) (emitModule g p s2) = some s3 ∧ s' = closeMod p s3 := by
  rw [gen, if_neg hp] at h
  cases h1 : (g.modAncOf p).foldlM (fun s a => gen g f a s) s with
  | none => rw [h1] at h; cases h
  | some s1 =>
    rw [h1] at h
    simp only [Option.bind_eq_bind, Option.bind_some] at h
    cases h2 : ((g.nodes p).flatMap g.parOf).foldlM (fun s q => gen g f q s) (openMod p (emitOuter g p s1)) with
    | none => rw [h2] at h; cases h
    | some s2 =>
      rw [h2] at h
      simp only [Option.bind_some] at h
      cases h3 : (g.inners p).foldlM (fun s q => gen g f q s) (emitModule g p s2) with
      | none => rw [h3] at h; cases h
      | some s3 =>
        rw [h3] at h
        simp only [Option.bind_some, Option.some.injEq] at h
        exact ⟨s1, s2, s3, rfl, h2, h3, h.symm⟩

theorem openMod_iter (p : Loc) (s : St) : (openMod p s).iter = s.iter := by unfold openMod; split <;> rfl
theorem openMod_done (p : Loc) (s : St) : (openMod p s).done = s.done := by unfold openMod; split <;> rfl

theorem emitOuter_iter {g : Gr} (p : Loc) (s : St) : (emitOuter g p s).iter = s.iter := by
  have : ∀ (l : List Node) (s : St), (l.foldl (emit g) s).iter = s.iter := by
    intro l
    induction l with
    | nil => intro s; rfl
    | cons n l ih =>
      intro s; rw [List.foldl_cons, ih]; unfold emit; split <;> rfl
  unfold emitOuter
  split
  · rfl
  · exact this _ _

theorem emitModule_iter {g : Gr} (p : Loc) (s : St) : (emitModule g p s).iter = s.iter := by
  have h1 : ∀ (l : List Node) (s : St), (l.foldl (emit g) s).iter = s.iter := by
    intro l
    induction l with
    | nil => intro s; rfl
    | cons n l ih =>
      intro s; rw [List.foldl_cons, ih]; unfold emit; split <;> rfl
  have h2 : ∀ (l : List Node) (s : St),
      (l.foldl (fun s n => emit g ((g.ancOf n).foldl (emit g) s) n) s).iter = s.iter := by
    intro l
    induction l with
    | nil => intro s; rfl
    | cons n l ih =>
      intro s
      rw [List.foldl_cons, ih]
      have : ∀ u : St, (emit g u n).iter = u.iter := by intro u; unfold emit; split <;> rfl
      rw [this]; exact h1 _ _
  exact h2 _ _

/-! ### Which modules a call finishes -/

theorem gen_iter_mono {g : Gr} : ∀ (f : Nat) (p : Loc) (s s' : St), gen g f p s = some s' →
    ∀ q ∈ s.iter, q ∈ s'.iter := by
  intro f
  induction f with
  | zero => intro p s s' h; cases h
  | succ f ih =>
    intro p s s' h q hq
    by_cases hp : p ∈ s.iter
    · rw [gen, if_pos hp] at h; cases h; exact hq
    · obtain ⟨s1, s2, s3, h1, h2, h3, rfl⟩ := gen_cases h hp
      have k : ∀ (l : List Loc) (t t' : St), l.foldlM (fun s a => gen g f a s) t = some t' → q ∈ t.iter →
          q ∈ t'.iter := fun l t t' => foldlM_keep (fun u => q ∈ u.iter) l t t' (fun a _ u u' hu hq => ih a u u' hu q hq)
      have a1 := k _ _ _ h1 hq
      have a2 := k _ _ _ h2 (by rw [openMod_iter, emitOuter_iter]; exact a1)
      have a3 := k _ _ _ h3 (by rw [emitModule_iter]; exact a2)
      exact List.mem_cons_of_mem _ a3

/-- Only modules inside the enclosing one. -/
theorem gen_inside {g : Gr} (hg : g.WF) : ∀ (f : Nat) (x : Name) (r : Loc) (s s' : St),
    gen g f (x :: r) s = some s' → ∀ q ∈ s'.iter, q ∈ s.iter ∨ ∃ w y, q = w ++ y :: r := by
  intro f
  induction f with
  | zero => intro x r s s' h; cases h
  | succ f ih =>
    intro x r s s' h q hq
    by_cases hp : x :: r ∈ s.iter
    · rw [gen, if_pos hp] at h; cases h; exact .inl hq
    · obtain ⟨s1, s2, s3, h1, h2, h3, rfl⟩ := gen_cases h hp
      have k : ∀ (P : Loc → Prop) (l : List Loc) (t t' : St), l.foldlM (fun s a => gen g f a s) t = some t' →
          (∀ a ∈ l, ∃ y r', a = y :: r' ∧ (∀ w z, P (w ++ z :: r'))) → (∀ q ∈ t.iter, P q) → ∀ q ∈ t'.iter, P q := by
        intro P l t t' hl ha
        refine foldlM_keep (fun u => ∀ q ∈ u.iter, P q) l t t' (fun a hal u u' hu hP q hq => ?_) hl
        obtain ⟨y, r', rfl, hw⟩ := ha a hal
        rcases ih y r' u u' hu q hq with h | ⟨w, z, rfl⟩
        · exact hP q h
        · exact hw w z
      have hin : ∀ q ∈ g.inners (x :: r), ∃ y r', q = y :: r' ∧
          ∀ w z, (w ++ z :: r') ∈ s.iter ∨ ∃ w' y', (w ++ z :: r') = w' ++ y' :: r := by
        intro q hq
        obtain ⟨y, -, rfl⟩ := hg.inners _ _ hq
        exact ⟨y, x :: r, rfl, fun w z => .inr ⟨w ++ [z], x, by simp⟩⟩
      have a1 := k (fun q => q ∈ s.iter ∨ ∃ w y, q = w ++ y :: r) _ _ _ h1 (by
        intro a ha
        obtain ⟨x', y, r', -, e, rfl⟩ := hg.modAnc _ _ ha
        cases e
        exact ⟨y, r, rfl, fun w z => .inr ⟨w, z, rfl⟩⟩) (fun q hq => .inl hq)
      have a2 := k (fun q => q ∈ s.iter ∨ ∃ w y, q = w ++ y :: r) _ _ _ h2 (by
        intro a ha
        obtain ⟨n, hn, ha⟩ := List.mem_flatMap.mp ha
        have := hg.nodePar n a ha
        rw [hg.nodes _ _ hn] at this
        exact hin _ this) (by rw [openMod_iter, emitOuter_iter]; exact a1)
      have a3 := k (fun q => q ∈ s.iter ∨ ∃ w y, q = w ++ y :: r) _ _ _ h3 hin
        (by rw [emitModule_iter]; exact a2)
      rcases List.mem_cons.mp hq with rfl | hq
      · exact .inr ⟨[], x, rfl⟩
      · exact a3 q hq

/-- A set of unfinished modules in which each has an ancestor in the set is never finished. -/
theorem gen_cycle {g : Gr} (C : Loc → Prop) (hC : ∀ c, C c → ∃ b ∈ g.modAncOf c, C b) :
    ∀ (f : Nat) (p : Loc) (s s' : St), gen g f p s = some s' → (∀ c, C c → c ∉ s.iter) →
      ¬ C p ∧ ∀ c, C c → c ∉ s'.iter := by
  intro f
  induction f with
  | zero => intro p s s' h; cases h
  | succ f ih =>
    intro p s s' h hs
    by_cases hp : p ∈ s.iter
    · rw [gen, if_pos hp] at h; cases h; exact ⟨fun hc => hs p hc hp, hs⟩
    · obtain ⟨s1, s2, s3, h1, h2, h3, rfl⟩ := gen_cases h hp
      have k : ∀ (l : List Loc) (t t' : St), l.foldlM (fun s a => gen g f a s) t = some t' →
          (∀ c, C c → c ∉ t.iter) → ∀ c, C c → c ∉ t'.iter := fun l t t' =>
        foldlM_keep (fun u => ∀ c, C c → c ∉ u.iter) l t t' (fun a _ u u' hu hq => (ih a u u' hu hq).2)
      have hpC : ¬ C p := by
        intro hc
        obtain ⟨b, hb, hbC⟩ := hC p hc
        obtain ⟨t, t', ht, ht', -⟩ := foldlM_reach (fun u => ∀ c, C c → c ∉ u.iter) _ _ _
          (fun a _ u u' hu hq => (ih a u u' hu hq).2) h1 hs b hb
        exact (ih b t t' ht' ht).1 hbC
      have a1 := k _ _ _ h1 hs
      have a2 := k _ _ _ h2 (by rw [openMod_iter, emitOuter_iter]; exact a1)
      have a3 := k _ _ _ h3 (by rw [emitModule_iter]; exact a2)
      refine ⟨hpC, fun c hc hm => ?_⟩
      rcases List.mem_cons.mp hm with rfl | hm
      · exact hpC hc
      · exact a3 c hc hm

/-- Generating a module of a set of siblings closed under unfinished ancestors finishes no sibling outside the set. -/
theorem gen_apart {g : Gr} (hg : g.WF) (R : Loc → Prop) (z : Name) (r : Loc) (hz : ¬ R (z :: r))
    (hR : ∀ a, R a → ∃ y, a = y :: r) :
    ∀ (f : Nat) (a : Loc) (s s' : St), gen g f a s = some s' → R a →
      (∀ a, R a → ∀ b ∈ g.modAncOf a, R b ∨ b ∈ s.iter) → z :: r ∉ s.iter → z :: r ∉ s'.iter := by
  intro f
  induction f with
  | zero => intro p s s' h; cases h
  | succ f ih =>
    intro p s s' h hRp hcl hs
    by_cases hp : p ∈ s.iter
    · rw [gen, if_pos hp] at h; cases h; exact hs
    · obtain ⟨s1, s2, s3, h1, h2, h3, rfl⟩ := gen_cases h hp
      obtain ⟨y, rfl⟩ := hR p hRp
      have a1 : z :: r ∉ s1.iter ∧ ∀ q ∈ s.iter, q ∈ s1.iter := by
        refine foldlM_keep (fun u => z :: r ∉ u.iter ∧ ∀ q ∈ s.iter, q ∈ u.iter) _ _ _ ?_ h1 ⟨hs, fun _ h => h⟩
        intro a ha u u' hu hP
        refine ⟨?_, fun q hq => gen_iter_mono f a u u' hu q (hP.2 q hq)⟩
        rcases hcl _ hRp a ha with hRa | hia
        · refine ih a u u' hu hRa (fun a' ha' b hb => ?_) hP.1
          rcases hcl a' ha' b hb with h | h
          · exact .inl h
          · exact .inr (hP.2 b h)
        · have hi := hP.2 a hia
          cases f with
          | zero => cases hu
          | succ f => rw [gen, if_pos hi] at hu; cases hu; exact hP.1
      have k : ∀ (l : List Loc) (t t' : St), l.foldlM (fun s a => gen g f a s) t = some t' →
          (∀ a ∈ l, a ∈ g.inners (y :: r)) → z :: r ∉ t.iter → z :: r ∉ t'.iter := by
        intro l t t' hl ha
        refine foldlM_keep (fun u => z :: r ∉ u.iter) l t t' (fun a hal u u' hu hP hq => ?_) hl
        obtain ⟨w, -, rfl⟩ := hg.inners _ _ (ha a hal)
        rcases gen_inside hg f w (y :: r) u u' hu _ hq with h | ⟨v, y', e⟩
        · exact hP h
        · have := congrArg List.length e
          simp at this
          omega
      have a2 := k _ _ _ h2 (by
        intro a ha
        obtain ⟨n, hn, ha⟩ := List.mem_flatMap.mp ha
        have := hg.nodePar n a ha
        rwa [hg.nodes _ _ hn] at this) (by rw [openMod_iter, emitOuter_iter]; exact a1.1)
      have a3 := k _ _ _ h3 (fun _ h => h) (by rw [emitModule_iter]; exact a2)
      intro hm
      rcases List.mem_cons.mp hm with e | hm
      · exact hz (e ▸ hRp)
      · exact a3 hm

/-- Generating the ancestors of a module does not finish the module itself. -/
theorem gen_fresh {g : Gr} (hg : g.WF) {f : Nat} {x : Name} {r : Loc} {s s' s1 : St}
    (h : gen g (f + 1) (x :: r) s = some s') (hp : x :: r ∉ s.iter)
    (h1 : (g.modAncOf (x :: r)).foldlM (fun s a => gen g f a s) s = some s1) : x :: r ∉ s1.iter := by
  let E : Loc → Loc → Prop := fun c b => b ∈ g.modAncOf c ∧ b ∉ s.iter
  by_cases hcyc : Relation.TransGen E (x :: r) (x :: r)
  · exfalso
    have := gen_cycle (g := g) (fun c => c ∉ s.iter ∧ Relation.TransGen E c (x :: r)) (by
      rintro c ⟨-, hc⟩
      rcases Relation.TransGen.head'_iff.mp hc with ⟨b, hb, hr⟩
      refine ⟨b, hb.1, hb.2, ?_⟩
      rcases Relation.reflTransGen_iff_eq_or_transGen.mp hr with e | e
      · rw [← e]; exact hcyc
      · exact e) (f + 1) (x :: r) s s' h (fun c hc => hc.1)
    exact this.1 ⟨hp, hcyc⟩
  · have hR : ∀ a, Relation.TransGen E (x :: r) a → ∃ y, a = y :: r := by
      intro a ha
      induction ha with
      | single hb =>
        obtain ⟨x', y, r', -, e, rfl⟩ := hg.modAnc _ _ hb.1
        cases e; exact ⟨y, rfl⟩
      | tail _ hb ih =>
        obtain ⟨y, rfl⟩ := ih
        obtain ⟨x', y', r', -, e, rfl⟩ := hg.modAnc _ _ hb.1
        cases e; exact ⟨y', rfl⟩
    have : x :: r ∉ s1.iter ∧ ∀ q ∈ s.iter, q ∈ s1.iter := by
      refine foldlM_keep (fun u => x :: r ∉ u.iter ∧ ∀ q ∈ s.iter, q ∈ u.iter) _ _ _ ?_ h1 ⟨hp, fun _ h => h⟩
      intro a ha u u' hu hP
      refine ⟨?_, fun q hq => gen_iter_mono f a u u' hu q (hP.2 q hq)⟩
      by_cases hia : a ∈ s.iter
      · have hi := hP.2 a hia
        cases f with
        | zero => cases hu
        | succ f => rw [gen, if_pos hi] at hu; cases hu; exact hP.1
      · refine gen_apart hg (Relation.TransGen E (x :: r)) x r hcyc hR f a u u' hu (.single ⟨ha, hia⟩) ?_ hP.1
        intro a' ha' b hb
        by_cases hbi : b ∈ s.iter
        · exact .inr (hP.2 b hbi)
        · exact .inl (ha'.tail ⟨hb, hbi⟩)
    exact this.1

/-! ### What a call adds to the text -/

theorem closeMod_ext {g : Gr} {x : Name} {r : Loc} (hx : x ≠ []) {s s' : St}
    (h : Ext g (x :: r) (openMod (x :: r) s) s') : Ext g r s (closeMod (x :: r) s') := by
  obtain ⟨ev, h1, h2, h3, h4, h5, d, h6⟩ := h
  have e1 : openMod (x :: r) s = { s with out := s.out ++ [.open (x :: r)] } := by
    unfold openMod; rw [if_neg (by simpa using hx)]
  rw [e1] at h1 h4 h5 h6
  refine ⟨.open (x :: r) :: ev ++ [.close (x :: r)], ?_, ?_, ?_, ?_, ?_, d, h6⟩
  · simp only [closeMod]
    rw [if_neg (by simpa using hx), h1]; simp
  · rw [List.cons_append, place, if_pos ⟨by simp, rfl⟩, place_append, h2]
    simp [place]
  · simp only [List.cons_append, opened_append, closed_append, opened, closed, List.filterMap_cons,
      List.filterMap_append, List.filterMap_nil] at *
    simp only [List.append_nil]
    exact (h3.cons _).trans (List.perm_append_singleton _ _).symm
  · simp only [closeMod, List.cons_append, closed_append] at *
    rw [h4]
    simp [closed]
  · simp only [closeMod]
    rw [h5]
    simp [declared, Gr.real]

/-- Main lemma about one call for a module inside `r`. -/
theorem gen_ext {g : Gr} (hg : g.WF) : ∀ (f : Nat) (x : Name) (r : Loc) (s s' : St), x :: r ∈ g.inners r →
    gen g f (x :: r) s = some s' → Inv g s → Inv g s' ∧ Ext g r s s' ∧ x :: r ∈ s'.iter := by
  intro f
  induction f with
  | zero => intro x r s s' _ h; cases h
  | succ f ih =>
    intro x r s s' hxr h hi
    have hx : x ≠ [] := by
      obtain ⟨y, hy, e⟩ := hg.inners _ _ hxr
      cases e; exact hy
    by_cases hp : x :: r ∈ s.iter
    · rw [gen, if_pos hp] at h; cases h; exact ⟨hi, Ext.refl _ _ _, hp⟩
    · obtain ⟨s1, s2, s3, h1, h2, h3, rfl⟩ := gen_cases h hp
      -- folds of calls inside `r'`
      have k : ∀ (r' : Loc) (l : List Loc) (t t' : St), l.foldlM (fun s a => gen g f a s) t = some t' →
          (∀ a ∈ l, ∃ y, y :: r' ∈ g.inners r' ∧ a = y :: r') → Inv g t →
          Inv g t' ∧ Ext g r' t t' ∧ ∀ a ∈ l, a ∈ t'.iter := by
        intro r' l
        induction l with
        | nil => intro t t' ht _ hit; simp at ht; subst ht; exact ⟨hit, Ext.refl _ _ _, by simp⟩
        | cons a l ihl =>
          intro t t' ht ha hit
          obtain ⟨u, hu, hl⟩ := foldlM_cons_some ht
          obtain ⟨y, hy, rfl⟩ := ha a (List.mem_cons_self ..)
          obtain ⟨b1, b2, b3⟩ := ih y r' t u hy hu hit
          obtain ⟨c1, c2, c3⟩ := ihl u t' hl (fun a' ha' => ha a' (List.mem_cons_of_mem _ ha')) b1
          refine ⟨c1, b2.trans c2, ?_⟩
          intro a' ha'
          rcases List.mem_cons.mp ha' with rfl | ha'
          · exact c2.iter_mono _ b3
          · exact c3 a' ha'
      have hpar : ∀ a ∈ (g.nodes (x :: r)).flatMap g.parOf, a ∈ g.inners (x :: r) := by
        intro a ha
        obtain ⟨n, hn, ha⟩ := List.mem_flatMap.mp ha
        have := hg.nodePar n a ha
        rwa [hg.nodes _ _ hn] at this
      have hfresh1 : x :: r ∉ s1.iter := gen_fresh hg h hp h1
      obtain ⟨i1, e1, -⟩ := k r _ _ _ h1 (by
        intro a ha
        obtain ⟨x', y, r', hy, e, rfl⟩ := hg.modAnc _ _ ha
        cases e; exact ⟨y, hy, rfl⟩) hi
      obtain ⟨eo, ho, io⟩ := emitOuter_ext hg x r s1
      have i1' : Inv g (openMod (x :: r) (emitOuter g (x :: r) s1)) := by
        have := io i1
        exact ⟨by rw [openMod_done]; exact this.done, by rw [openMod_iter]; exact this.iter,
          by rw [openMod_done, openMod_iter]; exact this.closed,
          by rw [openMod_done]; exact this.nodes, by rw [openMod_iter]; exact this.mods⟩
      obtain ⟨i2, e2, -⟩ := k (x :: r) _ _ _ h2 (fun a ha => by
        obtain ⟨y, -, rfl⟩ := hg.inners _ _ (hpar a ha)
        exact ⟨y, hpar _ ha, rfl⟩) i1'
      obtain ⟨em, hm, hdone, im⟩ := emitModule_ext hg (x :: r) s2
      obtain ⟨i3, e3, hin⟩ := k (x :: r) _ _ _ h3 (fun a ha => by
        obtain ⟨y, -, rfl⟩ := hg.inners _ _ ha
        exact ⟨y, ha, rfl⟩) (im i2)
      have einside : Ext g (x :: r) (openMod (x :: r) (emitOuter g (x :: r) s1)) s3 := (e2.trans em).trans e3
      have hfresh3 : x :: r ∉ s3.iter := by
        have kk : ∀ (l : List Loc) (t t' : St), l.foldlM (fun s a => gen g f a s) t = some t' →
            (∀ a ∈ l, a ∈ g.inners (x :: r)) → x :: r ∉ t.iter → x :: r ∉ t'.iter := by
          intro l t t' hl ha
          refine foldlM_keep (fun u => x :: r ∉ u.iter) l t t' (fun a hal u u' hu hP hq => ?_) hl
          obtain ⟨w, -, rfl⟩ := hg.inners _ _ (ha a hal)
          rcases gen_inside hg f w (x :: r) u u' hu _ hq with h | ⟨v, y', e⟩
          · exact hP h
          · have := congrArg List.length e
            simp at this
            omega
        refine kk _ _ _ h3 (fun _ h => h) ?_
        rw [emitModule_iter]
        refine kk _ _ _ h2 hpar ?_
        rw [openMod_iter, emitOuter_iter]
        exact hfresh1
      refine ⟨?_, (e1.trans eo).trans (closeMod_ext hx einside), List.mem_cons_self ..⟩
      refine ⟨i3.done, List.nodup_cons.mpr ⟨hfresh3, i3.iter⟩, ?_, i3.nodes, ?_⟩
      · intro q hq
        rcases List.mem_cons.mp hq with rfl | hq
        · exact ⟨fun n hn => e3.done_mono _ (hdone n hn), fun i hi => List.mem_cons_of_mem _ (hin i hi)⟩
        · exact ⟨(i3.closed q hq).1, fun i hi => List.mem_cons_of_mem _ ((i3.closed q hq).2 i hi)⟩
      · intro q hq
        rcases List.mem_cons.mp hq with rfl | hq
        · exact .inr hxr
        · exact i3.mods q hq

/-- The whole text. -/
theorem gen_root {g : Gr} (hg : g.WF) {f : Nat} {s' : St} (h : gen g f [] {} = some s') :
    Inv g s' ∧ [] ∈ s'.iter ∧ place [] s'.out = some [] ∧ (opened s'.out).Perm (closed s'.out) ∧
      s'.iter = [] :: (closed s'.out).reverse ∧ g.real s'.done = (declared s'.out).reverse := by
  cases f with
  | zero => cases h
  | succ f =>
    obtain ⟨s1, s2, s3, h1, h2, h3, rfl⟩ := gen_cases h (by simp)
    have e1 : g.modAncOf [] = [] := by
      apply List.eq_nil_iff_forall_not_mem.mpr
      intro a ha
      obtain ⟨x', y, r', -, e, -⟩ := hg.modAnc _ _ ha
      cases e
    rw [e1] at h1
    simp at h1
    subst h1
    have e2 : openMod [] (emitOuter g [] ({} : St)) = {} := rfl
    rw [e2] at h2
    have k : ∀ (l : List Loc) (t t' : St), l.foldlM (fun s a => gen g f a s) t = some t' →
        (∀ a ∈ l, ∃ y, [y] ∈ g.inners [] ∧ a = [y]) → Inv g t →
        Inv g t' ∧ Ext g [] t t' ∧ ∀ a ∈ l, a ∈ t'.iter := by
      intro l
      induction l with
      | nil => intro t t' ht _ hit; simp at ht; subst ht; exact ⟨hit, Ext.refl _ _ _, by simp⟩
      | cons a l ihl =>
        intro t t' ht ha hit
        obtain ⟨u, hu, hl⟩ := foldlM_cons_some ht
        obtain ⟨y, hy, rfl⟩ := ha a (List.mem_cons_self ..)
        obtain ⟨b1, b2, b3⟩ := gen_ext hg f y [] t u hy hu hit
        obtain ⟨c1, c2, c3⟩ := ihl u t' hl (fun a' ha' => ha a' (List.mem_cons_of_mem _ ha')) b1
        refine ⟨c1, b2.trans c2, ?_⟩
        intro a' ha'
        rcases List.mem_cons.mp ha' with rfl | ha'
        · exact c2.iter_mono _ b3
        · exact c3 a' ha'
    have hpar : ∀ a ∈ (g.nodes []).flatMap g.parOf, a ∈ g.inners [] := by
      intro a ha
      obtain ⟨n, hn, ha⟩ := List.mem_flatMap.mp ha
      have := hg.nodePar n a ha
      rwa [hg.nodes _ _ hn] at this
    have i0 : Inv g ({} : St) := ⟨List.nodup_nil, List.nodup_nil, (by intro q hq; cases hq),
      (by intro q hq; cases hq), (by intro q hq; cases hq)⟩
    obtain ⟨i2, x2, -⟩ := k _ _ _ h2 (fun a ha => by
      obtain ⟨y, -, rfl⟩ := hg.inners _ _ (hpar a ha)
      exact ⟨y, hpar _ ha, rfl⟩) i0
    obtain ⟨em, hm, hdone, im⟩ := emitModule_ext hg [] s2
    obtain ⟨i3, x3, hin⟩ := k _ _ _ h3 (fun a ha => by
      obtain ⟨y, -, rfl⟩ := hg.inners _ _ ha
      exact ⟨y, ha, rfl⟩) (im i2)
    have hall : Ext g [] ({} : St) s3 := (x2.trans em).trans x3
    have hfresh : [] ∉ s3.iter := by
      have kk : ∀ (l : List Loc) (t t' : St), l.foldlM (fun s a => gen g f a s) t = some t' →
          (∀ a ∈ l, a ∈ g.inners []) → [] ∉ t.iter → [] ∉ t'.iter := by
        intro l t t' hl ha
        refine foldlM_keep (fun u => [] ∉ u.iter) l t t' (fun a hal u u' hu hP hq => ?_) hl
        obtain ⟨w, -, rfl⟩ := hg.inners _ _ (ha a hal)
        rcases gen_inside hg f w [] u u' hu _ hq with h | ⟨v, y', e⟩
        · exact hP h
        · have := congrArg List.length e
          simp at this
      refine kk _ _ _ h3 (fun _ h => h) ?_
      rw [emitModule_iter]
      exact kk _ _ _ h2 hpar (by simp)
    obtain ⟨ev, o1, o2, o3, o4, o5, d, o6⟩ := hall
    have o1' : s3.out = ev := by simpa using o1
    subst o1'
    refine ⟨⟨i3.done, List.nodup_cons.mpr ⟨hfresh, i3.iter⟩, ?_, i3.nodes, ?_⟩, List.mem_cons_self .., ?_, ?_, ?_, ?_⟩
    · intro q hq
      rcases List.mem_cons.mp hq with rfl | hq
      · exact ⟨fun n hn => x3.done_mono _ (hdone n hn), fun i hi => List.mem_cons_of_mem _ (hin i hi)⟩
      · exact ⟨(i3.closed q hq).1, fun i hi => List.mem_cons_of_mem _ ((i3.closed q hq).2 i hi)⟩
    · intro q hq
      rcases List.mem_cons.mp hq with rfl | hq
      · exact .inl rfl
      · exact i3.mods q hq
    · exact o2
    · exact o3
    · show [] :: s3.iter = _
      rw [o4]; simp [closeMod]
    · show g.real s3.done = _
      rw [o5]; simp [closeMod, Gr.real]

end Verif.Idl.Dep
