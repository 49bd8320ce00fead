import Verif.Lemmas.Context
import Verif.Props.IdlAny
/-!
# C67: contexts and parsers, in any history

Texts are read with contexts; contexts are configured, copied, assigned, cleared and destroyed; trees are changed by the client;
parsers are asked for the types. Any number of contexts and parsers, in any order.
-/

namespace Verif.Contexts
open Verif.Idl.Syn (Item Ctx)
open Verif.Pre (Bytes cString)

/-! ## One context and another -/

/-- C67: a call changes nothing of what a client sees of a context, unless it is given this context or one that shares its tree. -/
theorem C67_apart (h : List (Op × Result)) (s s' : State) (op : Op) (r : Result) (c : Nat) (hr : Run {} h s) (hs : Step s op r s')
    (hc : c ∉ op.names) (hn : ∀ d ∈ op.names, ¬ Shares s c d) : view s' c = view s c := by
  have hi := run_inv inv_init hr
  have F := step_facts hi hs
  refine touch_view hi (F.touch c hc) fun x m hx hm => ?_
  rcases F.old m (hi.holds c x m hx hm) with e | ⟨d, hd, y, hy, hym⟩
  · exact e
  · exact absurd ⟨x, y, m, hx, hy, hm, hym⟩ (hn d hd)

/-- What a call that is no copy does to the context it is given: nothing else has its tree. -/
theorem step_fresh {s s' : State} {op : Op} {r : Result} (hi : Inv s) (hs : Step s op r s') (hk : op.copies = false) (c : Nat) (x' : Context) (m : Nat)
    (hx : s'.contexts c = some x') (hm : x'.module = some m) :
    (∃ x, s.contexts c = some x ∧ x.module = some m) ∨ s.modules.length ≤ m ∧ ∀ d y, s'.contexts d = some y → y.module = some m → d = c := by
  have key : ∀ {s1 s2 : State} {x : Context} {d k : Nat}, Inv s1 → s1.contexts d = some x → s1.module d x = (s2, k) → ∀ c x', s2.contexts c = some x' → x'.module = some m →
      (∃ x, s1.contexts c = some x ∧ x.module = some m) ∨ s1.modules.length ≤ m ∧ ∀ d y, s2.contexts d = some y → y.module = some m → d = c := by
    intro s1 s2 x d k hi hx hm c x' hc hx'
    have g := module_got hi hx hm
    rw [g.ctx] at hc
    by_cases hd : c = d
    · subst hd
      rw [put_self, Option.some.injEq] at hc
      subst hc
      cases hx'
      rcases g.from_ with e | ⟨_, e⟩
      · exact .inl ⟨x, hx, e⟩
      · refine .inr ⟨by omega, fun d y hy hym => ?_⟩
        by_cases hd : d = c
        · exact hd
        · rw [g.ctx, put_other hd] at hy
          exact absurd (hi.holds d y _ hy hym) (by omega)
    · rw [put_other hd] at hc
      exact .inl ⟨x', hc, hx'⟩
  have pkey : ∀ {s1 s2 : State} {p d : Nat} {text : Bytes} {r : Result}, Inv s1 → Parses s1 p d text r s2 → ∀ c x', s2.contexts c = some x' → x'.module = some m →
      (∃ x, s1.contexts c = some x ∧ x.module = some m) ∨ s1.modules.length ≤ m ∧ ∀ d y, s2.contexts d = some y → y.module = some m → d = c := by
    intro s1 s2 p d text r hi hp c x' hc hx'
    cases hp with
    | rejected hx _ =>
      by_cases hd : c = d
      · subst hd; simp only [put_self, Option.some.injEq] at hc; subst hc; exact .inl ⟨_, hx, hx'⟩
      · simp only [put_other hd] at hc; exact .inl ⟨_, hc, hx'⟩
    | @read x r root' s2 k hx _ _ hm =>
      have g := module_got hi hx hm
      have hcc : ∀ e y, put s2.contexts d (some { x with success := flag x.success r, module := some k }) e = some y → y.module = some m →
          ∃ y, s2.contexts e = some y ∧ y.module = some m := by
        intro e y he hy
        by_cases hd : e = d
        · subst hd; rw [put_self, Option.some.injEq] at he; subst he
          exact ⟨{ x with module := some k }, by rw [g.ctx, put_self], hy⟩
        · rw [put_other hd] at he; exact ⟨y, he, hy⟩
      obtain ⟨y, hy, hym⟩ := hcc c x' hc hx'
      rcases key hi hx hm c y hy hym with e | ⟨e1, e2⟩
      · exact .inl e
      · exact .inr ⟨e1, fun e z he hz => by obtain ⟨z, hz, hzm⟩ := hcc e z he hz; exact e2 e z hz hzm⟩
  cases hs with
  | @create d k b hd =>
    by_cases e : c = d
    · subst e; simp only [put_self, Option.some.injEq] at hx; subst hx; cases hm
    · simp only [put_other e] at hx; exact .inl ⟨_, hx, hm⟩
  | @configure d k b x hd =>
    by_cases e : c = d
    · subst e; simp only [put_self, Option.some.injEq] at hx; subst hx; exact .inl ⟨_, hd, hm⟩
    · simp only [put_other e] at hx; exact .inl ⟨_, hx, hm⟩
  | copy => cases hk
  | assign => cases hk
  | @finish d x hd =>
    by_cases e : c = d
    · subst e; simp only [put_self] at hx; cases hx
    · simp only [put_other e] at hx; exact .inl ⟨_, hx, hm⟩
  | @clear d x hd =>
    by_cases e : c = d
    · subst e; simp only [put_self, Option.some.injEq] at hx
      split at hx
      · subst hx; cases hm
      · subst hx; exact .inl ⟨_, hd, hm⟩
    · simp only [put_other e] at hx; exact .inl ⟨_, hx, hm⟩
  | edit hd he => exact key hi hd he c x' hx hm
  | parse hp => exact pkey hi hp c x' hx hm
  | @parseNew p d text b s1 elide hd hp =>
    have hi1 : Inv { s with contexts := put s.contexts d (some {}) } := (step_facts hi (.create (k := {}) (b := true) hd)).inv
    rcases pkey hi1 hp c x' hx hm with ⟨y, hy, hym⟩ | e
    · by_cases e : c = d
      · subst e; simp only [put_self, Option.some.injEq] at hy; subst hy; cases hym
      · simp only [put_other e] at hy; exact .inl ⟨_, hy, hym⟩
    · exact .inr e
  | @parseNewThrows p d text s1 elide hd hp =>
    have hi1 : Inv { s with contexts := put s.contexts d (some {}) } := (step_facts hi (.create (k := {}) (b := true) hd)).inv
    by_cases e : c = d
    · subst e; simp only [put_self] at hx; cases hx
    · simp only [put_other e] at hx
      rcases pkey hi1 hp c x' hx hm with ⟨y, hy, hym⟩ | ⟨e1, e2⟩
      · simp only [put_other e] at hy; exact .inl ⟨_, hy, hym⟩
      · refine .inr ⟨e1, fun f y hf hy => ?_⟩
        by_cases e' : f = d
        · subst e'; simp only [put_self] at hf; cases hf
        · simp only [put_other e'] at hf; exact e2 f y hf hy
  | typesNone => exact .inl ⟨_, hx, hm⟩
  | types _ hd he => exact key hi hd he c x' hx hm

theorem unshared {h : List (Op × Result)} {s : State} (hr : Run {} h s) (hn : ∀ e ∈ h, e.1.copies = false) :
    ∀ c d, c ≠ d → ¬ Shares s c d := by
  induction hr with
  | nil => rintro c d _ ⟨x, _, _, hx, _⟩; cases hx
  | snoc hr hst ih =>
    have ih := ih (fun e he => hn e (List.mem_append_left _ he))
    have hi := run_inv inv_init hr
    rintro c d hcd ⟨x, y, m, hx, hy, hxm, hym⟩
    have hk := hn _ (List.mem_append_right _ (List.mem_singleton.mpr rfl))
    rcases step_fresh hi hst hk c x m hx hxm with ⟨x0, hx0, hxm0⟩ | ⟨_, h2⟩
    · rcases step_fresh hi hst hk d y m hy hym with ⟨y0, hy0, hym0⟩ | ⟨h1, h2⟩
      · exact ih c d hcd ⟨x0, y0, m, hx0, hy0, hxm0, hym0⟩
      · exact hcd (h2 c x hx hxm)
    · exact hcd (h2 d y hy hym).symm

/-- C67: two contexts share a tree only if one was copied from another. -/
theorem C67_shares (h : List (Op × Result)) (s : State) (c d : Nat) (hr : Run {} h s) (hcd : c ≠ d) (hs : Shares s c d) :
    ∃ e ∈ h, e.1.copies = true := by
  apply Classical.byContradiction
  intro hn
  refine unshared hr (fun e he => ?_) c d hcd hs
  cases hb : e.1.copies with
  | false => rfl
  | true => exact absurd ⟨e, he, hb⟩ hn

theorem view_inv {s t : State} {c : Nat} {x : Context} (hv : view s c = view t c) (hx : s.contexts c = some x) :
    ∃ y, t.contexts c = some y ∧ y.settings = x.settings ∧ y.clear = x.clear ∧ y.success = x.success ∧ t.tree c = s.tree c := by
  rw [view_some hx] at hv
  cases hy : t.contexts c with
  | none => simp [view, hy] at hv
  | some y =>
    rw [view_some hy] at hv
    simp only [Option.some.injEq, View.mk.injEq] at hv
    exact ⟨y, rfl, hv.1.symm, hv.2.1.symm, hv.2.2.1.symm, hv.2.2.2.symm⟩

theorem view_none {s t : State} {c : Nat} (hv : view s c = view t c) (hx : s.contexts c = none) : t.contexts c = none := by
  cases hy : t.contexts c with
  | none => rfl
  | some y => simp [view, hx, hy] at hv

theorem set_tree {s s' : State} {c m : Nat} {x x' : Context} {root' : Idl.Mod Item} {k : Nat → Option Context} {q : Nat → Pointer} (g : Got s c x s' m)
    (hk : k c = some x') (hm : x'.module = some m) : State.tree ⟨s'.modules.set m root', k, q⟩ c = root' := by
  refine tree_some hk hm ?_
  simp only
  rw [List.getElem?_set_self g.lt]

theorem parses_mirror {s t s' : State} {p c : Nat} {text : Bytes} {r : Result} (hi : Inv s) (hj : Inv t) (hv : view s c = view t c)
    (h : Parses s p c text r s') : ∃ t', Parses t p c text r t' ∧ view s' c = view t' c ∧ s'.contexts c ≠ none := by
  cases h with
  | @rejected x hx hrd =>
    obtain ⟨y, hy, e1, e2, e3, e4⟩ := view_inv hv hx
    refine ⟨_, .rejected hy ?_, ?_, by simp⟩
    · rw [e1, e4]; exact hrd
    · rw [view_some (put_self _ _ _), view_some (put_self _ _ _)]
      simp only [e1, e2]
      congr 2
      have hx' := tree_of hx
      have hy' := tree_of hy
      rw [tree_of (s := ⟨s.modules, _, _⟩) (put_self _ _ _), tree_of (s := ⟨t.modules, _, _⟩) (put_self _ _ _)]
      exact hx'.symm.trans (e4.symm.trans hy')
  | @read x r root' s1 m hx hrd hne hm =>
    obtain ⟨y, hy, e1, e2, e3, e4⟩ := view_inv hv hx
    have g := module_got hi hx hm
    cases hm' : t.module c y with
    | mk t1 k =>
      have g' := module_got hj hy hm'
      refine ⟨_, .read (root' := root') hy ?_ hne hm', ?_, by simp⟩
      · rw [e1, e4]; exact hrd
      · rw [view_some (put_self _ _ _), view_some (put_self _ _ _)]
        simp only [e1, e2, e3]
        rw [set_tree g (put_self _ _ _) rfl, set_tree g' (put_self _ _ _) rfl]

theorem tree_same {s : State} {c : Nat} {k : Nat → Option Context} {q : Nat → Pointer} (h : (k c).bind (·.module) = (s.contexts c).bind (·.module)) :
    State.tree ⟨s.modules, k, q⟩ c = s.tree c := by
  simp only [State.tree, h]

theorem step_mirror {s t s' : State} {op : Op} {c : Nat} {r : Result} (hi : Inv s) (hj : Inv t) (hv : view s c = view t c) (hc : c ∈ op.names)
    (hk : op.copies = false) (h : Step s op r s') : ∃ t', Step t op r t' ∧ view s' c = view t' c := by
  cases h with
  | @create d k b hd =>
    have hc : c = d := by simpa [Op.names] using hc
    subst hc
    refine ⟨_, .create (view_none hv hd), ?_⟩
    rw [view_some (put_self _ _ _), view_some (put_self _ _ _), tree_none (put_self _ _ _) rfl, tree_none (put_self _ _ _) rfl]
  | @configure d k b x hx =>
    have hc : c = d := by simpa [Op.names] using hc
    subst hc
    obtain ⟨y, hy, e1, e2, e3, e4⟩ := view_inv hv hx
    refine ⟨_, .configure hy, ?_⟩
    rw [view_some (put_self _ _ _), view_some (put_self _ _ _), tree_same (s := s) (by simp [hx]), tree_same (s := t) (by simp [hy]), e4]
    simp only [e3]
  | copy => cases hk
  | assign => cases hk
  | @finish d x hx =>
    have hc : c = d := by simpa [Op.names] using hc
    subst hc
    obtain ⟨y, hy, _⟩ := view_inv hv hx
    exact ⟨_, .finish hy, by simp [view]⟩
  | @clear d x hx =>
    have hc : c = d := by simpa [Op.names] using hc
    subst hc
    obtain ⟨y, hy, e1, e2, e3, e4⟩ := view_inv hv hx
    refine ⟨_, .clear hy, ?_⟩
    rw [view_some (put_self _ _ _), view_some (put_self _ _ _)]
    cases hb : x.clear with
    | true =>
      rw [hb] at e2
      simp only [e2, hb, if_true, e1, e3]
      rw [tree_none (put_self _ _ _) rfl, tree_none (put_self _ _ _) rfl]
    | false =>
      rw [hb] at e2
      simp only [e2, hb, Bool.false_eq_true, if_false, e1, e3]
      rw [tree_same (s := s) (by simp [hx]), tree_same (s := t) (by simp [hy]), e4]
  | @edit d f x s1 m hx hm =>
    have hc : c = d := by simpa [Op.names] using hc
    subst hc
    obtain ⟨y, hy, e1, e2, e3, e4⟩ := view_inv hv hx
    have g := module_got hi hx hm
    cases hm' : t.module c y with
    | mk t1 k =>
      have g' := module_got hj hy hm'
      refine ⟨_, .edit hy hm', ?_⟩
      have h1 : s1.contexts c = some { x with module := some m } := by rw [g.ctx, put_self]
      have h2 : t1.contexts c = some { y with module := some k } := by rw [g'.ctx, put_self]
      rw [view_some (s := ⟨s1.modules.set m (f (s.tree c)), s1.contexts, s1.parsers⟩) h1, view_some (s := ⟨t1.modules.set k (f (t.tree c)), t1.contexts, t1.parsers⟩) h2, set_tree g h1 rfl, set_tree g' h2 rfl]
      simp only [e1, e2, e3, e4]
  | @parse p d text r s' hp =>
    have hc : c = d := by simpa [Op.names] using hc
    subst hc
    obtain ⟨t', h1, h2, _⟩ := parses_mirror hi hj hv hp
    exact ⟨t', .parse h1, h2⟩
  | @parseNew p d text b s1 elide hd hp =>
    have hc : c = d := by simpa [Op.names] using hc
    subst hc
    have hd' := view_none hv hd
    have hi1 := (step_facts hi (.create (k := {}) (b := true) hd)).inv
    have hj1 := (step_facts hj (.create (k := {}) (b := true) hd')).inv
    obtain ⟨t', h1, h2, _⟩ := parses_mirror hi1 hj1 (by
      rw [view_some (put_self _ _ _), view_some (put_self _ _ _), tree_none (put_self _ _ _) rfl, tree_none (put_self _ _ _) rfl]) hp
    exact ⟨_, .parseNew hd' h1, h2⟩
  | @parseNewThrows p d text s1 elide hd hp =>
    have hc : c = d := by simpa [Op.names] using hc
    subst hc
    have hd' := view_none hv hd
    have hi1 := (step_facts hi (.create (k := {}) (b := true) hd)).inv
    have hj1 := (step_facts hj (.create (k := {}) (b := true) hd')).inv
    obtain ⟨t', h1, h2, _⟩ := parses_mirror hi1 hj1 (by
      rw [view_some (put_self _ _ _), view_some (put_self _ _ _), tree_none (put_self _ _ _) rfl, tree_none (put_self _ _ _) rfl]) hp
    exact ⟨_, .parseNewThrows hd' h1, by simp [view]⟩
  | typesNone => simp [Op.names] at hc
  | types => simp [Op.names] at hc

/-- C67, for histories without copies: what a client sees of a context depends on nothing but the calls that are given this context.
The history with these calls alone is possible too, has the same results, and leads to the same. -/
theorem C67_alone_partial (h : List (Op × Result)) (s : State) (c : Nat) (hr : Run {} h s) (hn : ∀ e ∈ h, e.1.copies = false) :
    ∃ s', Run {} (h.filter fun e => c ∈ e.1.names) s' ∧ view s' c = view s c := by
  induction hr with
  | nil => exact ⟨_, .nil, rfl⟩
  | @snoc h m op r s' hr hst ih =>
    have hn' : ∀ e ∈ h, e.1.copies = false := fun e he => hn e (List.mem_append_left _ he)
    obtain ⟨t, ht, hv⟩ := ih hn'
    have hk : op.copies = false := hn (op, r) (List.mem_append_right _ (List.mem_singleton.mpr rfl))
    have hi := run_inv inv_init hr
    rw [List.filter_append]
    by_cases hc : c ∈ op.names
    · obtain ⟨t', h1, h2⟩ := step_mirror hi (run_inv inv_init ht) hv.symm hc hk hst
      refine ⟨t', ?_, h2.symm⟩
      rw [List.filter_cons_of_pos (by simpa using hc), List.filter_nil]
      exact .snoc ht h1
    · refine ⟨t, ?_, ?_⟩
      · rw [List.filter_cons_of_neg (by simpa using hc), List.filter_nil, List.append_nil]; exact ht
      · rw [hv]
        refine (C67_apart h m s' op r c hr hst hc fun d hd => ?_).symm
        exact unshared hr hn' c d (fun e => hc (e ▸ hd))

/-! ## The flag -/

theorem parses_flag {s s' : State} {p d c : Nat} {text : Bytes} {r : Result} {x' : Context} (hi : Inv s) (h : Parses s p d text r s')
    (hx : s'.contexts c = some x') (hs : x'.success = true) : (∃ x, s.contexts c = some x ∧ x.success = true) ∨ r = .returned true := by
  cases h with
  | rejected hd _ =>
    by_cases e : c = d
    · subst e; simp only [put_self, Option.some.injEq] at hx; subst hx; cases hs
    · simp only [put_other e] at hx; exact .inl ⟨x', hx, hs⟩
  | @read x r root' s1 m hd hrd hne hm =>
    by_cases e : c = d
    · subst e; simp only [put_self, Option.some.injEq] at hx; subst hx
      cases r with
      | returned k => exact .inr (congrArg _ hs)
      | done => exact .inl ⟨x, hd, hs⟩
      | threw => exact .inl ⟨x, hd, hs⟩
      | shown => exact .inl ⟨x, hd, hs⟩
    · simp only [put_other e, (module_got hi hd hm).ctx] at hx; exact .inl ⟨x', hx, hs⟩

theorem step_flag {s s' : State} {op : Op} {r : Result} {c : Nat} {x' : Context} (hi : Inv s) (h : Step s op r s')
    (hx : s'.contexts c = some x') (hs : x'.success = true) : (∃ d x, s.contexts d = some x ∧ x.success = true) ∨ r = .returned true := by
  cases h with
  | @create d k b hd =>
    by_cases e : c = d
    · subst e; simp only [put_self, Option.some.injEq] at hx; subst hx; cases hs
    · simp only [put_other e] at hx; exact .inl ⟨c, x', hx, hs⟩
  | @configure d k b x hd =>
    by_cases e : c = d
    · subst e; simp only [put_self, Option.some.injEq] at hx; subst hx; exact .inl ⟨c, x, hd, hs⟩
    · simp only [put_other e] at hx; exact .inl ⟨c, x', hx, hs⟩
  | @copy d f x hf hd =>
    by_cases e : c = d
    · subst e; simp only [put_self, Option.some.injEq] at hx; subst hx; exact .inl ⟨f, x, hf, hs⟩
    · simp only [put_other e] at hx; exact .inl ⟨c, x', hx, hs⟩
  | @assign d f x y hf hd =>
    by_cases e : c = d
    · subst e; simp only [put_self, Option.some.injEq] at hx; subst hx; exact .inl ⟨f, x, hf, hs⟩
    · simp only [put_other e] at hx; exact .inl ⟨c, x', hx, hs⟩
  | @finish d x hd =>
    by_cases e : c = d
    · subst e; simp only [put_self] at hx; cases hx
    · simp only [put_other e] at hx; exact .inl ⟨c, x', hx, hs⟩
  | @clear d x hd =>
    by_cases e : c = d
    · subst e; simp only [put_self, Option.some.injEq] at hx
      refine .inl ⟨c, x, hd, ?_⟩
      subst hx
      revert hs; split <;> exact id
    · simp only [put_other e] at hx; exact .inl ⟨c, x', hx, hs⟩
  | @edit d f x s1 m hd hm =>
    simp only [(module_got hi hd hm).ctx] at hx
    by_cases e : c = d
    · subst e; simp only [put_self, Option.some.injEq] at hx; subst hx; exact .inl ⟨c, x, hd, hs⟩
    · simp only [put_other e] at hx; exact .inl ⟨c, x', hx, hs⟩
  | parse hp =>
    rcases parses_flag hi hp hx hs with ⟨x, h1, h2⟩ | e
    · exact .inl ⟨c, x, h1, h2⟩
    · exact .inr e
  | @parseNew p d text b s1 elide hd hp =>
    have hi1 := (step_facts hi (.create (k := {}) (b := true) hd)).inv
    rcases parses_flag hi1 hp hx hs with ⟨x, h1, h2⟩ | e
    · by_cases e : c = d
      · subst e; simp only [put_self, Option.some.injEq] at h1; subst h1; cases h2
      · simp only [put_other e] at h1; exact .inl ⟨c, x, h1, h2⟩
    · exact .inr e
  | @parseNewThrows p d text s1 elide hd hp =>
    have hi1 := (step_facts hi (.create (k := {}) (b := true) hd)).inv
    by_cases e : c = d
    · subst e; simp only [put_self] at hx; cases hx
    · simp only [put_other e] at hx
      rcases parses_flag hi1 hp hx hs with ⟨x, h1, h2⟩ | e'
      · simp only [put_other e] at h1; exact .inl ⟨c, x, h1, h2⟩
      · cases e'
  | typesNone => exact .inl ⟨c, x', hx, hs⟩
  | @types p d x s1 m _ hd hm =>
    rw [(module_got hi hd hm).ctx] at hx
    by_cases e : c = d
    · subst e; simp only [put_self, Option.some.injEq] at hx; subst hx; exact .inl ⟨c, x, hd, hs⟩
    · simp only [put_other e] at hx; exact .inl ⟨c, x', hx, hs⟩

/-- C67: as long as no call of `parse` has returned `true`, no context says that there was success. -/
theorem C67_never (h : List (Op × Result)) (s : State) (hr : Run {} h s) (hn : ∀ e ∈ h, e.2 ≠ .returned true) (c : Nat) (v : View)
    (hv : view s c = some v) : v.success = false := by
  have key : ∀ c x, s.contexts c = some x → x.success = false := by
    clear hv
    induction hr with
    | nil => intro c x hx; cases hx
    | snoc hr hst ih =>
      have ih := ih (fun e he => hn e (List.mem_append_left _ he))
      intro c x hx
      cases hb : x.success with
      | false => rfl
      | true =>
        rcases step_flag (run_inv inv_init hr) hst hx hb with ⟨d, y, h1, h2⟩ | e
        · rw [ih d y h1] at h2; cases h2
        · exact absurd e (hn _ (List.mem_append_right _ (List.mem_singleton.mpr rfl)))
  cases hx : s.contexts c with
  | none => simp [view, hx] at hv
  | some x =>
    rw [view_some hx, Option.some.injEq] at hv
    rw [← hv]; exact key c x hx

theorem run_flag {s s' : State} {h : List (Op × Result)} {c : Nat} {x : Context} (hi : Inv s) (hr : Run s h s') (hx : s.contexts c = some x)
    (hn : ∀ e ∈ h, e.1.renews c = false ∨ ∃ d, e.1 = .clear d) (hp : ∀ e ∈ h, ∀ q t k, e ≠ (.parse q c t, .returned k)) :
    ∃ x', s'.contexts c = some x' ∧ x'.success = x.success := by
  induction hr with
  | nil => exact ⟨x, hx, rfl⟩
  | @snoc h s op r s' hr hst ih =>
    obtain ⟨y, hy, e⟩ := ih (fun e he => hn e (List.mem_append_left _ he)) (fun e he => hp e (List.mem_append_left _ he))
    have hm : (op, r) ∈ h ++ [(op, r)] := List.mem_append_right _ (List.mem_singleton.mpr rfl)
    obtain ⟨x', k⟩ := step_kept (run_inv hi hr) hst hy (hn _ hm)
    refine ⟨x', k.now, ?_⟩
    rcases k.flag with e' | ⟨p, t, b, e1, e2, _⟩
    · exact e'.trans e
    · exact absurd (by rw [e1, e2]) (hp _ hm p t b)

theorem parses_back {s s' : State} {p c : Nat} {text : Bytes} {b : Bool} (h : Parses s p c text (.returned b) s') :
    (b = true ↔ Idl.Syn.document (cString text) ≠ none) ∧ ∃ x, s'.contexts c = some x ∧ x.success = b := by
  cases h with
  | @rejected x hx hr =>
    cases hr with
    | rejected hd => exact ⟨by simp [hd], _, put_self _ _ _, rfl⟩
  | @read x r root' s1 m hx hr hne hm =>
    refine ⟨?_, _, put_self _ _ _, rfl⟩
    cases hr with
    | rejected => exact absurd rfl hne
    | accepted hn =>
      obtain ⟨n, hn⟩ := hn
      refine ⟨fun _ hd => ?_, fun _ => rfl⟩
      have := hn n (Nat.le_refl _)
      rw [Idl.Syn.parse, hd] at this
      cases this

/-- C67: a call of `parse` that returns sets the flag to what it returns, and returns `true` exactly if the whole text matches the
grammar; and the flag stays so until another call with this context returns or the context is begun, ended or assigned. -/
theorem C67_success (h h' : List (Op × Result)) (s s' s'' : State) (p c : Nat) (text : Bytes) (b : Bool) (hr : Run {} h s)
    (hs : Step s (.parse p c text) (.returned b) s') (hr' : Run s' h' s'')
    (hn : ∀ e ∈ h', e.1.renews c = false ∨ ∃ d, e.1 = .clear d)
    (hp : ∀ e ∈ h', ∀ q t k, e ≠ (.parse q c t, .returned k)) :
    (b = true ↔ Idl.Syn.document (cString text) ≠ none) ∧ ∃ v, view s'' c = some v ∧ v.success = b := by
  have hi := run_inv inv_init hr
  cases hs with
  | parse hq =>
    obtain ⟨h1, x, hx, hb⟩ := parses_back hq
    obtain ⟨x', hx', e⟩ := run_flag (step_facts hi (.parse hq)).inv hr' hx hn hp
    exact ⟨h1, _, view_some hx', e.trans hb⟩

/-! ## What is read -/

theorem parses_reads {s s' : State} {p c : Nat} {text : Bytes} {r : Result} (hi : Inv s) (h : Parses s p c text r s') :
    ∃ v v', view s c = some v ∧ view s' c = some v' ∧ v'.settings = v.settings ∧ v'.clear = v.clear ∧
      ((r = .returned true ∧ Idl.Reads v.settings v.tree (cString text) (v'.tree, none)) ∨
        (r = .returned false ∧ Idl.Rejects (cString text) ∧ v'.tree = v.tree) ∨
        (r = .threw ∧ Idl.Reads v.settings v.tree (cString text) (v'.tree, some .refused))) := by
  cases h with
  | @rejected x hx hr =>
    refine ⟨_, _, view_some hx, view_some (put_self _ _ _), rfl, rfl, .inr (.inl ⟨rfl, ?_, ?_⟩)⟩
    · cases hr with
      | rejected hd => exact Idl.Syn.rejects_of hd
    · exact tree_same (s := s) (by simp [hx])
  | @read x r root' s1 m hx hr hne hm =>
    have e := set_tree (root' := root') (x' := { x with success := flag x.success r, module := some m })
      (k := put s1.contexts c (some { x with success := flag x.success r, module := some m })) (q := put s1.parsers p (.to c))
      (module_got hi hx hm) (put_self _ _ _) rfl
    refine ⟨_, _, view_some hx, view_some (put_self _ _ _), rfl, rfl, ?_⟩
    simp only [e]
    cases hr with
    | rejected => exact absurd rfl hne
    | accepted h => exact .inl ⟨rfl, h⟩
    | refused h => exact .inr (.inr ⟨rfl, h⟩)

/-- C67: a call of `parse` reads the text with the settings of the context into the tree of the context, and changes no setting. It
returns `true` if everything was entered, `false` if the text does not match the grammar, and then the tree is as before; an
exception leaves it if a declaration was refused, and then the tree has what was entered before. -/
theorem C67_reads (h : List (Op × Result)) (s s' : State) (p c : Nat) (text : Bytes) (r : Result) (hr : Run {} h s)
    (hs : Step s (.parse p c text) r s') :
    ∃ v v', view s c = some v ∧ view s' c = some v' ∧ v'.settings = v.settings ∧ v'.clear = v.clear ∧
      ((r = .returned true ∧ Idl.Reads v.settings v.tree (cString text) (v'.tree, none)) ∨
        (r = .returned false ∧ Idl.Rejects (cString text) ∧ v'.tree = v.tree) ∨
        (r = .threw ∧ Idl.Reads v.settings v.tree (cString text) (v'.tree, some .refused))) := by
  cases hs with
  | parse hq => exact parses_reads (run_inv inv_init hr) hq

/-- C67: and `Parser::parse(text)`, if it returns, gives a context with the default settings and what the text makes out of nothing;
its flag is what the grammar says. -/
theorem C67_reads_new (h : List (Op × Result)) (s s' : State) (p c : Nat) (text : Bytes) (b elide : Bool) (hr : Run {} h s)
    (hs : Step s (.parseNew p c text elide) (.returned b) s') :
    ∃ t, view s' c = some ⟨{}, true, b, t⟩ ∧
      ((b = true ∧ Idl.Reads {} .empty (cString text) (t, none)) ∨ (b = false ∧ Idl.Rejects (cString text) ∧ t = .empty)) := by
  cases hs with
  | @parseNew _ _ _ _ s1 _ hc hq =>
    have hi := run_inv inv_init hr
    have hi1 := (step_facts hi (.create (k := {}) (b := true) hc)).inv
    obtain ⟨_, x, hx, hb⟩ := parses_back hq
    obtain ⟨v, v', h1, h2, h3, h4, h5⟩ := parses_reads hi1 hq
    rw [view_some (put_self _ _ _), tree_none (put_self _ _ _) rfl, Option.some.injEq] at h1
    subst h1
    have hv : v' = ⟨{}, true, b, v'.tree⟩ := by
      rw [view_some hx, Option.some.injEq] at h2
      subst h2
      simp only [View.mk.injEq, and_true] at h3 h4 ⊢
      exact ⟨h3, h4, hb⟩
    refine ⟨v'.tree, ?_, ?_⟩
    · rw [← hv]; exact h2
    · rcases h5 with ⟨e, h⟩ | ⟨e, h, h'⟩ | ⟨e, _⟩
      · exact .inl ⟨by simpa using e, h⟩
      · exact .inr ⟨by simpa using e, h, h'⟩
      · cases e

/-! ## Copies -/

theorem shares_tree {s : State} {c d : Nat} (h : Shares s c d) : s.tree c = s.tree d := by
  obtain ⟨x, y, m, hx, hy, hxm, hym⟩ := h
  rw [tree_of hx, tree_of hy, hxm, hym]

/-- C67: a copy of a context that has a tree shows what the original shows, whatever is done with the two and with others, until one
of them is begun, ended, assigned or cleared. -/
theorem C67_same (h h' : List (Op × Result)) (s s' : State) (c d : Nat) (hr : Run {} h s) (hs : Shares s c d) (hr' : Run s h' s')
    (hn : ∀ e ∈ h', e.1.renews c = false ∧ e.1.renews d = false) : Shares s' c d ∧ s'.tree c = s'.tree d := by
  have hi := run_inv inv_init hr
  have key : Shares s' c d := by
    induction hr' with
    | nil => exact hs
    | snoc hr' hst ih =>
      obtain ⟨x, y, m, hx, hy, hxm, hym⟩ := ih (fun e he => hn e (List.mem_append_left _ he))
      obtain ⟨n1, n2⟩ := hn _ (List.mem_append_right _ (List.mem_singleton.mpr rfl))
      have hj := run_inv hi hr'
      obtain ⟨x', kx⟩ := step_kept hj hst hx (.inl n1)
      obtain ⟨y', ky⟩ := step_kept hj hst hy (.inl n2)
      refine ⟨x', y', m, kx.now, ky.now, ?_, ?_⟩
      · rcases kx.module n1 with e | ⟨e, _⟩
        · rw [e, hxm]
        · rw [hxm] at e; cases e
      · rcases ky.module n2 with e | ⟨e, _⟩
        · rw [e, hym]
        · rw [hym] at e; cases e
  exact ⟨key, shares_tree key⟩

/-! ## The parser -/

/-- C67: `Parser::get_all_types` gives the types of the context that the parser was last used with, as long as that context is there. -/
theorem C67_parser_partial (h h' : List (Op × Result)) (s s' s'' : State) (p c : Nat) (text : Bytes) (r : Result) (hr : Run {} h s)
    (hs : Step s (.parse p c text) r s') (hr' : Run s' h' s'') (hn : ∀ e ∈ h', e.1.uses p = false ∧ e.1 ≠ .finish c) :
    ∃ t, Step s'' (.types p) (.shown (s''.tree c)) t := by
  have hi := run_inv inv_init hr
  have hj := (step_facts hi hs).inv
  have h0 : s'.parsers p = .to c := by
    cases hs with
    | parse hq => cases hq <;> exact put_self _ _ _
  have key : s''.parsers p = .to c := by
    induction hr' with
    | nil => exact h0
    | snoc hr' hst ih =>
      obtain ⟨n1, n2⟩ := hn _ (List.mem_append_right _ (List.mem_singleton.mpr rfl))
      exact step_pointer (run_inv hj hr') hst (ih fun e he => hn e (List.mem_append_left _ he)) n1 n2
  have hk := run_inv hj hr'
  cases hx : s''.contexts c with
  | none => exact absurd hx (hk.leads p c key)
  | some x =>
    cases hm : s''.module c x with
    | mk t m => exact ⟨t, .types key hx hm⟩

/-- C67, the other way: once the context is destroyed, the parser, which lives on, has a pointer to nothing, and the call is undefined
(there is no outcome of it). This is so for every context and every text. -/
theorem C67_parser_fails (s s' s'' : State) (p c : Nat) (text : Bytes) (r : Result) (hs : Step s (.parse p c text) r s')
    (hs' : Step s' (.finish c) .done s'') : s''.parsers p = .dangling ∧ ∀ r t, ¬ Step s'' (.types p) r t := by
  have h0 : s'.parsers p = .to c := by
    cases hs with
    | parse hq => cases hq <;> exact put_self _ _ _
  cases hs' with
  | finish hx =>
    have : (s'.parsers p).without c = .dangling := by rw [h0, Pointer.without, if_pos rfl]
    refine ⟨this, fun r t ht => ?_⟩
    cases ht with
    | typesNone e => simp only [this] at e; cases e
    | types e => simp only [this] at e; cases e

/-- C67, the other way: and so it is at once after `Parser::parse(text)`, if an exception leaves it or the result is not made in
place. -/
theorem C67_parser_new_fails (s s' : State) (p c : Nat) (text : Bytes) (r : Result) (elide : Bool) (hs : Step s (.parseNew p c text elide) r s')
    (h : elide = false ∨ r = .threw) : s'.parsers p = .dangling := by
  have h0 : ∀ {s r s'}, Parses s p c text r s' → s'.parsers p = .to c := by
    intro s r s' hq
    cases hq <;> exact put_self _ _ _
  cases hs with
  | parseNew _ hq =>
    have e : elide = false := by
      rcases h with e | e
      · exact e
      · cases e
    subst e
    simp only [Bool.false_eq_true, if_false, h0 hq, Pointer.without, if_true]
  | parseNewThrows _ hq => simp only [h0 hq, Pointer.without, if_true]

/-! ## What stays -/

theorem reading_keeps {k : Ctx} {t t' : Idl.Mod Item} {text : Bytes} {r : Result} (h : Reading k t text r t') (hw : Idl.WellNamed t) :
    Idl.Keeps t t' ∧ Idl.WellNamed t' := by
  cases h with
  | rejected => exact ⟨Idl.Syn.Keeps.refl _, hw⟩
  | accepted h => exact Idl.C62_keeps k t t' none (cString text) hw h
  | refused h => exact Idl.C62_keeps k t t' (some .refused) (cString text) hw h

theorem run_named {s : State} {h : List (Op × Result)} (hr : Run {} h s) (he : ∀ e ∈ h, e.1.edits = false) :
    ∀ (m : Nat) t, s.modules[m]? = some t → Idl.WellNamed t := by
  induction hr with
  | nil => intro m t ht; simp at ht
  | @snoc h s op r s' hr hst ih =>
    have ih := ih (fun e he' => he e (List.mem_append_left _ he'))
    have T := step_trees (run_inv inv_init hr) hst (he _ (List.mem_append_right _ (List.mem_singleton.mpr rfl)))
    intro m t ht
    cases hm : s.modules[m]? with
    | some t0 =>
      obtain ⟨t', h1, h2⟩ := T.old m t0 hm
      rw [ht, Option.some.injEq] at h1
      subst h1
      rcases h2 with e | ⟨_, _, _, e⟩
      · rw [e]; exact ih m t0 hm
      · exact (reading_keeps e (ih m t0 hm)).2
    | none =>
      rcases T.new m t (List.getElem?_eq_none_iff.mp hm) ht with e | ⟨_, _, _, e⟩
      · rw [e]; exact Idl.wellNamed_empty
      · exact (reading_keeps e Idl.wellNamed_empty).2

theorem step_grows {s s' : State} {op : Op} {r : Result} {c : Nat} {x : Context} (hi : Inv s) (h : Step s op r s') (hx : s.contexts c = some x)
    (hn : op.renews c = false) (he : op.edits = false) (hw : ∀ (m : Nat) t, s.modules[m]? = some t → Idl.WellNamed t) :
    ∃ x', s'.contexts c = some x' ∧ Idl.Keeps (s.tree c) (s'.tree c) := by
  obtain ⟨x', k⟩ := step_kept hi h hx (.inl hn)
  have T := step_trees hi h he
  refine ⟨x', k.now, ?_⟩
  rcases k.module hn with e | ⟨e1, e2⟩
  · cases hm : x.module with
    | none => rw [tree_none hx hm, tree_none k.now (e.trans hm)]; exact Idl.Syn.Keeps.refl _
    | some m =>
      have hl := hi.holds c x m hx hm
      obtain ⟨t', h1, h2⟩ := T.old m _ (List.getElem?_eq_getElem hl)
      rw [tree_some hx hm (List.getElem?_eq_getElem hl), tree_some k.now (e.trans hm) h1]
      rcases h2 with e | ⟨_, _, _, e⟩
      · rw [e]; exact Idl.Syn.Keeps.refl _
      · exact (reading_keeps e (hw m _ (List.getElem?_eq_getElem hl))).1
  · rw [tree_none hx e1]
    cases ht : s'.modules[s.modules.length]? with
    | none =>
      have : s'.tree c = .empty := by rw [tree_of k.now, e2]; simp [ht]
      rw [this]; exact Idl.Syn.Keeps.refl _
    | some t =>
      rw [tree_some k.now e2 ht]
      rcases T.new _ t (Nat.le_refl _) ht with e | ⟨_, _, _, e⟩
      · rw [e]; exact Idl.Syn.Keeps.refl _
      · exact (reading_keeps e Idl.wellNamed_empty).1

theorem run_append {s s' s'' : State} {h h' : List (Op × Result)} (hr : Run s h s') (hr' : Run s' h' s'') : Run s (h ++ h') s'' := by
  induction hr' with
  | nil => rw [List.append_nil]; exact hr
  | snoc _ hst ih => rw [← List.append_assoc]; exact .snoc ih hst

/-- C67: what a context has shown it shows for ever, whatever texts are read with it and with the contexts that share its tree, and
however the readings end: every type and constant stays (except that one without members may get some), until the context is
ended, assigned or cleared. (The trees must not be changed by other means than texts.) -/
theorem C67_keeps (h h' : List (Op × Result)) (s s' : State) (c : Nat) (v : View) (hr : Run {} h s) (hr' : Run s h' s')
    (he : ∀ e ∈ h ++ h', e.1.edits = false) (hn : ∀ e ∈ h', e.1.renews c = false) (hv : view s c = some v) :
    ∃ v', view s' c = some v' ∧ Idl.Keeps v.tree v'.tree := by
  cases hx : s.contexts c with
  | none => simp [view, hx] at hv
  | some x =>
    rw [view_some hx, Option.some.injEq] at hv
    subst hv
    have : ∃ x', s'.contexts c = some x' ∧ Idl.Keeps (s.tree c) (s'.tree c) := by
      induction hr' with
      | nil => exact ⟨x, hx, Idl.Syn.Keeps.refl _⟩
      | @snoc h1 m op r s' hr1 hst ih =>
        have sub : ∀ e ∈ h ++ h1, e.1.edits = false := fun e hm => he e (by rw [← List.append_assoc]; exact List.mem_append_left _ hm)
        obtain ⟨x1, hx1, k1⟩ := ih sub (fun e hm => hn e (List.mem_append_left _ hm))
        have hm : (op, r) ∈ h1 ++ [(op, r)] := List.mem_append_right _ (List.mem_singleton.mpr rfl)
        have hR := run_append hr hr1
        obtain ⟨x2, hx2, k2⟩ := step_grows (run_inv inv_init hR) hst hx1 (hn _ hm) (he _ (List.mem_append_right _ hm)) (run_named hR sub)
        exact ⟨x2, hx2, Idl.Syn.Keeps.trans k1 k2⟩
    obtain ⟨x', hx', k⟩ := this
    exact ⟨_, view_some hx', k⟩

/-! ## Clearing -/

/-- C67: `clear_context` takes the tree away from this context and from no other (and does nothing if the member `clear` is false). -/
theorem C67_clear (h : List (Op × Result)) (s s' : State) (c : Nat) (v : View) (hr : Run {} h s) (hs : Step s (.clear c) .done s')
    (hv : view s c = some v) :
    view s' c = some (if v.clear then { v with tree := .empty } else v) ∧ ∀ d, d ≠ c → view s' d = view s d := by
  have hi := run_inv inv_init hr
  have F := step_facts hi hs
  cases hs with
  | @clear _ x hx =>
    rw [view_some hx, Option.some.injEq] at hv
    subst hv
    refine ⟨?_, fun d hd => touch_view hi (F.touch d (by simpa [Op.names] using hd)) fun _ _ _ _ => rfl⟩
    rw [view_some (put_self _ _ _)]
    cases hb : x.clear with
    | true =>
      simp only [hb, if_true]
      rw [tree_none (put_self _ _ _) rfl]
    | false =>
      simp only [hb, Bool.false_eq_true, if_false]
      rw [tree_same (s := s) (by simp [hx])]

/-! ## Where it fails -/

/-- A text that makes nothing. -/
def plain : Bytes := Pre.bytes "#pragma once\n"
/-- A text that is refused: the type `T` is unknown. -/
def wrong : Bytes := Pre.bytes "struct S { T x; };"
/-- A text that makes a structure. -/
def good : Bytes := Pre.bytes "struct S { long x; };"


/-- The structure `S` of `good`. -/
def HasS (t : Idl.Mod Item) : Prop := omGet (t.content.get .struct) "S".toList = some (.ty (.struct "S" (.ofList [("x", .prim .i32)])))

theorem reading_good : ∃ t, Reading {} .empty good (.returned true) t ∧ HasS t := by
  obtain ⟨t, ⟨n, h⟩, h2⟩ := Idl.reads_entry (text := Text.bytes "struct S { long x; };") .struct "S" (e := none)
    (v := some (.ty (.struct "S" (.ofList [("x", .prim .i32)])))) (by decide) (by decide +kernel)
  have e : cString good = Text.bytes "struct S { long x; };" := by decide +kernel
  exact ⟨t, .accepted ⟨n, fun f hf => by rw [e]; exact h f hf⟩, h2⟩

theorem reading_wrong : ∃ t, Reading {} .empty wrong .threw t := by
  obtain ⟨t, ⟨n, h⟩, h2⟩ := Idl.reads_entry (text := Text.bytes "struct S { T x; };") .union "S" (e := some .refused)
    (v := none) (by decide) (by decide +kernel)
  have e : cString wrong = Text.bytes "struct S { T x; };" := by decide +kernel
  exact ⟨t, .refused ⟨n, fun f hf => by rw [e]; exact h f hf⟩⟩

/-- Declarations of which nothing comes. -/
def onlySkips : List Idl.Syn.Def → Bool
  | [.skip] => true
  | _ => false

theorem onlySkips_eq : ∀ {ds : List Idl.Syn.Def}, onlySkips ds = true → ds = [.skip]
  | [.skip], _ => rfl

theorem plain_document : Idl.Syn.document (cString plain) = some [.skip] := by
  have h1 : ((Idl.Syn.document (cString plain)).map onlySkips) = some true := by decide +kernel
  generalize Idl.Syn.document (cString plain) = o at h1 ⊢
  cases o with
  | none => cases h1
  | some ds => exact congrArg some (onlySkips_eq (Option.some.inj h1))

theorem reading_plain : Reading {} .empty plain (.returned true) .empty := by
  refine .accepted ⟨0, fun f _ => ?_⟩
  unfold Idl.Syn.parse
  simp only [plain_document, Idl.Syn.buildAll, Idl.Syn.build]

/-- A reading makes a call possible. -/
theorem parse_of {s : State} {p c : Nat} {x : Context} {text : Bytes} {r : Result} {t : Idl.Mod Item} (hi : Inv s) (hx : s.contexts c = some x)
    (hr : Reading x.settings (s.tree c) text r t) (hne : r ≠ .returned false) :
    ∃ s', Parses s p c text r s' ∧ view s' c = some ⟨x.settings, x.clear, flag x.success r, t⟩ ∧ s'.parsers p = .to c ∧
      (∃ x' m, s'.contexts c = some x' ∧ x'.module = some m) ∧ ∀ d, d ≠ c → s'.contexts d = s.contexts d := by
  cases hg : s.module c x with
  | mk s1 k =>
    have g := module_got hi hx hg
    refine ⟨_, .read hx hr hne hg, ?_, put_self _ _ _, ⟨{ x with success := flag x.success r, module := some k }, k, put_self _ _ _, rfl⟩, fun d hd => ?_⟩
    · rw [view_some (put_self _ _ _), set_tree g (put_self _ _ _) rfl]
    · simp only [put_other hd, g.ctx]

/-- The history of a context with which one text was read. -/
theorem run_one {text : Bytes} {t : Idl.Mod Item} (hr : Reading {} .empty text (.returned true) t) :
    ∃ s, Run {} [(.create 0 {} true, .done), (.parse 0 0 text, .returned true)] s ∧ view s 0 = some ⟨{}, true, true, t⟩ ∧ s.contexts 1 = none ∧
      ∃ x m, s.contexts 0 = some x ∧ x.module = some m := by
  have h1 : Step {} (.create 0 {} true) .done _ := .create rfl
  have hi := (step_facts inv_init h1).inv
  have hx : (put (fun _ => none) 0 (some ({ settings := {}, clear := true } : Context)) : Nat → Option Context) 0 = some { settings := {}, clear := true } := put_self _ _ _
  obtain ⟨s, h2, h3, _, h4, h5⟩ := parse_of (s := { contexts := put (fun _ => none) 0 (some { settings := {}, clear := true }) }) (p := 0) (c := 0) (text := text)
    (r := .returned true) (t := t) hi hx (by rw [tree_none hx rfl]; exact hr) (by simp)
  exact ⟨s, .snoc (.snoc .nil h1) (.parse h2), h3, (h5 1 (by decide)).trans rfl, h4⟩

/-- C67, the other way: after a call that an exception leaves, the flag is what it was before: here the last text was refused, and the
context says that there was success. -/
theorem C67_success_fails : ∃ h s s' v, Run {} h s ∧ Step s (.parse 0 0 wrong) .threw s' ∧ view s' 0 = some v ∧ v.success = true := by
  obtain ⟨s, hr, hv, _, x, m, hx, hm⟩ := run_one reading_plain
  obtain ⟨t, ht⟩ := reading_wrong
  have hi := run_inv inv_init hr
  rw [view_some hx] at hv
  simp only [Option.some.injEq, View.mk.injEq] at hv
  obtain ⟨e1, e2, e3, e4⟩ := hv
  obtain ⟨s', h2, h3, _⟩ := parse_of (p := 0) (text := wrong) (r := .threw) (t := t) hi hx (by rw [e1, e4]; exact ht) (by simp)
  exact ⟨_, s, s', _, hr, .parse h2, h3, e3⟩

/-- C67, the other way: what is read with a copy of a context is seen in the original, if the original had a tree. (Here, the client has
looked at `module()` once.) -/
theorem C67_copy_fails : ∃ h s s' v v', Run {} h s ∧ Step s (.parse 0 1 good) (.returned true) s' ∧ view s 0 = some v ∧ view s' 0 = some v' ∧
    ¬ HasS v.tree ∧ HasS v'.tree := by
  obtain ⟨t, ht, hS⟩ := reading_good
  have h1 : Step {} (.create 0 {} true) .done _ := .create rfl
  have h2 := Step.edit (s := { contexts := put (fun _ => none) 0 (some { settings := {}, clear := true }) }) (c := 0) (g := id)
    (x := { settings := {}, clear := true }) (s' := _) (m := _) rfl rfl
  have h3 := Step.copy (d := 1) (c := 0) (x := { settings := {}, clear := true, module := some 0 })
    (s := ⟨[.empty], put (put (fun _ => none) 0 (some { settings := {}, clear := true })) 0 (some { settings := {}, clear := true, module := some 0 }), fun _ => .null⟩) rfl rfl
  have h4 := Parses.read (p := 0) (c := 1) (text := good) (r := .returned true) (root' := t) (x := { settings := {}, clear := true, module := some 0 })
    (s := ⟨[.empty], put (put (put (fun _ => none) 0 (some { settings := {}, clear := true })) 0 (some { settings := {}, clear := true, module := some 0 })) 1 (some { settings := {}, clear := true, module := some 0 }), fun _ => .null⟩)
    (s' := _) (m := _) rfl ht (by simp) rfl
  refine ⟨_, _, _, _, _, .snoc (.snoc (.snoc .nil h1) h2) h3, .parse h4, rfl, rfl, ?_, ?_⟩
  · intro h; cases h
  · exact hS

/-- C67, the other way: `clear_context` leaves the flag: here the context says that there was success, and has nothing to show. -/
theorem C67_clear_fails : ∃ h s s' v, Run {} h s ∧ Step s (.clear 0) .done s' ∧ (∃ v0, view s 0 = some v0 ∧ HasS v0.tree) ∧ view s' 0 = some v ∧
    v.success = true ∧ v.tree = .empty := by
  obtain ⟨t, ht, hS⟩ := reading_good
  obtain ⟨s, hr, hv, _, x, m, hx, hm⟩ := run_one ht
  have h2 := Step.clear hx
  exact ⟨_, s, _, _, hr, h2, ⟨_, hv, hS⟩, (C67_clear _ _ _ 0 _ hr h2 hv).1, rfl, rfl⟩

/-! ## The theorems are about real histories -/

/-- Two contexts and a parser: a text is read with the one, and another with the other. -/
example : ∃ h s s', Run {} h s ∧ (∀ e ∈ h, e.1.copies = false) ∧ (∀ e ∈ h, e.1.edits = false) ∧ (∃ v, view s 0 = some v ∧ HasS v.tree) ∧
    Step s (.parseNew 0 1 good true) (.returned true) s' ∧ s'.parsers 0 = .to 1 ∧ ∃ v, view s' 1 = some v ∧ HasS v.tree ∧ v.success = true := by
  obtain ⟨t, ht, hS⟩ := reading_good
  obtain ⟨s, hr, hv, hn, x, m, hx, hm⟩ := run_one ht
  have hi := run_inv inv_init hr
  have hx1 : put s.contexts 1 (some ({} : Context)) 1 = some {} := put_self _ _ _
  have hi1 := (step_facts hi (.create (k := {}) (b := true) hn)).inv
  obtain ⟨s', h2, h3, h4, _⟩ := parse_of (s := { s with contexts := put s.contexts 1 (some {}) }) (p := 0) (c := 1) (text := good)
    (r := .returned true) (t := t) hi1 hx1 (by rw [tree_none hx1 rfl]; exact ht) (by simp)
  refine ⟨_, s, _, hr, by simp [Op.copies], by simp [Op.edits], ⟨_, hv, hS⟩, .parseNew hn h2, h4, _, h3, hS, rfl⟩

/-- A shared tree. -/
example : ∃ h s, Run {} h s ∧ Shares s 0 1 ∧ HasS (s.tree 1) := by
  obtain ⟨t, ht, hS⟩ := reading_good
  obtain ⟨s, hr, hv, hn, x, m, hx, hm⟩ := run_one ht
  have h2 := Step.copy hx hn
  have hs : Shares { s with contexts := put s.contexts 1 (some x) } 0 1 :=
    ⟨x, x, m, by simp only [put_other (show (0 : Nat) ≠ 1 by decide)]; exact hx, by simp only [put_self], hm, hm⟩
  refine ⟨_, _, .snoc hr h2, hs, ?_⟩
  rw [← shares_tree hs, tree_same (s := s) (by rw [put_other (show (0 : Nat) ≠ 1 by decide)])]
  rw [view_some hx, Option.some.injEq] at hv
  simp only [View.mk.injEq] at hv
  rw [hv.2.2.2]; exact hS

/-- A pointer to nothing. -/
example : ∃ s s' s'', Step s (.parse 0 0 good) (.returned true) s' ∧ Step s' (.finish 0) .done s'' := by
  obtain ⟨t, ht, hS⟩ := reading_good
  have hx : (put (fun _ => none) 0 (some ({ settings := {}, clear := true } : Context)) : Nat → Option Context) 0 = some { settings := {}, clear := true } := put_self _ _ _
  have hi := (step_facts inv_init (.create (c := 0) (k := {}) (b := true) rfl)).inv
  obtain ⟨s, h2, _, _, ⟨x, _, h4, _⟩, _⟩ := parse_of (s := { contexts := put (fun _ => none) 0 (some { settings := {}, clear := true }) }) (p := 0)
    (c := 0) (text := good) (r := .returned true) (t := t) hi hx (by rw [tree_none hx rfl]; exact ht) (by simp)
  exact ⟨_, s, _, .parse h2, .finish h4⟩

end Verif.Contexts
