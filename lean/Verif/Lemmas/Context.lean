import Verif.Spec.Context
/-! Lemmas for C67: what a call leaves alone. -/

namespace Verif.Contexts
open Verif.Idl.Syn (Item Ctx)
open Verif.Pre (Bytes cString)

@[simp] theorem put_self {α : Type} (m : Nat → α) (k : Nat) (v : α) : put m k v k = v := by simp [put]

theorem put_other {α : Type} {m : Nat → α} {k x : Nat} {v : α} (h : x ≠ k) : put m k v x = m x := by simp [put, h]

/-- Contexts hold trees that are there, and pointers lead to contexts. -/
structure Inv (s : State) : Prop where
  holds : ∀ c x m, s.contexts c = some x → x.module = some m → m < s.modules.length
  leads : ∀ p c, s.parsers p = .to c → s.contexts c ≠ none

theorem inv_init : Inv {} := ⟨fun _ _ _ h => (by cases h), fun _ _ h => (by cases h)⟩

theorem tree_of {s : State} {c : Nat} {x : Context} (h : s.contexts c = some x) : s.tree c = ((x.module).bind (s.modules[·]?)).getD .empty := by
  simp only [State.tree, h, Option.bind_some]

theorem tree_none {s : State} {c : Nat} {x : Context} (h : s.contexts c = some x) (hm : x.module = none) : s.tree c = .empty := by
  rw [tree_of h, hm]; rfl

theorem tree_some {s : State} {c : Nat} {x : Context} {m : Nat} {t : Idl.Mod Item} (h : s.contexts c = some x) (hm : x.module = some m)
    (ht : s.modules[m]? = some t) : s.tree c = t := by
  rw [tree_of h, hm]; simp [ht]

theorem view_some {s : State} {c : Nat} {x : Context} (h : s.contexts c = some x) : view s c = some ⟨x.settings, x.clear, x.success, s.tree c⟩ := by
  simp [view, h]

/-- What `module()` does. -/
structure Got (s : State) (c : Nat) (x : Context) (s' : State) (m : Nat) : Prop where
  lt : m < s'.modules.length
  le : s.modules.length ≤ s'.modules.length
  old : ∀ i, i < s.modules.length → s'.modules[i]? = s.modules[i]?
  ctx : s'.contexts = put s.contexts c (some { x with module := some m })
  at_ : s'.modules[m]? = some (s.tree c)
  ptrs : s'.parsers = s.parsers
  from_ : x.module = some m ∨ x.module = none ∧ m = s.modules.length

theorem module_got {s s' : State} {c m : Nat} {x : Context} (hi : Inv s) (h : s.contexts c = some x) (hm : s.module c x = (s', m)) :
    Got s c x s' m := by
  unfold State.module at hm
  split at hm
  · rename_i m' e
    cases hm
    have hl := hi.holds c x m h e
    refine ⟨hl, Nat.le_refl _, fun _ _ => rfl, ?_, ?_, rfl, .inl e⟩
    · funext d
      by_cases hd : d = c
      · subst hd; rw [put_self, h]; congr 1; cases x; simp_all
      · rw [put_other hd]
    · rw [tree_some h e (List.getElem?_eq_getElem hl)]; exact List.getElem?_eq_getElem hl
  · rename_i e
    cases hm
    refine ⟨by simp, by simp, fun i hi => ?_, rfl, ?_, rfl, .inr ⟨e, rfl⟩⟩
    · simp only; rw [List.getElem?_append_left hi]
    · rw [tree_none h e]; simp

/-- What a call leaves alone of a context it is not given: everything but that the first use makes an empty tree. -/
def Touch (s s' : State) (c : Nat) : Prop :=
  (s.contexts c = none ∧ s'.contexts c = none) ∨
  ∃ x x', s.contexts c = some x ∧ s'.contexts c = some x' ∧ x'.settings = x.settings ∧ x'.clear = x.clear ∧ x'.success = x.success ∧
    (x'.module = x.module ∨ x.module = none ∧ x'.module = some s.modules.length ∧ s'.modules[s.modules.length]? = some .empty)

theorem touch_of_eq {s s' : State} {c : Nat} (h : s'.contexts c = s.contexts c) : Touch s s' c := by
  cases e : s.contexts c with
  | none => exact .inl ⟨e, h.trans e⟩
  | some x => exact .inr ⟨x, x, e, h.trans e, rfl, rfl, rfl, .inl rfl⟩

/-- What a call does. -/
structure Facts (s : State) (ns : List Nat) (s' : State) : Prop where
  inv : Inv s'
  le : s.modules.length ≤ s'.modules.length
  old : ∀ m, m < s.modules.length → s'.modules[m]? = s.modules[m]? ∨ ∃ c ∈ ns, ∃ x, s.contexts c = some x ∧ x.module = some m
  touch : ∀ c, c ∉ ns → Touch s s' c

theorem without_to {c d : Nat} {p : Pointer} (h : p.without c = .to d) : p = .to d ∧ d ≠ c := by
  unfold Pointer.without at h
  split at h
  · cases h
  · rename_i hn
    exact ⟨h, fun e => hn (e ▸ h)⟩

theorem parses_facts {s s' : State} {p c : Nat} {text : Bytes} {r : Result} (hi : Inv s) (h : Parses s p c text r s') :
    Facts s [c] s' ∧ s'.contexts c ≠ none := by
  cases h with
  | rejected hx _ =>
    refine ⟨⟨⟨?_, ?_⟩, Nat.le_refl _, fun _ _ => .inl rfl, fun d hd => touch_of_eq (put_other (by simpa using hd))⟩, by simp⟩
    · intro d y m hy hm
      by_cases hd : d = c
      · subst hd; simp only [put_self, Option.some.injEq] at hy; subst hy; exact hi.holds d _ m hx hm
      · simp only [put_other hd] at hy; exact hi.holds d y m hy hm
    · intro q d hq
      by_cases hd : d = c
      · subst hd; simp
      · simp only [put_other hd]
        by_cases hqp : q = p
        · subst hqp; simp only [put_self, Pointer.to.injEq] at hq; exact absurd hq.symm hd
        · simp only [put_other hqp] at hq; exact hi.leads q d hq
  | @read x r root' s1 m hx _ _ hm =>
    have g := module_got hi hx hm
    refine ⟨⟨⟨?_, ?_⟩, by simpa using g.le, ?_, ?_⟩, by simp⟩
    · intro d y k hy hk
      simp only [List.length_set]
      by_cases hd : d = c
      · subst hd; simp only [put_self, Option.some.injEq] at hy; subst hy; cases hk; exact g.lt
      · simp only [put_other hd, g.ctx] at hy; exact Nat.lt_of_lt_of_le (hi.holds d y k hy hk) g.le
    · intro q d hq
      by_cases hd : d = c
      · subst hd; simp
      · simp only [put_other hd, g.ctx]
        by_cases hqp : q = p
        · subst hqp; simp only [put_self, Pointer.to.injEq] at hq; exact absurd hq.symm hd
        · simp only [put_other hqp, g.ptrs] at hq; exact hi.leads q d hq
    · intro i hl
      by_cases him : i = m
      · subst him
        rcases g.from_ with e | ⟨_, e⟩
        · exact .inr ⟨c, by simp, x, hx, e⟩
        · omega
      · refine .inl ?_
        simp only
        rw [List.getElem?_set_ne (Ne.symm him)]; exact g.old i hl
    · intro d hd
      have hd : d ≠ c := by simpa using hd
      exact touch_of_eq (by simp only [put_other hd, g.ctx])

theorem touch_trans_left {s s1 s2 : State} {d : Nat} (h : s1.contexts d = s.contexts d) (hm : s1.modules = s.modules) (t : Touch s1 s2 d) : Touch s s2 d := by
  unfold Touch at t ⊢
  rw [h, hm] at t
  exact t

theorem step_facts {s s' : State} {op : Op} {r : Result} (hi : Inv s) (h : Step s op r s') : Facts s op.names s' := by
  cases h with
  | @create c k b hc =>
    refine ⟨⟨?_, ?_⟩, Nat.le_refl _, fun _ _ => .inl rfl, fun d hd => touch_of_eq (put_other (by simpa [Op.names] using hd))⟩
    · intro d y m hy hm
      by_cases hd : d = c
      · subst hd; simp only [put_self, Option.some.injEq] at hy; subst hy; cases hm
      · simp only [put_other hd] at hy; exact hi.holds d y m hy hm
    · intro q d hq
      by_cases hd : d = c
      · subst hd; simp
      · simp only [put_other hd]; exact hi.leads q d hq
  | @configure c k b x hx =>
    refine ⟨⟨?_, ?_⟩, Nat.le_refl _, fun _ _ => .inl rfl, fun d hd => touch_of_eq (put_other (by simpa [Op.names] using hd))⟩
    · intro d y m hy hm
      by_cases hd : d = c
      · subst hd; simp only [put_self, Option.some.injEq] at hy; subst hy; exact hi.holds d x m hx hm
      · simp only [put_other hd] at hy; exact hi.holds d y m hy hm
    · intro q d hq
      by_cases hd : d = c
      · subst hd; simp
      · simp only [put_other hd]; exact hi.leads q d hq
  | @copy c e x hx hn =>
    refine ⟨⟨?_, ?_⟩, Nat.le_refl _, fun _ _ => .inl rfl, fun d hd => touch_of_eq (put_other (by simp [Op.names] at hd; exact hd.1))⟩
    · intro d y m hy hm
      by_cases hd : d = c
      · subst hd; simp only [put_self, Option.some.injEq] at hy; subst hy; exact hi.holds e x m hx hm
      · simp only [put_other hd] at hy; exact hi.holds d y m hy hm
    · intro q d hq
      by_cases hd : d = c
      · subst hd; simp
      · simp only [put_other hd]; exact hi.leads q d hq
  | @assign c e x y hx hn =>
    refine ⟨⟨?_, ?_⟩, Nat.le_refl _, fun _ _ => .inl rfl, fun d hd => touch_of_eq (put_other (by simp [Op.names] at hd; exact hd.1))⟩
    · intro d y m hy hm
      by_cases hd : d = c
      · subst hd; simp only [put_self, Option.some.injEq] at hy; subst hy; exact hi.holds e x m hx hm
      · simp only [put_other hd] at hy; exact hi.holds d y m hy hm
    · intro q d hq
      by_cases hd : d = c
      · subst hd; simp
      · simp only [put_other hd]; exact hi.leads q d hq
  | @finish c x hx =>
    refine ⟨⟨?_, ?_⟩, Nat.le_refl _, fun _ _ => .inl rfl, fun d hd => touch_of_eq (put_other (by simpa [Op.names] using hd))⟩
    · intro d y m hy hm
      by_cases hd : d = c
      · subst hd; simp only [put_self] at hy; cases hy
      · simp only [put_other hd] at hy; exact hi.holds d y m hy hm
    · intro q d hq
      obtain ⟨h1, h2⟩ := without_to hq
      simp only [put_other h2]; exact hi.leads q d h1
  | @clear c x hx =>
    refine ⟨⟨?_, ?_⟩, Nat.le_refl _, fun _ _ => .inl rfl, fun d hd => touch_of_eq (put_other (by simpa [Op.names] using hd))⟩
    · intro d y m hy hm
      by_cases hd : d = c
      · subst hd; simp only [put_self, Option.some.injEq] at hy
        split at hy
        · subst hy; cases hm
        · subst hy; exact hi.holds d x m hx hm
      · simp only [put_other hd] at hy; exact hi.holds d y m hy hm
    · intro q d hq
      by_cases hd : d = c
      · subst hd; simp
      · simp only [put_other hd]; exact hi.leads q d hq
  | @edit c f x s1 m hx hm =>
    have g := module_got hi hx hm
    refine ⟨⟨?_, ?_⟩, by simpa using g.le, ?_, ?_⟩
    · intro d y k hy hk
      simp only [List.length_set]
      simp only [g.ctx] at hy
      by_cases hd : d = c
      · subst hd; simp only [put_self, Option.some.injEq] at hy; subst hy; cases hk; exact g.lt
      · simp only [put_other hd] at hy; exact Nat.lt_of_lt_of_le (hi.holds d y k hy hk) g.le
    · intro q d hq
      simp only [g.ptrs] at hq
      simp only [g.ctx]
      by_cases hd : d = c
      · subst hd; simp
      · simp only [put_other hd]; exact hi.leads q d hq
    · intro i hl
      by_cases him : i = m
      · subst him
        rcases g.from_ with e | ⟨_, e⟩
        · exact .inr ⟨c, by simp [Op.names], x, hx, e⟩
        · omega
      · refine .inl ?_
        simp only
        rw [List.getElem?_set_ne (Ne.symm him)]; exact g.old i hl
    · intro d hd
      have hd : d ≠ c := by simpa [Op.names] using hd
      exact touch_of_eq (by simp only [put_other hd, g.ctx])
  | parse hp => exact (parses_facts hi hp).1
  | @parseNew p c text b s1 elide hc hp =>
    have hi1 : Inv { s with contexts := put s.contexts c (some {}) } := by
      refine ⟨?_, ?_⟩
      · intro d y m hy hm
        by_cases hd : d = c
        · subst hd; simp only [put_self, Option.some.injEq] at hy; subst hy; cases hm
        · simp only [put_other hd] at hy; exact hi.holds d y m hy hm
      · intro q d hq
        by_cases hd : d = c
        · subst hd; simp
        · simp only [put_other hd]; exact hi.leads q d hq
    have F := (parses_facts hi1 hp).1
    refine ⟨⟨F.inv.holds, ?_⟩, F.le, ?_, ?_⟩
    · intro q d hq
      simp only at hq
      split at hq
      · exact F.inv.leads q d hq
      · exact F.inv.leads q d (without_to hq).1
    · intro m hm
      rcases F.old m hm with e | ⟨d, hd, y, hy, hym⟩
      · exact .inl e
      · have hd : d = c := by simpa using hd
        subst hd
        simp only [put_self, Option.some.injEq] at hy; subst hy; cases hym
    · intro d hd
      have hd' : d ≠ c := by simpa [Op.names] using hd
      have := F.touch d (by simpa using hd')
      have := touch_trans_left (s := s) (s1 := { s with contexts := put s.contexts c (some {}) }) (put_other hd') rfl this
      exact this
  | @parseNewThrows p c text s1 elide hc hp =>
    have hi1 : Inv { s with contexts := put s.contexts c (some {}) } := by
      refine ⟨?_, ?_⟩
      · intro d y m hy hm
        by_cases hd : d = c
        · subst hd; simp only [put_self, Option.some.injEq] at hy; subst hy; cases hm
        · simp only [put_other hd] at hy; exact hi.holds d y m hy hm
      · intro q d hq
        by_cases hd : d = c
        · subst hd; simp
        · simp only [put_other hd]; exact hi.leads q d hq
    have F := (parses_facts hi1 hp).1
    refine ⟨⟨?_, ?_⟩, F.le, ?_, ?_⟩
    · intro d y m hy hm
      by_cases hd : d = c
      · subst hd; simp only [put_self] at hy; cases hy
      · simp only [put_other hd] at hy; exact F.inv.holds d y m hy hm
    · intro q d hq
      obtain ⟨h1, h2⟩ := without_to hq
      simp only [put_other h2]; exact F.inv.leads q d h1
    · intro m hm
      rcases F.old m hm with e | ⟨d, hd, y, hy, hym⟩
      · exact .inl e
      · have hd : d = c := by simpa using hd
        subst hd
        simp only [put_self, Option.some.injEq] at hy; subst hy; cases hym
    · intro d hd
      have hd' : d ≠ c := by simpa [Op.names] using hd
      have := F.touch d (by simpa using hd')
      have := touch_trans_left (s := s) (s1 := { s with contexts := put s.contexts c (some {}) }) (put_other hd') rfl this
      unfold Touch at this ⊢
      simp only [put_other hd']
      exact this
  | typesNone => exact ⟨hi, Nat.le_refl _, fun _ _ => .inl rfl, fun _ _ => touch_of_eq rfl⟩
  | @types p c x s1 m hp hx hm =>
    have g := module_got hi hx hm
    refine ⟨⟨?_, ?_⟩, g.le, fun i hl => .inl (g.old i hl), ?_⟩
    · intro d y k hy hk
      simp only [g.ctx] at hy
      by_cases hd : d = c
      · subst hd; simp only [put_self, Option.some.injEq] at hy; subst hy; cases hk; exact g.lt
      · simp only [put_other hd] at hy; exact Nat.lt_of_lt_of_le (hi.holds d y k hy hk) g.le
    · intro q d hq
      rw [g.ptrs] at hq
      rw [g.ctx]
      by_cases hd : d = c
      · subst hd; simp
      · simp only [put_other hd]; exact hi.leads q d hq
    · intro d _
      by_cases hd : d = c
      · subst hd
        refine .inr ⟨x, { x with module := some m }, hx, by rw [g.ctx, put_self], rfl, rfl, rfl, ?_⟩
        rcases g.from_ with e | ⟨e1, e2⟩
        · exact .inl e.symm
        · exact .inr ⟨e1, by rw [e2], by rw [← e2, g.at_, tree_none hx e1]⟩
      · exact touch_of_eq (by rw [g.ctx, put_other hd])

theorem run_inv {s s' : State} {h : List (Op × Result)} (hi : Inv s) (hr : Run s h s') : Inv s' := by
  induction hr with
  | nil => exact hi
  | snoc _ hs ih => exact (step_facts ih hs).inv

theorem touch_view {s s' : State} {c : Nat} (hi : Inv s) (t : Touch s s' c)
    (ho : ∀ x m, s.contexts c = some x → x.module = some m → s'.modules[m]? = s.modules[m]?) : view s' c = view s c := by
  rcases t with ⟨h1, h2⟩ | ⟨x, x', hx, hx', e1, e2, e3, e4⟩
  · simp [view, h1, h2]
  · rw [view_some hx, view_some hx', e1, e2, e3]
    have : s'.tree c = s.tree c := by
      rcases e4 with e | ⟨e, e', e''⟩
      · cases hm : x.module with
        | none => rw [tree_none hx hm, tree_none hx' (e.trans hm)]
        | some m =>
          have hl := hi.holds c x m hx hm
          rw [tree_some hx hm (List.getElem?_eq_getElem hl), tree_some hx' (e.trans hm) ((ho x m hx hm).trans (List.getElem?_eq_getElem hl))]
      · rw [tree_none hx e, tree_some hx' e' e'']
    rw [this]

/-- What a call does with a context that it neither begins nor ends nor gives another tree. -/
structure Kept (s s' : State) (c : Nat) (op : Op) (r : Result) (x x' : Context) : Prop where
  now : s'.contexts c = some x'
  flag : x'.success = x.success ∨ ∃ p t k, op = .parse p c t ∧ r = .returned k ∧ x'.success = k
  module : op.renews c = false → x'.module = x.module ∨ x.module = none ∧ x'.module = some s.modules.length

theorem kept_same {s s' : State} {c : Nat} {op : Op} {r : Result} {x : Context} (h : s'.contexts c = some x) : Kept s s' c op r x x :=
  ⟨h, .inl rfl, fun _ => .inl rfl⟩

theorem got_module {s s' : State} {c m : Nat} {x : Context} (g : Got s c x s' m) : some m = x.module ∨ x.module = none ∧ some m = some s.modules.length := by
  rcases g.from_ with e | ⟨e1, e2⟩
  · exact .inl e.symm
  · exact .inr ⟨e1, by rw [e2]⟩

theorem step_kept {s s' : State} {op : Op} {r : Result} {c : Nat} {x : Context} (hi : Inv s) (h : Step s op r s') (hx : s.contexts c = some x)
    (hn : op.renews c = false ∨ ∃ d, op = .clear d) : ∃ x', Kept s s' c op r x x' := by
  cases h with
  | @create d k b hd =>
    have e : c ≠ d := by rintro rfl; rw [hd] at hx; cases hx
    exact ⟨x, kept_same (by simp only [put_other e, hx])⟩
  | @configure d k b y hd =>
    by_cases e : c = d
    · subst e
      rw [hx] at hd; cases hd
      exact ⟨_, put_self _ _ _, .inl rfl, fun _ => .inl rfl⟩
    · exact ⟨x, kept_same (by simp only [put_other e, hx])⟩
  | @copy d e y hy hd =>
    have e : c ≠ d := by rintro rfl; rw [hd] at hx; cases hx
    exact ⟨x, kept_same (by simp only [put_other e, hx])⟩
  | @assign d e y z hy hd =>
    have e : c ≠ d := by
      rintro rfl
      rcases hn with hn | ⟨_, hn⟩
      · simp [Op.renews] at hn
      · cases hn
    exact ⟨x, kept_same (by simp only [put_other e, hx])⟩
  | @finish d y hd =>
    have e : c ≠ d := by
      rintro rfl
      rcases hn with hn | ⟨_, hn⟩
      · simp [Op.renews] at hn
      · cases hn
    exact ⟨x, kept_same (by simp only [put_other e, hx])⟩
  | @clear d y hd =>
    by_cases e : c = d
    · subst e
      rw [hx] at hd; cases hd
      refine ⟨_, put_self _ _ _, .inl ?_, fun h => ?_⟩
      · split <;> rfl
      · simp [Op.renews] at h
    · exact ⟨x, kept_same (by simp only [put_other e, hx])⟩
  | @edit d f y s1 m hd hm =>
    by_cases e : c = d
    · subst e
      rw [hx] at hd; cases hd
      have g := module_got hi hx hm
      exact ⟨{ x with module := some m }, by simp only [g.ctx, put_self], .inl rfl, fun _ => got_module g⟩
    · have g := module_got hi hd hm
      exact ⟨x, kept_same (by simp only [g.ctx, put_other e, hx])⟩
  | @parse p d text r s' hp =>
    by_cases e : c = d
    · subst e
      cases hp with
      | rejected hd _ =>
        rw [hx] at hd; cases hd
        exact ⟨_, put_self _ _ _, .inr ⟨p, text, false, rfl, rfl, rfl⟩, fun _ => .inl rfl⟩
      | @read y r root' s1 m hd hrd hne hm =>
        rw [hx] at hd; cases hd
        have g := module_got hi hx hm
        refine ⟨_, put_self _ _ _, ?_, fun _ => got_module g⟩
        cases r with
        | returned k => exact .inr ⟨p, text, k, rfl, rfl, rfl⟩
        | done => exact .inl rfl
        | threw => exact .inl rfl
        | shown => exact .inl rfl
    · refine ⟨x, kept_same ?_⟩
      cases hp with
      | rejected hd _ => simp only [put_other e, hx]
      | read hd hrd hne hm => simp only [put_other e, (module_got hi hd hm).ctx, hx]
  | @parseNew p d text b s1 elide hd hp =>
    have e : c ≠ d := by rintro rfl; rw [hd] at hx; cases hx
    refine ⟨x, kept_same ?_⟩
    have hi1 := (step_facts hi (.create (k := {}) (b := true) hd)).inv
    cases hp with
    | rejected hd _ => simp only [put_other e, hx]
    | read hd hrd hne hm => simp only [put_other e, (module_got hi1 hd hm).ctx, hx]
  | @parseNewThrows p d text s1 elide hd hp =>
    have e : c ≠ d := by rintro rfl; rw [hd] at hx; cases hx
    refine ⟨x, kept_same ?_⟩
    have hi1 := (step_facts hi (.create (k := {}) (b := true) hd)).inv
    cases hp with
    | read hd hrd hne hm => simp only [put_other e, (module_got hi1 hd hm).ctx, hx]
  | typesNone => exact ⟨x, kept_same hx⟩
  | @types p d y s1 m _ hd hm =>
    have g := module_got hi hd hm
    by_cases e : c = d
    · subst e
      rw [hx] at hd; cases hd
      exact ⟨{ x with module := some m }, by simp only [g.ctx, put_self], .inl rfl, fun _ => got_module g⟩
    · exact ⟨x, kept_same (by rw [g.ctx, put_other e, hx])⟩

theorem step_pointer {s s' : State} {op : Op} {r : Result} {p c : Nat} (hi : Inv s) (h : Step s op r s') (hp : s.parsers p = .to c)
    (hu : op.uses p = false) (hf : op ≠ .finish c) : s'.parsers p = .to c := by
  have hc := hi.leads p c hp
  have without : ∀ {d}, d ≠ c → (Pointer.to c).without d = .to c := by
    intro d hd
    simp only [Pointer.without, Pointer.to.injEq, Ne.symm hd, if_false]
  cases h with
  | create | configure | copy | assign | clear => exact hp
  | @finish d y hd => simp only [hp]; exact without fun e => hf (e ▸ rfl)
  | edit hd hm => simp only [(module_got hi hd hm).ptrs, hp]
  | @parse q d text r s' hq =>
    have e : p ≠ q := fun e => by simp [Op.uses, e] at hu
    cases hq with
    | rejected => simp only [put_other e, hp]
    | read hd hrd hne hm => simp only [put_other e, (module_got hi hd hm).ptrs, hp]
  | @parseNew q d text b s1 elide hd hq =>
    have e : p ≠ q := fun e => by simp [Op.uses, e] at hu
    have hdc : d ≠ c := by rintro rfl; exact hc hd
    have hi1 := (step_facts hi (.create (k := {}) (b := true) hd)).inv
    have : s1.parsers p = .to c := by
      cases hq with
      | rejected => simp only [put_other e, hp]
      | read hd hrd hne hm => simp only [put_other e, (module_got hi1 hd hm).ptrs, hp]
    simp only
    split
    · exact this
    · simp only [this]; exact without hdc
  | @parseNewThrows q d text s1 elide hd hq =>
    have e : p ≠ q := fun e => by simp [Op.uses, e] at hu
    have hdc : d ≠ c := by rintro rfl; exact hc hd
    have hi1 := (step_facts hi (.create (k := {}) (b := true) hd)).inv
    have : s1.parsers p = .to c := by
      cases hq with
      | read hd hrd hne hm => simp only [put_other e, (module_got hi1 hd hm).ptrs, hp]
    simp only
    rw [this]; exact without hdc
  | typesNone => exact hp
  | types _ hd hm => rw [(module_got hi hd hm).ptrs, hp]

/-- What a call that is no edit does to the trees. -/
structure Trees (s s' : State) : Prop where
  old : ∀ (m : Nat) t, s.modules[m]? = some t → ∃ t', s'.modules[m]? = some t' ∧ (t' = t ∨ ∃ k text r, Reading k t text r t')
  new : ∀ (m : Nat) t', s.modules.length ≤ m → s'.modules[m]? = some t' → t' = .empty ∨ ∃ k text r, Reading k .empty text r t'

theorem trees_same {s s' : State} (h : s'.modules = s.modules) : Trees s s' :=
  ⟨fun m t ht => ⟨t, by rw [h, ht], .inl rfl⟩, fun m t hm ht => by
    rw [h] at ht; rw [List.getElem?_eq_none hm] at ht; cases ht⟩

theorem module_trees {s s' : State} {c m : Nat} {x : Context} (hm : s.module c x = (s', m)) : Trees s s' := by
  unfold State.module at hm
  split at hm
  · cases hm; exact trees_same rfl
  · cases hm
    refine ⟨fun m t ht => ⟨t, ?_, .inl rfl⟩, fun m t hm ht => .inl ?_⟩
    · simp only
      rw [List.getElem?_append_left (by rw [List.getElem?_eq_some_iff] at ht; exact ht.1), ht]
    · simp only at ht
      rw [List.getElem?_append_right hm] at ht
      cases h : m - s.modules.length with
      | zero => rw [h] at ht; simp at ht; exact ht.symm
      | succ n => rw [h] at ht; simp at ht

theorem parses_trees {s s' : State} {p c : Nat} {text : Bytes} {r : Result} (hi : Inv s) (h : Parses s p c text r s') : Trees s s' := by
  cases h with
  | rejected => exact trees_same rfl
  | @read x r root' s1 m hx hrd _ hm =>
    have g := module_got hi hx hm
    have T := module_trees hm
    refine ⟨fun i t ht => ?_, fun i t hl ht => ?_⟩
    · by_cases e : i = m
      · subst e
        refine ⟨root', by simp only; rw [List.getElem?_set_self g.lt], .inr ⟨x.settings, text, r, ?_⟩⟩
        have hlt : i < s.modules.length := by rw [List.getElem?_eq_some_iff] at ht; exact ht.1
        have := g.old i hlt
        rw [g.at_, ht, Option.some.injEq] at this
        rw [← this]; exact hrd
      · simp only
        rw [List.getElem?_set_ne (Ne.symm e)]
        exact T.old i t ht
    · by_cases e : i = m
      · subst e
        simp only at ht
        rw [List.getElem?_set_self g.lt, Option.some.injEq] at ht
        subst ht
        refine .inr ⟨x.settings, text, r, ?_⟩
        rcases g.from_ with e | ⟨e, _⟩
        · exact absurd (hi.holds c x i hx e) (by omega)
        · rw [tree_none hx e] at hrd; exact hrd
      · simp only at ht
        rw [List.getElem?_set_ne (Ne.symm e)] at ht
        exact T.new i t hl ht

theorem step_trees {s s' : State} {op : Op} {r : Result} (hi : Inv s) (h : Step s op r s') (he : op.edits = false) : Trees s s' := by
  cases h with
  | create | configure | copy | assign | clear | finish => exact trees_same rfl
  | edit => cases he
  | parse hp => exact parses_trees hi hp
  | @parseNew q d text b s1 elide hd hq =>
    have T := parses_trees (step_facts hi (.create (k := {}) (b := true) hd)).inv hq
    exact ⟨T.old, T.new⟩
  | @parseNewThrows q d text s1 elide hd hq =>
    have T := parses_trees (step_facts hi (.create (k := {}) (b := true) hd)).inv hq
    exact ⟨T.old, T.new⟩
  | typesNone => exact trees_same rfl
  | types _ _ hm => exact module_trees hm

end Verif.Contexts
