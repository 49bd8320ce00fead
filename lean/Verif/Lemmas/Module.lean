import Verif.Spec.Module
import Verif.Lemmas.OMap
/-! Lemmas about the module model. -/

namespace Verif.Idl
variable {τ : Type}

@[simp] theorem content_mk (c : Content τ) (i) : (Mod.mk c i).content = c := rfl
@[simp] theorem inner_mk (c : Content τ) (i) : (Mod.mk c i).inner = i := rfl

theorem cut_none {n : Name} (h : ':' ∉ n) : cut n = none := by
  induction n with
  | nil => rfl
  | cons c r ih =>
    simp only [List.mem_cons, not_or] at h
    unfold cut
    split
    · simp_all
    · simp_all
    · simp_all

theorem cut_append {n r : Name} (h : ':' ∉ n) : cut (n ++ ':' :: ':' :: r) = some (n, r) := by
  induction n with
  | nil => rfl
  | cons c n ih =>
    simp only [List.mem_cons, not_or] at h
    rw [List.cons_append, cut]
    · rw [ih h.2]; rfl
    · intro _ hc; exact absurd hc.symm h.1

theorem at_tail {root : Mod τ} {n : Name} {r : Loc} (h : (root.at (n :: r)).isSome) :
    (root.at r).isSome := by
  cases hr : root.at r with
  | none => simp [Mod.at, hr] at h
  | some m => rfl

theorem at_suffix {root : Mod τ} {p q : Loc} (hq : q <:+ p) (h : (root.at p).isSome) :
    (root.at q).isSome := by
  induction p with
  | nil => simp_all
  | cons n r ih =>
    rcases List.suffix_cons_iff.mp hq with rfl | hq
    · exact h
    · exact ih hq (at_tail h)

theorem resolve_mono (root : Mod τ) (f : Nat) : ∀ p sym orig first r,
    resolve root f p sym orig first = some r → resolve root (f + 1) p sym orig first = some r := by
  induction f with
  | zero => intro p sym orig first r h; simp [resolve] at h
  | succ f ih =>
    intro p sym orig first r h
    rw [resolve] at h ⊢
    split at h
    · rename_i hc; rw [if_pos hc]; exact h
    rename_i hc; rw [if_neg hc]
    cases hm : root.at p with
    | none => simp only [hm] at h ⊢; exact h
    | some m =>
      simp only [hm] at h ⊢
      cases hcut : cut sym with
      | none =>
        simp only [hcut] at h ⊢
        split at h
        · rename_i hs; rw [if_pos hs]; exact h
        · rename_i hs; rw [if_neg hs]
          split at h
          · rename_i hp; rw [if_pos hp]; exact h
          · rename_i hp; rw [if_neg hp]; exact ih _ _ _ _ _ h
      | some ht =>
        obtain ⟨hd, tl⟩ := ht
        simp only [hcut] at h ⊢
        split at h
        · rename_i hs; rw [if_pos hs]
          split at h
          · rename_i hp; rw [if_pos hp]; exact ih _ _ _ _ _ h
          · rename_i hp; rw [if_neg hp]; exact ih _ _ _ _ _ h
        · rename_i hs; rw [if_neg hs]
          have key : ∀ x, (if p.head? = some hd ∧ omHas m.inner hd = true then
              resolve root f (hd :: p) tl orig false else some .fail) = some x →
              (if p.head? = some hd ∧ omHas m.inner hd = true then
              resolve root (f + 1) (hd :: p) tl orig false else some .fail) = some x := by
            intro x hx
            split at hx
            · rename_i hi; rw [if_pos hi]; exact ih _ _ _ _ _ hx
            · rename_i hi; rw [if_neg hi]; exact hx
          split at h
          · exact absurd h (by simp)
          · rename_i heq; rw [key _ heq]; exact h
          · rename_i heq; rw [key _ heq]; exact h
          · rename_i heq; rw [key _ heq]
            simp only
            split at h
            · rename_i hi; rw [if_pos hi]; exact ih _ _ _ _ _ h
            · rename_i hi; rw [if_neg hi]
              split at h
              · rename_i hp; rw [if_pos hp]; exact ih _ _ _ _ _ h
              · rename_i hp; rw [if_neg hp]; exact h

theorem resolve_le (root : Mod τ) {f g : Nat} (hfg : f ≤ g) {p sym orig first r}
    (h : resolve root f p sym orig first = some r) : resolve root g p sym orig first = some r := by
  obtain ⟨k, rfl⟩ := Nat.exists_eq_add_of_le hfg
  clear hfg
  induction k with
  | zero => exact h
  | succ k ih => rw [Nat.add_succ]; exact resolve_mono root _ _ _ _ _ _ ih

/-- A lookup has at most one result. -/
theorem Lookup.unique {root : Mod τ} {p name r r'} (h : Lookup root p name r)
    (h' : Lookup root p name r') : r = r' := by
  obtain ⟨f, hf⟩ := h
  obtain ⟨g, hg⟩ := h'
  have a := resolve_le root (Nat.le_max_left f g) hf
  have b := resolve_le root (Nat.le_max_right f g) hg
  rw [a] at b; exact Option.some.inj b

theorem innermost_cons {P : Loc → Prop} {n : Name} {r q : Loc} (h : ¬ P (n :: r)) :
    Innermost P (n :: r) q ↔ Innermost P r q := by
  unfold Innermost
  constructor
  · rintro ⟨h1, h2, h3⟩
    refine ⟨?_, h2, fun q' hq' hp => h3 q' (hq'.trans (List.suffix_cons _ _)) hp⟩
    rcases List.suffix_cons_iff.mp h1 with rfl | h1
    · exact absurd h2 h
    · exact h1
  · rintro ⟨h1, h2, h3⟩
    refine ⟨h1.trans (List.suffix_cons _ _), h2, fun q' hq' hp => ?_⟩
    rcases List.suffix_cons_iff.mp hq' with rfl | hq'
    · exact absurd hp h
    · exact h3 q' hq' hp

theorem innermost_self {P : Loc → Prop} {p : Loc} (h : P p) : Innermost P p p :=
  ⟨List.suffix_rfl, h, fun _ hq _ => hq⟩

theorem innermost_unique {P : Loc → Prop} {p q q' : Loc} (h : Innermost P p q)
    (h' : Innermost P p q') : q = q' :=
  List.IsSuffix.eq_of_length_le (h'.2.2 q h.1 h.2.1)
    (h.2.2 q' h'.1 h'.2.1).length_le

theorem innermost_exists {P : Loc → Prop} {p q : Loc} (h : q <:+ p) (hP : P q) :
    ∃ q', Innermost P p q' := by
  classical
  induction p with
  | nil => simp at h; subst h; exact ⟨[], innermost_self hP⟩
  | cons n r ih =>
    by_cases hp : P (n :: r)
    · exact ⟨_, innermost_self hp⟩
    · rcases List.suffix_cons_iff.mp h with rfl | h
      · exact absurd hP hp
      · obtain ⟨q', hq'⟩ := ih h
        exact ⟨q', (innermost_cons hp).mpr hq'⟩

/-- Looking for a plain name from `p`. -/
theorem resolve_plain {root : Mod τ} {x orig : Name} (hx : cut x = none) :
    ∀ (p : Loc) (first : Bool), (root.at p).isSome → ¬ (first = false ∧ x = orig) →
    (∀ q, Innermost (Declares root x) p q →
      resolve root (p.length + 1) p x orig first = some (.found q x)) ∧
    ((∀ q, q <:+ p → ¬ Declares root x q) →
      resolve root (p.length + 1) p x orig first = some .fail) := by
  intro p
  induction p with
  | nil =>
    intro first hp hne
    obtain ⟨m, hm⟩ := Option.isSome_iff_exists.mp hp
    simp only [List.length_nil, resolve, if_neg hne, hm, hx]
    constructor
    · rintro q ⟨hq, ⟨m', hm', hs⟩, -⟩
      simp at hq; subst hq
      rw [hm] at hm'; cases hm'
      simp [hs]
    · intro h
      have := h [] List.suffix_rfl
      have hs : m.hasSymbol x = false := by
        cases hs : m.hasSymbol x with
        | false => rfl
        | true => exact absurd ⟨m, hm, hs⟩ this
      simp [hs]
  | cons n r ih =>
    intro first hp hne
    obtain ⟨m, hm⟩ := Option.isSome_iff_exists.mp hp
    rw [List.length_cons, resolve, if_neg hne]
    simp only [hm, hx]
    have ih' := ih true (at_tail hp) (by simp)
    cases hs : m.hasSymbol x with
    | true =>
      have hd : Declares root x (n :: r) := ⟨m, hm, hs⟩
      constructor
      · intro q hq; rw [innermost_unique hq (innermost_self hd)]; simp
      · intro h; exact absurd hd (h _ List.suffix_rfl)
    | false =>
      have hd : ¬ Declares root x (n :: r) := by
        rintro ⟨m', hm', hs'⟩; rw [hm] at hm'; cases hm'; simp [hs] at hs'
      simp only [Bool.false_eq_true, if_false]
      constructor
      · intro q hq; exact ih'.1 q ((innermost_cons hd).mp hq)
      · intro h; exact ih'.2 (fun q hq => h q (hq.trans (List.suffix_cons _ _)))

theorem resolve_single {root : Mod τ} {x orig : Name} (hx : ':' ∉ x) :
    ∀ (p : Loc) (first : Bool), (root.at p).isSome → ¬ (first = false ∧ x = orig) →
    (∀ q, Innermost (Declares root x) p q →
      resolve root (p.length + 1) p x orig first = some (.found q x)) ∧
    ((∀ q, q <:+ p → ¬ Declares root x q) →
      resolve root (p.length + 1) p x orig first = some .fail) := resolve_plain (cut_none hx)

theorem not_mem_colon {a r : Name} : ':' ∉ a → a ++ ':' :: ':' :: r ≠ a := by
  intro _ h
  have := congrArg List.length h
  simp at this

theorem joinScope_length (cs : List Name) (x : Name) :
    (joinScope cs x).length ≥ x.length + 2 * cs.length := by
  induction cs with
  | nil => simp [joinScope]
  | cons a r ih => simp [joinScope]; omega

/-- Descending along the module names `cs` and then looking for `x`. -/
theorem resolve_down {root : Mod τ} {x orig : Name} (hx : ':' ∉ x) :
    ∀ (cs : List Name) (p : Loc), (∀ a ∈ cs, Ident a) → (root.at p).isSome →
    (joinScope cs x).length < orig.length →
    (root.at (cs.reverse ++ p)).isSome →
    (∀ q, Innermost (Declares root x) (cs.reverse ++ p) q →
      ∃ f, resolve root f p (joinScope cs x) orig false = some (.found q x)) ∧
    ((∀ q, q <:+ cs.reverse ++ p → ¬ Declares root x q) →
      ∃ f, resolve root f p (joinScope cs x) orig false = some .fail) := by
  intro cs
  induction cs with
  | nil =>
    intro p _ hp hl _
    have hne : ¬ (false = false ∧ x = orig) := by
      rintro ⟨-, rfl⟩; simp [joinScope] at hl
    have := resolve_single (root := root) hx p false hp hne
    exact ⟨fun q hq => ⟨_, this.1 q hq⟩, fun h => ⟨_, this.2 h⟩⟩
  | cons a cs ih =>
    intro p hid hp hl hat
    have hloc : (a :: cs).reverse ++ p = cs.reverse ++ a :: p := by simp
    rw [hloc] at hat ⊢
    have hida : Ident a := hid a (by simp)
    have hap : (root.at (a :: p)).isSome := at_suffix (List.suffix_append _ _) hat
    have hl' : (joinScope cs x).length < orig.length := by simp [joinScope] at hl ⊢; omega
    have ih' := ih (a :: p) (fun b hb => hid b (by simp [hb])) hap hl' hat
    have hne : ¬ (false = false ∧ joinScope (a :: cs) x = orig) := by
      rintro ⟨-, h⟩; rw [h] at hl; exact absurd hl (Nat.lt_irrefl _)
    obtain ⟨m, hm⟩ := Option.isSome_iff_exists.mp hp
    have hsub : omHas m.inner a = true := by
      rw [Mod.at, hm] at hap
      simp only [Option.bind_some] at hap
      rw [← omGet_isSome]
      cases hg : omGet m.inner a with
      | none => simp [hg] at hap
      | some _ => rfl
    have step : ∀ f r, resolve root f (a :: p) (joinScope cs x) orig false = some r →
        resolve root (f + 1) p (joinScope (a :: cs) x) orig false = some r := by
      intro f r hr
      rw [resolve, if_neg hne]
      simp only [hm, joinScope, cut_append hida.2, if_neg hida.1, hsub, and_true, if_true, hr]
      split
      · rename_i h; split at h <;> simp at h
      · rename_i h; split at h
        · rw [Option.some.inj h]
        · simp at h
      · rename_i h; split at h
        · rw [Option.some.inj h]
        · simp at h
      · rfl
    constructor
    · intro q hq
      obtain ⟨f, hf⟩ := ih'.1 q hq
      exact ⟨f + 1, step f _ hf⟩
    · intro h
      obtain ⟨f, hf⟩ := ih'.2 h
      exact ⟨f + 1, step f _ hf⟩

theorem hasSub_iff {root : Mod τ} (hc : NoNull root) {p : Loc} {m : Mod τ} (hm : root.at p = some m)
    (a : Name) : omHas m.inner a = (root.at (a :: p)).isSome := by
  rw [← omGet_isSome, Mod.at, hm, Option.bind_some]
  cases hg : omGet m.inner a with
  | none => rfl
  | some e =>
    cases e with
    | none => exact absurd hg (hc p m a hm)
    | some _ => rfl

/-- Descending along module names that do not all exist. -/
theorem resolve_down_fail {root : Mod τ} (hc : NoNull root) {x orig : Name} :
    ∀ (cs : List Name) (p : Loc), (∀ a ∈ cs, Ident a) → (root.at p).isSome →
    (joinScope cs x).length < orig.length → root.at (cs.reverse ++ p) = none →
    ∃ f, resolve root f p (joinScope cs x) orig false = some .fail := by
  intro cs
  induction cs with
  | nil => intro p _ hp _ h; simp at h; simp [h] at hp
  | cons a cs ih =>
    intro p hid hp hl hat
    have hloc : (a :: cs).reverse ++ p = cs.reverse ++ a :: p := by simp
    rw [hloc] at hat
    have hida : Ident a := hid a (by simp)
    have hne : ¬ (false = false ∧ joinScope (a :: cs) x = orig) := by
      rintro ⟨-, h⟩; rw [h] at hl; exact absurd hl (Nat.lt_irrefl _)
    obtain ⟨m, hm⟩ := Option.isSome_iff_exists.mp hp
    cases hsub : omHas m.inner a with
    | false =>
      refine ⟨1, ?_⟩
      rw [resolve, if_neg hne]
      simp [hm, joinScope, cut_append hida.2, if_neg hida.1, hsub]
    | true =>
      have hap : (root.at (a :: p)).isSome := by rw [← hasSub_iff hc hm]; exact hsub
      have hl' : (joinScope cs x).length < orig.length := by simp [joinScope] at hl ⊢; omega
      obtain ⟨f, hf⟩ := ih (a :: p) (fun b hb => hid b (by simp [hb])) hap hl' hat
      refine ⟨f + 1, ?_⟩
      rw [resolve, if_neg hne]
      simp only [hm, joinScope, cut_append hida.2, if_neg hida.1, hsub, and_true, if_true, hf]
      split
      · rename_i h; split at h <;> simp at h
      · rename_i h; split at h <;> simp at h
      · rename_i h; split at h <;> simp at h
      · rfl

/-- Climbing from `p` until an enclosing module has the submodule `a`. -/
theorem resolve_climb {root : Mod τ} {a : Name} {rest : Name} (ha : Ident a) :
    ∀ (p e : Loc), (root.at p).isSome → Innermost (HasSub root a) p e →
    ∀ f r, resolve root f (a :: e) rest (a ++ ':' :: ':' :: rest) false = some r →
    ∃ f', resolve root f' p (a ++ ':' :: ':' :: rest) (a ++ ':' :: ':' :: rest) true = some r := by
  intro p
  induction p with
  | nil =>
    intro e hp he f r hr
    have : e = [] := by have := he.1; simpa using this
    subst this
    obtain ⟨m, hm, hs⟩ := he.2.1
    refine ⟨f + 1, ?_⟩
    rw [resolve, if_neg (by simp)]
    simp only [Mod.hasSub] at hs
    simp [hm, cut_append ha.2, if_neg ha.1, hs, hr]
  | cons n p ih =>
    intro e hp he f r hr
    obtain ⟨m, hm⟩ := Option.isSome_iff_exists.mp hp
    cases hs : m.hasSub a with
    | true =>
      have hd : HasSub root a (n :: p) := ⟨m, hm, hs⟩
      have := innermost_unique he (innermost_self hd)
      subst this
      refine ⟨f + 1, ?_⟩
      rw [resolve, if_neg (by simp)]
      simp only [Mod.hasSub] at hs
      simp only [hm, cut_append ha.2, if_neg ha.1, hs, and_true, if_true, hr]
      split
      · rename_i h; split at h <;> simp at h
      · rename_i h; split at h
        · rw [Option.some.inj h]
        · simp at h
      · rename_i h; split at h
        · rw [Option.some.inj h]
        · simp at h
      · rfl
    | false =>
      have hd : ¬ HasSub root a (n :: p) := by
        rintro ⟨m', hm', hs'⟩; rw [hm] at hm'; cases hm'; simp [hs] at hs'
      obtain ⟨f', hf'⟩ := ih e (at_tail hp) ((innermost_cons hd).mp he) f r hr
      refine ⟨f' + 1, ?_⟩
      rw [resolve, if_neg (by simp)]
      simp only [Mod.hasSub] at hs
      simp [hm, cut_append ha.2, hs, hf']

theorem resolve_climb_fail {root : Mod τ} {a : Name} {rest : Name} (ha : Ident a) :
    ∀ (p : Loc), (root.at p).isSome → (∀ e, e <:+ p → ¬ HasSub root a e) →
    ∃ f', resolve root f' p (a ++ ':' :: ':' :: rest) (a ++ ':' :: ':' :: rest) true =
      some .fail := by
  intro p
  induction p with
  | nil =>
    intro hp he
    obtain ⟨m, hm⟩ := Option.isSome_iff_exists.mp hp
    have hs : omHas m.inner a = false := by
      cases hs : omHas m.inner a with
      | false => rfl
      | true => exact absurd ⟨m, hm, hs⟩ (he [] List.suffix_rfl)
    refine ⟨1, ?_⟩
    rw [resolve, if_neg (by simp)]
    simp [hm, cut_append ha.2, if_neg ha.1, hs]
  | cons n p ih =>
    intro hp he
    obtain ⟨m, hm⟩ := Option.isSome_iff_exists.mp hp
    have hs : omHas m.inner a = false := by
      cases hs : omHas m.inner a with
      | false => rfl
      | true => exact absurd ⟨m, hm, hs⟩ (he _ List.suffix_rfl)
    obtain ⟨f', hf'⟩ := ih (at_tail hp) (fun e h => he e (h.trans (List.suffix_cons _ _)))
    refine ⟨f' + 1, ?_⟩
    rw [resolve, if_neg (by simp)]
    simp [hm, cut_append ha.2, hs, hf']

/-- A leading `::` is resolved from the root. -/
theorem resolve_rooted {root : Mod τ} {rest : Name} :
    ∀ (p : Loc), (root.at p).isSome → ∀ f r,
    resolve root f [] rest (':' :: ':' :: rest) false = some r →
    ∃ f', resolve root f' p (':' :: ':' :: rest) (':' :: ':' :: rest) true = some r := by
  intro p
  induction p with
  | nil =>
    intro hp f r hr
    refine ⟨f + 1, ?_⟩
    rw [resolve, if_neg (by simp)]
    simp [Mod.at, cut, hr]
  | cons n p ih =>
    intro hp f r hr
    obtain ⟨m, hm⟩ := Option.isSome_iff_exists.mp hp
    obtain ⟨f', hf'⟩ := ih (at_tail hp) f r hr
    refine ⟨f' + 1, ?_⟩
    rw [resolve, if_neg (by simp)]
    simp [hm, cut, hf']

/-! Scoped names -/

theorem joinScope_snoc (cs : List Name) (n x : Name) :
    joinScope (cs ++ [n]) x = joinScope cs n ++ ':' :: ':' :: x := by
  induction cs with
  | nil => simp [joinScope]
  | cons a r ih => simp [joinScope, ih]

theorem scopedName_nil (x : Name) : scopedName [] x = x := by simp [scopedName, scope]

theorem scope_cons (n : Name) (r : Loc) : scope (n :: r) = scopedName r n := rfl

theorem scopedName_eq {p : Loc} (hp : ∀ a ∈ p, Ident a) (x : Name) :
    scopedName p x = joinScope p.reverse x := by
  induction p generalizing x with
  | nil => simp [scopedName_nil, joinScope]
  | cons n r ih =>
    have ih' := ih (fun a ha => hp a (by simp [ha]))
    have hn := hp n (by simp)
    rw [List.reverse_cons, joinScope_snoc, ← ih' n]
    have : scopedName r n ≠ [] := by
      rw [ih' n]; intro h
      have := joinScope_length r.reverse n
      rw [h] at this
      have := hn.1
      cases n <;> simp_all
    rw [scopedName, scope_cons, if_neg this]; simp

theorem joinScope_inj : ∀ {cs cs' : List Name} {x x' : Name}, (∀ a ∈ cs, Ident a) →
    (∀ a ∈ cs', Ident a) → Ident x → Ident x' → joinScope cs x = joinScope cs' x' →
    cs = cs' ∧ x = x' := by
  intro cs
  induction cs with
  | nil =>
    intro cs' x x' _ _ hx _ h
    cases cs' with
    | nil => exact ⟨rfl, h⟩
    | cons b r =>
      simp only [joinScope] at h
      exact absurd (by rw [h]; simp : ':' ∈ x) hx.2
  | cons a cs ih =>
    intro cs' x x' hcs hcs' hx hx' h
    cases cs' with
    | nil =>
      simp only [joinScope] at h
      exact absurd (by rw [← h]; simp : ':' ∈ x') hx'.2
    | cons b r =>
      simp only [joinScope] at h
      have h1 := congrArg cut h
      rw [cut_append (hcs a (by simp)).2, cut_append (hcs' b (by simp)).2] at h1
      simp only [Option.some.injEq, Prod.mk.injEq] at h1
      obtain ⟨rfl, h2⟩ := h1
      obtain ⟨rfl, rfl⟩ := ih (fun a ha => hcs a (by simp [ha])) (fun a ha => hcs' a (by simp [ha]))
        hx hx' h2
      exact ⟨rfl, rfl⟩

/-! Modifying a module in place -/

theorem at_append (root : Mod τ) (s p : Loc) :
    root.at (s ++ p) = (root.at p).bind (·.at s) := by
  induction s with
  | nil => rw [List.nil_append]; cases root.at p <;> rfl
  | cons n s ih =>
    rw [List.cons_append, Mod.at, ih]
    cases root.at p <;> rfl

theorem omGet_setInner (i : List (Name × Option (Mod τ))) (n n' : Name) (m : Mod τ) :
    omGet (setInner i n m) n' =
      if n = n' then (omGet i n').map (fun _ => some m) else omGet i n' := by
  induction i with
  | nil => simp [setInner]
  | cons e r ih =>
    simp only [setInner, List.map_cons] at ih ⊢
    rw [omGet_cons, omGet_cons, ih]
    by_cases h1 : e.1 = n
    · by_cases h2 : n = n' <;> simp_all
    · simp only [if_neg h1]
      by_cases h2 : n = n'
      · subst h2; simp [h1]
      · simp [h2]

theorem omHas_setInner (i : List (Name × Option (Mod τ))) (n n' : Name) (m : Mod τ) :
    omHas (setInner i n m) n' = omHas i n' := by
  rw [← omGet_isSome, ← omGet_isSome, omGet_setInner]
  split
  · cases omGet i n' <;> rfl
  · rfl

theorem at_modify_self {root : Mod τ} {p : Loc} {m : Mod τ} (f : Mod τ → Mod τ)
    (h : root.at p = some m) : (root.modify p f).at p = some (f m) := by
  induction p generalizing m f with
  | nil => simp [Mod.at] at h; subst h; rfl
  | cons n r ih =>
    rw [Mod.at] at h
    cases hr : root.at r with
    | none => simp [hr] at h
    | some mr =>
      simp only [hr, Option.bind_some] at h
      rw [Mod.modify, Mod.at, ih _ hr]
      simp only [Option.bind_some]
      rw [h]
      simp only [Mod.inner]
      rw [omGet_setInner, if_pos rfl]
      change (Option.map _ (omGet mr.inner n)).join = _
      cases hg : omGet mr.inner n with
      | none => simp [hg] at h
      | some e => rfl

theorem modify_append (root : Mod τ) (s q : Loc) (f : Mod τ → Mod τ) :
    root.modify (s ++ q) f = root.modify q (fun m => m.modify s f) := by
  induction s generalizing f with
  | nil => rfl
  | cons n s ih => rw [List.cons_append, Mod.modify, ih]; rfl

theorem modify_shape (m : Mod τ) (s : Loc) (f : Mod τ → Mod τ) (hs : s ≠ []) :
    (m.modify s f).content = m.content ∧ ∀ n, omHas (m.modify s f).inner n = omHas m.inner n := by
  induction s generalizing f with
  | nil => exact absurd rfl hs
  | cons a r ih =>
    rw [Mod.modify]
    cases r with
    | nil =>
      simp only [Mod.modify]
      split
      · exact ⟨rfl, fun n => omHas_setInner _ _ _ _⟩
      · exact ⟨rfl, fun _ => rfl⟩
    | cons b r => exact ih _ (by simp)

/-- A modification that leaves the submodules alone is felt only in the tables at its place. -/
theorem at_modify {root : Mod τ} {p : Loc} {m : Mod τ} (f : Mod τ → Mod τ)
    (h : root.at p = some m) (hf : (f m).inner = m.inner) (q : Loc) :
    ((root.modify p f).at q).map (fun m => m.content) =
      (if q = p then some (f m).content else (root.at q).map (fun m => m.content)) ∧
    ∀ n, ((root.modify p f).at q).map (fun m => omHas m.inner n) =
      (root.at q).map (fun m => omHas m.inner n) := by
  by_cases hqp : q <:+ p
  · obtain ⟨s, rfl⟩ := hqp
    rw [at_append] at h
    cases hq : root.at q with
    | none => simp [hq] at h
    | some mq =>
      simp only [hq, Option.bind_some] at h
      rw [modify_append, at_modify_self _ hq]
      cases s with
      | nil =>
        simp only [Mod.at, Option.some.injEq] at h; subst h
        simp [Mod.modify, hf]
      | cons a s =>
        have := modify_shape mq (a :: s) f (by simp)
        have hne : q ≠ a :: s ++ q := by
          intro hc; have := congrArg List.length hc; simp at this; omega
        rw [if_neg hne]; simp [this.1, this.2]
  by_cases hpq : p <:+ q
  · obtain ⟨s, rfl⟩ := hpq
    have hne : s ++ p ≠ p := by
      intro hc; exact hqp (by rw [hc]; exact List.suffix_rfl)
    have hs : s ≠ [] := by rintro rfl; exact hne rfl
    rw [at_append, at_modify_self _ h, at_append, h, if_neg hne]
    simp only [Option.bind_some]
    have : ∀ s : Loc, s ≠ [] → (f m).at s = m.at s := by
      intro s
      induction s with
      | nil => intro h; exact absurd rfl h
      | cons n r ih =>
        intro _
        rw [Mod.at, Mod.at]
        cases r with
        | nil => simp [Mod.at, hf]
        | cons b r => rw [ih (by simp)]
    rw [this s hs]
    exact ⟨rfl, fun _ => rfl⟩
  have hne : q ≠ p := by rintro rfl; exact hqp List.suffix_rfl
  rw [if_neg hne]
  have : (root.modify p f).at q = root.at q := by
    clear hne
    induction q with
    | nil => exact absurd (List.nil_suffix) hqp
    | cons n q ih =>
      have hpq' : ¬ p <:+ q := fun hc => hpq (hc.trans (List.suffix_cons _ _))
      rw [Mod.at, Mod.at]
      by_cases hq : q <:+ p
      · obtain ⟨s, rfl⟩ := hq
        rcases List.eq_nil_or_concat s with rfl | ⟨s, a, rfl⟩
        · exact absurd List.suffix_rfl hpq'
        · have hna : a ≠ n := by
            rintro rfl; apply hqp; exact ⟨s, by simp⟩
          have hmq : ∃ mq, root.at q = some mq := by
            apply Option.isSome_iff_exists.mp
            exact at_suffix (List.suffix_append _ _) (by rw [h]; rfl)
          obtain ⟨mq, hmq⟩ := hmq
          rw [modify_append, at_modify_self _ hmq, hmq]
          simp only [Option.bind_some]
          rw [List.concat_eq_append, modify_append]
          simp only [Mod.modify]
          split
          · simp only [Mod.inner]; rw [omGet_setInner, if_neg hna]
          · rfl
      · rw [ih hq hpq']
  rw [this]
  exact ⟨rfl, fun _ => rfl⟩

end Verif.Idl
