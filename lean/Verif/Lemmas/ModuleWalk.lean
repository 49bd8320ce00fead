import Verif.Lemmas.ModuleTree
import Verif.Spec.ModuleWalk
import Verif.Lemmas.DepTree
/-! # Walking the tree of modules, and searching it -/

namespace Verif.Idl

variable {τ : Type}

mutual
/-- The submodules are in the order of their names, everywhere. -/
def Mod.ordered : Mod τ → Prop
  | .mk _ inner => Increasing inner ∧ innerOrdered inner
/-- The same for the entries of `inner_`. -/
def innerOrdered : List (Name × Option (Mod τ)) → Prop
  | [] => True
  | (_, none) :: rest => innerOrdered rest
  | (_, some m) :: rest => m.ordered ∧ innerOrdered rest
end

theorem innerOrdered_iff : ∀ {i : List (Name × Option (Mod τ))}, innerOrdered i ↔ ∀ n m, (n, some m) ∈ i → m.ordered
  | [] => by simp [innerOrdered]
  | (_, none) :: rest => by simp [innerOrdered, innerOrdered_iff (i := rest)]
  | (k, some m) :: rest => by
    rw [innerOrdered, innerOrdered_iff (i := rest)]
    constructor
    · rintro ⟨h1, h2⟩ n' m' h
      rcases List.mem_cons.mp h with e | h
      · cases e; exact h1
      · exact h2 _ _ h
    · intro h
      exact ⟨h k m (by simp), fun n' m' h' => h n' m' (by simp [h'])⟩

theorem innerFull_iff : ∀ {i : List (Name × Option (Mod τ))}, innerFull i = true ↔ ∀ e ∈ i, ∃ m, e.2 = some m ∧ m.full = true
  | [] => by simp [innerFull]
  | (_, none) :: rest => by simp [innerFull]
  | (k, some m) :: rest => by
    rw [innerFull, Bool.and_eq_true, innerFull_iff (i := rest)]
    simp

theorem ordered_iff {m : Mod τ} : m.ordered ↔ Increasing m.inner ∧ ∀ n m', (n, some m') ∈ m.inner → m'.ordered := by
  cases m with
  | mk c i => rw [Mod.ordered, innerOrdered_iff]; rfl

theorem full_iff {m : Mod τ} : m.full = true ↔ ∀ e ∈ m.inner, ∃ m', e.2 = some m' ∧ m'.full = true := by
  cases m with
  | mk c i => rw [Mod.full, innerFull_iff]; rfl

theorem name_tr (a b c : Name) (h : a < b) (h' : b < c) : a < c := List.lt_trans h h'
theorem name_tot (a b : Name) (h : ¬ a < b) (h' : a ≠ b) : b < a := Std.lt_of_le_of_ne h (Ne.symm h')

theorem increasing_keys {i j : List (Name × Option (Mod τ))} (h : j.map (·.1) = i.map (·.1)) (hi : Increasing i) : Increasing j := by
  unfold Increasing at *
  have h1 : (i.map (·.1)).Pairwise (· < ·) := by rw [List.pairwise_map]; exact hi
  rw [← h, List.pairwise_map] at h1
  exact h1

theorem increasing_nodup {i : List (Name × Option (Mod τ))} (hi : Increasing i) : (i.map (·.1)).Nodup := by
  have h1 : (i.map (·.1)).Pairwise (· < ·) := by rw [List.pairwise_map]; exact hi
  refine List.Pairwise.imp ?_ h1
  intro a b h e
  subst e
  exact List.lt_irrefl _ h

/-- A property of modules that says something about the names of the submodules, and the same of each submodule, is kept by
changes that keep it. -/
theorem modify_ordered (p : Loc) : ∀ (root : Mod τ) (f : Mod τ → Mod τ), root.ordered → (∀ m, m.ordered → (f m).ordered) →
    (root.modify p f).ordered := by
  induction p with
  | nil => intro root f h hf; exact hf root h
  | cons n r ih =>
    intro root f h hf
    rw [Mod.modify]
    refine ih root _ h fun m hm => ?_
    split
    · rename_i m' hg
      rw [ordered_iff] at hm ⊢
      refine ⟨increasing_keys (setInner_keys _ _ _) hm.1, fun n' m'' hmem => ?_⟩
      change (n', some m'') ∈ setInner m.inner n (f m') at hmem
      rw [setInner, List.mem_map] at hmem
      obtain ⟨⟨k, e⟩, he, heq⟩ := hmem
      split at heq
      · cases heq
        refine hf m' ?_
        cases hgg : omGet m.inner n with
        | none => rw [hgg] at hg; cases hg
        | some e' =>
          rw [hgg] at hg
          simp only [Option.join_some] at hg
          subst hg
          exact hm.2 _ _ (omGet_mem hgg)
      · cases heq; exact hm.2 _ _ he
    · exact hm

theorem modify_full (p : Loc) : ∀ (root : Mod τ) (f : Mod τ → Mod τ), root.full = true → (∀ m, m.full = true → (f m).full = true) →
    (root.modify p f).full = true := by
  induction p with
  | nil => intro root f h hf; exact hf root h
  | cons n r ih =>
    intro root f h hf
    rw [Mod.modify]
    refine ih root _ h fun m hm => ?_
    split
    · rename_i m' hg
      rw [full_iff] at hm ⊢
      intro e hmem
      change e ∈ setInner m.inner n (f m') at hmem
      rw [setInner, List.mem_map] at hmem
      obtain ⟨⟨k, e'⟩, he, heq⟩ := hmem
      split at heq
      · cases heq
        refine ⟨_, rfl, hf m' ?_⟩
        cases hgg : omGet m.inner n with
        | none => rw [hgg] at hg; cases hg
        | some e'' =>
          rw [hgg] at hg
          simp only [Option.join_some] at hg
          subst hg
          obtain ⟨m2, h2, h3⟩ := hm _ (omGet_mem hgg)
          cases h2; exact h3
      · subst heq; exact hm _ he
    · exact hm

theorem at_ordered {root : Mod τ} (h : root.ordered) : ∀ {p : Loc} {m : Mod τ}, root.at p = some m → m.ordered := by
  intro p
  induction p with
  | nil => intro m hm; cases hm; exact h
  | cons n r ih =>
    intro m hm
    rw [Mod.at] at hm
    cases hr : root.at r with
    | none => rw [hr] at hm; cases hm
    | some m' =>
      rw [hr, Option.bind_some] at hm
      cases hg : omGet m'.inner n with
      | none => rw [hg] at hm; cases hm
      | some e =>
        rw [hg] at hm
        simp only [Option.join_some] at hm
        subst hm
        exact (ordered_iff.mp (ih hr)).2 _ _ (omGet_mem hg)

theorem registerCore_inner (c : Cat) (x : Name) (v : τ) (rep : Bool) (m : Mod τ) : (registerCore c x v rep m).1.inner = m.inner := by
  unfold registerCore; split <;> rfl

/-- Every tree that comes about by calls is ordered. -/
theorem after_ordered : ∀ {calls : List (MCall τ)} {root : Mod τ}, Mod.after calls = some root → root.ordered
  | [], root, h => by cases h; exact ⟨List.Pairwise.nil, trivial⟩
  | c :: older, root, h => by
    rw [Mod.after] at h
    cases ho : Mod.after older with
    | none => rw [ho] at h; cases h
    | some r0 =>
      rw [ho, Option.bind_some] at h
      have h0 := after_ordered ho
      have hins : ∀ (m : Mod τ) (n : Name) (e : Option (Mod τ)), m.ordered → (∀ m', e = some m' → m'.ordered) →
          (Mod.mk m.content (omEmplace m.inner n e).1).ordered := by
        intro m n e hm he
        rw [ordered_iff] at hm ⊢
        refine ⟨omEmplace_increasing name_tr name_tot hm.1, fun n' m' hmem => ?_⟩
        change _ ∈ (omEmplace m.inner n e).1 at hmem
        unfold omEmplace at hmem
        split at hmem
        · exact hm.2 _ _ hmem
        · rcases mem_omIns.mp hmem with heq | hmem
          · cases heq; exact he m' rfl
          · exact hm.2 _ _ hmem
      have hm0 : ∀ {p m}, r0.at p = some m → m.ordered := fun hp => at_ordered h0 hp
      cases c with
      | create p n =>
        rw [Mod.call] at h
        cases hp : r0.at p with
        | none => rw [hp] at h; cases h
        | some m =>
          rw [hp, Option.bind_some, createSubCore] at h
          split at h
          · cases h
          · cases h; exact modify_ordered _ _ _ h0 fun _ _ => hm0 hp
          · cases h
            refine modify_ordered _ _ _ h0 fun _ _ => hins _ _ _ (hm0 hp) ?_
            intro m' e; cases e; exact ⟨List.Pairwise.nil, trivial⟩
      | ask p n =>
        rw [Mod.call] at h
        cases hp : r0.at p with
        | none => rw [hp] at h; cases h
        | some m =>
          rw [hp] at h
          cases h
          refine modify_ordered _ _ _ h0 fun _ _ => ?_
          rw [submoduleCore]
          split
          · exact hm0 hp
          · exact hins _ _ _ (hm0 hp) (by intro m' e; cases e)
      | define p c x v rep =>
        rw [Mod.call] at h
        cases hp : r0.at p with
        | none => rw [hp] at h; cases h
        | some m =>
          rw [hp] at h
          cases h
          rw [register, hp]
          refine modify_ordered _ _ _ h0 fun m hm => ?_
          rw [ordered_iff] at hm ⊢
          rw [registerCore_inner]; exact hm

/-- Without asking, no submodule is null. -/
theorem after_full : ∀ {calls : List (MCall τ)} {root : Mod τ}, NeverAsks calls → Mod.after calls = some root → root.full = true
  | [], root, _, h => by cases h; rfl
  | c :: older, root, hn, h => by
    rw [Mod.after] at h
    cases ho : Mod.after older with
    | none => rw [ho] at h; cases h
    | some r0 =>
      rw [ho, Option.bind_some] at h
      have h0 := after_full (fun c hc => hn c (List.mem_cons_of_mem _ hc)) ho
      cases c with
      | create p n =>
        rw [Mod.call] at h
        cases hp : r0.at p with
        | none => rw [hp] at h; cases h
        | some m =>
          rw [hp, Option.bind_some, createSubCore] at h
          split at h
          · cases h
          · cases h; exact modify_full _ _ _ h0 fun _ _ => at_full h0 hp
          · cases h
            refine modify_full _ _ _ h0 fun _ _ => ?_
            have hm := full_iff.mp (at_full h0 hp)
            rw [full_iff]
            intro e hmem
            change _ ∈ (omEmplace m.inner n _).1 at hmem
            unfold omEmplace at hmem
            split at hmem
            · exact hm _ hmem
            · rcases mem_omIns.mp hmem with heq | hmem
              · subst heq; exact ⟨_, rfl, rfl⟩
              · exact hm _ hmem
      | ask p n => exact absurd rfl (hn _ (by simp) p n)
      | define p c x v rep =>
        rw [Mod.call] at h
        cases hp : r0.at p with
        | none => rw [hp] at h; cases h
        | some m =>
          rw [hp] at h
          cases h
          rw [register, hp]
          refine modify_full _ _ _ h0 fun m hm => ?_
          rw [full_iff] at hm ⊢
          rw [registerCore_inner]; exact hm

/-! ## The walk -/

theorem lex_below (p : Loc) (n : Name) (s : Loc) (hs : s ≠ []) : Precedes (n :: p) (s ++ n :: p) := by
  unfold Precedes
  rw [List.reverse_append]
  have h : s.reverse ≠ [] := by simpa using hs
  cases e : s.reverse with
  | nil => exact absurd e h
  | cons a r =>
    have := List.append_left_lt (l₁ := (n :: p).reverse) (l₂ := []) (l₃ := a :: r) (List.nil_lt_cons _ _)
    simpa using this

theorem lex_beside (p : Loc) {n n' : Name} (h : n < n') (s s' : Loc) : Precedes (s ++ n :: p) (s' ++ n' :: p) := by
  unfold Precedes
  simp only [List.reverse_append, List.reverse_cons, List.append_assoc, List.singleton_append]
  refine List.append_left_lt ?_
  exact List.Lex.rel h

theorem at_top {c : Content τ} {i : List (Name × Option (Mod τ))} (hi : (i.map (·.1)).Nodup) (s : Loc) (n : Name) (m : Mod τ)
    (h : (n, some m) ∈ i) : (Mod.mk c i).at (s ++ [n]) = m.at s := by
  rw [at_append]
  have : (Mod.mk c i).at [n] = some m := by
    rw [Mod.at, Mod.at, Option.bind_some]
    change (omGet i n).join = _
    rw [omGet_of_mem hi h]; rfl
  rw [this, Option.bind_some]

mutual
theorem visitsBelow_ok : ∀ (m : Mod τ) (p : Loc), m.ordered → m.full = true →
    (visitsBelow true p m).2 = true ∧
    (∀ q, q ∈ (visitsBelow true p m).1 ↔ ∃ s, s ≠ [] ∧ q = s ++ p ∧ (m.at s).isSome) ∧
    (visitsBelow true p m).1.Pairwise Precedes
  | .mk c i, p, ho, hf => by
    rw [Mod.ordered] at ho
    rw [Mod.full] at hf
    rw [visitsBelow]
    obtain ⟨h1, h2, h3⟩ := visitsInner_ok i p ho.1 ho.2 hf
    refine ⟨h1, fun q => ?_, h3⟩
    have hnd := increasing_nodup ho.1
    rw [h2]
    constructor
    · rintro ⟨n, m, s, hmem, hs, rfl⟩
      exact ⟨s ++ [n], by simp, by simp, by rw [at_top hnd s n m hmem]; exact hs⟩
    · rintro ⟨s, hs, rfl, hat⟩
      rcases List.eq_nil_or_concat s with rfl | ⟨s', n, rfl⟩
      · exact absurd rfl hs
      · simp only [List.concat_eq_append] at hat ⊢
        rw [at_append] at hat
        cases hg : omGet i n with
        | none =>
          have : (Mod.mk c i).at [n] = none := by
            rw [Mod.at, Mod.at, Option.bind_some]
            change (omGet i n).join = _
            rw [hg]; rfl
          rw [this] at hat; cases hat
        | some e =>
          obtain ⟨m, he, _⟩ := innerFull_iff.mp hf _ (omGet_mem hg)
          dsimp only at he
          subst he
          refine ⟨n, m, s', omGet_mem hg, ?_, by simp⟩
          rw [← at_append, at_top hnd s' n m (omGet_mem hg)] at hat
          exact hat
theorem visitsInner_ok : ∀ (i : List (Name × Option (Mod τ))) (p : Loc), Increasing i → innerOrdered i → innerFull i = true →
    (visitsInner true p i).2 = true ∧
    (∀ q, q ∈ (visitsInner true p i).1 ↔ ∃ n m s, (n, some m) ∈ i ∧ (m.at s).isSome ∧ q = s ++ n :: p) ∧
    (visitsInner true p i).1.Pairwise Precedes
  | [], p, _, _, _ => by simp [visitsInner]
  | (_, none) :: _, p, _, _, hf => by simp [innerFull] at hf
  | (n, some m) :: rest, p, hi, ho, hf => by
    rw [innerOrdered] at ho
    rw [innerFull, Bool.and_eq_true] at hf
    have hi' := List.pairwise_cons.mp hi
    obtain ⟨b1, b2, b3⟩ := visitsBelow_ok m (n :: p) ho.1 hf.1
    obtain ⟨r1, r2, r3⟩ := visitsInner_ok rest p hi'.2 ho.2 hf.2
    rw [visitsInner]
    simp only [if_true, b1]
    refine ⟨r1, fun q => ?_, ?_⟩
    · rw [List.mem_cons, List.mem_append, b2, r2]
      constructor
      · rintro (rfl | ⟨s, _, rfl, hs⟩ | ⟨n', m', s, hm, hs, rfl⟩)
        · exact ⟨n, m, [], by simp, by simp [Mod.at], by simp⟩
        · exact ⟨n, m, s, by simp, hs, rfl⟩
        · exact ⟨n', m', s, by simp [hm], hs, rfl⟩
      · rintro ⟨n', m', s, hm, hs, rfl⟩
        rcases List.mem_cons.mp hm with e | hm
        · cases e
          by_cases h0 : s = []
          · subst h0; exact .inl (by simp)
          · exact .inr (.inl ⟨s, h0, rfl, hs⟩)
        · exact .inr (.inr ⟨n', m', s, hm, hs, rfl⟩)
    · have hrest : ∀ (s : Loc) (q : Loc), q ∈ (visitsInner true p rest).1 → Precedes (s ++ n :: p) q := by
        intro s q hq
        obtain ⟨n', m', s', hm, _, rfl⟩ := (r2 q).mp hq
        exact lex_beside p (hi'.1 _ hm) s s'
      rw [List.pairwise_cons, List.pairwise_append]
      refine ⟨fun q hq => ?_, b3, r3, fun a ha b hb => ?_⟩
      · rcases List.mem_append.mp hq with hq | hq
        · obtain ⟨s, hs, rfl, _⟩ := (b2 q).mp hq
          exact lex_below p n s hs
        · exact hrest [] q hq
      · obtain ⟨s, _, rfl, _⟩ := (b2 a).mp ha
        exact hrest s b hb
end

/-- Without recursion. -/
theorem visitsInner_flat : ∀ (i : List (Name × Option (Mod τ))) (p : Loc), Increasing i → innerFull i = true →
    (visitsInner false p i).2 = true ∧ (visitsInner false p i).1 = i.map (fun e => e.1 :: p)
  | [], p, _, _ => by simp [visitsInner]
  | (_, none) :: _, p, _, hf => by simp [innerFull] at hf
  | (n, some m) :: rest, p, hi, hf => by
    rw [innerFull, Bool.and_eq_true] at hf
    obtain ⟨r1, r2⟩ := visitsInner_flat rest p (List.pairwise_cons.mp hi).2 hf.2
    rw [visitsInner]
    simp [r1, r2]

mutual
/-- A null submodule anywhere below ends the walk. -/
theorem visitsBelow_null : ∀ (m : Mod τ) (p : Loc), m.full = false → (visitsBelow true p m).2 = false
  | .mk c i, p, h => by rw [Mod.full] at h; rw [visitsBelow]; exact visitsInner_null i p h
theorem visitsInner_null : ∀ (i : List (Name × Option (Mod τ))) (p : Loc), innerFull i = false → (visitsInner true p i).2 = false
  | [], p, h => by simp [innerFull] at h
  | (_, none) :: _, p, _ => by simp [visitsInner]
  | (n, some m) :: rest, p, h => by
    rw [innerFull, Bool.and_eq_false_iff] at h
    rw [visitsInner]
    cases hb : (visitsBelow true (n :: p) m).2 with
    | false => simp [hb]
    | true =>
      rcases h with h | h
      · rw [visitsBelow_null m (n :: p) h] at hb; cases hb
      · simp [hb, visitsInner_null rest p h]
end

/-! ## The search -/

mutual
theorem search_mono (root : Mod τ) {f g : Nat} (hfg : f ≤ g) (rec : Bool) (name : Name) : ∀ (p : Loc) (m : Mod τ) (r : Got τ),
    search root f rec name p m = some r → search root g rec name p m = some r
  | p, .mk c i, r, h => by
    have key : ∀ (o : Option (Got τ)), typeAfter root f name p o = some r → typeAfter root g name p o = some r := by
      intro o ho
      match o, ho with
      | some .ub, ho => exact ho
      | some (.ok prev), ho =>
        rw [typeAfter] at ho ⊢
        cases hr : resolve root f p name name true with
        | none => simp [hr] at ho
        | some x => simp only [resolve_le root hfg hr]; simpa [hr] using ho
    rw [search] at h ⊢
    cases rec with
    | false => exact key _ h
    | true =>
      simp only [if_true] at h ⊢
      cases hi : searchInner root f name p i none with
      | none => rw [hi] at h; cases h
      | some x =>
        rw [searchInner_mono root hfg name p i none x hi]
        rw [hi] at h
        exact key (some x) h
theorem searchInner_mono (root : Mod τ) {f g : Nat} (hfg : f ≤ g) (name : Name) : ∀ (p : Loc) (i : List (Name × Option (Mod τ)))
    (prev : Option (τ × Option Name)) (r : Got τ),
    searchInner root f name p i prev = some r → searchInner root g name p i prev = some r
  | p, [], prev, r, h => by rw [searchInner] at h ⊢; exact h
  | p, (_, none) :: _, prev, r, h => by rw [searchInner] at h ⊢; exact h
  | p, (n, some m) :: rest, prev, r, h => by
    rw [searchInner] at h ⊢
    cases hs : search root f true name (n :: p) m with
    | none => rw [hs] at h; cases h
    | some x =>
      rw [search_mono root hfg true name (n :: p) m x hs]
      rw [hs] at h
      match x, h with
      | .ub, h => exact h
      | .ok o, h => exact searchInner_mono root hfg name p rest o r h
end

theorem TypeIs.unique {root : Mod τ} {p : Loc} {name : Name} {rec : Bool} {r r' : Got τ} (h : TypeIs root p name rec r)
    (h' : TypeIs root p name rec r') : r = r' := by
  obtain ⟨m, f, hm, hf⟩ := h
  obtain ⟨m', f', hm', hf'⟩ := h'
  rw [hm] at hm'; cases hm'
  have a := search_mono root (Nat.le_max_left f f') rec name p m r hf
  have b := search_mono root (Nat.le_max_right f f') rec name p m r' hf'
  rw [a] at b; exact Option.some.inj b

theorem typeNamed_at (root : Mod τ) (q : Loc) (x : Name) : (root.at q).bind (·.typeNamed x) = typeAt root q x := by
  unfold typeAt Mod.typeNamed
  cases root.at q with
  | none => rfl
  | some m =>
    simp only [Option.bind_some]
    cases omGet m.content.aliases x <;> simp
    cases omGet m.content.unions x <;> simp
    cases omGet m.content.structs x <;> simp

theorem sees_unique {root : Mod τ} {x : Name} {p : Loc} {t t' : τ} (h : SeesType root x p t) (h' : SeesType root x p t') : t = t' := by
  obtain ⟨q, h1, h2⟩ := h
  obtain ⟨q', h3, h4⟩ := h'
  rw [innermost_unique h1 h3, h4] at h2
  exact (Option.some.inj h2).symm

theorem not_rooted {x : Name} (hx : cut x = none) : isRooted x = false := by simp [isRooted, hx]

open Classical in
/-- After the loop, for a plain name: the type seen from here, else what the loop left. -/
theorem typeHere_plain {root : Mod τ} {x : Name} (hx : cut x = none) {p : Loc} (hp : (root.at p).isSome) :
    ∃ r, resolve root (p.length + 1) p x x true = some r ∧ ∀ prev,
      (∀ t, SeesType root x p t → typeHere root x prev r = .ok (some (t, none))) ∧
      ((∀ t, ¬ SeesType root x p t) → typeHere root x prev r = .ok prev) := by
  have hs := resolve_plain (root := root) (orig := x) hx p true hp (by simp)
  by_cases he : ∃ q, q <:+ p ∧ Declares root x q
  · obtain ⟨q0, h1, h2⟩ := he
    obtain ⟨q, hq⟩ := innermost_exists h1 h2
    refine ⟨_, hs.1 q hq, fun prev => ⟨?_, ?_⟩⟩
    · rintro t ⟨q', h3, h4⟩
      rw [innermost_unique h3 hq] at h4
      simp only [typeHere, typeNamed_at, h4, not_rooted hx, Bool.false_eq_true, if_false]
    · intro hn
      have h5 : typeAt root q x = none := by
        cases ht : typeAt root q x with
        | none => rfl
        | some t => exact absurd ⟨q, hq, ht⟩ (hn t)
      simp only [typeHere, typeNamed_at, h5, not_rooted hx, Bool.false_eq_true, if_false]
      cases prev with
      | none => rfl
      | some a => rfl
  · refine ⟨_, hs.2 (fun q h1 h2 => he ⟨q, h1, h2⟩), fun prev => ⟨?_, fun _ => rfl⟩⟩
    rintro t ⟨q, h3, _⟩
    exact absurd ⟨q, h3.1, h3.2.1⟩ he

mutual
/-- The search comes to what `Finds` says. -/
theorem search_finds {root : Mod τ} {x : Name} (hx : cut x = none) : ∀ (m : Mod τ) (p : Loc), root.at p = some m →
    m.ordered → m.full = true → ∃ f o, search root f true x p m = some (.ok (o.map fun t => (t, none))) ∧ Finds root x p o
  | .mk c i, p, hm, ho, hf => by
    have ho' := ho
    rw [Mod.ordered] at ho
    rw [Mod.full] at hf
    obtain ⟨r, hr, hh⟩ := typeHere_plain hx (p := p) (by rw [hm]; rfl)
    have hnd := increasing_nodup ho.1
    obtain ⟨f, o, h1, h2⟩ := searchInner_finds hx i p none (fun n m' h => by
      rw [show n :: p = [n] ++ p from rfl, at_append, hm, Option.bind_some]
      exact at_top hnd [] n m' h) ho.2 hf
    have hval : ∀ prev, searchInner root (max f (p.length + 1)) x p i none = some (.ok prev) →
        search root (max f (p.length + 1)) true x p (.mk c i) = some (typeHere root x prev r) := by
      intro prev hp
      rw [search]
      simp only [if_true, hp, typeAfter, resolve_le root (Nat.le_max_right f (p.length + 1)) hr, Option.map_some]
    have h1' := searchInner_mono root (Nat.le_max_left f (p.length + 1)) x p i none _ h1
    by_cases hs : ∃ t, SeesType root x p t
    · obtain ⟨t, ht⟩ := hs
      refine ⟨max f (p.length + 1), some t, ?_, .here ht⟩
      rw [hval _ h1', (hh _).1 t ht]; rfl
    · have hs' : ∀ t, ¬ SeesType root x p t := fun t ht => hs ⟨t, ht⟩
      refine ⟨max f (p.length + 1), o, ?_, ?_⟩
      · rw [hval _ h1', (hh _).2 hs']
      · rcases h2 with ⟨rfl, rfl⟩ | ⟨n, e, hl, hfi⟩
        · exact .nowhere hs' hm rfl
        · exact .onward hs' hm hl hfi
/-- What the loop over the submodules leaves. -/
theorem searchInner_finds {root : Mod τ} {x : Name} (hx : cut x = none) : ∀ (i : List (Name × Option (Mod τ))) (p : Loc)
    (prev : Option τ), (∀ n m, (n, some m) ∈ i → root.at (n :: p) = some m) → innerOrdered i → innerFull i = true →
    ∃ f o, searchInner root f x p i (prev.map fun t => (t, none)) = some (.ok (o.map fun t => (t, none))) ∧
      ((i = [] ∧ o = prev) ∨ ∃ n e, i.getLast? = some (n, e) ∧ Finds root x (n :: p) o)
  | [], p, prev, _, _, _ => ⟨0, prev, by rw [searchInner], .inl ⟨rfl, rfl⟩⟩
  | (_, none) :: _, p, _, _, _, hf => by simp [innerFull] at hf
  | (n, some m) :: rest, p, prev, hat, ho, hf => by
    rw [innerOrdered] at ho
    rw [innerFull, Bool.and_eq_true] at hf
    obtain ⟨f, o, h1, h2⟩ := search_finds hx m (n :: p) (hat n m (by simp)) ho.1 hf.1
    obtain ⟨g, o', h3, h4⟩ := searchInner_finds hx rest p o (fun n' m' h => hat n' m' (by simp [h])) ho.2 hf.2
    refine ⟨max f g, o', ?_, .inr ?_⟩
    · rw [searchInner, search_mono root (Nat.le_max_left f g) true x (n :: p) m _ h1]
      exact searchInner_mono root (Nat.le_max_right f g) x p rest _ _ h3
    · rcases h4 with ⟨rfl, rfl⟩ | ⟨n', e, hl, hfi⟩
      · exact ⟨n, some m, rfl, h2⟩
      · refine ⟨n', e, ?_, hfi⟩
        cases rest with
        | nil => cases hl
        | cons a b => rw [List.getLast?_cons_cons]; exact hl
end

theorem finds_unique {root : Mod τ} {x : Name} {p : Loc} {o o' : Option τ} (h : Finds root x p o) (h' : Finds root x p o') : o = o' := by
  induction h generalizing o' with
  | here h => cases h' with
    | here h' => rw [sees_unique h h']
    | onward hn => exact absurd h (hn _)
    | nowhere hn => exact absurd h (hn _)
  | onward hn hm hl hf ih => cases h' with
    | here h => exact absurd h (hn _)
    | onward _ hm' hl' hf' => rw [hm] at hm'; cases hm'; rw [hl] at hl'; cases hl'; exact ih hf'
    | nowhere _ hm' he => rw [hm] at hm'; cases hm'; rw [he] at hl; cases hl
  | nowhere hn hm he => cases h' with
    | here h => exact absurd h (hn _)
    | onward _ hm' hl' hf' => rw [hm] at hm'; cases hm'; rw [he] at hl'; cases hl'
    | nowhere => rfl

/-- What is found is declared below the place, or around it. -/
theorem finds_sound {root : Mod τ} {x : Name} {p : Loc} {o : Option τ} (h : Finds root x p o) : ∀ t, o = some t →
    ∃ q, (q <:+ p ∨ p <:+ q) ∧ typeAt root q x = some t := by
  induction h with
  | here h =>
    rintro t' e
    cases e
    obtain ⟨q, h1, h2⟩ := h
    exact ⟨q, .inl h1.1, h2⟩
  | @onward p m n e o hn hm hl hf ih =>
    intro t he
    obtain ⟨q, h1, h2⟩ := ih t he
    refine ⟨q, ?_, h2⟩
    rcases h1 with h1 | h1
    · rcases List.suffix_cons_iff.mp h1 with rfl | h1
      · exact .inr (List.suffix_cons _ _)
      · exact .inl h1
    · exact .inr ((List.suffix_cons _ _).trans h1)
  | nowhere => intro t e; cases e

theorem typeAt_declares {root : Mod τ} {x : Name} {q : Loc} {t : τ} (h : typeAt root q x = some t) : Declares root x q := by
  unfold typeAt at h
  cases hm : root.at q with
  | none => rw [hm] at h; cases h
  | some m =>
    refine ⟨m, hm, ?_⟩
    rw [hm, Option.bind_some] at h
    unfold Mod.hasSymbol
    simp only [← omGet_isSome]
    cases h1 : omGet m.content.aliases x with
    | some => simp
    | none =>
      cases h2 : omGet m.content.unions x with
      | some => simp
      | none =>
        cases h3 : omGet m.content.structs x with
        | some => simp
        | none => rw [h1, h2, h3] at h; simp only [Option.none_or] at h; simp [h]

/-- Where no module has two submodules, the search finds whatever is there. -/
theorem finds_complete {root : Mod τ} {x : Name} {p : Loc} {o : Option τ} (h : Finds root x p o) : ∀ {s : Loc} {t : τ},
    (∀ s' m, root.at (s' ++ p) = some m → m.inner.length ≤ 1) → typeAt root (s ++ p) x = some t → o.isSome := by
  induction h with
  | here => intros; rfl
  | @onward p m n e o hn hm hl hf ih =>
    intro s t h1 ht
    rcases List.eq_nil_or_concat s with rfl | ⟨s', a, rfl⟩
    · exact absurd ⟨p, innermost_self (typeAt_declares ht), ht⟩ (hn t)
    · have ha : a = n := by
        obtain ⟨m', hm', -⟩ := typeAt_declares ht
        simp only [List.concat_eq_append, List.append_assoc, List.singleton_append] at hm'
        have : (root.at (a :: p)).isSome := at_suffix (List.suffix_append s' (a :: p)) (by rw [hm']; rfl)
        rw [Mod.at, hm, Option.bind_some] at this
        have hi := h1 [] m hm
        match hin : m.inner, hi, hl, this with
        | [], _, hl, _ => cases hl
        | [(n', e')], _, hl, this =>
          cases hl
          rw [omGet_cons] at this
          split at this
          · rename_i h; exact (by simpa using h : n = a).symm
          · simp at this
        | _ :: _ :: _, hi, _, _ => simp at hi
      subst ha
      refine ih (s := s') (t := t) (fun s2 m2 h2 => h1 (s2 ++ [a]) m2 (by simpa using h2)) ?_
      simpa using ht
  | @nowhere p m hn hm he =>
    intro s t h1 ht
    rcases List.eq_nil_or_concat s with rfl | ⟨s', a, rfl⟩
    · exact absurd ⟨p, innermost_self (typeAt_declares ht), ht⟩ (hn t)
    · obtain ⟨m', hm', -⟩ := typeAt_declares ht
      simp only [List.concat_eq_append, List.append_assoc, List.singleton_append] at hm'
      have : (root.at (a :: p)).isSome := at_suffix (List.suffix_append s' (a :: p)) (by rw [hm']; rfl)
      rw [Mod.at, hm, Option.bind_some, he] at this
      cases this

/-! ## Names of results -/

theorem isRooted_iff (name : Name) : isRooted name = true ↔ [':', ':'] <+: name := by
  unfold isRooted
  match name with
  | [] => simp [cut]
  | ':' :: ':' :: r => simp [cut]
  | [c] =>
    have : cut [c] = none := by rw [cut.eq_3 _ _ (by rintro r rfl ⟨⟩)]; simp [cut]
    simp [this]
  | c :: d :: r =>
    by_cases h : c = ':' ∧ d = ':'
    · obtain ⟨rfl, rfl⟩ := h; simp [cut]
    · have : cut (c :: d :: r) = (cut (d :: r)).map (fun p => (c :: p.1, p.2)) := by
        rw [cut.eq_3]
        rintro r' rfl e
        cases e
        exact h ⟨rfl, rfl⟩
      rw [this]
      have h' : ¬ [':', ':'] <+: c :: d :: r := by
        rintro ⟨s, e⟩
        cases e
        exact h ⟨rfl, rfl⟩
      simp only [h', iff_false]
      cases cut (d :: r) <;> simp

/-- The name that what a search has found so far carries. -/
def Carries (name : Name) (o : Option (τ × Option Name)) : Prop := ∀ t nm, o = some (t, nm) → nm = carried name

theorem typeHere_carries {root : Mod τ} {name : Name} {prev : Option (τ × Option Name)} (hp : Carries name prev) (s : Res)
    {o : Option (τ × Option Name)} (h : typeHere root name prev s = .ok o) : Carries name o := by
  match s, h with
  | .fail, h => simp only [typeHere, Got.ok.injEq] at h; exact h ▸ hp
  | .found q x, h =>
    simp only [typeHere] at h
    rw [typeNamed_at] at h
    have hc : carried name = if isRooted name then some name else none := by
      unfold carried
      simp only [← isRooted_iff]
    cases ht : typeAt root q x with
    | some t =>
      simp only [ht, Got.ok.injEq] at h
      subst h
      intro t' nm e
      simp only [Option.some.injEq, Prod.mk.injEq] at e
      rw [← e.2, hc]
    | none =>
      simp only [ht] at h
      match prev, hp, h with
      | some (t, nm), hp, h =>
        simp only [Got.ok.injEq] at h
        subst h
        intro t' nm' e
        simp only [Option.some.injEq, Prod.mk.injEq] at e
        have := hp t nm rfl
        rw [← e.2, this, hc]
        split <;> rfl
      | none, _, h =>
        by_cases hr : isRooted name = true
        · simp [hr] at h
        · simp only [hr, Bool.false_eq_true, if_false, Got.ok.injEq] at h
          subst h
          intro _ _ e
          cases e

mutual
theorem search_carries {root : Mod τ} {f : Nat} {rec : Bool} {name : Name} : ∀ {p : Loc} {m : Mod τ} {o : Option (τ × Option Name)},
    search root f rec name p m = some (.ok o) → Carries name o
  | p, .mk c i, o, h => by
    have key : ∀ {prev}, Carries name prev → typeAfter root f name p (some (.ok prev)) = some (.ok o) → Carries name o := by
      intro prev hp ho
      rw [typeAfter] at ho
      cases hr : resolve root f p name name true with
      | none => simp [hr] at ho
      | some x =>
        simp only [hr, Option.map_some, Option.some.injEq] at ho
        exact typeHere_carries hp x ho
    have hn : Carries (τ := τ) name none := by intro _ _ e; cases e
    rw [search] at h
    cases rec with
    | false => exact key hn h
    | true =>
      simp only [if_true] at h
      cases hi : searchInner root f name p i none with
      | none => rw [hi] at h; cases h
      | some x =>
        rw [hi] at h
        match x, hi, h with
        | .ub, _, h => cases h
        | .ok prev, hi, h => exact key (searchInner_carries hn hi) h
theorem searchInner_carries {root : Mod τ} {f : Nat} {name : Name} : ∀ {p : Loc} {i : List (Name × Option (Mod τ))}
    {prev o : Option (τ × Option Name)}, Carries name prev →
    searchInner root f name p i prev = some (.ok o) → Carries name o
  | p, [], prev, o, hp, h => by
    rw [searchInner, Option.some.injEq, Got.ok.injEq] at h
    exact h ▸ hp
  | p, (_, none) :: _, prev, o, _, h => by rw [searchInner] at h; cases h
  | p, (n, some m) :: rest, prev, o, _, h => by
    rw [searchInner] at h
    cases hs : search root f true name (n :: p) m with
    | none => rw [hs] at h; cases h
    | some x =>
      rw [hs] at h
      match x, hs, h with
      | .ub, _, h => cases h
      | .ok o', hs, h => exact searchInner_carries (search_carries hs) h
end

end Verif.Idl
