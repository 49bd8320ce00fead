import Verif.Lemmas.DepGen
import Verif.Lemmas.Module
/-! The tree of modules and the tables filled by `solve`. -/

namespace Verif.Idl

variable {τ : Type}

theorem innerFull_mem : ∀ {i : List (Name × Option (Mod τ))}, innerFull i = true →
    ∀ e ∈ i, ∃ m, e.2 = some m ∧ m.full = true
  | [], _, e, he => by cases he
  | (_, none) :: _, h, _, _ => by simp [innerFull] at h
  | (n, some m) :: rest, h, e, he => by
    simp only [innerFull, Bool.and_eq_true] at h
    rcases List.mem_cons.mp he with rfl | he
    · exact ⟨m, rfl, h.1⟩
    · exact innerFull_mem h.2 e he

theorem innerUniq_mem : ∀ {i : List (Name × Option (Mod τ))}, innerUniq i →
    ∀ e ∈ i, ∀ m, e.2 = some m → m.uniq
  | [], _, e, he => by cases he
  | (n, none) :: rest, h, e, he => by
    rw [innerUniq] at h
    rcases List.mem_cons.mp he with rfl | he
    · intro m hm; cases hm
    · exact innerUniq_mem h e he
  | (n, some m) :: rest, h, e, he => by
    rw [innerUniq] at h
    rcases List.mem_cons.mp he with rfl | he
    · intro m' hm; cases hm; exact h.1
    · exact innerUniq_mem h.2 e he

theorem at_full {root : Mod τ} (h : root.full = true) : ∀ {p : Loc} {m : Mod τ}, root.at p = some m →
    m.full = true := by
  intro p
  induction p with
  | nil => intro m hm; cases hm; exact h
  | cons n r ih =>
    intro m hm
    rw [Mod.at] at hm
    cases hr : root.at r with
    | none => rw [hr] at hm; cases hm
    | some m' =>
      rw [hr, Option.bind_some] at hm
      have hf := ih hr
      cases hg : omGet m'.inner n with
      | none => rw [hg] at hm; cases hm
      | some e =>
        rw [hg] at hm
        simp only [Option.join_some] at hm
        subst hm
        cases m' with
        | mk c i =>
          obtain ⟨m'', he, hf'⟩ := innerFull_mem (by simpa [Mod.full] using hf) _ (omGet_mem hg)
          cases he; exact hf'

theorem at_uniq {root : Mod τ} (h : root.uniq) : ∀ {p : Loc} {m : Mod τ}, root.at p = some m → m.uniq := by
  intro p
  induction p with
  | nil => intro m hm; cases hm; exact h
  | cons n r ih =>
    intro m hm
    rw [Mod.at] at hm
    cases hr : root.at r with
    | none => rw [hr] at hm; cases hm
    | some m' =>
      rw [hr, Option.bind_some] at hm
      have hf := ih hr
      cases hg : omGet m'.inner n with
      | none => rw [hg] at hm; cases hm
      | some e =>
        rw [hg] at hm
        simp only [Option.join_some] at hm
        subst hm
        cases m' with
        | mk c i =>
          rw [Mod.uniq] at hf
          exact innerUniq_mem hf.2.2 _ (omGet_mem hg) m rfl

theorem uniq_inner {m : Mod τ} (h : m.uniq) : (m.inner.map (·.1)).Nodup := by
  cases m; rw [Mod.uniq] at h; exact h.2.1

theorem uniq_table {m : Mod τ} (h : m.uniq) (k : Cat) : ((m.content.get k).map (·.1)).Nodup := by
  cases m; rw [Mod.uniq] at h; exact h.1 k

theorem full_inner {m : Mod τ} (h : m.full = true) : ∀ e ∈ m.inner, ∃ m', e.2 = some m' := by
  cases m
  intro e he
  obtain ⟨m', h1, -⟩ := innerFull_mem (by simpa [Mod.full] using h) e he
  exact ⟨m', h1⟩

end Verif.Idl

namespace Verif.Idl.Dep

theorem mem_nodesIn {p : Loc} {c : Content Decl} {n : Node} :
    n ∈ nodesIn p c ↔ n.loc = p ∧ n.name ∈ (c.get n.kind.cat).map (·.1) := by
  simp only [nodesIn, List.mem_flatMap, List.mem_map]
  constructor
  · rintro ⟨k, -, e, he, rfl⟩
    exact ⟨rfl, e, he, rfl⟩
  · rintro ⟨h1, e, he, h2⟩
    refine ⟨n.kind, ?_, e, he, ?_⟩
    · cases n.kind <;> simp
    · cases n; simp_all

theorem mem_nodesAt {root : Mod Decl} {p : Loc} {n : Node} :
    n ∈ nodesAt root p ↔ n.loc = p ∧ (declOf root n).isSome := by
  unfold nodesAt declOf
  cases h : root.at p with
  | none =>
    constructor
    · intro hn; cases hn
    · rintro ⟨rfl, h'⟩; rw [h] at h'; cases h'
  | some m =>
    simp only [mem_nodesIn]
    apply and_congr_right
    rintro rfl
    rw [h, Option.bind_some, omGet_isSome, omHas_iff]

theorem nodesAt_at {root : Mod Decl} {p : Loc} {n : Node} (h : n ∈ nodesAt root p) : (root.at p).isSome := by
  obtain ⟨rfl, h2⟩ := mem_nodesAt.mp h
  unfold declOf at h2
  cases h : root.at n.loc with
  | none => rw [h] at h2; cases h2
  | some m => rfl

theorem mem_innersAt {root : Mod Decl} (hu : root.uniq) (hf : root.full = true) {p q : Loc} :
    q ∈ innersAt root p ↔ ∃ x, q = x :: p ∧ (root.at q).isSome := by
  unfold innersAt
  cases h : root.at p with
  | none =>
    constructor
    · intro hn; cases hn
    · rintro ⟨x, rfl, h'⟩; rw [Mod.at, h] at h'; cases h'
  | some m =>
    simp only [List.mem_map]
    constructor
    · rintro ⟨e, he, rfl⟩
      refine ⟨e.1, rfl, ?_⟩
      obtain ⟨m', hm'⟩ := full_inner (at_full hf h) e he
      rw [Mod.at, h, Option.bind_some,
        omGet_of_mem (uniq_inner (at_uniq hu h)) (k := e.1) (v := e.2) (by cases e; exact he), hm']
      rfl
    · rintro ⟨x, rfl, h'⟩
      rw [Mod.at, h, Option.bind_some] at h'
      cases hg : omGet m.inner x with
      | none => rw [hg] at h'; cases h'
      | some e => exact ⟨(x, e), omGet_mem hg, rfl⟩

mutual
theorem mem_mods (p : Loc) : ∀ (m : Mod Decl), m.uniq → ∀ (q : Loc),
    q ∈ mods p m ↔ ∃ s, q = s ++ p ∧ (m.at s).isSome
  | .mk c inner, hu, q => by
    rw [Mod.uniq] at hu
    rw [mods, List.mem_cons, mem_modsInner p inner c hu.2.1 hu.2.2 q]
    constructor
    · rintro (rfl | ⟨s, h1, -, h3⟩)
      · exact ⟨[], rfl, rfl⟩
      · exact ⟨s, h1, h3⟩
    · rintro ⟨s, h1, h3⟩
      by_cases hs : s = []
      · subst hs; exact .inl h1
      · exact .inr ⟨s, h1, hs, h3⟩
theorem mem_modsInner (p : Loc) : ∀ (i : List (Name × Option (Mod Decl))) (c : Content Decl),
    (i.map (·.1)).Nodup → innerUniq i → ∀ (q : Loc),
    q ∈ modsInner p i ↔ ∃ s, q = s ++ p ∧ s ≠ [] ∧ ((Mod.mk c i).at s).isSome
  | [], c, _, _, q => by
    simp only [modsInner, List.not_mem_nil, false_iff]
    rintro ⟨s, -, hs, h⟩
    rcases List.eq_nil_or_concat s with rfl | ⟨s, a, rfl⟩
    · exact hs rfl
    · rw [List.concat_eq_append, at_append] at h
      have : (Mod.mk c ([] : List (Name × Option (Mod Decl)))).at [a] = none := rfl
      rw [this] at h; cases h
  | (n, none) :: rest, c, hn, hu, q => by
    simp only [List.map_cons, List.nodup_cons] at hn
    rw [innerUniq] at hu
    rw [modsInner, mem_modsInner p rest c hn.2 hu q]
    apply exists_congr; intro s
    apply and_congr_right; intro _
    apply and_congr_right; intro hs
    rcases List.eq_nil_or_concat s with rfl | ⟨s, a, rfl⟩
    · exact absurd rfl hs
    · rw [List.concat_eq_append, at_append, at_append]
      have : (Mod.mk c rest).at [a] = (Mod.mk c ((n, none) :: rest)).at [a] := by
        simp only [Mod.at, Option.bind_some, Mod.inner]
        rw [omGet_cons]
        split
        · rename_i h; simp only at h; subst h
          rw [omGet_eq_none.mpr hn.1]; rfl
        · rfl
      rw [this]
  | (n, some m) :: rest, c, hn, hu, q => by
    simp only [List.map_cons, List.nodup_cons] at hn
    rw [innerUniq] at hu
    rw [modsInner, List.mem_append, mem_modsInner p rest c hn.2 hu.2 q, mem_mods (n :: p) m hu.1 q]
    have hat : ∀ (s : Loc) (a : Name), (Mod.mk c ((n, some m) :: rest)).at (s ++ [a]) =
        if n = a then m.at s else (Mod.mk c rest).at (s ++ [a]) := by
      intro s a
      rw [at_append, at_append]
      have : (Mod.mk c ((n, some m) :: rest)).at [a] =
          if n = a then some m else (Mod.mk c rest).at [a] := by
        simp only [Mod.at, Option.bind_some, Mod.inner]
        rw [omGet_cons]
        by_cases h : n = a <;> simp [h]
      rw [this]
      by_cases h : n = a <;> simp [h]
    constructor
    · rintro (⟨s, h1, h2⟩ | ⟨s, h1, h2, h3⟩)
      · refine ⟨s ++ [n], by simp [h1], by simp, ?_⟩
        rw [hat, if_pos rfl]; exact h2
      · rcases List.eq_nil_or_concat s with rfl | ⟨s, a, rfl⟩
        · exact absurd rfl h2
        · rw [List.concat_eq_append] at *
          refine ⟨s ++ [a], h1, h2, ?_⟩
          rw [hat]
          split
          · rename_i h; subst h
            exfalso
            rw [at_append] at h3
            have : (Mod.mk c rest).at [n] = none := by
              simp [Mod.at, Mod.inner, omGet_eq_none.mpr hn.1]
            rw [this] at h3; cases h3
          · exact h3
    · rintro ⟨s, h1, h2, h3⟩
      rcases List.eq_nil_or_concat s with rfl | ⟨s, a, rfl⟩
      · exact absurd rfl h2
      · rw [List.concat_eq_append] at *
        rw [hat] at h3
        split at h3
        · rename_i h; subst h
          exact .inl ⟨s, by simp [h1], h3⟩
        · exact .inr ⟨s ++ [a], h1, h2, h3⟩
end

theorem mem_mods_root {root : Mod Decl} (hu : root.uniq) (q : Loc) :
    q ∈ mods [] root ↔ (root.at q).isSome := by
  rw [mem_mods [] root hu q]
  constructor
  · rintro ⟨s, rfl, h⟩; simpa using h
  · intro h; exact ⟨q, by simp, h⟩

/-! ### Searching -/

theorem search_some {root : Mod Decl} {x : Name} {n : Node} (h : search root x = some n) :
    n ∈ nodesAt root n.loc ∧ n.name = unscoped x ∧ scopeMatch n.loc x = true ∧ n.loc ∈ mods [] root := by
  unfold search at h
  obtain ⟨p, hp, he⟩ := List.exists_of_findSome?_eq_some h
  split at he
  · rename_i hs
    have h1 := List.mem_of_find?_eq_some he
    have h2 := List.find?_some he
    obtain ⟨hl, -⟩ := mem_nodesAt.mp h1
    subst hl
    exact ⟨h1, by simpa using h2, hs, hp⟩
  · cases he

/-! ### Places -/

theorem innerToward_some {p m q : Loc} (h : innerToward p m = some q) :
    ∃ x, q = x :: p ∧ q <:+ m := by
  unfold innerToward at h
  split at h
  · rename_i hc
    obtain ⟨hs, hne⟩ := hc
    obtain ⟨w, rfl⟩ := List.isSuffixOf_iff_suffix.mp hs
    simp only [Option.some.injEq] at h
    have hw : w ≠ [] := by rintro rfl; simp at hne
    rcases List.eq_nil_or_concat w with rfl | ⟨w, a, rfl⟩
    · exact absurd rfl hw
    · rw [List.concat_eq_append] at *
      have hl : (w ++ [a] ++ p).length - p.length - 1 = w.length := by simp; omega
      rw [hl] at h
      have : w ++ [a] ++ p = w ++ (a :: p) := by simp
      rw [this, List.drop_left] at h
      subst h
      exact ⟨a, rfl, by rw [this]; exact List.suffix_append _ _⟩
  · cases h

theorem innerToward_eq {x : Name} {p w : Loc} : innerToward p (w ++ x :: p) = some (x :: p) := by
  unfold innerToward
  rw [if_pos]
  · have hl : (w ++ x :: p).length - p.length - 1 = w.length := by simp; omega
    rw [hl, List.drop_left]
  · constructor
    · exact List.isSuffixOf_iff_suffix.mpr ⟨w ++ [x], by simp⟩
    · intro h
      have := congrArg List.length h
      simp at this
      omega

theorem siblings_some {p q : Loc} {s : Loc × Loc} (h : siblings p q = some s) :
    ∃ x y r, s = (x :: r, y :: r) ∧ x :: r <:+ p ∧ y :: r <:+ q := by
  induction p with
  | nil => cases h
  | cons x r ih =>
    rw [siblings] at h
    cases hi : innerToward r q with
    | some t =>
      rw [hi] at h
      simp only [Option.some.injEq] at h
      obtain ⟨y, rfl, hs⟩ := innerToward_some hi
      exact ⟨x, y, r, h.symm, List.suffix_refl _, hs⟩
    | none =>
      rw [hi] at h
      obtain ⟨x', y, r', e, h1, h2⟩ := ih h
      exact ⟨x', y, r', e, h1.trans (List.suffix_cons _ _), h2⟩

/-- There are siblings whenever the two places are not nested. -/
theorem siblings_exists {p q : Loc} (h : ¬ q <:+ p) : p = [] ∨ (siblings p q).isSome ∨ p <:+ q := by
  induction p with
  | nil => exact .inl rfl
  | cons x r ih =>
    right
    rw [siblings]
    cases hi : innerToward r q with
    | some t => exact .inl rfl
    | none =>
      rcases ih (fun h' => h (h'.trans (List.suffix_cons _ _))) with rfl | h1 | h1
      · unfold innerToward at hi
        split at hi
        · cases hi
        · rename_i hc
          cases q with
          | nil => exact absurd List.nil_suffix h
          | cons y q => exact absurd ⟨List.isSuffixOf_iff_suffix.mpr List.nil_suffix, by simp⟩ hc
      · exact .inl h1
      · obtain ⟨w, rfl⟩ := h1
        rcases List.eq_nil_or_concat w with rfl | ⟨w, a, rfl⟩
        · exact absurd (List.suffix_cons _ _) h
        · rw [List.concat_eq_append, List.append_assoc, List.singleton_append, innerToward_eq] at hi
          cases hi

/-! ### Tables -/

/-- What the tables filled by `solve` satisfy. -/
structure Tables.OK (root : Mod Decl) (t : Tables) : Prop where
  modAnc : ∀ a b, (a, b) ∈ t.modAnc → ∃ x y r, a = x :: r ∧ b = y :: r ∧ (root.at b).isSome
  nodeAnc : ∀ n a, (n, a) ∈ t.nodeAnc → a ∈ nodesAt root n.loc
  nodePar : ∀ n q, (n, q) ∈ t.nodePar → ∃ x, q = x :: n.loc ∧ (root.at q).isSome

theorem mem_addPair {α : Type} [DecidableEq α] {l : List α} {x y : α} :
    y ∈ addPair l x ↔ y = x ∨ y ∈ l := by
  unfold addPair
  split
  · rename_i h
    constructor
    · exact .inr
    · rintro (rfl | h')
      · exact h
      · exact h'
  · simp [or_comm]

theorem setDependency_ok {root : Mod Decl} (hu : root.uniq) {d : Node} {x : Name} {t t' : Tables}
    (h : setDependency root d x t = some t') (ht : t.OK root) : t'.OK root := by
  unfold setDependency at h
  split at h
  · cases h; exact ht
  · split at h
    · cases hf : (nodesAt root d.loc).find? fun n => n.kind = d.kind ∧ n.name = unscoped x with
      | none => rw [hf] at h; cases h; exact ht
      | some a =>
        rw [hf] at h
        simp only [Option.some.injEq] at h
        subst h
        refine ⟨ht.modAnc, ?_, ht.nodePar⟩
        intro n b hb
        rcases mem_addPair.mp hb with e | hb
        · cases e; exact List.mem_of_find?_eq_some hf
        · exact ht.nodeAnc n b hb
    · cases hs : search root x with
      | none => rw [hs] at h; cases h
      | some n =>
        rw [hs] at h
        simp only at h
        obtain ⟨hn, -, -, hm⟩ := search_some hs
        have hat : (root.at n.loc).isSome := (mem_mods_root hu _).mp hm
        cases hi : innerToward d.loc n.loc with
        | some q =>
          rw [hi] at h
          simp only [Option.some.injEq] at h
          subst h
          refine ⟨ht.modAnc, ht.nodeAnc, ?_⟩
          intro m b hb
          rcases mem_addPair.mp hb with e | hb
          · cases e
            obtain ⟨y, rfl, hsuf⟩ := innerToward_some hi
            exact ⟨y, rfl, at_suffix hsuf hat⟩
          · exact ht.nodePar m b hb
        | none =>
          rw [hi] at h
          simp only [setHier] at h
          split at h
          · cases h; exact ⟨ht.modAnc, ht.nodeAnc, ht.nodePar⟩
          · cases hb : siblings d.loc n.loc with
            | none => rw [hb] at h; cases h
            | some s =>
              rw [hb] at h
              simp only [Option.map_some, Option.some.injEq] at h
              subst h
              refine ⟨?_, ht.nodeAnc, ht.nodePar⟩
              intro a b hab
              rcases mem_addPair.mp hab with e | hab
              · obtain ⟨x', y, r, hs', -, h2⟩ := siblings_some hb
                rw [hs'] at e
                cases e
                exact ⟨x', y, r, rfl, rfl, at_suffix h2 hat⟩
              · exact ht.modAnc a b hab

theorem solve_ok {root : Mod Decl} (hu : root.uniq) {t : Tables} (h : solve root = some t) : t.OK root := by
  unfold solve at h
  refine foldlM_keep (Tables.OK root) _ _ _ ?_ h ⟨by simp, by simp, by simp⟩
  intro n _ t t' hn ht
  unfold setNode at hn
  cases hd : declOf root n with
  | none => rw [hd] at hn; cases hn; exact ht
  | some d =>
    rw [hd] at hn
    exact foldlM_keep (Tables.OK root) _ _ _ (fun x _ u u' hu' hok => setDependency_ok hu hu' hok) hn ht

/-- All modules have a name. -/
def Named (root : Mod Decl) : Prop := ∀ p, (root.at p).isSome → [] ∉ p

theorem graph_wf {root : Mod Decl} (hu : root.uniq) (hf : root.full = true) (hn : Named root) {t : Tables}
    (ht : t.OK root) : (graph root t).WF := by
  have hin : ∀ p q, q ∈ innersAt root p ↔ ∃ x, q = x :: p ∧ (root.at q).isSome :=
    fun p q => mem_innersAt hu hf
  refine ⟨?_, ?_, ?_, ?_, ?_⟩
  · intro p n h; exact (mem_nodesAt.mp h).1
  · intro p q h
    obtain ⟨x, rfl, hx⟩ := (hin p q).mp h
    refine ⟨x, ?_, rfl⟩
    rintro rfl
    exact hn _ hx (List.mem_cons_self ..)
  · intro a b h
    simp only [Gr.modAncOf, graph, List.mem_map, List.mem_filter, decide_eq_true_eq] at h
    obtain ⟨⟨a', b'⟩, ⟨hm, rfl⟩, rfl⟩ := h
    obtain ⟨x, y, r, h1, h2, h3⟩ := ht.modAnc _ _ hm
    simp only at *
    refine ⟨x, y, r, (hin r _).mpr ⟨y, rfl, h2 ▸ h3⟩, h1, h2⟩
  · intro n a h
    simp only [Gr.ancOf, graph, List.mem_map, List.mem_filter, decide_eq_true_eq] at h
    obtain ⟨⟨a', b'⟩, ⟨hm, rfl⟩, rfl⟩ := h
    exact ht.nodeAnc _ _ hm
  · intro n q h
    simp only [Gr.parOf, graph, List.mem_map, List.mem_filter, decide_eq_true_eq] at h
    obtain ⟨⟨a', b'⟩, ⟨hm, rfl⟩, rfl⟩ := h
    exact (hin _ _).mpr (ht.nodePar _ _ hm)

end Verif.Idl.Dep
