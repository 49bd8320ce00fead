import Verif.Props.Deps
import Verif.Lemmas.DepBefore
/-!
# Declaration before use in the generated IDL (C46)
-/

namespace Verif.Idl.Dep

theorem Clean.named {root : Mod Decl} (hc : Clean root) : Named root :=
  fun p hp h => (hc.mods p hp [] h).1 rfl

/-- C46, partial: in the generated IDL the declaration of a type stands before the declarations that use it, for the uses
in `Covered`. Missing: the other uses, for which the claim is false of this code (`C46_violated_kind`, `C46_violated_chain`,
`C46_violated_collection`, `C46_violated_early`, `C46_violated_shadow`), and trees with illegal names. -/
theorem C46_before_use_partial {root : Mod Decl} {text : List Event} (hu : root.uniq) (hc : Clean root)
    (h : Generates root text) {n m : Node} (huse : Uses root n m) (hcov : Covered root n m) : Before text m n := by
  obtain ⟨hnd, hdecl, hod, hop, hpl⟩ := C45_exactly_once_partial hu hc.named h
  obtain ⟨hf, t, fuel, s, hs, hgen, rfl⟩ := h
  have hwf := graph_wf hu hf hc.named (solve_ok hu hs)
  have hord := (gen_ord hwf fuel [] {} s hgen ⟨by simp, by simp, by intro A e B h; simp at h⟩).1
  have hgood := hord.good
  obtain ⟨hne, hmk, hmd, hnf, d, hd, hx⟩ := huse
  have huse : Uses root n m := ⟨hne, hmk, hmd, hnf, d, hd, hx⟩
  have hnd' : (declOf root n).isSome := by rw [hd]; rfl
  have hmf : isFake root m = false := by
    unfold isFake
    cases hk : m.kind <;> first | rfl | exact absurd hk hmk
  have hmdecl : m ∈ declared s.out := (hdecl m).mpr ⟨hmd, isFake_iff.mp hmf⟩
  have hndecl : n ∈ declared s.out := (hdecl n).mpr ⟨hnd', hnf⟩
  have hprinted : ∀ {A : List Event}, Printed (graph root t) A m → m ∈ declared A := by
    intro A hp
    rcases hp with hp | hp
    · have : isFake root m = true := hp
      rw [hmf] at this; cases this
    · exact hp
  obtain ⟨A, B, hsplit⟩ := List.append_of_mem (mem_declared.mp hndecl)
  suffices hA : m ∈ declared A by
    refine ⟨declared A, declared B, ?_, hA⟩
    rw [hsplit, declared_append]; rfl
  have hev := hgood A _ B hsplit
  have hin : place [] A = some n.loc := by
    obtain ⟨c, h1, h2⟩ := place_split hpl hsplit
    rw [place] at h2
    split at h2
    · rename_i h3; rw [h3]; exact h1
    · cases h2
  -- a module that is closed has been printed in full
  have hshut : ∀ {A1 A2 : List Event} {b : Loc}, A = A1 ++ A2 → b ≠ [] → (root.at b).isSome → Shut A1 b → b <:+ m.loc →
      m ∈ declared A := by
    intro A1 A2 b hA hb hat hs hbm
    have hcl : b ∈ closed A := by
      rcases hs with hs | hs
      · exfalso
        cases b with
        | nil => exact hb rfl
        | cons y r => exact (hc.mods _ hat y (List.mem_cons_self ..)).1 hs
      · rw [hA, closed_append]; exact List.mem_append_left _ hs
    exact declared_of_closed hsplit hpl hod hb hcl hmdecl hbm
  have hmat : (root.at m.loc).isSome := nodesAt_at (mem_nodesAt.mpr ⟨rfl, hmd⟩)
  have hearly : ¬ Early root n → ¬ ∃ x, (graph root t).hasChild n (x :: n.loc) = true := by
    rintro he ⟨x, hch⟩
    exact he (early_of_child hu hs (of_decide_eq_true hch))
  cases hcov with
  | branch hplain h1 h2 =>
    obtain ⟨x, y, r, hxy, ha, hb⟩ := branch h1 h2
    have hopen : Event.open (x :: r) ∈ A := place_open hin ha (by simp)
    obtain ⟨A1, A2, rfl⟩ := List.append_of_mem hopen
    have hev1 := hgood A1 _ _ (by rw [hsplit, List.append_assoc]; rfl)
    have hneeds : Needs root (x :: r) (y :: r) :=
      ⟨x, y, r, n, _, m, rfl, rfl, hxy, ha, hb, names_of_uses hc huse hplain,
        not_local hc hnd' hmd (by rintro e; exact h1 (e ▸ List.suffix_refl _))
          (by intro e; exact absurd (e ▸ List.nil_suffix) h2),
        search_scopedName hu hc hmd⟩
    have := (solve_modAnc hu hs _ _).mpr hneeds
    refine hshut rfl (by simp) (at_suffix hb hmat) (hev1.1 _ ?_) hb
    simp only [Gr.modAncOf, graph, List.mem_map, List.mem_filter, decide_eq_true_eq]
    exact ⟨_, ⟨this, rfl⟩, rfl⟩
  | outer hplain h1 h2 h3 =>
    obtain ⟨x, hx'⟩ := strict_suffix h1 h2
    have hopen : Event.open (x :: m.loc) ∈ A := place_open hin hx' (by simp)
    obtain ⟨A1, A2, rfl⟩ := List.append_of_mem hopen
    have hev1 := hgood A1 _ _ (by rw [hsplit, List.append_assoc]; rfl)
    have hnl := not_local hc hnd' hmd (fun e => h2 e.symm) h3
    obtain ⟨u, he, htab⟩ := table_of_uses hu hs (names_of_uses hc huse hplain)
    have hch : (m, x :: m.loc) ∈ t.nodeChild := by
      apply htab .nodeChild
      show _ ∈ u.nodeChild
      rcases effect_cases root n (scopedName m.loc m.name) with ⟨h, -⟩ | ⟨-, -, e⟩ | ⟨-, m', hse, -, u', e, -, hch, -⟩
      · exact absurd h hnl
      · rw [he] at e; cases e
      · rw [he] at e; cases e
        rw [search_scopedName hu hc hmd] at hse; cases hse
        obtain ⟨w, hw⟩ := hx'
        rw [hch, ← hw, innerToward_eq]
        simp
    have := hprinted (hev1.2 m (mem_nodesAt.mpr ⟨rfl, hmd⟩) (decide_eq_true hch))
    rw [declared_append]; exact List.mem_append_left _ this
  | inner hplain h1 h2 h3 =>
    rcases hev with hev | ⟨hpar, -⟩
    · exact absurd hev (hearly h3)
    obtain ⟨x, hx'⟩ := strict_suffix h1 h2
    have hnl := not_local hc hnd' hmd h2 (by
      intro e
      rw [e] at h1 h2
      exact absurd (List.suffix_nil.mp h1) h2)
    obtain ⟨u, he, htab⟩ := table_of_uses hu hs (names_of_uses hc huse hplain)
    have hpa : (n, x :: n.loc) ∈ t.nodePar := by
      apply htab .nodePar
      show _ ∈ u.nodePar
      rcases effect_cases root n (scopedName m.loc m.name) with ⟨h, -⟩ | ⟨-, -, e⟩ |
        ⟨-, m', hse, hloc, u', e, -, -, hcase⟩
      · exact absurd h hnl
      · rw [he] at e; cases e
      · rw [he] at e; cases e
        rw [search_scopedName hu hc hmd] at hse; cases hse
        have hi : innerToward n.loc m.loc = some (x :: n.loc) := by
          obtain ⟨w, hw⟩ := hx'; rw [← hw, innerToward_eq]
        rcases hcase with ⟨q, hq, hp, -⟩ | ⟨hq, -⟩ | ⟨y, z, r, hyz, hy, hz, -⟩
        · rw [hi] at hq; cases hq; rw [hp]; simp
        · exact absurd (hq.eq_of_length (Nat.le_antisymm hq.length_le h1.length_le)) hloc
        · exact absurd (cons_suffix_inj (hy.trans h1) hz) hyz
    refine hshut (A2 := []) (by simp) (by simp) (at_suffix hx' hmat)
      (hpar n (mem_nodesAt.mpr ⟨rfl, hnd'⟩) (x :: n.loc) ?_) hx'
    simp only [Gr.parOf, graph, List.mem_map, List.mem_filter, decide_eq_true_eq]
    exact ⟨_, ⟨hpa, rfl⟩, rfl⟩
  | kind h1 h2 h3 =>
    rcases hev with hev | ⟨-, L, n0, R, hnodes, hL, hcase⟩
    · exact absurd hev (hearly h3)
    have hk : n0.kind = n.kind := by
      rcases hcase with ⟨rfl, -⟩ | hanc
      · rfl
      · simp only [Gr.ancOf, graph, List.mem_map, List.mem_filter, decide_eq_true_eq] at hanc
        obtain ⟨⟨a, b⟩, ⟨hm', rfl⟩, rfl⟩ := hanc
        exact (anc_of hu hs hm').2.1.symm
    refine hprinted (hL m (nodesAt_order hnodes (mem_nodesAt.mpr ⟨h1.symm, hmd⟩) ?_))
    rw [hk]; exact h2
  | same hplain h1 h2 h3 h4 =>
    rcases hev with hev | ⟨-, L, n0, R, hnodes, hL, hcase⟩
    · exact absurd hev (hearly h3)
    rcases hcase with ⟨rfl, hanc⟩ | hanc
    · refine hprinted (hanc m ?_)
      have := anc_of_uses hu hc hs hnd' hmd hne h1 h2 (names_of_uses hc huse hplain)
      simp only [Gr.ancOf, graph, List.mem_map, List.mem_filter, decide_eq_true_eq]
      exact ⟨_, ⟨this, rfl⟩, rfl⟩
    · exfalso
      simp only [Gr.ancOf, graph, List.mem_map, List.mem_filter, decide_eq_true_eq] at hanc
      obtain ⟨⟨a, b⟩, ⟨hm', rfl⟩, rfl⟩ := hanc
      obtain ⟨e1, e2, z, e3, e4, e5⟩ := anc_of hu hs hm'
      exact h4 ⟨_, z, e1.symm, e2.symm, e3, e4, e5⟩

/-! ## Examples -/

/-- All elements of a tree. -/
theorem all_nodes {root : Mod Decl} (hu : root.uniq) {n : Node} (h : (declOf root n).isSome) :
    n ∈ (mods [] root).flatMap (nodesAt root) :=
  have hm : n ∈ nodesAt root n.loc := mem_nodesAt.mpr ⟨rfl, h⟩
  List.mem_flatMap.mpr ⟨_, (mem_mods_root hu _).mpr (nodesAt_at hm), hm⟩

theorem clean_of {root : Mod Decl} (hu : root.uniq)
    (h1 : ∀ p ∈ mods [] root, ∀ x ∈ p, x ≠ [] ∧ ':' ∉ x)
    (h2 : ∀ n ∈ (mods [] root).flatMap (nodesAt root), n.name ≠ [] ∧ ':' ∉ n.name)
    (h3 : ∀ n ∈ (mods [] root).flatMap (nodesAt root), ∀ m ∈ (mods [] root).flatMap (nodesAt root),
      n.loc = m.loc → n.name = m.name → n.kind = m.kind)
    (h4 : ∀ n ∈ (mods [] root).flatMap (nodesAt root), n.kind ≠ .const →
      (declOf root n).map (fun d => d.ty.name.toList) = some (scopedName n.loc n.name)) : Clean root where
  mods := fun p hp => h1 p ((mem_mods_root hu p).mpr hp)
  names := fun n hn => h2 n (all_nodes hu hn)
  kinds := fun n m hn hm => h3 n (all_nodes hu hn) m (all_nodes hu hm)
  types := fun n d hd hk => by
    have := h4 n (all_nodes hu (by rw [hd]; rfl)) hk
    rw [hd] at this
    exact Option.some.inj this

theorem exIdl_clean : Clean exIdl := clean_of exIdl_uniq (by decide) (by decide) (by decide) (by decide)

/-- `A::U` uses `B::T` in another branch. -/
example : Before exText ⟨[['B']], .struct, ['T']⟩ ⟨[['A']], .struct, ['U']⟩ :=
  C46_before_use_partial exIdl_uniq exIdl_clean exIdl_text
    ⟨by decide, by decide, by decide, by decide, _, rfl, by decide⟩
    (.branch (by intro d _; trivial) (by decide) (by decide))

/-- `A::U` uses `E` of the root. -/
example : Before exText ⟨[], .enum, ['E']⟩ ⟨[['A']], .struct, ['U']⟩ :=
  C46_before_use_partial exIdl_uniq exIdl_clean exIdl_text
    ⟨by decide, by decide, by decide, by decide, _, rfl, by decide⟩
    (.outer (by intro d _; trivial) (by decide) (by decide) (by decide))

theorem not_early {root : Mod Decl} (hu : root.uniq) {n : Node}
    (h : ∀ e ∈ deps root, ¬ (n.loc <:+ e.1.loc ∧ n.loc ≠ e.1.loc ∧ search root e.2 = some n)) : ¬ Early root n := by
  rintro ⟨d, z, h1, h2, h3, h4⟩
  exact h (d, z) ((mem_deps hu).mpr h3) ⟨h1, h2, h4⟩

theorem not_wanted {root : Mod Decl} (hu : root.uniq) {n : Node}
    (h : ∀ e ∈ deps root, ¬ (e.1.loc = n.loc ∧ e.1.kind = n.kind ∧ e.1.name ≠ e.2 ∧ unscoped e.2 = n.name)) :
    ¬ Wanted root n := by
  rintro ⟨d, z, h1, h2, h3, h4, h5⟩
  exact h (d, z) ((mem_deps hu).mpr h4) ⟨h1, h2, h3, h5⟩

/-- `S` of the root uses `B::T`. -/
example : Before exText ⟨[['B']], .struct, ['T']⟩ ⟨[], .struct, ['S']⟩ :=
  C46_before_use_partial exIdl_uniq exIdl_clean exIdl_text
    ⟨by decide, by decide, by decide, by decide, _, rfl, by decide⟩
    (.inner (by intro d _; trivial) (by decide) (by decide) (not_early exIdl_uniq (by decide)))

/-- The text a tree generates, if the generator ends within a number of calls. -/
def textOf (root : Mod Decl) (fuel : Nat) : Option (List Event) :=
  (solve root).bind fun t => (gen (graph root t) fuel [] {}).map fun s => s.out

theorem generates_of {root : Mod Decl} {fuel : Nat} {text : List Event} (hf : root.full = true)
    (h : textOf root fuel = some text) : Generates root text := by
  unfold textOf at h
  cases h1 : solve root with
  | none => rw [h1] at h; cases h
  | some t =>
    rw [h1, Option.bind_some] at h
    cases h2 : gen (graph root t) fuel [] {} with
    | none => rw [h2] at h; cases h
    | some s =>
      rw [h2] at h
      exact ⟨hf, t, fuel, s, h1, h2, Option.some.inj h⟩

/-- `enum E {…}; struct A { B b; E e; }; struct B {};` -/
def exSame : Mod Decl := .mk
  { enums := [(['E'], ⟨exE, none⟩)]
    structs := [(['A'], ⟨.struct "A" (.cons "b" (.struct "B" .nil) (.cons "e" exE .nil)), none⟩),
      (['B'], ⟨.struct "B" .nil, none⟩)] } []

theorem exSame_uniq : exSame.uniq := by
  simp only [exSame, Mod.uniq, innerUniq]
  refine ⟨?_, by decide, trivial⟩
  intro k; cases k <;> decide

theorem exSame_clean : Clean exSame := clean_of exSame_uniq (by decide) (by decide) (by decide) (by decide)

/-- The text of `exSame`: `B` comes before `A`, against the order of the names. -/
def exSameText : List Event := [.decl ⟨[], .enum, ['E']⟩, .decl ⟨[], .struct, ['B']⟩, .decl ⟨[], .struct, ['A']⟩]

theorem exSame_text : Generates exSame exSameText := generates_of (fuel := 3) (by decide) (by decide)

/-- `A` uses `B` and `E` in its own module. -/
example : Before exSameText ⟨[], .struct, ['B']⟩ ⟨[], .struct, ['A']⟩ ∧
    Before exSameText ⟨[], .enum, ['E']⟩ ⟨[], .struct, ['A']⟩ :=
  ⟨C46_before_use_partial exSame_uniq exSame_clean exSame_text
    ⟨by decide, by decide, by decide, by decide, _, rfl, by decide⟩
    (.same (by intro d _; trivial) (by decide) (by decide) (not_early exSame_uniq (by decide))
      (not_wanted exSame_uniq (by decide))),
   C46_before_use_partial exSame_uniq exSame_clean exSame_text
    ⟨by decide, by decide, by decide, by decide, _, rfl, by decide⟩
    (.kind (by decide) (by decide) (not_early exSame_uniq (by decide)))⟩

/-! ## Violations -/

/-- In a text without repetitions only one of two declarations is the first. -/
theorem Before.asymm {text : List Event} (h : (declared text).Nodup) {m n : Node} (h1 : Before text m n)
    (h2 : Before text n m) : False := by
  obtain ⟨a, b, e1, ha⟩ := h1
  obtain ⟨c, d, e2, hc⟩ := h2
  rw [e1] at h e2
  rcases List.append_eq_append_iff.mp e2 with ⟨l, rfl, hl⟩ | ⟨l, rfl, hl⟩
  · cases l with
    | nil =>
      simp only [List.nil_append, List.cons.injEq] at hl
      rw [List.append_nil] at hc
      exact (List.nodup_append.mp h).2.2 n hc n (List.mem_cons_self ..) rfl
    | cons x l =>
      simp only [List.cons_append, List.cons.injEq] at hl
      have := (List.nodup_append.mp h).2.2 m ha m (by rw [hl.2]; simp)
      exact this rfl
  · have hn : n ∈ c ++ l := List.mem_append_left _ hc
    exact (List.nodup_append.mp h).2.2 n hn n (List.mem_cons_self ..) rfl

/-- The claim C46 fails for this tree: a declaration that uses `m` stands before that of `m`. -/
def Violated (root : Mod Decl) (n m : Node) : Prop :=
  root.uniq ∧ Clean root ∧ ∃ text, Generates root text ∧ Uses root n m ∧ ¬ Before text m n

theorem violated_of {root : Mod Decl} {text : List Event} {n m : Node} (hu : root.uniq) (hc : Clean root)
    (hg : Generates root text) (huse : Uses root n m) (h : Before text n m) : Violated root n m :=
  ⟨hu, hc, text, hg, huse, fun h' => (C45_exactly_once_partial hu hc.named hg).1 |> fun hnd => h'.asymm hnd h⟩

/-- C46 does not hold: a `typedef` of an enumeration stands before the enumeration, as kinds are printed in a fixed
order. -/
theorem C46_violated_kind : Violated exIdl ⟨[], .alias, ['L']⟩ ⟨[], .enum, ['E']⟩ :=
  violated_of exIdl_uniq exIdl_clean exIdl_text ⟨by decide, by decide, by decide, by decide, _, rfl, by decide⟩
    ⟨[⟨[['B']], .struct, ['T']⟩, ⟨[], .alias, ['L']⟩, ⟨[], .const, ['K']⟩], [⟨[], .struct, ['S']⟩, ⟨[['A']], .struct, ['U']⟩,
      ⟨[['A']], .struct, ['V']⟩], rfl, by decide⟩

/-- `struct A { B b; }; struct B { C c; }; struct C {};` -/
def exChain : Mod Decl := .mk
  { structs := [(['A'], ⟨.struct "A" (.cons "b" (.struct "B" (.cons "c" (.struct "C" .nil) .nil)) .nil), none⟩),
      (['B'], ⟨.struct "B" (.cons "c" (.struct "C" .nil) .nil), none⟩),
      (['C'], ⟨.struct "C" .nil, none⟩)] } []

theorem exChain_uniq : exChain.uniq := by
  simp only [exChain, Mod.uniq, innerUniq]
  refine ⟨?_, by decide, trivial⟩
  intro k; cases k <;> decide

theorem exChain_clean : Clean exChain := clean_of exChain_uniq (by decide) (by decide) (by decide) (by decide)

/-- C46 does not hold: the structures `A` needs are printed in the order in which they are found, each before those it
needs itself. The text is `struct B { C c; }; struct C {}; struct A { B b; };`. -/
theorem C46_violated_chain : Violated exChain ⟨[], .struct, ['B']⟩ ⟨[], .struct, ['C']⟩ :=
  violated_of exChain_uniq exChain_clean
    (text := [.decl ⟨[], .struct, ['B']⟩, .decl ⟨[], .struct, ['C']⟩, .decl ⟨[], .struct, ['A']⟩])
    (generates_of (fuel := 3) (by decide) (by decide))
    ⟨by decide, by decide, by decide, by decide, _, rfl, by decide⟩
    ⟨[⟨[], .struct, ['B']⟩], [⟨[], .struct, ['A']⟩], rfl, by decide⟩

/-- `module A { typedef sequence<B::S> L; }; module B { struct S {}; };` -/
def exColl : Mod Decl := .mk {}
  [(['A'], some (.mk { aliases := [(['L'], ⟨.alias "A::L" (.seq (.struct "B::S" .nil) 0), none⟩)] } [])),
   (['B'], some (.mk { structs := [(['S'], ⟨.struct "B::S" .nil, none⟩)] } []))]

theorem exColl_uniq : exColl.uniq := by
  simp only [exColl, Mod.uniq, innerUniq]
  refine ⟨?_, by decide, ⟨?_, by decide, trivial⟩, ⟨?_, by decide, trivial⟩, trivial⟩ <;>
    · intro k; cases k <;> decide

theorem exColl_clean : Clean exColl := clean_of exColl_uniq (by decide) (by decide) (by decide) (by decide)

/-- C46 does not hold: no dependency is recorded for a `typedef` of a collection. -/
theorem C46_violated_collection : Violated exColl ⟨[['A']], .alias, ['L']⟩ ⟨[['B']], .struct, ['S']⟩ :=
  violated_of exColl_uniq exColl_clean
    (text := [.open [['A']], .decl ⟨[['A']], .alias, ['L']⟩, .close [['A']], .open [['B']],
      .decl ⟨[['B']], .struct, ['S']⟩, .close [['B']]])
    (generates_of (fuel := 3) (by decide) (by decide))
    ⟨by decide, by decide, by decide, by decide, _, rfl, by decide⟩
    ⟨[⟨[['A']], .alias, ['L']⟩], [], rfl, by decide⟩

/-- `struct S { T t; }; struct T {}; struct Z { M::U u; }; module M { struct U { S s; }; };` -/
def exEarly : Mod Decl :=
  let T : Ty := .struct "T" .nil
  let S : Ty := .struct "S" (.cons "t" T .nil)
  let U : Ty := .struct "M::U" (.cons "s" S .nil)
  .mk { structs := [(['S'], ⟨S, none⟩), (['T'], ⟨T, none⟩), (['Z'], ⟨.struct "Z" (.cons "u" U .nil), none⟩)] }
    [(['M'], some (.mk { structs := [(['U'], ⟨U, none⟩)] } []))]

theorem exEarly_uniq : exEarly.uniq := by
  simp only [exEarly, Mod.uniq, innerUniq]
  refine ⟨?_, by decide, ⟨?_, by decide, trivial⟩, trivial⟩ <;>
    · intro k; cases k <;> decide

theorem exEarly_clean : Clean exEarly := clean_of exEarly_uniq (by decide) (by decide) (by decide) (by decide)

/-- C46 does not hold: the elements a submodule needs from its outer module are printed in the order of the outer module,
without those they need themselves. -/
theorem C46_violated_early : Violated exEarly ⟨[], .struct, ['S']⟩ ⟨[], .struct, ['T']⟩ :=
  violated_of exEarly_uniq exEarly_clean
    (text := [.decl ⟨[], .struct, ['S']⟩, .decl ⟨[], .struct, ['T']⟩, .open [['M']],
      .decl ⟨[['M']], .struct, ['U']⟩, .close [['M']], .decl ⟨[], .struct, ['Z']⟩])
    (generates_of (fuel := 3) (by decide) (by decide))
    ⟨by decide, by decide, by decide, by decide, _, rfl, by decide⟩
    ⟨[⟨[], .struct, ['S']⟩], [⟨[['M']], .struct, ['U']⟩, ⟨[], .struct, ['Z']⟩], rfl, by decide⟩

/-- `struct R { A::T t; }; struct S {}; module A { struct S {}; struct T { ::S s; }; };` -/
def exShadow : Mod Decl :=
  let S : Ty := .struct "S" .nil
  let T : Ty := .struct "A::T" (.cons "s" S .nil)
  .mk { structs := [(['R'], ⟨.struct "R" (.cons "t" T .nil), none⟩), (['S'], ⟨S, none⟩)] }
    [(['A'], some (.mk { structs := [(['S'], ⟨.struct "A::S" .nil, none⟩), (['T'], ⟨T, none⟩)] } []))]

theorem exShadow_uniq : exShadow.uniq := by
  simp only [exShadow, Mod.uniq, innerUniq]
  refine ⟨?_, by decide, ⟨?_, by decide, trivial⟩, trivial⟩ <;>
    · intro k; cases k <;> decide

theorem exShadow_clean : Clean exShadow := clean_of exShadow_uniq (by decide) (by decide) (by decide) (by decide)

/-- C46 does not hold: a type of the root is taken for the type of the same name in the module that uses it. -/
theorem C46_violated_shadow : Violated exShadow ⟨[['A']], .struct, ['T']⟩ ⟨[], .struct, ['S']⟩ :=
  violated_of exShadow_uniq exShadow_clean
    (text := [.open [['A']], .decl ⟨[['A']], .struct, ['S']⟩, .decl ⟨[['A']], .struct, ['T']⟩, .close [['A']],
      .decl ⟨[], .struct, ['S']⟩, .decl ⟨[], .struct, ['R']⟩])
    (generates_of (fuel := 3) (by decide) (by decide))
    ⟨by decide, by decide, by decide, by decide, _, rfl, by decide⟩
    ⟨[⟨[['A']], .struct, ['S']⟩, ⟨[['A']], .struct, ['T']⟩], [⟨[], .struct, ['R']⟩], rfl, by decide⟩

end Verif.Idl.Dep
