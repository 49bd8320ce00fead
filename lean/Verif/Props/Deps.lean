import Verif.Lemmas.DepSolve
import Verif.Lemmas.DepSeen
/-!
# Generated IDL (C45, C46)
-/

namespace Verif.Idl.Dep

/-! ## Example trees -/

/-- `module B { struct T { int32 x; }; };` -/
def exT : Ty := .struct "B::T" (.cons "x" (.prim .i32) .nil)
/-- `enum E { X };` -/
def exE : Ty := .enum "E" .w4 [("X", 0)]
/-- A tree with every kind of reference: to a sibling module, to an outer module, to an inner module. -/
def exIdl : Mod Decl := .mk
  { enums := [(['E'], ⟨exE, none⟩)]
    consts := [(['K'], ⟨.prim .i32, none⟩), (['X'], ⟨.prim .u32, none⟩)]
    fromEnum := [['X']]
    aliases := [(['L'], ⟨.alias "L" exE, none⟩)]
    structs := [(['S'], ⟨.struct "S" (.cons "m" (.seq exT 0) .nil), none⟩)] }
  [(['A'], some (.mk { structs := [(['U'], ⟨.struct "A::U" (.cons "m" exT (.cons "e" exE .nil)), none⟩),
      (['V'], ⟨.struct "A::V" .nil, none⟩)] } [])),
   (['B'], some (.mk { structs := [(['T'], ⟨exT, none⟩)] } [(['C'], some (.mk {} []))]))]

theorem named_of_mods {root : Mod Decl} (hu : root.uniq) (h : ∀ p ∈ mods [] root, [] ∉ p) : Named root :=
  fun p hp => h p ((mem_mods_root hu p).mpr hp)

theorem exIdl_uniq : exIdl.uniq := by
  simp only [exIdl, Mod.uniq, innerUniq]
  refine ⟨?_, by decide, ⟨?_, by decide, trivial⟩, ⟨?_, by decide, ⟨?_, by decide, trivial⟩, trivial⟩, trivial⟩ <;>
    · intro k; cases k <;> decide

theorem exIdl_named : Named exIdl := named_of_mods exIdl_uniq (by decide)

/-- The text of the example. -/
def exText : List Event :=
  let C : Loc := [['C'], ['B']]
  [.open [['B']], .decl ⟨[['B']], .struct, ['T']⟩, .open C, .close C, .close [['B']],
   .decl ⟨[], .alias, ['L']⟩, .decl ⟨[], .const, ['K']⟩, .decl ⟨[], .enum, ['E']⟩, .decl ⟨[], .struct, ['S']⟩,
   .open [['A']], .decl ⟨[['A']], .struct, ['U']⟩, .decl ⟨[['A']], .struct, ['V']⟩, .close [['A']]]

set_option maxRecDepth 8192 in
theorem exIdl_text : Generates exIdl exText :=
  ⟨by decide, _, 5, _, rfl, rfl, by decide⟩

/-- Two modules that need each other: `module A { struct S { B::T t; }; struct V {}; };` and
`module B { struct T {}; struct U { A::V v; }; };` -/
def exLoop : Mod Decl := .mk {}
  [(['A'], some (.mk { structs := [(['S'], ⟨.struct "A::S" (.cons "t" (.struct "B::T" .nil) .nil), none⟩),
      (['V'], ⟨.struct "A::V" .nil, none⟩)] } [])),
   (['B'], some (.mk { structs := [(['T'], ⟨.struct "B::T" .nil, none⟩),
      (['U'], ⟨.struct "B::U" (.cons "v" (.struct "A::V" .nil) .nil), none⟩)] } []))]

theorem exLoop_uniq : exLoop.uniq := by
  simp only [exLoop, Mod.uniq, innerUniq]
  refine ⟨?_, by decide, ⟨?_, by decide, trivial⟩, ⟨?_, by decide, trivial⟩, trivial⟩ <;>
    · intro k; cases k <;> decide

theorem exLoop_named : Named exLoop := named_of_mods exLoop_uniq (by decide)

/-! ## C45 -/

/-- C45: exactly when the generator returns: no submodule is null, every name can be found, and there is no cycle of
sibling modules that need each other. In the last case the generator recurses for ever. -/
theorem C45_returns_iff {root : Mod Decl} (hu : root.uniq) (hn : Named root) :
    (∃ text, Generates root text) ↔ root.full = true ∧
      (∀ n z, Names root n z → Local root n z ∨ (search root z).isSome) ∧
      ¬ ∃ m, Relation.TransGen (Needs root) m m := by
  constructor
  · rintro ⟨text, hf, t, fuel, s, hs, hgen, rfl⟩
    refine ⟨hf, (solve_some hu).mp (by rw [hs]; rfl), ?_⟩
    rintro ⟨m, hm⟩
    have hwf := graph_wf hu hf hn (solve_ok hu hs)
    obtain ⟨hi, hroot, -⟩ := gen_root hwf hgen
    have hin : ∀ p q, q ∈ innersAt root p ↔ ∃ x, q = x :: p ∧ (root.at q).isSome :=
      fun p q => mem_innersAt hu hf
    have hall : ∀ p, (root.at p).isSome → p ∈ s.iter := by
      intro p
      induction p with
      | nil => intro _; exact hroot
      | cons x r ih =>
        intro hx
        have := ih (at_tail hx)
        exact (hi.closed r this).2 _ ((hin r _).mpr ⟨x, rfl, hx⟩)
    have hedge : ∀ a b, Needs root a b → b ∈ (graph root t).modAncOf a := by
      intro a b h
      have := (solve_modAnc hu hs a b).mpr h
      simp only [Gr.modAncOf, graph, List.mem_map, List.mem_filter, decide_eq_true_eq]
      exact ⟨(a, b), ⟨this, rfl⟩, rfl⟩
    have hmat : (root.at m).isSome := by
      rcases Relation.TransGen.tail'_iff.mp hm with ⟨c, -, hc⟩
      obtain ⟨x, y, r, n, z, m', rfl, rfl, -, -, h2, -, -, hse⟩ := hc
      exact at_suffix h2 ((mem_mods_root hu _).mp (search_some hse).2.2.2)
    have := gen_cycle (g := graph root t) (fun c => Relation.TransGen (Needs root) c c) (by
      intro c hc
      obtain ⟨b, hb, hr⟩ := Relation.TransGen.head'_iff.mp hc
      refine ⟨b, hedge _ _ hb, ?_⟩
      exact Relation.TransGen.tail' hr hb) fuel [] {} s hgen (by intro c _ h; cases h)
    exact this.2 m hm (hall m hmat)
  · rintro ⟨hf, hres, hac⟩
    have hsome := (solve_some hu).mpr hres
    rw [Option.isSome_iff_exists] at hsome
    obtain ⟨t, hs⟩ := hsome
    have hwf := graph_wf hu hf hn (solve_ok hu hs)
    have hin : ∀ p q, q ∈ innersAt root p ↔ ∃ x, q = x :: p ∧ (root.at q).isSome :=
      fun p q => mem_innersAt hu hf
    obtain ⟨f, s, hgen⟩ := gen_acyclic hwf (mods [] root)
      (by
        intro p _ q hq
        obtain ⟨x, -, hx⟩ := (hin p q).mp hq
        exact (mem_mods_root hu q).mpr hx)
      (by
        intro x r hx
        exact (mem_mods_root hu r).mpr (at_tail ((mem_mods_root hu _).mp hx)))
      (by
        intro p hp
        apply hac
        refine ⟨p, Relation.TransGen.mono ?_ _ _ hp⟩
        intro a b hb
        simp only [Gr.modAncOf, graph, List.mem_map, List.mem_filter, decide_eq_true_eq] at hb
        obtain ⟨⟨a', b'⟩, ⟨hm, rfl⟩, rfl⟩ := hb
        exact (solve_modAnc hu hs _ _).mp hm)
      [] ((mem_mods_root hu []).mpr rfl) {}
    exact ⟨s.out, hf, t, f, s, hs, hgen, rfl⟩

/-- The example tree has a text. -/
example : ∃ text, Generates exIdl text := ⟨_, exIdl_text⟩

/-- Two modules that need each other have none, although no element depends on itself. -/
example : ¬ ∃ text, Generates exLoop text := by
  rw [C45_returns_iff exLoop_uniq exLoop_named]
  rintro ⟨-, -, h⟩
  have h1 : Needs exLoop [['A']] [['B']] :=
    ⟨['A'], ['B'], [], ⟨[['A']], .struct, ['S']⟩, "B::T".toList, ⟨[['B']], .struct, ['T']⟩, rfl, rfl, by decide,
      by decide, by decide, ⟨_, rfl, by decide⟩, (by unfold Local; decide), by decide⟩
  have h2 : Needs exLoop [['B']] [['A']] :=
    ⟨['B'], ['A'], [], ⟨[['B']], .struct, ['U']⟩, "A::V".toList, ⟨[['A']], .struct, ['V']⟩, rfl, rfl, by decide,
      by decide, by decide, ⟨_, rfl, by decide⟩, (by unfold Local; decide), by decide⟩
  exact h ⟨_, .tail (.single h1) h2⟩

theorem isFake_iff {root : Mod Decl} {n : Node} : isFake root n = false ↔ ¬ EnumeratorConst root n := by
  unfold isFake EnumeratorConst
  cases h : root.at n.loc <;> simp

instance (root : Mod Decl) (n : Node) : Decidable (EnumeratorConst root n) :=
  decidable_of_iff (¬ isFake root n = false)
    ⟨fun h => Classical.not_not.mp fun hn => h (isFake_iff.mpr hn), fun h hf => isFake_iff.mp hf h⟩

/-- C45, partial: whenever the generator returns a text, that text declares every alias, constant, enumeration,
structure and union of every module of the tree exactly once (constants that stand for enumerators are not declared),
opens every module exactly once, and every declaration stands in the scope of the module it belongs to.
Missing: module trees for which the generator does not return (`C45_returns_iff`), and trees that contain a module with an
empty name. -/
theorem C45_exactly_once_partial {root : Mod Decl} {text : List Event} (hu : root.uniq) (hn : Named root)
    (h : Generates root text) :
    (declared text).Nodup ∧ (∀ n, n ∈ declared text ↔ (declOf root n).isSome ∧ ¬ EnumeratorConst root n) ∧
    (opened text).Nodup ∧ (∀ p, p ∈ opened text ↔ p ≠ [] ∧ (root.at p).isSome) ∧
    place [] text = some [] := by
  obtain ⟨hf, t, fuel, s, hs, hgen, rfl⟩ := h
  have hwf := graph_wf hu hf hn (solve_ok hu hs)
  obtain ⟨hi, hroot, hp, hperm, hit, hreal⟩ := gen_root hwf hgen
  have hin : ∀ p q, q ∈ innersAt root p ↔ ∃ x, q = x :: p ∧ (root.at q).isSome :=
    fun p q => mem_innersAt hu hf
  have hall : ∀ p, (root.at p).isSome → p ∈ s.iter := by
    intro p
    induction p with
    | nil => intro _; exact hroot
    | cons x r ih =>
      intro hx
      have := ih (at_tail hx)
      exact (hi.closed r this).2 _ ((hin r _).mpr ⟨x, rfl, hx⟩)
  refine ⟨?_, ?_, ?_, ?_, hp⟩
  · have : ((graph root t).real s.done).Nodup := hi.done.sublist List.filter_sublist
    rw [hreal] at this
    exact (List.reverse_perm _).nodup_iff.mp this
  · intro n
    have h1 : n ∈ declared s.out ↔ n ∈ s.done ∧ isFake root n = false := by
      have : n ∈ declared s.out ↔ n ∈ (graph root t).real s.done := by rw [hreal, List.mem_reverse]
      rw [this, Gr.real, List.mem_filter]
      simp [graph]
    rw [h1, isFake_iff]
    apply and_congr_left
    intro _
    constructor
    · intro hd
      exact (mem_nodesAt.mp (hi.nodes n hd)).2
    · intro hd
      have hm : n ∈ nodesAt root n.loc := mem_nodesAt.mpr ⟨rfl, hd⟩
      exact (hi.closed _ (hall _ (nodesAt_at hm))).1 n hm
  · have : (closed s.out).Nodup := by
      have h1 := hi.iter
      rw [hit, List.nodup_cons] at h1
      exact (List.reverse_perm _).nodup_iff.mp h1.2
    exact hperm.nodup_iff.mpr this
  · intro p
    rw [hperm.mem_iff]
    have h1 := hi.iter
    rw [hit, List.nodup_cons] at h1
    constructor
    · intro hc
      have hne : p ≠ [] := by rintro rfl; exact h1.1 (List.mem_reverse.mpr hc)
      refine ⟨hne, ?_⟩
      rcases hi.mods p (by rw [hit]; exact List.mem_cons_of_mem _ (List.mem_reverse.mpr hc)) with e | e
      · exact absurd e hne
      · obtain ⟨x, -, hx⟩ := (hin _ _).mp e
        exact hx
    · rintro ⟨hne, hat⟩
      have := hall p hat
      rw [hit] at this
      rcases List.mem_cons.mp this with e | e
      · exact absurd e hne
      · exact List.mem_reverse.mp e

/-- The example: eight elements, of which the constant that stands for an enumerator is not declared. -/
example : (declared exText).length = 7 ∧ opened exText = [[['B']], [['C'], ['B']], [['A']]] ∧
    EnumeratorConst exIdl ⟨[], .const, ['X']⟩ ∧ (declOf exIdl ⟨[], .const, ['X']⟩).isSome ∧
    ((declared exText).Nodup ∧ ∀ n, n ∈ declared exText ↔ (declOf exIdl n).isSome ∧ ¬ EnumeratorConst exIdl n) :=
  have h := C45_exactly_once_partial exIdl_uniq exIdl_named exIdl_text
  ⟨by decide, by decide, ⟨rfl, _, rfl, by decide⟩, by decide, h.1, h.2.1⟩

end Verif.Idl.Dep
