import Verif.Lemmas.TreeRead
import Verif.Props.IdlModules
/-!
# C61: the text of a tree of modules, read back
-/

namespace Verif.Idl
open Syn Gen Text
open Dep (Event Node Kind EnumeratorConst Uses Before Covered Generates declOf)

/-- C61, partial: the IDL text generated from a tree of modules, if every type stands in it before it is used, is read by the
parser without an error, and the tree that is read is the one that was written. Missing: trees with a use that the generator
puts before the declaration (C46), trees with names, labels or values whose text does not stand for them, empty modules. -/
theorem C61_ordered_partial (c : Ctx) {root : Mod Decl} (hE : ExpressibleTree ⟨c.char, c.wide16⟩ root) {text : Bytes}
    (ht : GeneratesText root text) (hord : ∀ sk, Generates (deps root) sk → ∀ n m, Uses (deps root) n m → Before sk m n) :
    ∃ T, Reads c .empty text (T, none) ∧ SameTree (items root) T :=
  read_back c hE ht hord

/-- C61, partial: the same for the trees with uses of the kinds for which the generator keeps the order (those of
`C46_before_use_partial`). -/
theorem C61_round_trip_partial (c : Ctx) {root : Mod Decl} (hE : ExpressibleTree ⟨c.char, c.wide16⟩ root) {text : Bytes}
    (ht : GeneratesText root text) (hcov : ∀ n m, Uses (deps root) n m → Covered (deps root) n m) :
    ∃ T, Reads c .empty text (T, none) ∧ SameTree (items root) T :=
  read_back c hE ht fun _ hs n m hu => Dep.C46_before_use_partial (deps_uniq hE.sound) (deps_clean hE) hs hu (hcov n m hu)

/-- There is a text exactly when the dependency tree gives an order of the declarations (see C45). -/
theorem C61_text_iff (root : Mod Decl) : (∃ text, GeneratesText root text) ↔ ∃ sk, Generates (deps root) sk := by
  constructor
  · rintro ⟨text, hf, t, fuel, s, h1, h2, rfl⟩
    refine ⟨skeleton s.out, by rw [deps_full]; exact hf, t, fuel, s.bare, h1, ?_, rfl⟩
    have := genText_bare (Dep.graph (deps root) t) fuel 0 [] {}
    rw [h2, Option.map_some] at this
    exact this.symm
  · rintro ⟨sk, hf, t, fuel, s, h1, h2, rfl⟩
    have := genText_bare (Dep.graph (deps root) t) fuel 0 [] {}
    have h2 : Dep.gen (Dep.graph (deps root) t) fuel [] (PSt.bare {}) = some s := h2
    rw [h2] at this
    cases h3 : genText (Dep.graph (deps root) t) fuel 0 [] {} with
    | none => rw [h3] at this; cases this
    | some s' => exact ⟨_, by rw [← deps_full]; exact hf, t, fuel, s', h1, h3, rfl⟩

/-! ### Tests for the hypotheses -/

section
variable {root : Mod Decl}

/-- All modules of a tree. -/
def allMods (root : Mod Decl) : List Loc := Dep.mods [] (deps root)
/-- All elements of a tree. -/
def allElems (root : Mod Decl) : List Node := (allMods root).flatMap (Dep.nodesAt (deps root))

theorem mem_allMods (hu : (deps root).uniq) {p : Loc} (h : (root.at p).isSome) : p ∈ allMods root :=
  (Dep.mem_mods_root hu p).mpr (by rwa [deps_some])

theorem mem_allElems (hu : (deps root).uniq) {n : Node} (h : (element root n).isSome) : n ∈ allElems root :=
  Dep.all_nodes hu (by rwa [declOf_some])

/-- The enumerators of a module. -/
def enumeratorsOf (m : Mod Decl) : List Name :=
  m.content.enums.flatMap fun e => match e.2 with
    | .enum _ vs => vs.map (·.1.toList)
    | _ => []

theorem sound_of (hu : (deps root).uniq) (hf : root.full = true)
    (h1 : ∀ p ∈ allMods root, ∀ m, root.at p = some m → (∀ k, (m.content.get k).Pairwise fun a b => a.1 < b.1) ∧
      m.inner.Pairwise (fun a b => a.1 < b.1) ∧ (∀ x ∈ m.content.fromEnum, x ∈ enumeratorsOf m) ∧ ∀ x ∈ enumeratorsOf m, x ∈ m.content.fromEnum)
    (h2 : ∀ n ∈ allElems root, (element root n).map (fun d => (declKind d, (declName d).toList)) = some (n.kind, n.name))
    (h3 : ∀ n ∈ allElems root, ∀ y vs, element root n = some (.enum y vs) → ∀ e ∈ vs,
      element root ⟨n.loc, .const, e.1.toList⟩ = some (.const e.1 (.const .u32 e.2))) : Sound root := by
  have hent : ∀ n d, element root n = some d → declKind d = n.kind ∧ (declName d).toList = n.name := by
    intro n d hd
    have := h2 n (mem_allElems hu (by rw [hd]; rfl))
    rw [hd, Option.map_some, Option.some.injEq, Prod.mk.injEq] at this
    exact this
  refine ⟨hf, fun p m hm => ?_, hent, fun p m x hm => ?_, fun p n vs e he => ?_⟩
  · obtain ⟨k1, k2, _⟩ := h1 p (mem_allMods hu (by rw [hm]; rfl)) m hm
    exact ⟨k1, k2⟩
  · obtain ⟨k1, _, k3, k4⟩ := h1 p (mem_allMods hu (by rw [hm]; rfl)) m hm
    have hx : x ∈ m.content.fromEnum ↔ x ∈ enumeratorsOf m := ⟨k3 x, k4 x⟩
    rw [hx, enumeratorsOf, List.mem_flatMap]
    have hel : ∀ y d, element root ⟨p, .enum, y⟩ = some d ↔ (y, d) ∈ m.content.enums := by
      intro y d
      unfold element
      simp only [hm, Option.bind_some]
      constructor
      · intro h; exact omGet_mem h
      · intro h; exact omGet_of_mem (inc_nodup (k1 .enum)) h
    constructor
    · rintro ⟨⟨y, d⟩, he, hx⟩
      have hd := (hel y d).mpr he
      obtain ⟨j1, j2⟩ := hent _ _ hd
      cases d with
      | enum n vs =>
        simp only [declName] at j2
        subst j2
        exact ⟨n, vs, hd, hx⟩
      | _ => cases hx
    · rintro ⟨n, vs, he, hx⟩
      exact ⟨(n.toList, .enum n vs), (hel _ _).mp he, hx⟩
  · intro h
    exact h3 _ (mem_allElems hu (by rw [he]; rfl)) n vs he e h

theorem nodup_flat {α β : Type} {f : α → List β} : ∀ {l : List α}, (l.flatMap f).Nodup → ∀ {a b x}, a ∈ l → b ∈ l → x ∈ f a → x ∈ f b → a = b
  | e :: l, h, a, b, x, ha, hb, hxa, hxb => by
    rw [List.flatMap_cons, List.nodup_append] at h
    rcases List.mem_cons.mp ha with rfl | ha' <;> rcases List.mem_cons.mp hb with rfl | hb'
    · rfl
    · exact absurd rfl (h.2.2 x hxa x (List.mem_flatMap.mpr ⟨b, hb', hxb⟩))
    · exact absurd rfl (h.2.2 x hxb x (List.mem_flatMap.mpr ⟨a, ha', hxa⟩))
    · exact nodup_flat h.2.1 ha' hb' hxa hxb

theorem declares_list (hu : (deps root).uniq) (hf : root.full = true) {x : Name} {p : Loc} (h : Declares root x p) :
    x :: p ∈ (allElems root).map (fun n => n.name :: n.loc) ++ allMods root := by
  rw [declares_iff hf] at h
  rcases h with ⟨k, h⟩ | h
  · exact List.mem_append_left _ (List.mem_map.mpr ⟨_, mem_allElems hu h, rfl⟩)
  · exact List.mem_append_right _ (mem_allMods hu h)

theorem distinct_of (hu : (deps root).uniq) (hf : root.full = true)
    (h1 : ∀ n ∈ allElems root, ∀ m ∈ allElems root, n.loc = m.loc → n.name = m.name → n = m)
    (h2 : ∀ n ∈ allElems root, n.name :: n.loc ∉ allMods root)
    (h3 : ∀ a ∈ (allElems root).map (fun n => n.name :: n.loc) ++ allMods root,
      ∀ b ∈ (allElems root).map (fun n => n.name :: n.loc) ++ allMods root, a.headD [] = b.headD [] → b ≠ [] → b.tail <:+ a.tail → a ≠ [] → b = a)
    (h4 : ∀ p ∈ allMods root, ∀ m, root.at p = some m → (enumeratorsOf m).Nodup) : Distinct root := by
  have hdec := fun x p (h : Declares root x p) => declares_list hu hf h
  refine ⟨fun n m hn hm => h1 n (mem_allElems hu hn) m (mem_allElems hu hm), fun n hn => ?_, fun x p q hp hq hs => ?_, ?_⟩
  · cases h : root.at (n.name :: n.loc) with
    | none => rfl
    | some m => exact absurd (mem_allMods hu (by rw [h]; rfl)) (h2 n (mem_allElems hu hn))
  · have := h3 _ (hdec x p hp) _ (hdec x q hq) rfl (by simp) hs (by simp)
    exact (List.cons.inj this).2
  · intro p a b vs ws x ha hb hx hy
    have hp : (root.at p).isSome := element_at (n := ⟨p, .enum, a.toList⟩) (by rw [ha]; rfl)
    obtain ⟨m, hm⟩ := Option.isSome_iff_exists.mp hp
    have hn := h4 p (mem_allMods hu hp) m hm
    unfold element at ha hb
    simp only [hm, Option.bind_some] at ha hb
    by_contra hab
    have hda := omGet_mem ha
    have hdb := omGet_mem hb
    obtain ⟨e, he, rfl⟩ := List.mem_map.mp hx
    obtain ⟨e', he', h'⟩ := List.mem_map.mp hy
    have := nodup_flat hn hda hdb (x := e.1.toList) (List.mem_map.mpr ⟨e, he, rfl⟩) (List.mem_map.mpr ⟨e', he', by rw [h']⟩)
    rw [Prod.mk.injEq, String.toList_inj] at this
    exact hab this.1

/-- A test for `Uses`. -/
def uses? (root : Mod Decl) (n m : Node) : Bool :=
  decide (n ≠ m) && decide (m.kind ≠ .const) && (element root m).isSome && !Dep.isFake (deps root) n &&
    match element root n with
    | some d => decide (scopedName m.loc m.name ∈ Dep.printedNames n.kind (depDecl n.loc d))
    | none => false

theorem uses_of {n m : Node} (h : Uses (deps root) n m) : uses? root n m = true := by
  obtain ⟨h1, h2, h3, h4, d, h5, h6⟩ := h
  rw [declOf_some] at h3
  rw [deps_declOf] at h5
  cases hn : element root n with
  | none => rw [hn] at h5; cases h5
  | some e =>
    rw [hn, Option.map_some, Option.some.injEq] at h5
    subst h5
    have hf : Dep.isFake (deps root) n = false := Dep.isFake_iff.mpr h4
    simp [uses?, h1, h2, h3, hf, hn, h6]

/-- The uses of a tree. -/
def allUses (root : Mod Decl) : List (Node × Node) :=
  (allElems root).flatMap fun n => ((allElems root).filter fun m => uses? root n m).map fun m => (n, m)

theorem mem_allUses (hu : (deps root).uniq) {n m : Node} (h : Uses (deps root) n m) : (n, m) ∈ allUses root := by
  have h1 : (element root n).isSome := by rw [← declOf_some]; obtain ⟨_, _, _, _, d, h, _⟩ := h; rw [h]; rfl
  have h2 : (element root m).isSome := by rw [← declOf_some]; exact h.2.2.1
  exact List.mem_flatMap.mpr ⟨n, mem_allElems hu h1, List.mem_map.mpr ⟨m, List.mem_filter.mpr ⟨mem_allElems hu h2, uses_of h⟩, rfl⟩⟩

end

/-! ### A tree that meets the hypotheses -/

/-- The type of an enumeration `geo::Color`. -/
def exColor : Ty := .enum "geo::Color" .w4 [("blue", 0), ("red", 1)]

/-- A structure `geo::solid::Box` -/
def exBox : Ty := .struct "geo::solid::Box" (.ofList [("corner", exPoint), ("others", .seq exPoint 7)])

/-- A structure `Mark` -/
def exMark : Ty := .struct "Mark" (.ofList [("x", .prim .f64), ("y", .prim .f64), ("color", exColor)])

/-- A union `Figure` -/
def exFigure : UnionB :=
  match UnionB.new "Figure" exColor with
  | some u => ((u.addCase [1] "point" exPoint false).1.addCase [] "box" exBox true).1
  | none => ⟨"", ⟨[], []⟩, [], 0, 0, 0, 0, 0⟩

/-- A tree with a module `geo`, in which there are a structure, an enumeration, a constant and a module `solid`; and a structure
that inherits from one of `geo`, a structure that has a sequence of the former, a union and an alias. -/
def exTree : Mod Decl := .mk
  { structs := [("Atlas".toList, .struct "Atlas" none [("box", exBox), ("marks", .seq exMark 0)]),
      ("Mark".toList, .struct "Mark" (some ("geo::Point", 2)) [("x", .prim .f64), ("y", .prim .f64), ("color", exColor)])]
    unions := [("Figure".toList, .union "Figure" exFigure)]
    aliases := [("Corner".toList, .alias "Corner" exPoint)] }
  [("geo".toList, some (.mk
    { structs := [("Point".toList, .struct "Point" none [("x", .prim .f64), ("y", .prim .f64)])]
      enums := [("Color".toList, .enum "Color" [("blue", 0), ("red", 1)])]
      consts := [("blue".toList, .const "blue" (.const .u32 0)), ("limit".toList, .const "limit" (.const .i32 7)),
        ("red".toList, .const "red" (.const .u32 1))]
      fromEnum := ["red".toList, "blue".toList] }
    [("solid".toList, some (.mk
      { structs := [("Box".toList, .struct "Box" none [("corner", exPoint), ("others", .seq exPoint 7)])] } []))]))]

/-- The modules of the tree. -/
def exLocs : List Loc := [[], ["geo".toList], ["solid".toList, "geo".toList]]

/-- The elements of the tree. -/
def exNodes : List Node :=
  [⟨[], .alias, "Corner".toList⟩, ⟨[], .struct, "Atlas".toList⟩, ⟨[], .struct, "Mark".toList⟩, ⟨[], .union, "Figure".toList⟩,
   ⟨["geo".toList], .const, "blue".toList⟩, ⟨["geo".toList], .const, "limit".toList⟩, ⟨["geo".toList], .const, "red".toList⟩,
   ⟨["geo".toList], .enum, "Color".toList⟩, ⟨["geo".toList], .struct, "Point".toList⟩,
   ⟨["solid".toList, "geo".toList], .struct, "Box".toList⟩]

theorem exTree_mods : allMods exTree = exLocs := by decide +kernel
theorem exTree_elems : allElems exTree = exNodes := by decide +kernel

theorem exTree_uniq : (deps exTree).uniq := by
  simp only [deps, exTree, Mod.mapAt, mapInner, Mod.uniq, innerUniq]
  refine ⟨?_, by decide, ⟨?_, by decide, ⟨?_, by decide, trivial⟩, trivial⟩, trivial⟩ <;>
    · intro k; cases k <;> decide

theorem exTree_sound : Sound exTree := by
  refine sound_of exTree_uniq (by decide) ?_ ?_ ?_
  · rw [exTree_mods]
    intro p hp m hm
    simp only [exLocs, List.mem_cons, List.not_mem_nil, or_false] at hp
    rcases hp with rfl | rfl | rfl <;>
    · have hm := (Option.some.inj hm).symm
      subst hm
      exact ⟨fun k => by cases k <;> decide, by decide, by decide, by decide⟩
  · rw [exTree_elems]; decide
  · rw [exTree_elems]
    intro n hn y vs h e he
    simp only [exNodes, List.mem_cons, List.not_mem_nil, or_false] at hn
    rcases hn with rfl | rfl | rfl | rfl | rfl | rfl | rfl | rfl | rfl | rfl
    all_goals first
      | (have h := Option.some.inj h
         cases h
         done)
      | (have h := (Decl.enum.injEq .. ▸ Option.some.inj h)
         obtain ⟨rfl, rfl⟩ := h
         simp only [List.mem_cons, List.not_mem_nil, or_false] at he
         rcases he with rfl | rfl <;> rfl)

theorem exTree_distinct : Distinct exTree := by
  refine distinct_of exTree_uniq (by decide) ?_ ?_ ?_ ?_
  · rw [exTree_elems]; decide
  · rw [exTree_elems, exTree_mods]; decide
  · rw [exTree_elems, exTree_mods]; decide
  · rw [exTree_mods]
    intro p hp m hm
    simp only [exLocs, List.mem_cons, List.not_mem_nil, or_false] at hp
    rcases hp with rfl | rfl | rfl <;>
    · have hm := (Option.some.inj hm).symm
      subst hm
      decide

theorem known_point : TypeName "geo::Point" ∧ Known exTree "geo::Point" exPoint :=
  ⟨typeName_scoped ["geo", "Point"] (by decide) (by decide) (by decide +kernel),
    ⟨["geo".toList], .struct, "Point".toList⟩, _, rfl, by decide, by decide⟩
theorem known_color : TypeName "geo::Color" ∧ Known exTree "geo::Color" exColor :=
  ⟨typeName_scoped ["geo", "Color"] (by decide) (by decide) (by decide +kernel),
    ⟨["geo".toList], .enum, "Color".toList⟩, _, rfl, by decide, by decide⟩
theorem known_box : TypeName "geo::solid::Box" ∧ Known exTree "geo::solid::Box" exBox :=
  ⟨typeName_scoped ["geo", "solid", "Box"] (by decide) (by decide) (by decide +kernel),
    ⟨["solid".toList, "geo".toList], .struct, "Box".toList⟩, _, rfl, by decide, by decide⟩
theorem known_mark : TypeName "Mark" ∧ Known exTree "Mark" exMark :=
  ⟨typeName_scoped ["Mark"] (by decide) (by decide) (by decide +kernel),
    ⟨[], .struct, "Mark".toList⟩, _, rfl, by decide, by decide⟩

theorem exTree_ok : ExpressibleTree ⟨.c8, false⟩ exTree := by
  have mem : ∀ (p : Loc) (x : String), usable? x = true → symbolCount exTree p x.toList = 0 → MemberName exTree p x :=
    fun p x h1 h2 => ⟨usable_of h1, symbolCount_zero.mp h2⟩
  refine ⟨exTree_sound, exTree_distinct, ?_, ?_, ?_⟩
  · intro x p h
    have := declares_list exTree_uniq exTree_sound.full h
    rw [exTree_elems, exTree_mods] at this
    have ht : ∀ a ∈ exNodes.map (fun n => n.name :: n.loc) ++ exLocs, a ≠ [] → usable? (String.ofList (a.headD [])) = true := by decide +kernel
    have h1 := ht (x :: p) this (List.cons_ne_nil _ _)
    rw [List.headD_cons] at h1
    exact usable_of h1
  · intro p hp
    have hp := mem_allMods exTree_uniq hp
    rw [exTree_mods] at hp
    simp only [exLocs, List.mem_cons, List.not_mem_nil, or_false] at hp
    rcases hp with rfl | rfl | rfl
    · exact ⟨_, rfl, .inl (by decide)⟩
    · exact ⟨_, rfl, .inl (by decide)⟩
    · exact ⟨_, rfl, .inr (.inl ⟨.struct, by decide, by decide⟩)⟩
  · intro n d hd hf
    have hn := mem_allElems exTree_uniq (show (element exTree n).isSome by rw [hd]; rfl)
    rw [exTree_elems] at hn
    simp only [exNodes, List.mem_cons, List.not_mem_nil, or_false] at hn
    rcases hn with rfl | rfl | rfl | rfl | rfl | rfl | rfl | rfl | rfl | rfl <;> have hd := (Option.some.inj hd).symm <;> subst hd
    · exact ⟨trivial, trivial, known_point⟩
    · refine ⟨by decide, by simp, fun e he => ?_⟩
      simp only [Option.map_none, Option.getD_none, List.drop_zero, List.mem_cons, List.not_mem_nil, or_false] at he
      rcases he with rfl | rfl
      · exact ⟨mem _ _ (by decide +kernel) (by decide +kernel), trivial, trivial, known_box⟩
      · exact ⟨mem _ _ (by decide +kernel) (by decide +kernel), trivial, trivial, known_mark, by decide⟩
    · refine ⟨by decide, ?_, fun e he => ?_⟩
      · rintro x hx
        rw [Option.some.injEq] at hx
        subst hx
        exact ⟨known_point.1, by decide, by decide, ["geo".toList], "Point", none, rfl, by decide⟩
      · simp only [Option.map_some, Option.getD_some, List.drop_succ_cons, List.drop_zero, List.mem_cons, List.not_mem_nil, or_false] at he
        subst he
        exact ⟨mem _ _ (by decide +kernel) (by decide +kernel), trivial, trivial, known_color⟩
    · refine ⟨by decide, .add _ _ _ _ (.add _ _ _ _ (.new "Figure" exColor rfl)), known_color, by decide, fun e he => ?_⟩
      have he : e ∈ [("point", exPoint), ("box", exBox)] := he
      simp only [List.mem_cons, List.not_mem_nil, or_false] at he
      rcases he with rfl | rfl
      · refine ⟨mem _ _ (by decide +kernel) (by decide +kernel), ⟨trivial, trivial, known_point⟩, ⟨by decide, by decide⟩, ?_⟩
        intro v hv
        have hv : v ∈ [(1 : Int)] := hv
        simp only [List.mem_cons, List.not_mem_nil, or_false] at hv
        subst hv
        refine ⟨⟨⟨_, _, rfl⟩, by decide, ?_⟩, ?_⟩
        · intro e he hv
          simp only [List.mem_cons, List.not_mem_nil, or_false] at he
          rcases he with rfl | rfl
          · cases hv
          · exact ⟨by decide, 'r', ['e', 'd'], by decide, by decide⟩
        · intro e he hv
          simp only [List.mem_cons, List.not_mem_nil, or_false] at he
          rcases he with rfl | rfl
          · cases hv
          · refine ⟨(usable_of (s := "red") (by decide +kernel)).1, ?_, ?_, ?_⟩
            · intro r h; have h : some 'r' = some 'T' := congrArg List.head? h; revert h; decide
            · intro r h; have h : some 'r' = some 'F' := congrArg List.head? h; revert h; decide
            intro q d hq hd
            obtain rfl := List.suffix_nil.mp hq
            cases hd
      · refine ⟨mem _ _ (by decide +kernel) (by decide +kernel), ⟨trivial, trivial, known_box⟩, ⟨by decide, by decide⟩, ?_⟩
        intro v hv
        have hv : v ∈ ([] : List Int) := hv
        cases hv
    · exact absurd ⟨rfl, _, rfl, by decide⟩ hf
    · exact ⟨by decide, by decide⟩
    · exact absurd ⟨rfl, _, rfl, by decide⟩ hf
    · exact ⟨by decide, by decide, by decide, by decide⟩
    · refine ⟨by decide, by simp, fun e he => ?_⟩
      simp only [Option.map_none, Option.getD_none, List.drop_zero, List.mem_cons, List.not_mem_nil, or_false] at he
      rcases he with rfl | rfl <;>
        exact ⟨mem _ _ (by decide +kernel) (by decide +kernel), trivial, trivial, by simp [innermost, Writable]⟩
    · refine ⟨by decide, by simp, fun e he => ?_⟩
      simp only [Option.map_none, Option.getD_none, List.drop_zero, List.mem_cons, List.not_mem_nil, or_false] at he
      rcases he with rfl | rfl
      · exact ⟨mem _ _ (by decide +kernel) (by decide +kernel), trivial, trivial, known_point⟩
      · exact ⟨mem _ _ (by decide +kernel) (by decide +kernel), trivial, trivial, known_point, by decide⟩

theorem exTree_covered : ∀ n m, Uses (deps exTree) n m → Covered (deps exTree) n m := by
  intro n m h
  have h1 := mem_allUses exTree_uniq h
  have h2 : allUses exTree =
      [(⟨[], .alias, "Corner".toList⟩, ⟨["geo".toList], .struct, "Point".toList⟩),
       (⟨[], .struct, "Atlas".toList⟩, ⟨[], .struct, "Mark".toList⟩),
       (⟨[], .struct, "Atlas".toList⟩, ⟨["solid".toList, "geo".toList], .struct, "Box".toList⟩),
       (⟨[], .struct, "Mark".toList⟩, ⟨["geo".toList], .enum, "Color".toList⟩),
       (⟨[], .struct, "Mark".toList⟩, ⟨["geo".toList], .struct, "Point".toList⟩),
       (⟨[], .union, "Figure".toList⟩, ⟨["geo".toList], .enum, "Color".toList⟩),
       (⟨[], .union, "Figure".toList⟩, ⟨["geo".toList], .struct, "Point".toList⟩),
       (⟨[], .union, "Figure".toList⟩, ⟨["solid".toList, "geo".toList], .struct, "Box".toList⟩),
       (⟨["solid".toList, "geo".toList], .struct, "Box".toList⟩, ⟨["geo".toList], .struct, "Point".toList⟩)] := by decide +kernel
  rw [h2] at h1
  have nearly : ∀ a ∈ exNodes, a.loc = [] → ¬ Dep.Early (deps exTree) a := by
    intro a ha hl
    refine Dep.not_early exTree_uniq ?_
    have : ∀ a ∈ exNodes, a.loc = [] → ∀ e ∈ Dep.deps (deps exTree),
        ¬ (a.loc <:+ e.1.loc ∧ a.loc ≠ e.1.loc ∧ Dep.search (deps exTree) e.2 = some a) := by decide +kernel
    exact this a ha hl
  clear h h2
  simp only [List.mem_cons, List.not_mem_nil, or_false, Prod.mk.injEq] at h1
  rcases h1 with ⟨rfl, rfl⟩ | ⟨rfl, rfl⟩ | ⟨rfl, rfl⟩ | ⟨rfl, rfl⟩ | ⟨rfl, rfl⟩ | ⟨rfl, rfl⟩ | ⟨rfl, rfl⟩ | ⟨rfl, rfl⟩ | ⟨rfl, rfl⟩
  · refine .inner ?_ (by decide) (by decide) (nearly _ (by decide) rfl)
    intro d hd
    have hd := (Option.some.inj hd).symm
    subst hd
    exact ⟨_, _, rfl, by decide⟩
  · exact .same (by intro d _; trivial) rfl rfl (nearly _ (by decide) rfl) (Dep.not_wanted exTree_uniq (by decide +kernel))
  · exact .inner (by intro d _; trivial) (by decide) (by decide) (nearly _ (by decide) rfl)
  · exact .inner (by intro d _; trivial) (by decide) (by decide) (nearly _ (by decide) rfl)
  · exact .inner (by intro d _; trivial) (by decide) (by decide) (nearly _ (by decide) rfl)
  · exact .inner (by intro d _; trivial) (by decide) (by decide) (nearly _ (by decide) rfl)
  · exact .inner (by intro d _; trivial) (by decide) (by decide) (nearly _ (by decide) rfl)
  · exact .inner (by intro d _; trivial) (by decide) (by decide) (nearly _ (by decide) rfl)
  · exact .outer (by intro d _; trivial) (by decide) (by decide) (by intro h; cases h)

/-- The text that is generated, if it is within a number of calls. -/
def textFor (root : Mod Decl) (fuel : Nat) : Option Bytes :=
  (Dep.solve (deps root)).bind fun t => (genText (Dep.graph (deps root) t) fuel 0 [] {}).map fun s => (s.out.map (pieceText root)).flatten

theorem text_of {root : Mod Decl} {fuel : Nat} {text : Bytes} (hf : root.full = true) (h : textFor root fuel = some text) :
    GeneratesText root text := by
  unfold textFor at h
  cases h1 : Dep.solve (deps root) with
  | none => rw [h1] at h; cases h
  | some t =>
    rw [h1, Option.bind_some] at h
    cases h2 : genText (Dep.graph (deps root) t) fuel 0 [] {} with
    | none => rw [h2] at h; cases h
    | some s =>
      rw [h2, Option.map_some, Option.some.injEq] at h
      exact ⟨hf, t, fuel, s, h1, h2, h.symm⟩

/-- The text of the tree. -/
def exTreeText : Bytes := bytes "module geo
{
    const int32 limit = 7;

    enum Color
    {
        blue,
        red
    };

    struct Point
    {
        double x;
        double y;
    };

    module solid
    {
        struct Box
        {
            geo::Point corner;
            sequence<geo::Point, 7> others;
        };
    };
};

typedef geo::Point Corner;

struct Mark : geo::Point
{
    geo::Color color;
};

struct Atlas
{
    geo::solid::Box box;
    sequence<Mark> marks;
};

union Figure switch (geo::Color)
{
    case red:
        geo::Point point;
    default:
        geo::solid::Box box;
};
"

theorem exTree_text : GeneratesText exTree exTreeText := text_of (fuel := 9) (by decide) (by decide +kernel)

example : ∃ T, Reads {} .empty exTreeText (T, none) ∧ SameTree (items exTree) T :=
  C61_round_trip_partial {} exTree_ok exTree_text exTree_covered

/-! ## Where the round trip fails -/

/-- `struct S { int32 x; }; typedef S L;` -/
def exLate : Mod Decl := .mk
  { structs := [("S".toList, .struct "S" none [("x", .prim .i32)])]
    aliases := [("L".toList, .alias "L" (.struct "S" (.ofList [("x", .prim .i32)])))] } []

theorem exLate_ok : ExpressibleTree ⟨.c8, false⟩ exLate := by
  have hu : (deps exLate).uniq := by
    simp only [deps, exLate, Mod.mapAt, mapInner, Mod.uniq, innerUniq]
    exact ⟨by intro k; cases k <;> decide, by decide, trivial⟩
  have hm : allMods exLate = [[]] := by decide +kernel
  have he : allElems exLate = [⟨[], .alias, "L".toList⟩, ⟨[], .struct, "S".toList⟩] := by decide +kernel
  have hS : Sound exLate := by
    refine sound_of hu (by decide) ?_ ?_ ?_
    · rw [hm]
      intro p hp m hm
      obtain rfl := List.mem_singleton.mp hp
      have hm := (Option.some.inj hm).symm
      subst hm
      exact ⟨fun k => by cases k <;> decide, by decide, by decide, by decide⟩
    · rw [he]; decide
    · rw [he]
      intro n hn y vs h e _
      simp only [List.mem_cons, List.not_mem_nil, or_false] at hn
      rcases hn with rfl | rfl <;> · have h := Option.some.inj h; cases h
  have hk : TypeName "S" ∧ Known exLate "S" (.struct "S" (.ofList [("x", .prim .i32)])) :=
    ⟨typeName_scoped ["S"] (by decide) (by decide) (by decide +kernel), ⟨[], .struct, "S".toList⟩, _, rfl, by decide, by decide⟩
  refine ⟨hS, distinct_of hu (by decide) ?_ ?_ ?_ ?_, ?_, ?_, ?_⟩
  · rw [he]; decide
  · rw [he, hm]; decide
  · rw [he, hm]; decide
  · rw [hm]
    intro p hp m hm
    obtain rfl := List.mem_singleton.mp hp
    have hm := (Option.some.inj hm).symm
    subst hm
    decide
  · intro x p h
    have := declares_list hu hS.full h
    rw [he, hm] at this
    simp only [List.map_cons, List.map_nil, List.cons_append, List.nil_append, List.mem_cons, List.not_mem_nil, or_false, List.cons.injEq, reduceCtorEq] at this
    rcases this with ⟨rfl, rfl⟩ | ⟨rfl, rfl⟩ <;> exact usable_of (by decide +kernel)
  · intro p hp
    have hp := mem_allMods hu hp
    rw [hm] at hp
    obtain rfl := List.mem_singleton.mp hp
    exact ⟨_, rfl, .inr (.inl ⟨.struct, by decide, by decide⟩)⟩
  · intro n d hd hf
    have hn := mem_allElems hu (show (element exLate n).isSome by rw [hd]; rfl)
    rw [he] at hn
    simp only [List.mem_cons, List.not_mem_nil, or_false] at hn
    rcases hn with rfl | rfl <;> have hd := (Option.some.inj hd).symm <;> subst hd
    · exact ⟨trivial, trivial, hk⟩
    · refine ⟨by decide, by simp, fun e he => ?_⟩
      simp only [Option.map_none, Option.getD_none, List.drop_zero, List.mem_cons, List.not_mem_nil, or_false] at he
      subst he
      exact ⟨⟨usable_of (by decide +kernel), symbolCount_zero.mp (by decide +kernel)⟩, trivial, trivial, by simp [innermost, Writable]⟩

/-- C61, the other way: a structure and an alias of it. The alias is printed first (C46), and reading the text fails: neither is
in the tree that is read. The tree meets all hypotheses of `C61_ordered_partial` but the order. -/
theorem C61_order_fails :
    ∃ root text, ExpressibleTree ⟨.c8, false⟩ root ∧ GeneratesText root text ∧ text = bytes "typedef S L;\n\nstruct S\n{\n    int32 x;\n};\n" ∧
      ∃ T, Reads {} .empty text (T, some .refused) ∧ omGet (T.content.get .struct) "S".toList = none ∧ ¬ SameTree (items root) T := by
  obtain ⟨T, h1, h2⟩ := reads_entry (text := bytes "typedef S L;\n\nstruct S\n{\n    int32 x;\n};\n") .struct "S" (v := none)
    (e := some .refused) (by decide) (by decide +kernel)
  refine ⟨exLate, _, exLate_ok, text_of (fuel := 5) (by decide) (by decide +kernel), rfl, T, h1, h2, fun h => ?_⟩
  have h3 : _ = T.content.get .struct := (h []).1 .struct
  rw [← h3] at h2
  revert h2
  decide

/-- C61, the other way: a tree with an empty module. Its text is rejected as a whole. -/
theorem C61_empty_module_fails :
    ∃ root text, GeneratesText root text ∧ text = bytes "struct S\n{\n    int32 x;\n};\n\nmodule b\n{\n};\n" ∧ Rejects text :=
  ⟨.mk { structs := [("S".toList, .struct "S" none [("x", .prim .i32)])] } [("b".toList, some .empty)], _,
    text_of (fuel := 5) (by decide) (by decide +kernel), rfl, rejects_of (by decide +kernel)⟩

/-- C61, the other way: an enumeration that was entered through the API, which enters no constants for its enumerators. The tree
that is read has them. -/
theorem C61_enumerators_fail :
    ∃ root text, GeneratesText root text ∧ text = bytes "enum E\n{\n    a\n};\n" ∧ element root ⟨[], .const, "a".toList⟩ = none ∧
      ∃ T, Reads {} .empty text (T, none) ∧ omGet (T.content.get .const) "a".toList = some (.const .u32 0) ∧ ¬ SameTree (items root) T := by
  obtain ⟨T, h1, h2⟩ := reads_entry (text := bytes "enum E\n{\n    a\n};\n") .const "a" (v := some (.const .u32 0)) (e := none)
    (by decide) (by decide +kernel)
  refine ⟨.mk { enums := [("E".toList, .enum "E" [("a", 0)])] } [], _, text_of (fuel := 5) (by decide) (by decide +kernel), rfl, rfl, T, h1, h2, fun h => ?_⟩
  have h3 : _ = T.content.get .const := (h []).1 .const
  rw [← h3] at h2
  revert h2
  decide

/-- `enum E { x }; struct S { int32 x; };` -/
def exMix : Mod Decl := .mk
  { enums := [("E".toList, .enum "E" [("x", 0)])]
    structs := [("S".toList, .struct "S" none [("x", .prim .i32)])]
    consts := [("x".toList, .const "x" (.const .u32 0))]
    fromEnum := ["x".toList] } []

/-- C61, the other way: a structure with a member that has the name of an enumerator of the module. Reading fails, and the
structure stays in the tree without members. -/
theorem C61_member_name_fails :
    ∃ root text, GeneratesText root text ∧ text = bytes "enum E\n{\n    x\n};\n\nstruct S\n{\n    int32 x;\n};\n" ∧ Sound root ∧
      ∃ T, Reads {} .empty text (T, some .refused) ∧ omGet (T.content.get .struct) "S".toList = some (.ty (.struct "S" .nil)) := by
  obtain ⟨T, h1, h2⟩ := reads_entry (text := bytes "enum E\n{\n    x\n};\n\nstruct S\n{\n    int32 x;\n};\n") .struct "S"
    (v := some (.ty (.struct "S" .nil))) (e := some .refused) (by decide) (by decide +kernel)
  refine ⟨exMix, _,
    text_of (fuel := 5) (by decide) (by decide +kernel), rfl, ?_, T, h1, h2⟩
  generalize hr : exMix = root
  have hu : (deps root).uniq := by
    subst hr
    simp only [deps, exMix, Mod.mapAt, mapInner, Mod.uniq, innerUniq]
    exact ⟨by intro k; cases k <;> decide, by decide, trivial⟩
  have hm : allMods root = [[]] := by subst hr; decide +kernel
  have he : allElems root = [⟨[], .const, "x".toList⟩, ⟨[], .enum, "E".toList⟩, ⟨[], .struct, "S".toList⟩] := by subst hr; decide +kernel
  refine sound_of hu (by subst hr; decide) ?_ ?_ ?_
  · rw [hm]
    intro p hp m hm
    obtain rfl := List.mem_singleton.mp hp
    subst hr
    have hm := (Option.some.inj hm).symm
    subst hm
    exact ⟨fun k => by cases k <;> decide, by decide, by decide, by decide⟩
  · rw [he]; subst hr; decide
  · rw [he]
    intro n hn y vs h e hev
    subst hr
    simp only [List.mem_cons, List.not_mem_nil, or_false] at hn
    rcases hn with rfl | rfl | rfl
    · have h := Option.some.inj h; cases h
    · have h := (Decl.enum.injEq .. ▸ Option.some.inj h)
      obtain ⟨rfl, rfl⟩ := h
      simp only [List.mem_cons, List.not_mem_nil, or_false] at hev
      subst hev; rfl
    · have h := Option.some.inj h; cases h

end Verif.Idl
