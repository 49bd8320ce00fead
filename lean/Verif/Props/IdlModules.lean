import Verif.Props.IdlUnion
/-!
# C60 for modules in modules

A text with nested modules that meets the hypotheses of C60_round_trip, and what fails with modules.
-/

namespace Verif.Idl
open Syn Gen Text

/-- C60: a declaration of a module, alone in the text of the modules around it, is found after reading by its full name; the
modules are created where they are missing. -/
theorem C60_in_module (c : Ctx) (root : Mod Item) (hp : Proper root) (m : String) (hm : Usable m)
    (ho : (root.at [m.toList]).isSome ∨ Unseen root [] m.toList) (d : Decl)
    (hd : Declarable ⟨c.char, c.wide16⟩ (openModule [] m.toList root) [m.toList] d) :
    ∃ root', Reads c root (bytes "module " ++ bytes m ++ bytes "\n{\n" ++ declTextAt [m.toList] 1 d ++ bytes "};\n") (root', none) ∧
      (∀ T, declTy [m.toList] d = some T → Means root' [] (m ++ "::" ++ declName d) T) ∧
      ∀ v ∈ declConsts d, Constant root' [] (m ++ "::" ++ v.1).toList v.2 := by
  obtain ⟨r, h1, h2, h3, _⟩ := C60_round_trip c root hp [.module [] 0 m [.decl [] 1 d] []] (by simp) (by
    simp only [DocsDeclarable, DocDeclarable]
    exact ⟨⟨blanks_nil, blanks_nil, hm, by simp, ho, ⟨blanks_nil, hd⟩, trivial⟩, trivial⟩) [] blanks_nil
  have e : ∀ x, scopedStr [m.toList] x = m ++ "::" ++ x := by
    intro x
    rw [← String.toList_inj, scopedStr, String.toList_ofList, String.toList_append, String.toList_append]
    have hne : m.toList ≠ [] := (ident_ident hm.1).1
    simp [scopedName, scope, hne]
  refine ⟨r, ?_, fun T hT => ?_, fun v hv => ?_⟩
  · simp only [docsText, docText, indent, List.nil_append, List.append_nil, Nat.zero_mul, List.replicate_zero, List.append_assoc] at h1
    have e : bytes "\n{\n" = bytes "\n" ++ (bytes "{" ++ bytes "\n") := by decide
    have e' : bytes "};\n" = bytes "};" ++ bytes "\n" := by decide
    rw [e, e']
    simp only [List.append_assoc]
    exact h1
  · rw [← e]
    exact (h2 ([m.toList], d) (by simp [docsDecls, docDecls]) T hT).2
  · rw [← e]
    exact (h3 ([m.toList], d) (by simp [docsDecls, docDecls]) v hv).2

example : (∃ m, (Mod.empty : Mod Item).at [] = some m) ∧ Unseen (Mod.empty : Mod Item) [] "geo".toList ∧ Usable "geo" ∧
    Declarable ⟨.c8, false⟩ (openModule [] "geo".toList .empty) ["geo".toList] (.struct "Point" none [("x", .prim .f64)]) := by
  refine ⟨⟨_, rfl⟩, unseen_of (by decide +kernel), usable_of (by decide +kernel), ⟨usable_of (by decide +kernel), unseen_of (by decide +kernel)⟩, by decide, by simp, ?_⟩
  intro e he
  simp only [Option.map_none, Option.getD_none, List.drop_zero, List.mem_cons, List.not_mem_nil, or_false] at he
  subst he
  exact ⟨⟨usable_of (by decide +kernel), unseen_of (by decide +kernel)⟩, by decide, trivial, trivial, by simp [innermost, Writable]⟩

/-! ### A text that meets the hypotheses -/

/-- The structure `geo::Point`. -/
def exPoint : Ty := .struct "geo::Point" (.ofList [("x", .prim .f64), ("y", .prim .f64)])

/-- A module with a structure and a module in it, whose structure has the first one as member, directly and in a sequence; the
first module again, with an alias; and a structure outside that names both. -/
def exModules : List Doc := [
  .module [] 0 "geo" [
    .decl [] 1 (.struct "Point" none [("x", .prim .f64), ("y", .prim .f64)]),
    .module [10] 1 "solid" [
      .decl [] 2 (.struct "Box" none [("corner", exPoint), ("others", .seq exPoint 7)])] []] [],
  .module [10] 0 "geo" [
    .decl [] 1 (.alias "Path" (.seq exPoint 0))] [],
  .decl [10] 0 (.struct "Scene" none [("path", .alias "geo::Path" (.seq exPoint 0)),
    ("box", .struct "geo::solid::Box" (.ofList [("corner", exPoint), ("others", .seq exPoint 7)]))])]

/-- A test for `TypeName` of two or three names. -/
theorem typeName_scoped {s : String} (l : List String) (hne : l ≠ []) (h : s.toList = joined l) (hu : l.all usable? = true) : TypeName s :=
  ⟨l, hne, h, fun a ha => usable_of (List.all_eq_true.mp hu a ha)⟩

example : DocsDeclarable ⟨.c8, false⟩ [] .empty exModules ∧ Proper .empty := by
  refine ⟨?_, proper_empty⟩
  have np : TypeName "geo::Point" := typeName_scoped ["geo", "Point"] (by decide) (by decide) (by decide +kernel)
  unfold exModules
  simp only [DocsDeclarable, DocDeclarable, enterDoc, enterDocs]
  refine ⟨⟨blanks_nil, blanks_nil, usable_of (by decide +kernel), by simp, .inr (unseen_of (by decide +kernel)), ⟨blanks_nil, ?_⟩,
      ⟨blanks_of rfl, blanks_nil, usable_of (by decide +kernel), by simp, .inr (unseen_of (by decide +kernel)), ⟨blanks_nil, ?_⟩, trivial⟩, trivial⟩,
    ⟨blanks_of rfl, blanks_nil, usable_of (by decide +kernel), by simp, .inl (by decide +kernel), ⟨blanks_nil, ?_⟩, trivial⟩,
    ⟨blanks_of rfl, ?_⟩, trivial⟩
  · refine ⟨⟨usable_of (by decide +kernel), unseen_of (by decide +kernel)⟩, by decide, by simp, ?_⟩
    intro e he
    simp only [Option.map_none, Option.getD_none, List.drop_zero, List.mem_cons, List.not_mem_nil, or_false] at he
    rcases he with rfl | rfl <;>
      exact ⟨⟨usable_of (by decide +kernel), unseen_of (by decide +kernel)⟩, by decide, trivial, trivial, by simp [innermost, Writable]⟩
  · refine ⟨⟨usable_of (by decide +kernel), unseen_of (by decide +kernel)⟩, by decide, by simp, ?_⟩
    intro e he
    simp only [Option.map_none, Option.getD_none, List.drop_zero, List.mem_cons, List.not_mem_nil, or_false] at he
    rcases he with rfl | rfl
    · refine ⟨⟨usable_of (by decide +kernel), unseen_of (by decide +kernel)⟩, by decide, trivial, trivial, ?_⟩
      exact ⟨np, ["geo".toList], "Point".toList, ⟨9, by decide +kernel⟩, by decide +kernel⟩
    · refine ⟨⟨usable_of (by decide +kernel), unseen_of (by decide +kernel)⟩, by decide, trivial, trivial, ?_⟩
      simp only [innermost, Writable]
      exact ⟨⟨np, ["geo".toList], "Point".toList, ⟨9, by decide +kernel⟩, by decide +kernel⟩, by decide⟩
  · refine ⟨⟨usable_of (by decide +kernel), unseen_of (by decide +kernel)⟩, trivial, trivial, ?_⟩
    simp only [innermost, Writable]
    exact ⟨⟨np, ["geo".toList], "Point".toList, ⟨9, by decide +kernel⟩, by decide +kernel⟩, by decide⟩
  · refine ⟨⟨usable_of (by decide +kernel), unseen_of (by decide +kernel)⟩, by decide, by simp, ?_⟩
    intro e he
    simp only [Option.map_none, Option.getD_none, List.drop_zero, List.mem_cons, List.not_mem_nil, or_false] at he
    rcases he with rfl | rfl
    · refine ⟨⟨usable_of (by decide +kernel), unseen_of (by decide +kernel)⟩, by decide, trivial, trivial, ?_⟩
      exact ⟨typeName_scoped ["geo", "Path"] (by decide) (by decide) (by decide +kernel), ["geo".toList], "Path".toList, ⟨9, by decide +kernel⟩, by decide +kernel⟩
    · refine ⟨⟨usable_of (by decide +kernel), unseen_of (by decide +kernel)⟩, by decide, trivial, trivial, ?_⟩
      exact ⟨typeName_scoped ["geo", "solid", "Box"] (by decide) (by decide) (by decide +kernel), ["solid".toList, "geo".toList], "Box".toList, ⟨9, by decide +kernel⟩, by decide +kernel⟩

/-- The text: a sequence has the type of the module without the scope of the module, a member of a structure has the full
name. -/
example : docsText [] exModules = bytes "module geo
{
    struct Point
    {
        double x;
        double y;
    };

    module solid
    {
        struct Box
        {
            geo::Point corner;
            sequence<geo::Point, 7> others;
        };
    };
};

module geo
{
    typedef sequence<Point> Path;
};

struct Scene
{
    geo::Path path;
    geo::solid::Box box;
};
" := by decide +kernel

/-! ## Where the round trip fails -/

/-- The type at a place after reading. -/
theorem reads_type {text : Bytes} (p : Loc) (x : String) {T : Ty} {e : Option Stop} (he : e ≠ some .unfinished)
    (h : ((outcome text).map fun o => (o.2, typeOf o.1 false (.found p x.toList))) = some (e, some (some (.ty T)))) :
    ∃ root', Reads {} .empty text (root', e) ∧ typeOf root' false (.found p x.toList) = some (some (.ty T)) := by
  obtain ⟨⟨r, e'⟩, h1, h2⟩ := reads_obs (fun o => (o.2, typeOf o.1 false (.found p x.toList))) h (fun o ho => by
    rw [Prod.mk.injEq] at ho; rw [ho.1]; exact he)
  rw [Prod.mk.injEq] at h2
  obtain ⟨h2, h3⟩ := h2
  have h2 : e' = e := h2
  subst h2
  exact ⟨r, h1, h3⟩

/-- C60, the other way: a module without declarations is printed as `module b { };`, which the grammar does not accept, and the
text is rejected as a whole. -/
theorem C60_empty_module_fails :
    docsText [] [.module [] 0 "b" [] []] = bytes "module b\n{\n};\n" ∧
    Rejects (docsText [] [.decl [] 0 (.struct "A" none [("x", .prim .i32)]), .module [] 0 "b" [] []]) ∧
    ∃ root', Reads {} .empty (docsText [] [.decl [] 0 (.struct "A" none [("x", .prim .i32)])]) (root', none) := by
  refine ⟨by decide +kernel, rejects_of (by decide +kernel), ?_⟩
  obtain ⟨r, h, _⟩ := reads_type (text := docsText [] [.decl [] 0 (.struct "A" none [("x", .prim .i32)])]) [] "A" (e := none)
    (T := .struct "A" (.ofList [("x", .prim .i32)])) (by decide) (by decide +kernel)
  exact ⟨r, h⟩

/-- C60, the other way: a type `A` of the root module, used in a module that has an `A` of its own, is printed as `A` and read
as the other one; no error is reported. -/
theorem C60_shadowed_type_fails :
    let A : Ty := .struct "A" (.ofList [("x", .prim .i32)])
    ∃ root', Reads {} .empty (docsText [] [
        .decl [] 0 (.struct "A" none [("x", .prim .i32)]),
        .module [] 0 "m" [.decl [] 1 (.struct "A" none [("y", .prim .bool)]), .decl [] 1 (.struct "B" none [("a", A)])] []]) (root', none) ∧
      typeOf root' false (.found ["m".toList] "B".toList) =
        some (some (.ty (.struct "m::B" (.ofList [("a", .struct "m::A" (.ofList [("y", .prim .bool)]))])))) :=
  reads_type ["m".toList] "B" (by decide) (by decide +kernel)

/-- C60, the other way: a type `a::A` used in a module that has a module `a` of its own is printed as `a::A` and not found. The
structure stays in the module, empty. -/
theorem C60_hidden_module_fails :
    let A : Ty := .struct "a::A" (.ofList [("x", .prim .i32)])
    ∃ root', Reads {} .empty (docsText [] [
        .module [] 0 "a" [.decl [] 1 (.struct "A" none [("x", .prim .i32)])] [],
        .module [] 0 "b" [
          .module [] 1 "a" [.decl [] 2 (.struct "B" none [("y", .prim .bool)])] [],
          .decl [] 1 (.struct "C" none [("x", A)])] []]) (root', some .refused) ∧
      typeOf root' false (.found ["b".toList] "C".toList) = some (some (.ty (.struct "b::C" .nil))) :=
  reads_type ["b".toList] "C" (by decide) (by decide +kernel)

/-- C60, the other way: two enumerations with the enumerators `on` and `off` in the other order, and a union of the second. The
labels of the union are printed as the names and read as the values they have in the first enumeration: the members of the
union are exchanged, and no error is reported. -/
theorem C60_enumerator_clash_fails :
    let F : Ty := .enum "F" .w4 [("off", 0), ("on", 1)]
    let cases (l : List (Int × String)) : Ty :=
      .union "U" F (.ofList [("a", .prim .i32), ("b", .prim .bool)]) ⟨l, 2 ^ 31 - 1, 2 ^ 31 - 2, 2 ^ 31 - 2⟩
    (exCases F [0] false [1] false).Built ∧ (exCases F [0] false [1] false).toTy = cases [(0, "a"), (1, "b")] ∧
    ∃ root', Reads {} .empty (docsText [] [
        .decl [] 0 (.enum "E" [("off", 1), ("on", 0)]),
        .decl [] 0 (.enum "F" [("off", 0), ("on", 1)]),
        .decl [] 0 (.union "U" (exCases F [0] false [1] false))]) (root', none) ∧
      typeOf root' false (.found [] "U".toList) = some (some (.ty (cases [(0, "b"), (1, "a")]))) :=
  ⟨.add _ _ _ _ (.add _ _ _ _ (.new "U" (.enum "F" .w4 [("off", 0), ("on", 1)]) rfl)), by decide,
    reads_type [] "U" (by decide) (by decide +kernel)⟩

end Verif.Idl
