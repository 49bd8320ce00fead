import Verif.Props.Idl
/-!
# C60 for unions

What the parser makes of the text of a union.
-/

namespace Verif.Idl
open Syn Gen Text

/-- C60: `idl::generate` of one union, read into a module that has the types it names, gives a union equal to the first: the
same discriminator, cases, labels and default. -/
theorem C60_union (c : Ctx) (root : Mod Item) (hp : Proper root) (n : String) (u : UnionB)
    (hd : Declarable ⟨c.char, c.wide16⟩ root [] (.union n u)) :
    ∃ root', Reads c root (unionText n u 0) (root', none) ∧ Means root' [] n u.toTy := by
  refine ⟨_, parse_decl c hp hd 0, ?_⟩
  exact ⟨_, _, (found_enter hp (show root.at [] = some root from rfl) hd).type _ rfl⟩

/-! ### A document that meets the hypotheses -/

/-- The constant a name stands for, from its evaluation. -/
theorem constant_unique {root : Mod Item} {p : Loc} {x : Name} {i v : Item} {f : Nat} (h : Constant root p x i)
    (he : (resolve root f p x x true).map (fetch root .const) = some (some v)) : i = v := by
  obtain ⟨q, y, hl, hi⟩ := h
  cases hr : resolve root f p x x true with
  | none => rw [hr] at he; cases he
  | some r =>
    rw [hr, Option.map_some, Option.some.injEq] at he
    have := hl.unique ⟨f, hr⟩
    subst this
    rw [hi, Option.some.injEq] at he
    exact he

theorem no_constant {root : Mod Item} {p : Loc} {x : Name} {f : Nat}
    (he : (resolve root f p x x true).map (fetch root .const) = some none) : ∀ i, ¬ Constant root p x i := by
  rintro i ⟨q, y, hl, hi⟩
  cases hr : resolve root f p x x true with
  | none => rw [hr] at he; cases he
  | some r =>
    rw [hr, Option.map_some, Option.some.injEq] at he
    have := hl.unique ⟨f, hr⟩
    subst this
    rw [hi] at he
    cases he


/-- The union `Shape` of an enumeration, with two labels for one case and a default case that has a label. -/
def exShape : UnionB :=
  match UnionB.new "Shape" (.enum "Colour" .w4 [("blue", 2), ("green", 1), ("red", 0)]) with
  | some u => ((u.addCase [2, 0] "radius" (.prim .f64) false).1.addCase [1] "corners" (Ty.array (Ty.array (.prim .f64) 2) 4) true).1
  | none => ⟨"", ⟨[], []⟩, [], 0, 0, 0, 0, 0⟩

/-- An enumeration, the union of it, a structure with the union. -/
def exShapes : List Doc := [
  .decl [] 0 (.enum "Colour" [("blue", 2), ("green", 1), ("red", 0)]),
  .decl [] 0 (.union "Shape" exShape),
  .decl [] 0 (.struct "Picture" none [("shapes", .seq exShape.toTy 0)])]

example : DocsDeclarable ⟨.c8, false⟩ [] .empty exShapes := by
  unfold exShapes
  simp only [DocsDeclarable, DocDeclarable, enterDoc]
  refine ⟨⟨blanks_of rfl, ?_⟩, ⟨blanks_of rfl, ?_⟩, ⟨blanks_of rfl, ?_⟩, trivial⟩
  · refine ⟨⟨usable_of (by decide +kernel), unseen_of (by decide +kernel)⟩, by decide, by decide, by decide, by decide, ?_⟩
    intro e he
    simp only [List.mem_cons, List.not_mem_nil, or_false] at he
    rcases he with rfl | rfl | rfl <;> exact ⟨⟨usable_of (by decide +kernel), unseen_of (by decide +kernel)⟩, by decide⟩
  · have hb : exShape.Built := .add _ _ _ _ (.add _ _ _ _ (.new "Shape" (.enum "Colour" .w4 [("blue", 2), ("green", 1), ("red", 0)]) rfl))
    have hm : caseMembers exShape = [("radius", .prim .f64), ("corners", Ty.array (Ty.array (.prim .f64) 2) 4)] := by decide
    have h1 : exShape.getLabels "radius" = [0, 2] := by decide
    have h2 : exShape.getLabels "corners" = [1] := by decide
    have hl : ∀ v : Int, v ∈ [(0 : Int), 1, 2] → ReadableLabel (enter [] (.enum "Colour" [("blue", 2), ("green", 1), ("red", 0)]) .empty)
        [] exShape.disc v := by
      intro v hv
      refine ⟨⟨⟨_, _, rfl⟩, by decide, fun e he _ => ?_⟩, fun e he hev => ?_⟩
      · have he : e ∈ [("blue", 2), ("green", 1), ("red", 0)] := he
        simp only [List.mem_cons, List.not_mem_nil, or_false] at he
        rcases he with rfl | rfl | rfl <;> exact ⟨by decide, _, _, rfl, by decide⟩
      · have he : e ∈ [("blue", 2), ("green", 1), ("red", 0)] := he
        simp only [List.mem_cons, List.not_mem_nil, or_false] at he
        rcases he with rfl | rfl | rfl <;>
          refine ⟨(usable_of (by decide +kernel)).1, fun r h => by simp at h, fun r h => by simp at h, fun i hi => ⟨.u32, ?_⟩⟩ <;>
          rw [← hev] <;> exact constant_unique (f := 9) hi (by decide +kernel)
    refine ⟨⟨usable_of (by decide +kernel), unseen_of (by decide +kernel)⟩, by decide +kernel, hb, ⟨typeName_of (by decide +kernel), [], "Colour".toList, ⟨1, by decide +kernel⟩, by decide +kernel⟩, by rw [hm]; decide, ?_⟩
    intro e he
    rw [hm] at he
    simp only [List.mem_cons, List.not_mem_nil, or_false] at he
    rcases he with rfl | rfl
    · refine ⟨⟨usable_of (by decide +kernel), unseen_of (by decide +kernel)⟩, by decide, ⟨trivial, trivial, by simp [innermost, Writable]⟩,
        ⟨.inr (by decide), by decide⟩, fun v hv => hl v ?_, fun _ => no_constant (f := 9) (by decide +kernel)⟩
      rw [h1] at hv; simp at hv ⊢; omega
    · refine ⟨⟨usable_of (by decide +kernel), unseen_of (by decide +kernel)⟩, by decide, ⟨⟨rfl, rfl, trivial⟩, ⟨by decide, by decide, trivial⟩,
        by simp [innermost, Writable, Ty.array]⟩, ⟨.inr (by decide), fun _ => .inr (by decide)⟩, fun v hv => hl v ?_, fun _ => no_constant (f := 9) (by decide +kernel)⟩
      rw [h2] at hv; simp at hv ⊢; omega
  · refine ⟨⟨usable_of (by decide +kernel), unseen_of (by decide +kernel)⟩, by decide, by simp, ?_⟩
    intro e he
    simp only [Option.map_none, Option.getD_none, List.drop_zero, List.mem_cons, List.not_mem_nil, or_false] at he
    subst he
    refine ⟨⟨usable_of (by decide +kernel), unseen_of (by decide +kernel)⟩, by decide, trivial, trivial, ?_⟩
    simp only [innermost, Writable]
    exact ⟨⟨typeName_of (by decide +kernel), [], "Shape".toList, ⟨1, by decide +kernel⟩, by decide +kernel⟩, by decide⟩

/-- The text of the document. -/
example : docsText [] exShapes = bytes "enum Colour
{
    red,
    green,
    blue
};
union Shape switch (Colour)
{
    case red:
    case blue:
        double radius;
    case green:
    default:
        double corners[4][2];
};
struct Picture
{
    sequence<Shape> shapes;
};
" := by decide +kernel

/-! ## Where the round trip fails -/

/-- The union `U` of this discriminator with the cases `a` and `b`. -/
def exCases (d : Ty) (la : List Int) (da : Bool) (lb : List Int) (db : Bool) : UnionB :=
  match UnionB.new "U" d with
  | some u => ((u.addCase la "a" (.prim .i32) da).1.addCase lb "b" (.prim .bool) db).1
  | none => ⟨"", ⟨[], []⟩, [], 0, 0, 0, 0, 0⟩

/-- The type of these unions over `int32`. -/
def exCasesTy (labels : List (Int × String)) (dflt : Int) : Ty :=
  .union "U" (.prim .i32) (.ofList [("a", .prim .i32), ("b", .prim .bool)]) ⟨labels, 2 ^ 31 - 1, 2 ^ 31 - 2, dflt⟩

/-- C60, the other way: a union with a single case loses it. The parser accepts the text and enters a union without cases. -/
theorem C60_single_case_fails :
    ∃ u : UnionB, u.Built ∧ (caseMembers u).length = 1 ∧
      ∃ root', Reads {} .empty (unionText "U" u 0) (root', none) ∧
        omGet (root'.content.get .union) "U".toList =
          some (.ty (.union "U" (.prim .i32) .nil ⟨[], 2 ^ 31 - 1, 2 ^ 31 - 2, 2 ^ 31 - 2⟩)) := by
  cases hu : UnionB.new "U" (.prim .i32) with
  | none => cases hu
  | some u0 =>
    cases hu
    exact ⟨_, .add [1] "a" (.prim .i32) false (.new "U" (.prim .i32) rfl), by decide,
      reads_entry .union "U" (by decide) (by decide +kernel)⟩

/-- C60, the other way: the label a union remembers for its default case is the first one the case was added with; the one
that is read is the least, and the two unions differ in it. -/
theorem C60_default_label_fails :
    (exCases (.prim .i32) [1] false [4, 3] true).Built ∧
    (exCases (.prim .i32) [1] false [4, 3] true).toTy = exCasesTy [(1, "a"), (3, "b"), (4, "b")] 4 ∧
    ∃ root', Reads {} .empty (unionText "U" (exCases (.prim .i32) [1] false [4, 3] true) 0) (root', none) ∧
      omGet (root'.content.get .union) "U".toList = some (.ty (exCasesTy [(1, "a"), (3, "b"), (4, "b")] 3)) :=
  ⟨.add _ _ _ _ (.add _ _ _ _ (.new "U" (.prim .i32) rfl)), by decide, reads_entry .union "U" (by decide) (by decide +kernel)⟩

/-- C60, the other way: a negative label of a discriminator of 64 bits is printed as a number that is not accepted. The union
stays in the module with the cases before it. -/
theorem C60_negative_label_fails :
    (exCases (.prim .i64) [1] false [-3] false).Built ∧
    (exCases (.prim .i64) [1] false [-3] false).getLabels "b" = [-3] ∧
    ∃ root', Reads {} .empty (unionText "U" (exCases (.prim .i64) [1] false [-3] false) 0) (root', some .refused) ∧
      omGet (root'.content.get .union) "U".toList = some (.ty (.union "U" (.prim .i64) (.ofList [("a", .prim .i32)])
        ⟨[(1, "a")], 2 ^ 63 - 1, 2 ^ 63 - 2, 2 ^ 63 - 2⟩)) :=
  ⟨.add _ _ _ _ (.add _ _ _ _ (.new "U" (.prim .i64) rfl)), by decide, reads_entry .union "U" (by decide) (by decide +kernel)⟩

/-- C60, the other way: a single quote and a backslash are printed as they are, as labels, and the text is rejected as a
whole. -/
theorem C60_quote_label_fails : ∀ v ∈ [(39 : Int), 92],
    (exCases (.prim .c8) [97] false [v] false).Built ∧
    (exCases (.prim .c8) [97] false [v] false).getLabels "b" = [v] ∧
    Rejects (unionText "U" (exCases (.prim .c8) [97] false [v] false) 0) := by
  intro v hv
  have hb : (exCases (.prim .c8) [97] false [v] false).Built := by
    unfold exCases
    split
    · rename_i u hu
      exact .add _ _ _ _ (.add _ _ _ _ (.new "U" (.prim .c8) hu))
    · rename_i hu; cases hu
  refine ⟨hb, ?_⟩
  clear hb
  simp only [List.mem_cons, List.not_mem_nil, or_false] at hv
  rcases hv with rfl | rfl <;> exact ⟨by decide, rejects_of (by decide +kernel)⟩

/-- C60, the other way: an enumerator whose name begins with `TRUE` or `FALSE` is no label for the grammar: the text of the
enumeration is accepted, with the union of it the text is rejected as a whole. -/
theorem C60_boolean_label_fails :
    let e : Ty := .enum "E" .w4 [("FALSEY", 1), ("a", 0)]
    (exCases e [0] false [1] false).Built ∧
    (∃ root', Reads {} .empty (enumText "E" [("FALSEY", 1), ("a", 0)] 0) (root', none) ∧
      omGet (root'.content.get .enum) "E".toList = some (.ty e)) ∧
    Rejects (enumText "E" [("FALSEY", 1), ("a", 0)] 0 ++ unionText "U" (exCases e [0] false [1] false) 0) :=
  ⟨.add _ _ _ _ (.add _ _ _ _ (.new "U" (.enum "E" .w4 [("FALSEY", 1), ("a", 0)]) rfl)),
    reads_entry .enum "E" (by decide) (by decide +kernel), rejects_of (by decide +kernel)⟩

/-- C60: with a blank between `default` and the colon there is no default case; the case gets the label 0 instead. -/
theorem C60_default_blank_fails :
    (∃ root', Reads {} .empty (bytes "union U switch (int32) { case 1: int32 a; default: boolean b; };") (root', none) ∧
      omGet (root'.content.get .union) "U".toList = some (.ty (exCasesTy [(1, "a"), (2 ^ 31 - 1, "b")] (2 ^ 31 - 1)))) ∧
    ∃ root', Reads {} .empty (bytes "union U switch (int32) { case 1: int32 a; default : boolean b; };") (root', none) ∧
      omGet (root'.content.get .union) "U".toList = some (.ty (exCasesTy [(0, "b"), (1, "a")] (2 ^ 31 - 2))) :=
  ⟨reads_entry .union "U" (by decide) (by decide +kernel), reads_entry .union "U" (by decide) (by decide +kernel)⟩

/-- C60: an expression as label is accepted but not evaluated: `1 + 1` is read as 1, `(3 | 4)` as 0. -/
theorem C60_label_expression_fails :
    ∃ root', Reads {} .empty (bytes "union U switch (int32) { case 1+1: int32 a; case (3|4): boolean b; };") (root', none) ∧
      omGet (root'.content.get .union) "U".toList = some (.ty (exCasesTy [(0, "b"), (1, "a")] (2 ^ 31 - 2))) :=
  reads_entry .union "U" (by decide) (by decide +kernel)

/-- C60: a union declared in advance is entered as a structure without members; a structure that has it as member keeps that
type also after the union has been defined. -/
theorem C60_forward_union_fails :
    let text := bytes "union U; struct S { U u; }; union U switch (int32) { case 1: int32 a; case 2: boolean b; };"
    (∃ root', Reads {} .empty text (root', none) ∧
      omGet (root'.content.get .struct) "S".toList = some (.ty (.struct "S" (.ofList [("u", .struct "U" .nil)])))) ∧
    (∃ root', Reads {} .empty text (root', none) ∧ omGet (root'.content.get .struct) "U".toList = some (.ty (.struct "U" .nil))) ∧
    ∃ root', Reads {} .empty text (root', none) ∧
      omGet (root'.content.get .union) "U".toList = some (.ty (exCasesTy [(1, "a"), (2, "b")] (2 ^ 31 - 2))) :=
  ⟨reads_entry .struct "S" (by decide) (by decide +kernel), reads_entry .struct "U" (by decide) (by decide +kernel),
    reads_entry .union "U" (by decide) (by decide +kernel)⟩

end Verif.Idl
