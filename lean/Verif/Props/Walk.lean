import Verif.Lemmas.Walk
import Verif.Props.Access
/-!
# Traversal (C37)

`Preorder kids c l` (Verif.Spec.Walk): `l` lists the node `c` and all nodes below it in preorder. `visitList visit l s`: the
visitor is called on the nodes of `l` until it throws.
-/

namespace Verif.Inst

theorem returned_answers : (t : Option Throw) → Answers t (returned t)
  | none => rfl
  | some (.bool true) => rfl
  | some (.bool false) => rfl
  | some .other => rfl

/-- C37, partial: `for_each` calls the visitor on the nodes of the tree of the datum in preorder, the root first, until it
throws; it returns `true`, or the thrown value. The visitor sees of each node (and of its ancestors) the type, the
data, the depth, the index and the member the specification says. Missing: data with a union that has no
selected member (`C37_fails_unselected`), visitors that change the data, types that are not well-formed. -/
theorem C37_for_each_partial {d : Data} {v : Val} (h : d.ty.WF) (ha : d.ty.rget = d.ty) (hv : d.Holds v) (hf : v.Full) :
    ∃ N L, Preorder kids [⟨d.ty, v, 0, none⟩] L ∧ List.Forall₂ Node.Is N L ∧
      ∀ (σ : Type) (visit : Visitor σ) (s : σ),
        ∃ r, d.forEach visit s = .ok ((visitList visit N s).1, r) ∧ Answers (visitList visit N s).2 r := by
  obtain ⟨N, L, hp, hi, hr⟩ := walk_ok d.ty h [] d.cells [] v [] [] 0 none hv.2 hf trivial (.inr ha)
  simp only [List.nil_append, List.append_nil, List.length_nil, ha] at hp hr
  refine ⟨N, L, hp, hi, fun σ visit s => ?_⟩
  have := hr σ visit s
  exact ⟨_, by rw [Data.forEach, Node.root, this]; rfl, returned_answers _⟩

/-- C37: `for_each` of a type calls the visitor on the nodes of the tree of the type in preorder, until it throws. -/
theorem C37_for_each_type (T : Ty) :
    ∃ N L, Preorder tkids [⟨T, 0, none⟩] L ∧ List.Forall₂ TNode.Is N L ∧
      ∀ (σ : Type) (visit : TVisitor σ) (s : σ),
        ∃ r, typeForEach T visit s = .ok ((visitList visit N s).1, r) ∧ Answers (visitList visit N s).2 r := by
  obtain ⟨N, L, hp, hi, hr⟩ := twalk_ok T (.root T) ⟨T, 0, none⟩ [] ⟨⟨rfl, rfl, rfl, rfl⟩, trivial⟩ rfl
  refine ⟨N, L, hp, hi, fun σ visit s => ?_⟩
  have := hr σ visit s
  simp only [] at this
  exact ⟨_, by rw [typeForEach, this]; rfl, returned_answers _⟩

/-- C37: a preorder lists exactly the nodes that can be reached from the root by going to children, each exactly once,
every node before its children and siblings by index: the routes from the root are strictly increasing in
lexicographic order. -/
theorem C37_preorder {i : Info} {L : List (List Info)} (h : Preorder kids [i] L) :
    (∀ n, n ∈ L ↔ Below kids [i] n) ∧ (L.map (route Info.index)).Pairwise (· < ·) ∧ L.Nodup := by
  have hs := preorder_sorted kids_sorted h
  refine ⟨preorder_mem h, List.pairwise_map.mpr hs, hs.imp ?_⟩
  rintro a b hlt rfl
  exact List.lt_irrefl _ hlt

/-- C37: the same for types. -/
theorem C37_preorder_type {i : TInfo} {L : List (List TInfo)} (h : Preorder tkids [i] L) :
    (∀ n, n ∈ L ↔ Below tkids [i] n) ∧ (L.map (route TInfo.index)).Pairwise (· < ·) ∧ L.Nodup := by
  have hs := preorder_sorted tkids_sorted h
  refine ⟨preorder_mem h, List.pairwise_map.mpr hs, hs.imp ?_⟩
  rintro a b hlt rfl
  exact List.lt_irrefl _ hlt

/-- C37: stopping. If the visitor throws for the first time at the node after `A`, it is not called any more. -/
theorem C37_stops {ν σ : Type} {visit : ν → σ → σ × Option Throw} {A B : List ν} {n : ν} {s s' s'' : σ} {t : Throw}
    (h : visitList visit A s = (s', none)) (hn : visit n s' = (s'', some t)) :
    visitList visit (A ++ n :: B) s = (s'', some t) := by
  rw [visitList_append, h]
  simp only [visitList, hn]

/-- Count the calls and note index and depth. -/
def spy : Visitor (List (Nat × Nat × Option String)) := fun n s => (s ++ [(n.self.deep, n.self.index, n.self.member)], none)

/-- A union with the label 5, which is the default. -/
def exD5 : Ty := .union "U" (.prim .u8) (.cons "a" (.prim .u8) .nil) ⟨[(5, "a")], 5, 255, 5⟩

/-- A structure with a number, a sequence and a union. -/
def exW : Ty := .struct "S" (.cons "a" (.prim .u8) (.cons "q" (.seq (.alias "A" (.prim .u8)) 0) (.cons "u" exD5 .nil)))

/-- The value (7, [1, 2], u.a = 9). -/
def exWd : Data := ⟨exW, rawCells [7] ++ objCells (.coll false (.alias "A" (.prim .u8)) 2 2 (rawCells [1, 2])) seqSize ++ rawCells [5, 9], true⟩

theorem exWd_wf : exWd.ty.WF := by
  simp only [exWd, exW, exD5, Ty.WF, Mems.WF, and_true, true_and]
  refine ⟨by simp [discOk, Ty.rget, PK.isFloat], ⟨by decide, ?_, by decide, by decide, by decide⟩⟩
  intro l n h
  have : l = 5 ∧ n = "a" := by
    simp only [UInfo.case, omGet, List.find?] at h
    split at h
    · rename_i hl; simp at hl h; exact ⟨hl.symm, h.symm⟩
    · cases h
  obtain ⟨rfl, rfl⟩ := this
  exact ⟨by decide, rfl⟩

set_option maxRecDepth 4096 in
/-- C37: a datum as in the theorem, and what a visitor sees. -/
example : exWd.ty.WF ∧ exWd.ty.rget = exWd.ty ∧ (∃ v, exWd.Holds v ∧ v.Full) ∧
    exWd.forEach spy [] = .ok ([(0, 0, none), (1, 0, some "a"), (1, 1, some "q"), (2, 0, none), (2, 1, none),
      (1, 2, some "u"), (2, 5, some "a")], some true) := by
  refine ⟨exWd_wf, rfl, ⟨.list [.bytes [7], .coll [.bytes [1], .bytes [2]], .un (.bytes [5]) "a" (.bytes [9])], ⟨rfl, rfl⟩, ?_⟩, ?_⟩
  · simp [Val.Full, Val.FullAll]
  · rfl

/-- What a visitor of the type sees: the discriminator is a child of the union, before its members. -/
example : typeForEach exW (fun n s => (s ++ [(n.self.deep, n.self.index, n.self.member)], none)) [] =
    .ok ([(0, 0, none), (1, 0, some "a"), (1, 1, some "q"), (2, 0, none), (1, 2, some "u"),
      (2, 0, some "discriminator"), (2, 1, some "a")], some true) := rfl

/-- `union U switch (int32) {case 1: uint8 a;}` -/
def exNone : Ty := .union "U" (.prim .i32) (.cons "a" (.prim .u8) .nil) ⟨[(1, "a")], 2 ^ 31 - 1, 2 ^ 31 - 2, 2 ^ 31 - 2⟩

theorem exNone_built : ∃ u : UnionB, u.Built ∧ u.toTy = exNone := by
  obtain ⟨u0, hu0⟩ : ∃ u0, UnionB.new "U" (.prim .i32) = some u0 := ⟨_, rfl⟩
  refine ⟨(u0.addCase [1] "a" (.prim .u8) false).1, .add _ _ _ _ (.new "U" (.prim .i32) hu0), ?_⟩
  cases hu0; rfl

/-- C37 fails for data with a union without a selected member, as after creation: `for_each` ends with a failed
assertion. -/
theorem C37_fails_unselected {σ : Type} (visit : Visitor σ) (s : σ) : (∃ u : UnionB, u.Built ∧ u.toTy = exNone) ∧
    ∃ d, Data.create exNone = .ok (d, 0) ∧ d.forEach visit s = .error .refused := ⟨exNone_built, _, rfl, rfl⟩

end Verif.Inst
