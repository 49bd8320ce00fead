import Verif.Lemmas.WalkLog
import Verif.Lemmas.WalkMap
import Verif.Props.Walk
/-!
# Traversal with a visitor that writes (C70)

`Edited vis n v s w s' t` (Verif.Spec.WalkWrite): walking the node `n` with value `v` from the state `s` of the visitor ends
with value `w` and state `s'`, after `t` was thrown, if anything was; the visitor is called on the node and changes its value,
then the parts of the new value are walked.
-/

namespace Verif.Inst

/-- C70, partial: `for_each` of a writable reference does what it should for a visitor that writes through the node it is
given: the datum has the value the specification says afterwards, of the same type, nothing is leaked, and the answer
is that of `for_each`. Missing: visitors that write through `parent()` or through other references to the datum, visitors
that change the member or label of a union at its own node (`C70_fails_switch`), and what is refused. -/
theorem C70_for_each_partial {σ : Type} {visit : WVisitor σ} {vis : VVisitor σ} (hf : visit.Follows vis) (ha : vis.Able)
    {d : Data} {v w : Val} {s s' : σ} {t : Option Throw} (h : d.ty.WF) (hr : d.ty.rget = d.ty) (hv : d.Holds v)
    (he : Edited vis (.root d.ty) v s w s' t) :
    ∃ d' lk r, d.forEachW visit s = .ok (d', lk, s', r) ∧ d'.ty = d.ty ∧ d'.Holds w ∧ Answers t r ∧
      (d.ty.Tight → d.Tidy → lk = 0 ∧ d'.Tidy) := by
  have k := walkW_ok hf ha d.ty h d.ty.Tight (.root d.ty) id rfl (.inr hr)
  rw [TNode.seen_of (by exact hr)] at k
  obtain ⟨new, dl, e1, e2, e3, e4⟩ := editsW_iff.mp k [] d.cells [] 0 v hv.2 s w s' t he
  simp only [List.nil_append, List.append_nil, List.length_nil, Nat.zero_add] at e1
  refine ⟨{ d with cells := new }, dl, returned t, ?_, rfl, ⟨hv.1, e3⟩, returned_answers t, e4⟩
  rw [Data.forEachW, e1]
  rfl

/-- C70: with a visitor that does nothing forbidden on any value, `for_each` always succeeds, on every datum without an
unselected union. -/
theorem C70_succeeds {σ : Type} {visit : WVisitor σ} {vis : VVisitor σ} (hf : visit.Follows vis) (ha : vis.Able)
    (hp : vis.Polite) {d : Data} {v : Val} (s : σ) (h : d.ty.WF) (hr : d.ty.rget = d.ty) (hv : d.Holds v) (hu : v.Full) :
    ∃ w s' t, Edited vis (.root d.ty) v s w s' t ∧ w.Full ∧
      ∃ d' lk r, d.forEachW visit s = .ok (d', lk, s', r) ∧ d'.ty = d.ty ∧ d'.Holds w ∧ Answers t r ∧
        (d.ty.Tight → d.Tidy → lk = 0 ∧ d'.Tidy) := by
  obtain ⟨w, s', t, h1, h2⟩ := ends_ok ha hp d.ty h (.root d.ty) v s hr.symm ⟨⟨_, hv.2⟩, hu⟩
  exact ⟨w, s', t, h1, h2.2, C70_for_each_partial hf ha h hr hv h1⟩

/-- C70: the value, the state and what is thrown are determined. -/
theorem C70_determined {σ : Type} {vis : VVisitor σ} {n : TNode} {v w w' : Val} {s s' s'' : σ} {t t' : Option Throw}
    (h : Edited vis n v s w s' t) (h' : Edited vis n v s w' s'' t') : w = w' ∧ s' = s'' ∧ t = t' := edited_det h h'

/-- C70: the visitor is called on the nodes of the datum *as it is afterwards*, in preorder, each exactly once, if it
throws nothing: what it changes at a node it is shown below. -/
theorem C70_visited {σ : Type} {vis : VVisitor σ} {log : σ → List TNode} (hl : vis.Logs log) {T : Ty} {v w : Val} {s s' : σ}
    (he : Edited vis (.root T) v s w s' none) :
    ∃ N L, log s' = log s ++ N ∧ Preorder kids [⟨T, w, 0, none⟩] L ∧ List.Forall₂ TNode.Looks N L := by
  obtain ⟨N, h1, h2⟩ := edited_log hl he rfl
  obtain ⟨L, h3, h4⟩ := h2 [] ⟨⟨rfl, rfl, rfl, rfl⟩, trivial⟩
  exact ⟨N, L, h1, h3, h4⟩

/-- C70: `d.for_each([](auto& n) { if (primitive) n.data() = f(n.data()); })` replaces every number of the datum, those in
strings, enumerations and labels of unions excepted, and changes nothing else. -/
theorem C70_map {f : PK → List Byte → List Byte} (hf : ∀ k bs, (f k bs).length = k.size) {d : Data} {v : Val} (h : d.ty.WF)
    (hr : d.ty.rget = d.ty) (hv : d.Holds v) (hu : v.Full) :
    ∃ d' lk, d.forEachW (mapper f) () = .ok (d', lk, (), some true) ∧ d'.ty = d.ty ∧ d'.Holds (Val.mapNums f d.ty v) ∧
      (d.ty.Tight → d.Tidy → lk = 0 ∧ d'.Tidy) := by
  obtain ⟨d', lk, r, h1, h2, h3, h4, h5⟩ := C70_for_each_partial (mapper_follows f) (mapper_able hf) h hr hv
    (maps_ok f d.ty h (.root d.ty) v hr.symm ⟨⟨_, hv.2⟩, hu⟩)
  cases h4
  exact ⟨d', lk, h1, h2, h3, h5⟩

/-- A visitor that empties every string and records the nodes it was called on. -/
def cleaner : WVisitor (List TNode) := fun n _ s =>
  (match n.self.ty with
    | .str k _ => [([], .value (.str k []))]
    | _ => [], s ++ [n], none)

/-- The same on values. -/
def cleanerV : VVisitor (List TNode) := fun n _ s => cleaner n [] s

/-- C70: a visitor that meets the hypotheses of `C70_succeeds` and `C70_visited`. -/
example : cleaner.Follows cleanerV ∧ cleanerV.Able ∧ cleanerV.Polite ∧ cleanerV.Logs id := by
  refine ⟨fun _ _ _ _ _ => rfl, ?_, ?_, fun _ _ _ => rfl⟩
  · intro n v s x hx t _
    simp only [cleanerV, cleaner] at hx
    split at hx
    · simp only [List.mem_singleton] at hx
      subst hx
      trivial
    · cases hx
  · rintro n v s ⟨⟨cs, e⟩, hf⟩
    by_cases hs : ∃ k b, n.self.ty = .str k b
    · obtain ⟨k, b, hn⟩ := hs
      refine ⟨.str (clip b []), s ++ [n], none, ⟨?_, rfl, ?_⟩, trivial⟩
      · simp [cleanerV, cleaner, hn, editAll, editAt, Ty.rget, RefOp.spec, Host.fits]
      · rw [hn, decode] at e
        obtain ⟨us, _, rfl, _⟩ := decStr_iff.mp e
        trivial
    · have : cleanerV n v s = ([], s ++ [n], none) := by
        unfold cleanerV cleaner
        split
        · rename_i k b hn; exact absurd ⟨k, b, hn⟩ hs
        · rfl
      refine ⟨v, s ++ [n], none, ⟨by rw [this]; rfl, by rw [this], ?_⟩, hf⟩
      cases v <;> simp_all [Val.SameCase, Val.Full]

/-- The sequence [1, 2]. -/
def exSeq : Data := ⟨.seq (.prim .u8) 0, objCells (.coll false (.prim .u8) 2 2 (rawCells [1, 2])) seqSize, true⟩

/-- A visitor that appends an element to the sequence and adds one to every byte: the new element is visited, and changed,
too. -/
def grower : WVisitor (List (Nat × Nat)) := fun n cs s =>
  (match n.self.ty, cs with
    | .seq _ _, _ => [([], .pushHost (.num .u8 [40]))]
    | .prim .u8, [.raw b] => [([], .value (.num .u8 [b + 1]))]
    | _, _ => [], s ++ [(n.self.deep, n.self.index)], none)

/-- C70: a visitor that changes what is walked below. -/
example : ((exSeq.forEachW grower []).toOption.map fun r =>
    (match decode r.1.ty r.1.cells with
      | some (.coll [.bytes a, .bytes b, .bytes c]) => [a, b, c]
      | _ => [], r.2.2)) = some ([[2], [3], [41]], [(0, 0), (1, 0), (1, 1), (1, 2)], some true) := by decide +kernel

/-- Add one to a byte, and clear everything longer. -/
def bump : PK → List Byte → List Byte
  | .u8, [b] => [b + 1]
  | k, _ => List.replicate k.size 0

/-- C70: the hypotheses of `C70_map` for a structure with a number, a sequence and a union, and what comes out. -/
example : (∀ k bs, (bump k bs).length = k.size) ∧ exWd.ty.WF ∧ exWd.ty.rget = exWd.ty ∧
    (∃ v, exWd.Holds v ∧ v.Full ∧ Val.mapNums bump exWd.ty v =
      .list [.bytes [8], .coll [.bytes [2], .bytes [3]], .un (.bytes [5]) "a" (.bytes [10])]) := by
  refine ⟨?_, exWd_wf, rfl, ⟨.list [.bytes [7], .coll [.bytes [1], .bytes [2]], .un (.bytes [5]) "a" (.bytes [9])], ⟨rfl, rfl⟩, ?_, rfl⟩⟩
  · intro k bs
    unfold bump
    split
    · rfl
    · simp
  · simp [Val.Full, Val.FullAll]

/-- A map with the keys 1 and 2. -/
def exKeys : Data := ⟨.map (.prim .u8) (.prim .u8) 0,
  objCells (.coll true (.pair (.prim .u8) (.prim .u8)) 2 2 (rawCells [1, 10, 2, 20])) seqSize, true⟩

/-- A visitor that makes every first part of a pair 7. -/
def rekey : WVisitor Unit := fun n _ _ =>
  if n.self.deep = 2 ∧ n.self.index = 0 then ([([], .value (.num .u8 [7]))], (), none) else ([], (), none)

/-- C70: writing through the keys of a map, which `for_each` allows, makes entries with the same key: the keys of a map are
not protected. -/
theorem C70_fails_keys : (∃ d' r, exKeys.forEachW rekey () = .ok (d', r) ∧
    d'.Holds (.coll [.list [.bytes [7], .bytes [10]], .list [.bytes [7], .bytes [20]]])) ∧
    exKeys.Holds (.coll [.list [.bytes [1], .bytes [10]], .list [.bytes [2], .bytes [20]]]) :=
  ⟨⟨_, _, rfl, rfl, rfl⟩, rfl, rfl⟩

/-- `union U switch (uint8) {case 0: string s; case 1: uint64 a;}` -/
def exSwitch : Ty := .union "U" (.prim .u8) (.cons "s" (.str .s8 0) (.cons "a" (.prim .u64) .nil)) ⟨[(0, "s"), (1, "a")], 127, 126, 126⟩

theorem exSwitch_built : ∃ u : UnionB, u.Built ∧ u.toTy = exSwitch := by
  obtain ⟨u0, hu0⟩ : ∃ u0, UnionB.new "U" (.prim .u8) = some u0 := ⟨_, rfl⟩
  refine ⟨((u0.addCase [0] "s" (.str .s8 0) false).1.addCase [1] "a" (.prim .u64) false).1,
    .add _ _ _ _ (.add _ _ _ _ (.new "U" (.prim .u8) hu0)), ?_⟩
  cases hu0; rfl

/-- The member `s` selected, with the string "h". -/
def exSwitchD : Data := ⟨exSwitch, rawCells [0] ++ objCells (.str .s8 [104] false) strSize, true⟩

/-- A visitor that selects the member `a` at the union, and assigns a string to every string it is called on. -/
def switcher : WVisitor Unit := fun n _ _ =>
  match n.self.ty with
  | .union _ _ _ _ => ([([.member "a"], .touch)], (), none)
  | .str k _ => ([([], .value (.str k [120]))], (), none)
  | _ => ([], (), none)

/-- C70 fails for a visitor that selects another member of a union at the node of the union: the walk goes on into the old
member, whose string is gone by then: undefined behaviour. -/
theorem C70_fails_switch : (∃ u : UnionB, u.Built ∧ u.toTy = exSwitch) ∧
    exSwitchD.Holds (.un (.bytes [0]) "s" (.str [104])) ∧ exSwitchD.forEachW switcher () = .error .ub :=
  ⟨exSwitch_built, ⟨rfl, rfl⟩, rfl⟩
end Verif.Inst
