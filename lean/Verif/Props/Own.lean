import Verif.Model.Own
import Verif.Props.Data
/-!
# Who owns a block (C58)
-/

namespace Verif.Inst

theorem put_same (h : Heap) (b : Nat) (c : Option (List Cell)) : (h.put b c) b = c := by simp [Heap.put]

theorem put_other (h : Heap) {b b' : Nat} (c : Option (List Cell)) (hb : b' ≠ b) : (h.put b c) b' = h b' := by
  simp [Heap.put, hb]

theorem dispose_frees {h h' : Heap} {d : Handle} (hd : h.dispose d = .ok h') : h' = h.put d.blk none := by
  unfold Heap.dispose at hd
  cases hb : h d.blk with
  | none => simp only [hb] at hd; cases hd
  | some cs =>
    simp only [hb] at hd
    cases hx : (if d.init then destroy d.ty d.off ⟨cs, 0⟩ else .ok ⟨cs, 0⟩ : M Mem) with
    | error e => rw [hx] at hd; cases hd
    | ok m =>
      rw [hx] at hd
      simp only [Except.bind] at hd
      split at hd
      · cases hd; rfl
      · cases hd

/-- C58, partial: data that were constructed with memory of their own (from a type, as a copy of a datum, as a conversion)
can be destroyed in either order; the destruction of one leaves the memory of the other as it is. Missing: data constructed from
a reference (`C58_fails_data_of_reference`). -/
theorem C58_own_memory_partial {h : Heap} {b b' : Nat} {d e : Data} {v w : Val} (hb : b ≠ b') (hd : d.ty.WF) (he : e.ty.WF)
    (hv : d.Holds v) (hw : e.Holds w) :
    ∃ h1 h2 h3 : Heap, (((h.alloc b d).1.alloc b' e).1.dispose (h.alloc b d).2 = .ok h1) ∧ h1 b' = some e.cells ∧
      (((h.alloc b d).1.alloc b' e).1.dispose ((h.alloc b d).1.alloc b' e).2 = .ok h2) ∧ h2 b = some d.cells ∧
      (h1.dispose ((h.alloc b d).1.alloc b' e).2 = .ok h3) ∧ (h2.dispose (h.alloc b d).2 = .ok h3) := by
  have key : ∀ (g : Heap) (c : Nat) (x : Data) (u : Val), x.ty.WF → x.Holds u → g c = some x.cells →
      g.dispose ⟨x.ty, c, 0, x.init⟩ = .ok (g.put c none) := by
    intro g c x u hx hu hg
    obtain ⟨new, lk, hr, _⟩ := destroy_whole hx hu
    unfold Heap.dispose
    simp only [hg, hu.1, if_true, hr]
    rfl
  have e1 : ((h.alloc b d).1.alloc b' e).1 b = some d.cells := by
    simp only [Heap.alloc]; rw [put_other _ _ hb, put_same]
  have e2 : ((h.alloc b d).1.alloc b' e).1 b' = some e.cells := by simp only [Heap.alloc]; rw [put_same]
  refine ⟨_, _, _, key _ b d v hd hv e1, by rw [put_other _ _ (Ne.symm hb), e2], key _ b' e w he hw e2,
    by rw [put_other _ _ hb, e1], key _ b' e w he hw (by rw [put_other _ _ (Ne.symm hb), e2]), ?_⟩
  have := key (((h.alloc b d).1.alloc b' e).1.put b' none) b d v hd hv (by rw [put_other _ _ hb, e1])
  refine this.trans (congrArg Except.ok ?_)
  funext x
  simp only [Heap.put]
  split <;> split <;> rfl

/-- C58: two strings. -/
example : (⟨.str .s8 0, objCells (.str .s8 [65] false) strSize, true⟩ : Data).Holds (.str [65]) ∧ (Ty.str .s8 0).WF ∧ (0 : Nat) ≠ 1 :=
  ⟨⟨rfl, rfl⟩, trivial, by decide⟩

/-- C58 fails: a datum constructed from a reference to (a part of) another one has no memory of its own. Whichever
of the two is destroyed first, destroying the other is undefined; and destroying a datum made from a reference to a part
that is not at the beginning is never successful. -/
theorem C58_fails_data_of_reference {h h' : Heap} {d r : Handle} (hr : r.blk = d.blk) :
    (h.dispose d = .ok h' → h'.dispose r.dataOfRef = .error .ub ∧ h'.dispose r.dataOfMoved.1 = .error .ub) ∧
    (h.dispose r.dataOfRef = .ok h' → h'.dispose d = .error .ub) ∧
    (h.dispose r.dataOfMoved.1 = .ok h' → h'.dispose d = .error .ub) ∧
    (r.off ≠ 0 → h.dispose r.dataOfRef ≠ .ok h') := by
  have key : ∀ {x y : Handle}, y.blk = x.blk → h.dispose x = .ok h' → h'.dispose y = .error .ub := by
    intro x y hxy hx
    rw [dispose_frees hx, Heap.dispose, hxy, put_same]
  refine ⟨fun hd => ⟨key hr hd, key hr hd⟩, key (x := r.dataOfRef) hr.symm, key (x := r.dataOfMoved.1) hr.symm, ?_⟩
  intro ho hd
  unfold Heap.dispose Handle.dataOfRef at hd
  cases hb : h r.blk with
  | none => simp only [hb] at hd; cases hd
  | some cs =>
    simp only [hb, if_neg ho] at hd
    cases hx : (if r.init then destroy r.ty r.off ⟨cs, 0⟩ else .ok ⟨cs, 0⟩ : M Mem) with
    | error e => rw [hx] at hd; cases hd
    | ok m => rw [hx] at hd; cases hd

/-- C58: a datum made from a moved reference takes what the reference had, so that destroying it does what destroying the old datum
would have done; the reference is not in charge of the instance any more: a datum made from it afterwards frees the block and leaves alone
what is in it, whatever that is. -/
theorem C58_moved_reference (h : Heap) (r : Handle) : h.dispose r.dataOfMoved.1 = h.dispose r ∧ r.dataOfMoved.1.init = r.init ∧
    r.dataOfMoved.2.init = false ∧ r.dataOfMoved.2.blk = r.blk ∧
    ∀ cs, h r.blk = some cs → r.off = 0 → h.dispose r.dataOfMoved.2.dataOfRef = .ok (h.put r.blk none) := by
  refine ⟨rfl, rfl, rfl, rfl, fun cs hc ho => ?_⟩
  unfold Heap.dispose Handle.dataOfRef Handle.dataOfMoved
  simp only [hc, Bool.false_eq_true, if_false, ho, Except.bind, if_true]

/-- C58: a reference to a datum just created. -/
example : ∃ (d : Data) (x : Handle), Data.create (.str .s8 0) = .ok (d, 0) ∧ (Heap.alloc (fun _ => none) 0 d).2 = x ∧ x.init = true ∧
    (∃ cs, (Heap.alloc (fun _ => none) 0 d).1 x.ref.blk = some cs) ∧ x.ref.off = 0 := ⟨_, _, rfl, rfl, rfl, ⟨_, rfl⟩, rfl⟩

/-- A structure of a number and a string. -/
def exOwn : Ty := .struct "S" (.cons "a" (.prim .i32) (.cons "s" (.str .s8 0) .nil))

set_option maxRecDepth 4096 in
/-- C58: a copy made from a reference to the member "s" (or to "a", or to the whole datum) of a datum just created: either
destruction alone is possible for those that start at the beginning, not both; for "s" not even that. -/
example : ∃ (d : Data) (x a s : Handle), Data.create exOwn = .ok (d, 0) ∧ (Heap.alloc (fun _ => none) 0 d).2 = x ∧
    x.member "a" = .ok a ∧ x.member "s" = .ok s ∧ a.blk = x.blk ∧ s.blk = x.blk ∧ a.off = 0 ∧ s.off = 4 ∧
    (∃ h', (Heap.alloc (fun _ => none) 0 d).1.dispose x.ref.dataOfRef = .ok h' ∧ h'.dispose x = .error .ub) ∧
    (∃ h', (Heap.alloc (fun _ => none) 0 d).1.dispose a.dataOfRef = .ok h' ∧ h'.dispose x = .error .ub) ∧
    (Heap.alloc (fun _ => none) 0 d).1.dispose s.dataOfMoved.1 = .error .ub :=
  ⟨_, _, _, _, rfl, rfl, rfl, rfl, rfl, rfl, rfl, rfl, ⟨_, rfl, rfl⟩, ⟨_, rfl, rfl⟩, rfl⟩

end Verif.Inst
