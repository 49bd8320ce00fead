import Verif.Lemmas.Api
import Verif.Props.Access
/-!
# Readable references: iteration (C54)

`r.Sees v` (Verif.Spec.Api): the reference `r` refers to a live instance of its type with the value `v`. `r.Visits l`:
`for (x : r)` hands the references of `l` to its body, in this order, and ends; `r.Items l`: the same for
`for (x : r.items())`.
-/

namespace Verif.Inst

/-- A datum seen through `cref()`. -/
theorem sees_ref {d : Data} {v : Val} (h : d.Holds v) : d.ref.Sees v :=
  ⟨[], d.cells, [], by simp [Data.ref], rfl, h.2⟩

/-- A part of a datum seen through the reference a path ends in. -/
theorem sees_read {d : Data} {p : List Step} {t : Ty} {cs : List Cell} {u : Val} (h : d.Reads p u)
    (hr : d.read p = .ok (t, cs)) : (RRef.mk t cs 0).Sees u := by
  obtain ⟨t', cs', h1, h2⟩ := h
  rw [hr] at h1; cases h1
  exact ⟨[], cs, [], by simp, rfl, h2⟩

/-! ## C54 -/

/-- C54: `size()` of an array, a sequence, a string or a map is the number of its elements. -/
theorem C54_size {r : RRef} {v : Val} {c : Ty} (h : r.Sees v) (hc : elemTy r.ty = some c) :
    r.size = .ok (elems r.ty v).length := (instAt_ok h hc).1

/-- C54: `for (x : r)` over an array, a sequence, a string or a map ends, having handed a reference to each element to its
body, in order, each exactly once; the references have the type of the elements. -/
theorem C54_iteration {r : RRef} {v : Val} {c : Ty} (h : r.Sees v) (hc : elemTy r.ty = some c) :
    ∃ l, r.Visits l ∧ (∀ l', r.Visits l' → l' = l) ∧
      List.Forall₂ (fun x w => x.ty = c.rget ∧ x.Sees w) l (elems r.ty v) := by
  obtain ⟨hs, hi⟩ := instAt_ok h hc
  have hcoll : isColl r.ty = true := by
    cases hT : r.ty <;> rw [hT] at hc <;> first | rfl | cases hc
  obtain ⟨l, hl, hf⟩ := loop_ok (deref := It.deref) (r := r) (R := fun x w => x.ty = c.rget ∧ x.Sees w) hi _ 0 rfl (Nat.zero_le _)
  have hb : r.begin = .ok ⟨r, 0⟩ := by rw [RRef.begin, if_pos hcoll]
  have he : r.end = .ok ⟨r, (elems r.ty v).length⟩ := by rw [RRef.end, if_pos hcoll, hs]; rfl
  refine ⟨l, ⟨_, _, hb, he, hl⟩, ?_, hf⟩
  rintro l' ⟨b, e, hb', he', hl'⟩
  rw [hb] at hb'; rw [he] at he'
  cases hb'; cases he'
  exact (loop_det hl hl').symm

/-- C54: iterating over anything else is refused. -/
theorem C54_iteration_refused {r : RRef} (hc : elemTy r.ty = none) : r.begin = .error .refused ∧ r.end = .error .refused := by
  have : isColl r.ty = false := by
    cases hT : r.ty <;> rw [hT] at hc <;> first | rfl | cases hc
  simp [RRef.begin, RRef.end, this]

/-- C54: `r[i]` is the element number `i` of an array, a sequence or a string, and refused beyond the last. -/
theorem C54_index {r : RRef} {v : Val} {c : Ty} (h : r.Sees v) (hc : elemTy r.ty = some c) (hm : ∀ k w b, r.ty ≠ .map k w b)
    (i : Nat) :
    (∀ w, (elems r.ty v)[i]? = some w → ∃ x, r.index i = .ok x ∧ x.ty = c.rget ∧ x.Sees w) ∧
      ((elems r.ty v)[i]? = none → r.index i = .error .refused) := by
  obtain ⟨hs, hi⟩ := instAt_ok h hc
  have he : r.index i = r.size.bind fun n => if i < n then r.instAt i else .error .refused := by
    cases hT : r.ty with
    | map k w b => exact absurd hT (hm _ _ _)
    | arr _ _ _ => rw [RRef.index, hT]
    | seq _ _ => rw [RRef.index, hT]
    | str _ _ => rw [RRef.index, hT]
    | _ => rw [hT] at hc; cases hc
  rw [he, hs]
  simp only [Except.bind]
  constructor
  · intro w hw
    rw [if_pos (List.getElem?_eq_some_iff.mp hw).1]
    exact hi i w hw
  · intro hn
    rw [if_neg (by simpa using hn)]

/-- C54: the elements of a map cannot be accessed by position. -/
theorem C54_index_map {r : RRef} {k w : Ty} {b : Nat} (h : r.ty = .map k w b) (i : Nat) : r.index i = .error .refused := by
  rw [RRef.index, h]

/-- C54: iteration and indexing agree: the reference number `i` of the loop is `r[i]`. -/
theorem C54_iteration_index {r : RRef} {v : Val} {c : Ty} (h : r.Sees v) (hc : elemTy r.ty = some c)
    (hm : ∀ k w b, r.ty ≠ .map k w b) {l : List RRef} (hl : r.Visits l) (i : Nat) {x : RRef} (hx : l[i]? = some x) :
    r.index i = .ok x := by
  obtain ⟨hs, hi⟩ := instAt_ok h hc
  have he : r.index i = r.size.bind fun n => if i < n then r.instAt i else .error .refused := by
    cases hT : r.ty with
    | map k w b => exact absurd hT (hm _ _ _)
    | arr _ _ _ => rw [RRef.index, hT]
    | seq _ _ => rw [RRef.index, hT]
    | str _ _ => rw [RRef.index, hT]
    | _ => rw [hT] at hc; cases hc
  have hcoll : isColl r.ty = true := by
    cases hT : r.ty <;> rw [hT] at hc <;> first | rfl | cases hc
  obtain ⟨b, e, hb, hen, hl⟩ := hl
  rw [RRef.begin, if_pos hcoll] at hb
  rw [RRef.end, if_pos hcoll, hs] at hen
  cases hb; cases hen
  have key : ∀ (b : It) (l : List RRef), Loop It.deref ⟨r, (elems r.ty v).length⟩ b l → b.ref = r → b.index ≤ (elems r.ty v).length →
      ∀ i x, l[i]? = some x → b.index + i < (elems r.ty v).length ∧ r.instAt (b.index + i) = .ok x := by
    intro b l hl
    induction hl with
    | stop _ => intro _ _ i x hx; cases hx
    | @go b y l hn hd _ ih =>
      intro hb hle i x hx
      have hne : b.index ≠ (elems r.ty v).length := by
        intro h
        have : b.same ⟨r, (elems r.ty v).length⟩ = true := by simp [It.same, hb, h]
        rw [this] at hn; cases hn
      cases i with
      | zero =>
        cases hx
        refine ⟨by simp only [Nat.add_zero]; omega, ?_⟩
        rw [It.deref, hb] at hd; exact hd
      | succ i =>
        have := ih (by simp [It.next, hb]) (by simp only [It.next]; omega) i x (by simpa using hx)
        simp only [It.next] at this
        rw [show b.index + (i + 1) = b.index + 1 + i by omega]
        exact this
  obtain ⟨h1, h2⟩ := key _ _ hl rfl (Nat.zero_le _) i x hx
  simp only [Nat.zero_add] at h1 h2
  rw [he, hs]
  simp only [Except.bind]
  rw [if_pos h1, h2]

/-- A sequence of two strings, of an alias of a string type. -/
def exSeqStr : Ty := .seq (.alias "A" (.str .s8 0)) 0

/-- The sequence ["a", "bc"]. -/
def exSS : Data := ⟨exSeqStr, objCells (.coll false (.alias "A" (.str .s8 0)) 2 2
  (objCells (.str .s8 [97] false) 32 ++ objCells (.str .s8 [98, 99] false) 32)) 48, true⟩

set_option maxRecDepth 4096 in
/-- C54: a reference as in the theorems; its elements are the strings. -/
example : exSS.ref.Sees (.coll [.str [97], .str [98, 99]]) ∧ elemTy exSS.ref.ty = some (.alias "A" (.str .s8 0)) ∧
    elems exSS.ref.ty (.coll [.str [97], .str [98, 99]]) = [.str [97], .str [98, 99]] ∧
    (∃ x, exSS.ref.index 1 = .ok x ∧ x.ty = .str .s8 0) ∧ exSS.ref.index 2 = .error .refused :=
  ⟨sees_ref ⟨rfl, rfl⟩, rfl, rfl, ⟨_, rfl, rfl⟩, rfl⟩

/-- C54: an iterator assigned from an iterator over a collection of the same type is that iterator. -/
theorem C54_assign_partial {x y : It} (h : x.ref.ty = y.ref.ty) : x.assign y = y := by
  obtain ⟨⟨t, cs, a⟩, i⟩ := x
  obtain ⟨⟨t', cs', a'⟩, j⟩ := y
  cases h; rfl

/-- C54 fails: assigning an iterator over a collection of another type keeps the type, so the element that is handed out
is not one of the collection: `it = bytes.begin(); *it` for an `it` over 16-bit numbers gives a 16-bit number made of two
bytes. -/
theorem C54_assign_fails : ∃ (r s : RRef) (b e : It) (x : RRef), r.begin = .ok b ∧ s.begin = .ok e ∧
    (b.assign e).deref = .ok x ∧ s.Sees (.list [.bytes [1], .bytes [2]]) ∧ x.Sees (.bytes [1, 2]) :=
  ⟨⟨.arr "A" (.prim .u16) 1, rawCells [0, 0], 0⟩, ⟨.arr "B" (.prim .u8) 2, rawCells [1, 2], 0⟩, _, _, _, rfl, rfl, rfl,
    ⟨[], rawCells [1, 2], [], rfl, rfl, rfl⟩, ⟨[], rawCells [1, 2], [], rfl, rfl, rfl⟩⟩

/-! ### Members -/

theorem locateAt_get : (ms : Mems) → (i : Nat) → {n : String} → {t : Ty} → ms.get? i = some (n, t) →
    ∃ off, Mems.locateAt ms i = some (off, t)
  | .nil, _, _, _, h => by cases h
  | .cons x u r, 0, _, _, h => by cases h; exact ⟨0, rfl⟩
  | .cons x u r, i + 1, _, _, h => by
    obtain ⟨off, e⟩ := locateAt_get r i h
    exact ⟨off + u.memSize, by rw [Mems.locateAt, e]; rfl⟩

theorem get_toList : (ms : Mems) → (i : Nat) → ms.get? i = ms.toList[i]?
  | .nil, _ => by simp [Mems.get?, Mems.toList]
  | .cons x u r, 0 => rfl
  | .cons x u r, i + 1 => by simpa [Mems.get?, Mems.toList] using get_toList r i

theorem toList_length : (ms : Mems) → ms.toList.length = ms.length
  | .nil => rfl
  | .cons _ _ r => by simp [Mems.toList, Mems.length, toList_length r]

theorem decodeAll_length : (ms : Mems) → (cs : List Cell) → (vs : List Val) → decodeAll ms cs = some vs → vs.length = ms.length
  | .nil, cs, vs, h => by
    rw [decodeAll] at h
    split at h
    · cases h; rfl
    · cases h
  | .cons x t r, cs, vs, h => by
    obtain ⟨v, ws, rfl, _, h2⟩ := decodeAll_cons.mp h
    simp [Mems.length, decodeAll_length r _ _ h2]

/-- C54: `for (x : r.items())` over a structure ends, having handed each member to its body, in order, with its name,
its type and its value. -/
theorem C54_items {r : RRef} {v : Val} {n : String} {ms : Mems} (h : r.Sees v) (hT : r.ty = .struct n ms) :
    ∃ vs l, v = .list vs ∧ vs.length = ms.toList.length ∧ r.Items l ∧ (∀ l', r.Items l' → l' = l) ∧
      List.Forall₂ (fun x m => x.1 = m.1.1 ∧ x.2.ty = m.1.2.rget ∧ x.2.Sees m.2) l (ms.toList.zip vs) := by
  obtain ⟨T, cells, addr⟩ := r
  obtain ⟨pre, x, post, e, ha, hd⟩ := h
  simp only at e ha hd hT
  subst e ha hT
  have hd0 := hd
  rw [decode] at hd
  cases ed : decodeAll ms x with
  | none => rw [ed] at hd; cases hd
  | some vs =>
    rw [ed] at hd; cases hd
    have hlen : vs.length = ms.toList.length := by rw [decodeAll_length _ _ _ ed, toList_length]
    have hz : (ms.toList.zip vs).length = ms.length := by rw [List.length_zip, hlen, Nat.min_self, toList_length]
    obtain ⟨l, hl, hf⟩ := loop_ok (deref := It.item) (r := ⟨.struct n ms, pre ++ x ++ post, pre.length⟩)
      (R := fun (y : Item) (m : (String × Ty) × Val) => y.1 = m.1.1 ∧ y.2.ty = m.1.2.rget ∧ y.2.Sees m.2) (vs := ms.toList.zip vs)
      (by
        rintro i ⟨⟨nm, t⟩, w⟩ hw
        rw [List.getElem?_zip_eq_some] at hw
        obtain ⟨h1, h2⟩ := hw
        have h1 : ms.get? i = some (nm, t) := by rw [get_toList]; exact h1
        obtain ⟨off, ho⟩ := locateAt_get ms i h1
        obtain ⟨a, y, z, u, rfl, e2, e3, e4, _⟩ := focus_struct (n := n) ho x (.list vs) hd0
        simp only [] at e4
        rw [h2] at e4; cases e4
        refine ⟨_, by simp only [It.item, RRef.itemAt, h1, ho]; rfl, rfl, rfl, ?_⟩
        refine sees_at (pre := pre ++ a) (x := y) (post := z ++ post) ?_ ?_ e3
        · simp only [List.append_assoc]
        · rw [List.length_append, e2]) _ 0 rfl (Nat.zero_le _)
    refine ⟨vs, l, rfl, hlen, ⟨rfl, ms.length, rfl, ?_⟩, ?_, hf⟩
    · rw [hz] at hl; exact hl
    · rintro l' ⟨_, n', hn, hl'⟩
      cases hn
      rw [hz] at hl
      exact (loop_det hl hl').symm

/-- C54: `r[i]` is the part number `i` of a structure or a pair, and refused beyond the last. -/
theorem C54_index_parts {r : RRef} {v : Val} (h : r.Sees v) (hT : (∃ n ms, r.ty = .struct n ms) ∨ ∃ x y, r.ty = .pair x y) (i : Nat) :
    (∀ t w, (parts r.ty v)[i]? = some (t, w) → ∃ x, r.index i = .ok x ∧ x.ty = t.rget ∧ x.Sees w) ∧
      ((parts r.ty v)[i]? = none → r.index i = .error .refused) := by
  obtain ⟨T, cells, addr⟩ := r
  obtain ⟨pre, x, post, e, ha, hd⟩ := h
  simp only at e ha hd hT
  subst e ha
  rcases hT with ⟨n, ms, rfl⟩ | ⟨t1, t2, rfl⟩
  · have hd0 := hd
    rw [decode] at hd
    cases ed : decodeAll ms x with
    | none => rw [ed] at hd; cases hd
    | some vs =>
      rw [ed] at hd; cases hd
      have hlen : vs.length = ms.length := decodeAll_length _ _ _ ed
      constructor
      · intro t w hw
        simp only [parts, List.getElem?_zip_eq_some, List.getElem?_map, Option.map_eq_some_iff] at hw
        obtain ⟨⟨⟨nm, t'⟩, h1, rfl⟩, h2⟩ := hw
        have h1 : ms.get? i = some (nm, t') := by rw [get_toList]; exact h1
        obtain ⟨off, ho⟩ := locateAt_get ms i h1
        obtain ⟨a, y, z, u, rfl, e2, e3, e4, _⟩ := focus_struct (n := n) ho x (.list vs) hd0
        simp only [] at e4
        rw [h2] at e4; cases e4
        refine ⟨_, by simp only [RRef.index, ho]; rfl, rfl, ?_⟩
        refine sees_at (pre := pre ++ a) (x := y) (post := z ++ post) ?_ ?_ e3
        · simp only [List.append_assoc]
        · rw [List.length_append, e2]
      · intro hn
        simp only [parts, List.getElem?_eq_none_iff, List.length_zip, List.length_map, toList_length, hlen, Nat.min_self] at hn
        cases ho : Mems.locateAt ms i with
        | none => simp only [RRef.index, ho]
        | some p =>
          obtain ⟨off, t⟩ := p
          obtain ⟨a, y, z, u, rfl, e2, e3, e4, _⟩ := focus_struct (n := n) ho x (.list vs) hd0
          simp only [] at e4
          have := (List.getElem?_eq_some_iff.mp e4).1
          omega
  · rw [decode] at hd
    obtain ⟨u, w, rfl, e1, e2⟩ := decPair_iff.mp hd
    have hl1 : (x.take t1.memSize).length = t1.memSize := decode_length _ _ _ e1
    match i with
    | 0 =>
      refine ⟨?_, fun hn => by cases hn⟩
      intro t w' hw
      cases hw
      refine ⟨_, rfl, rfl, sees_at (pre := pre) (x := x.take t1.memSize) (post := x.drop t1.memSize ++ post) ?_ rfl e1⟩
      show pre ++ x ++ post = pre ++ x.take t1.memSize ++ (x.drop t1.memSize ++ post)
      rw [← List.append_assoc, List.append_assoc pre (x.take _), List.take_append_drop]
    | 1 =>
      refine ⟨?_, fun hn => by cases hn⟩
      intro t w' hw
      cases hw
      refine ⟨_, rfl, rfl, sees_at (pre := pre ++ x.take t1.memSize) (x := x.drop t1.memSize) (post := post) ?_ (by rw [List.length_append, hl1]) e2⟩
      show pre ++ x ++ post = pre ++ x.take t1.memSize ++ x.drop t1.memSize ++ post
      rw [List.append_assoc pre (x.take _), List.take_append_drop]
    | j + 2 =>
      refine ⟨?_, fun _ => rfl⟩
      intro t w' hw
      cases hw

/-- C54: a pair of a number and a string. -/
example : (⟨.pair (.prim .u8) (.str .s8 0), rawCells [7] ++ objCells (.str .s8 [65] false) strSize, true⟩ : Data).ref.Sees (.list [.bytes [7], .str [65]]) ∧
    (parts (.pair (.prim .u8) (.str .s8 0)) (.list [.bytes [7], .str [65]]))[1]? = some (.str .s8 0, .str [65]) :=
  ⟨sees_ref ⟨rfl, rfl⟩, rfl⟩

theorem find_toList : (ms : Mems) → {n : String} → {t : Ty} → ms.find? n = some t → (n, t) ∈ ms.toList
  | .nil, _, _, h => by cases h
  | .cons x u r, n, t, h => by
    rw [Mems.find?] at h
    split at h
    · rename_i e; cases h; subst e; simp [Mems.toList]
    · exact List.mem_cons_of_mem _ (find_toList r h)

theorem names_toList : (ms : Mems) → ms.toList.map (·.1) = ms.names
  | .nil => rfl
  | .cons _ _ r => by simp [Mems.toList, Mems.names, names_toList r]

theorem items_union {T : Ty} {cells : List Cell} {addr : Nat} {n : String} {d : Ty} {ms : Mems} {i : UInfo} (hT : T = .union n d ms i) :
    ∃ l, (RRef.mk T cells addr).Items l ∧ (∀ l', (RRef.mk T cells addr).Items l' → l' = l) ∧
      l = (discName, RRef.mk' d cells addr) :: ms.toList.map fun m => (m.1, RRef.mk' m.2 cells (addr + d.memSize)) := by
  subst hT
  have hz : ((discName, RRef.mk' d cells addr) :: ms.toList.map fun m => (m.1, RRef.mk' m.2 cells (addr + d.memSize))).length =
      ms.length + 1 := by simp [toList_length]
  obtain ⟨l, hl, hf⟩ := loop_ok (deref := It.item) (r := ⟨.union n d ms i, cells, addr⟩) (R := Eq)
    (vs := (discName, RRef.mk' d cells addr) :: ms.toList.map fun m => (m.1, RRef.mk' m.2 cells (addr + d.memSize))) (by
      intro j w hw
      refine ⟨w, ?_, rfl⟩
      cases j with
      | zero => cases hw; rfl
      | succ j =>
        simp only [List.getElem?_cons_succ, List.getElem?_map, Option.map_eq_some_iff] at hw
        obtain ⟨⟨nm, t⟩, h1, rfl⟩ := hw
        rw [← get_toList] at h1
        simp only [It.item, RRef.itemAt, h1]) _ 0 rfl (Nat.zero_le _)
  rw [hz] at hl
  have e : l = _ := List.forall₂_eq_eq_eq ▸ hf
  refine ⟨l, ⟨rfl, ms.length + 1, rfl, hl⟩, ?_, e⟩
  rintro l' ⟨_, n', hn, hl'⟩
  cases hn
  exact (loop_det hl hl').symm

/-- C54, partial: `items()` of a union with a selected member ends, having visited the discriminator (under the name
`discriminator`) and all members in the order of their declaration; discriminator and selected member have the right
type and value. Missing: the other members, which are visited too although they hold nothing
(`C54_items_fail_union`). -/
theorem C54_items_union_partial {r : RRef} {n : String} {d : Ty} {ms : Mems} {i : UInfo} {b w : Val} {nm : String}
    (hw : r.ty.WF) (hT : r.ty = .union n d ms i) (h : r.Sees (.un b nm w)) :
    ∃ l, r.Items l ∧ (∀ l', r.Items l' → l' = l) ∧ l.map (·.1) = "discriminator" :: ms.names ∧
      (∃ y, l.head? = some ("discriminator", y) ∧ y.ty = d.rget ∧ y.Sees b) ∧
      ∃ t y, ms.find? nm = some t ∧ (nm, y) ∈ l ∧ y.ty = t.rget ∧ y.Sees w := by
  obtain ⟨T, cells, addr⟩ := r
  obtain ⟨pre, x, post, e, ha, hd⟩ := h
  simp only at e ha hd hT hw
  subst e ha hT
  rw [Ty.WF] at hw
  obtain ⟨l, h1, h2, rfl⟩ := items_union (cells := pre ++ x ++ post) (addr := pre.length) (rfl : Ty.union n d ms i = .union n d ms i)
  obtain ⟨bs, rest, hb, hr, rfl, hcase⟩ := decode_union_inv hw.1 hd
  rcases hcase with ⟨_, he⟩ | ⟨nm', t, w', _, hf, hdw, he⟩
  · cases he
  · cases he
    refine ⟨_, h1, h2, ?_, ⟨_, rfl, rfl, ?_⟩, t, RRef.mk' t (pre ++ (rawCells bs ++ rest) ++ post) (pre.length + d.memSize), hf, ?_, rfl, ?_⟩
    · simp only [List.map_cons, List.map_map, Function.comp_def, names_toList]
      rfl
    · refine sees_at (pre := pre) (x := rawCells bs) (post := rest ++ post) (by simp only [List.append_assoc]) rfl ?_
      rw [disc_decode hw.1]
      exact decBytes_iff.mpr ⟨_, rfl, hb, rfl⟩
    · exact List.mem_cons_of_mem _ (List.mem_map.mpr ⟨(nm, t), find_toList ms hf, rfl⟩)
    · refine sees_at (pre := pre ++ rawCells bs) (x := rest.take t.memSize) (post := rest.drop t.memSize ++ post) ?_ ?_ hdw
      · conv => lhs; rw [← List.take_append_drop t.memSize rest]
        simp only [List.append_assoc]
      · rw [List.length_append, rawCells_length, hb]

/-- A union of a number and a string. -/
def exUS : Ty := .union "U" (.prim .u8) (.cons "a" (.prim .u8) (.cons "s" (.str .s8 0) .nil)) ⟨[(1, "a"), (2, "s")], 1, 0, 1⟩

/-- `a` is selected, with the value 7. -/
def exUSd : Data := ⟨exUS, rawCells [1, 7] ++ List.replicate 31 .junk, true⟩

set_option maxRecDepth 4096 in
/-- C54: the members of a structure of a number and a string. -/
example : ∃ l : List Item, (⟨.struct "S" (.cons "a" (.prim .u8) (.cons "s" (.alias "A" (.str .s8 0)) .nil)),
    rawCells [7] ++ objCells (.str .s8 [65] false) strSize, true⟩ : Data).ref.Items l ∧ l.map (·.1) = ["a", "s"] ∧
    l.map (·.2.ty) = [.prim .u8, .str .s8 0] ∧ l.map (·.2.addr) = [0, 1] :=
  ⟨_, ⟨rfl, 2, rfl, .go rfl rfl (.go rfl rfl (.stop rfl))⟩, rfl, rfl, rfl⟩

/-- C54: unions as in the theorem exist. -/
example : exUSd.ref.ty = exUS ∧ exUSd.ref.Sees (.un (.bytes [1]) "a" (.bytes [7])) ∧ exUSd.ref.ty.WF := by
  refine ⟨rfl, sees_ref ⟨rfl, rfl⟩, ?_⟩
  show exUS.WF
  simp only [exUS, Ty.WF, Mems.WF, and_true, true_and]
  refine ⟨by simp [discOk, Ty.rget, PK.isFloat], ⟨by decide, ?_, by decide, by decide, by decide⟩⟩
  intro l n h
  have : (l = 1 ∧ n = "a") ∨ (l = 2 ∧ n = "s") := by
    simp only [UInfo.case, omGet, List.find?] at h
    split at h
    · rename_i hl; simp at hl h; exact .inl ⟨hl.symm, h.symm⟩
    · split at h
      · rename_i hl; simp at hl h; exact .inr ⟨hl.symm, h.symm⟩
      · cases h
  rcases this with ⟨rfl, rfl⟩ | ⟨rfl, rfl⟩ <;> exact ⟨by decide, rfl⟩

/-- C54 fails: `items()` of this union hands out a reference to the string `s`, although there is none: reading it is
undefined. -/
theorem C54_items_fail_union : ∃ l y, exUSd.ref.Items l ∧ ("s", y) ∈ l ∧ y.ty = .str .s8 0 ∧ (∀ v, ¬ y.Sees v) ∧
    peekStr .s8 y.cells y.addr = .error .ub := by
  obtain ⟨l, h1, _, rfl⟩ := items_union (cells := exUSd.cells) (addr := 0) (rfl : exUS = _)
  refine ⟨_, _, h1, List.mem_cons_of_mem _ (List.mem_map.mpr ⟨("s", .str .s8 0), by decide, rfl⟩), rfl, ?_, rfl⟩
  rintro v ⟨pre, x, post, e, ha, hd⟩
  have hl := decode_length _ _ _ hd
  have hx : x = (exUSd.cells.drop 1).take 32 := by
    have e : exUSd.cells = pre ++ x ++ post := e
    have ha : pre.length = 1 := ha
    have hl : x.length = 32 := hl
    rw [e, List.append_assoc, ← ha, List.drop_left, ← hl, List.take_left]
  rw [hx] at hd
  exact absurd (show (none : Option Val) = some v from hd) (by simp)

end Verif.Inst
