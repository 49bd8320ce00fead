import Verif.Lemmas.Seq
/-!
# Sequences (C01 – C04)

The specification is the obvious one: a bound and a list.
-/

namespace Verif

variable {α : Type}

/-- The abstract sequence: a bound (0: none) and the list of elements. -/
structure SeqSpec (α : Type) where
  bounds : Nat
  items : List α

namespace SeqSpec

/-- Effect of an operation on the abstract sequence, and whether it is accepted. -/
def step (d : α) (s : SeqSpec α) : SeqOp α → SeqSpec α × Bool
  | .push v =>
    if s.bounds = 0 ∨ s.items.length < s.bounds then (⟨s.bounds, s.items ++ [v]⟩, true) else (s, false)
  | .pushOwn i =>
    match s.items[i]? with
    | none => (s, false)
    | some v =>
      if s.bounds = 0 ∨ s.items.length < s.bounds then (⟨s.bounds, s.items ++ [v]⟩, true)
      else (s, false)
  | .resize n =>
    if s.bounds = 0 ∨ n ≤ s.bounds
    then (⟨s.bounds, s.items ++ List.replicate (n - s.items.length) d⟩, true) else (s, false)
  | .set i v => if i < s.items.length then (⟨s.bounds, s.items.set i v⟩, true) else (s, false)
  | .copy => (s, true)
  | .convert f b =>
    let b := b % 2 ^ 32
    (⟨b, (if b = 0 then s.items else s.items.take b).map f⟩, true)

/-- Run a history. -/
def run (d : α) (s : SeqSpec α) : List (SeqOp α) → SeqSpec α × List Bool
  | [] => (s, [])
  | op :: ops =>
    let r := run d (s.step d op).1 ops
    (r.1, (s.step d op).2 :: r.2)

/-- The history pushes no element of the sequence into itself and keeps twice the byte size of the
content below 2^32 (the sizes the library's 32-bit byte counts can express). -/
def Fits (block : Nat) (d : α) (s : SeqSpec α) : List (SeqOp α) → Prop
  | [] => True
  | op :: ops => (∀ i, op ≠ .pushOwn i) ∧
      2 * (s.step d op).1.items.length * max block 1 < 2 ^ 32 ∧ Fits block d (s.step d op).1 ops

end SeqSpec

/-- Concrete and abstract sequence agree (used only in proofs). -/
def SeqData.Sim (block : Nat) (s : SeqData α) (a : SeqSpec α) : Prop :=
  s.inst.Inv block ∧ s.bounds = a.bounds ∧ s.inst.abs = a.items ∧
    (s.bounds = 0 ∨ s.inst.size ≤ s.bounds) ∧ s.bounds < 2 ^ 32

theorem SeqData.new_sim {block : Nat} {d : α} {b : Nat} {s : SeqData α}
    (h : SeqData.new block d b = some s) : s.Sim block ⟨b % 2 ^ 32, []⟩ := by
  unfold SeqData.new SeqInst.construct at h
  rw [SeqInst.initMem_eq] at h
  have hlt : SeqInst.u32 b < 2 ^ 32 := Nat.mod_lt _ (by decide)
  rw [SeqInst.u32_of_lt hlt] at h
  by_cases h0 : SeqInst.u32 b = 0
  · simp only [h0, if_true, Option.some.injEq] at h
    subst h
    simp [SeqData.Sim, SeqInst.Inv, SeqInst.abs, h0]
  · simp only [h0, if_false] at h
    by_cases h1 : SeqInst.u32 b * block < 2 ^ 32
    · simp only [h1, if_true, Option.some.injEq] at h
      subst h
      refine ⟨⟨by simp, by simp, Nat.pos_of_ne_zero h0, hlt, h1⟩, rfl, by simp [SeqInst.abs],
        by simp, hlt⟩
    · simp [h1] at h

theorem SeqData.push_sim {block : Nat} {d : α} {s s' : SeqData α} {a : SeqSpec α} {o : Bool} {v : α}
    (hs : s.Sim block a) (h : SeqData.push block d s (.ext v) = some (s', o)) :
    s'.Sim block (a.step d (.push v)).1 ∧ o = (a.step d (.push v)).2 := by
  obtain ⟨h1, h2, h3, h4, h5⟩ := hs
  have hl := SeqInst.abs_length h1
  unfold SeqData.push at h
  simp only [SeqSpec.step]
  rw [← h2, ← h3, hl]
  by_cases hc : s.inst.size < s.bounds ∨ s.bounds = 0
  · rw [if_pos hc] at h
    rw [if_pos (Or.comm.mp hc)]
    split at h
    · cases h
    · rename_i i hi
      simp only [Option.some.injEq, Prod.mk.injEq] at h
      obtain ⟨rfl, rfl⟩ := h
      have := SeqInst.push_ext_spec h1 hi
      have hlen := SeqInst.abs_length this.1
      rw [this.2, List.length_append, hl] at hlen
      refine ⟨⟨this.1, rfl, this.2, ?_, h5⟩, rfl⟩
      simp only [List.length_singleton] at hlen
      simp only; omega
  · rw [if_neg hc] at h
    rw [if_neg (fun h => hc (Or.comm.mp h))]
    simp only [Option.some.injEq, Prod.mk.injEq] at h
    obtain ⟨rfl, rfl⟩ := h
    exact ⟨⟨h1, h2, h3, h4, h5⟩, rfl⟩

theorem SeqData.step_sim {block : Nat} {d : α} {s s' : SeqData α} {a : SeqSpec α} {o : Bool}
    (op : SeqOp α) (hs : s.Sim block a) (h : SeqData.step block d s op = some (s', o)) :
    s'.Sim block (a.step d op).1 ∧ o = (a.step d op).2 := by
  have hs0 := hs
  obtain ⟨h1, h2, h3, h4, h5⟩ := hs
  have hl := SeqInst.abs_length h1
  cases op with
  | push v => exact SeqData.push_sim hs0 h
  | pushOwn i =>
    simp only [SeqData.step] at h
    simp only [SeqSpec.step]
    by_cases hi : i < s.inst.size
    · rw [if_pos hi] at h
      unfold SeqData.push at h
      obtain ⟨w, hget⟩ : ∃ w, a.items[i]? = some w :=
        ⟨a.items[i]'(by rw [← h3, hl]; exact hi), List.getElem?_eq_getElem _⟩
      rw [hget]
      simp only
      rw [← h2]
      have hlen : a.items.length = s.inst.size := by rw [← h3, hl]
      rw [hlen]
      by_cases hc : s.inst.size < s.bounds ∨ s.bounds = 0
      · rw [if_pos hc] at h
        rw [if_pos (Or.comm.mp hc)]
        split at h
        · cases h
        · rename_i i' hi'
          simp only [Option.some.injEq, Prod.mk.injEq] at h
          obtain ⟨rfl, rfl⟩ := h
          obtain ⟨v, hv, hinv, habs⟩ := SeqInst.push_own_spec h1 hi hi'
          rw [h3, hget] at hv
          simp only [Option.some.injEq] at hv
          have hlen' := SeqInst.abs_length hinv
          rw [habs, List.length_append, hl] at hlen'
          simp only [List.length_singleton] at hlen'
          refine ⟨⟨hinv, rfl, by rw [habs, h3, hv], ?_, h5⟩, rfl⟩
          simp only; omega
      · rw [if_neg hc] at h
        rw [if_neg (fun h => hc (Or.comm.mp h))]
        simp only [Option.some.injEq, Prod.mk.injEq] at h
        obtain ⟨rfl, rfl⟩ := h
        exact ⟨⟨h1, h2, h3, h4, h5⟩, rfl⟩
    · rw [if_neg hi] at h
      have : a.items[i]? = none := by
        rw [List.getElem?_eq_none_iff, ← h3, hl]; omega
      rw [this]
      simp only [Option.some.injEq, Prod.mk.injEq] at h
      obtain ⟨rfl, rfl⟩ := h
      exact ⟨hs0, rfl⟩
  | resize n =>
    simp only [SeqData.step] at h
    simp only [SeqSpec.step]
    rw [← h2, ← h3, hl]
    by_cases hc : s.bounds = 0 ∨ s.bounds ≥ n
    · rw [if_pos hc] at h
      rw [if_pos (by omega)]
      split at h
      · cases h
      · rename_i i hi
        simp only [Option.some.injEq, Prod.mk.injEq] at h
        obtain ⟨rfl, rfl⟩ := h
        have := SeqInst.resize_spec h1 hi
        have hlen := SeqInst.abs_length this.1
        rw [this.2, List.length_append, hl, List.length_replicate] at hlen
        refine ⟨⟨this.1, rfl, this.2, ?_, h5⟩, rfl⟩
        simp only; omega
    · rw [if_neg hc] at h
      rw [if_neg (by omega)]
      simp only [Option.some.injEq, Prod.mk.injEq] at h
      obtain ⟨rfl, rfl⟩ := h
      exact ⟨hs0, rfl⟩
  | set i v =>
    simp only [SeqData.step] at h
    simp only [SeqSpec.step]
    have hlen : a.items.length = s.inst.size := by rw [← h3, hl]
    rw [hlen]
    by_cases hi : i < s.inst.size
    · rw [if_pos hi] at h ⊢
      have h1' := h1
      unfold SeqInst.Inv at h1'
      cases hb : s.inst.buf with
      | none => rw [hb] at h; cases h
      | some l =>
        rw [hb] at h h1'
        simp only at h
        split at h
        · simp only [Option.some.injEq, Prod.mk.injEq] at h
          obtain ⟨rfl, rfl⟩ := h
          refine ⟨⟨?_, h2, ?_, h4, h5⟩, rfl⟩
          · simp only [SeqInst.Inv, List.length_set]; exact h1'
          · simp only [SeqInst.abs, Option.getD_some]
            rw [← h3]
            simp only [SeqInst.abs, hb, Option.getD_some]
            rw [List.take_set]
        · cases h
    · rw [if_neg hi] at h ⊢
      simp only [Option.some.injEq, Prod.mk.injEq] at h
      obtain ⟨rfl, rfl⟩ := h
      exact ⟨hs0, rfl⟩
  | copy =>
    simp only [SeqData.step] at h
    simp only [SeqSpec.step]
    split at h
    · cases h
    · rename_i i hi
      simp only [Option.some.injEq, Prod.mk.injEq] at h
      obtain ⟨rfl, rfl⟩ := h
      rw [SeqInst.copy_eq_copyFrom] at hi
      have := SeqInst.copyFrom_spec h1 hi
      simp only [if_true, List.map_id] at this
      have hlen := SeqInst.abs_length this.1
      rw [this.2, hl] at hlen
      exact ⟨⟨this.1, h2, by rw [this.2, h3], by simp only; omega, h5⟩, rfl⟩
  | convert f b =>
    simp only [SeqData.step] at h
    simp only [SeqSpec.step]
    split at h
    · cases h
    · rename_i i hi
      simp only [Option.some.injEq, Prod.mk.injEq] at h
      obtain ⟨rfl, rfl⟩ := h
      have := SeqInst.copyFrom_spec h1 hi
      have hlen := SeqInst.abs_length this.1
      refine ⟨⟨this.1, rfl, by rw [this.2, h3], ?_, Nat.mod_lt _ (by decide)⟩, rfl⟩
      simp only
      rw [this.2, List.length_map] at hlen
      by_cases hb : SeqInst.u32 b = 0
      · exact .inl hb
      · right
        rw [if_neg hb, List.length_take] at hlen
        omega

theorem SeqData.run_sim {block : Nat} {d : α} (ops : List (SeqOp α)) {s s' : SeqData α}
    {a : SeqSpec α} {os : List Bool} (hs : s.Sim block a)
    (h : SeqData.run block d s ops = some (s', os)) :
    s'.Sim block (a.run d ops).1 ∧ os = (a.run d ops).2 := by
  induction ops generalizing s a os with
  | nil =>
    simp only [SeqData.run, Option.some.injEq, Prod.mk.injEq] at h
    obtain ⟨rfl, rfl⟩ := h
    exact ⟨hs, rfl⟩
  | cons op ops ih =>
    simp only [SeqData.run] at h
    split at h
    · cases h
    · rename_i s1 b hstep
      split at h
      · cases h
      · rename_i s2 bs hrun
        simp only [Option.some.injEq, Prod.mk.injEq] at h
        obtain ⟨rfl, rfl⟩ := h
        have h1 := SeqData.step_sim op hs hstep
        have h2 := ih h1.1 hrun
        exact ⟨h2.1, by simp only [SeqSpec.run]; rw [h1.2, h2.2]⟩

theorem SeqData.step_ok {block : Nat} {d : α} {s : SeqData α} {a : SeqSpec α} (op : SeqOp α)
    (hs : s.Sim block a) (hno : ∀ i, op ≠ .pushOwn i)
    (hfit : 2 * (a.step d op).1.items.length * max block 1 < 2 ^ 32) :
    ∃ r, SeqData.step block d s op = some r := by
  obtain ⟨h1, h2, h3, h4, h5⟩ := hs
  have hl := SeqInst.abs_length h1
  have hlen : a.items.length = s.inst.size := by rw [← h3, hl]
  cases op with
  | push v =>
    simp only [SeqData.step, SeqData.push]
    split
    · rename_i hc
      simp only [SeqSpec.step] at hfit
      rw [if_pos (by rw [← h2, hlen]; omega)] at hfit
      simp only [List.length_append, List.length_singleton, hlen] at hfit
      obtain ⟨i, hi⟩ := SeqInst.push_ext_ok (d := d) (v := v) (bounds := s.bounds) h1 (by omega) h5 hfit
      rw [hi]; exact ⟨_, rfl⟩
    · exact ⟨_, rfl⟩
  | pushOwn i => exact absurd rfl (hno i)
  | resize n =>
    simp only [SeqData.step]
    split
    · rename_i hc
      simp only [SeqSpec.step] at hfit
      rw [if_pos (by rw [← h2]; omega)] at hfit
      simp only [List.length_append, List.length_replicate, hlen] at hfit
      have hn : n * max block 1 < 2 ^ 32 := by
        have : n * max block 1 ≤ 2 * (s.inst.size + (n - s.inst.size)) * max block 1 :=
          Nat.mul_le_mul_right _ (by omega)
        omega
      obtain ⟨i, hi⟩ := SeqInst.resize_ok (d := d) (n := n) (bounds := s.bounds) h1 (by omega) hn
      rw [hi]; exact ⟨_, rfl⟩
    · exact ⟨_, rfl⟩
  | set i v =>
    simp only [SeqData.step]
    split
    · rename_i hi
      unfold SeqInst.Inv at h1
      cases hb : s.inst.buf with
      | none => rw [hb] at h1; omega
      | some l =>
        rw [hb] at h1
        simp only
        rw [if_pos (by omega)]; exact ⟨_, rfl⟩
    · exact ⟨_, rfl⟩
  | copy =>
    simp only [SeqData.step, SeqInst.copy_eq_copyFrom]
    obtain ⟨i, hi⟩ := SeqInst.copyFrom_ok (d := d) (f := id) (bounds := 0) h1
    rw [hi]; exact ⟨_, rfl⟩
  | convert f b =>
    simp only [SeqData.step]
    obtain ⟨i, hi⟩ := SeqInst.copyFrom_ok (d := d) (f := f) (bounds := SeqInst.u32 b) h1
    rw [hi]; exact ⟨_, rfl⟩

theorem SeqData.run_ok {block : Nat} {d : α} (ops : List (SeqOp α)) {s : SeqData α}
    {a : SeqSpec α} (hs : s.Sim block a) (hfit : a.Fits block d ops) :
    ∃ r, SeqData.run block d s ops = some r := by
  induction ops generalizing s a with
  | nil => exact ⟨_, rfl⟩
  | cons op ops ih =>
    obtain ⟨hno, hf, hrest⟩ := hfit
    obtain ⟨⟨s1, b⟩, hstep⟩ := SeqData.step_ok op hs hno hf
    have hsim := SeqData.step_sim op hs hstep
    obtain ⟨⟨s2, bs⟩, hrun⟩ := ih hsim.1 hrest
    exact ⟨(s2, b :: bs), by simp only [SeqData.run, hstep, hrun]⟩

/-! ## C01 -/

/-- C01: whatever the history of pushes, resizes, element writes, copies and conversions on a fresh
sequence, if the library gets through it without undefined behaviour then which operations were
refused, `size()`, and what `operator[](i)` returns for every `i` are exactly those of the abstract
list. -/
theorem C01_sequence_is_list {block : Nat} {d : α} {b : Nat} {s0 s : SeqData α}
    {ops : List (SeqOp α)} {outs : List Bool}
    (h0 : SeqData.new block d b = some s0) (h : SeqData.run block d s0 ops = some (s, outs)) :
    let a := (SeqSpec.mk (b % 2 ^ 32) []).run d ops
    outs = a.2 ∧ s.bounds = a.1.bounds ∧ s.inst.size = a.1.items.length ∧
    (∀ i v, a.1.items[i]? = some v → s.inst.get i = some (some v)) ∧
    (∀ i, a.1.items.length ≤ i → s.inst.get i = none) := by
  intro a
  obtain ⟨⟨h1, h2, h3, h4, h5⟩, ho⟩ := SeqData.run_sim ops (SeqData.new_sim h0) h
  have hl := SeqInst.abs_length h1
  have hlen : a.1.items.length = s.inst.size := by rw [← hl, h3]
  refine ⟨ho, h2, hlen.symm, ?_, ?_⟩
  · intro i v hv
    have hi : i < s.inst.size := by
      rw [← hlen]; exact (List.getElem?_eq_some_iff.mp hv).1
    rw [← h3] at hv
    simp only [SeqInst.abs] at hv
    rw [List.getElem?_take_of_lt hi] at hv
    unfold SeqInst.get
    rw [if_pos hi]
    cases hb : s.inst.buf with
    | none => rw [hb] at hv; simp at hv
    | some l => rw [hb] at hv; simpa using hv
  · intro i hi
    unfold SeqInst.get
    rw [if_neg (by omega)]

/-- C01 (the library does get through): if the content stays below the sizes expressible by the
32-bit byte counts and no element is pushed into its own sequence, no history has undefined
behaviour. -/
theorem C01_no_undefined_behaviour {block : Nat} {d : α} {b : Nat} (ops : List (SeqOp α))
    (hb : b % 2 ^ 32 * block < 2 ^ 32)
    (hfit : (SeqSpec.mk (b % 2 ^ 32) []).Fits block d ops) :
    ∃ s0 s outs, SeqData.new block d b = some s0 ∧ SeqData.run block d s0 ops = some (s, outs) := by
  have hnew : ∃ s0, SeqData.new block d b = some s0 := by
    unfold SeqData.new SeqInst.construct
    rw [SeqInst.initMem_eq]
    have hlt : SeqInst.u32 b < 2 ^ 32 := Nat.mod_lt _ (by decide)
    rw [SeqInst.u32_of_lt hlt]
    by_cases h0 : SeqInst.u32 b = 0
    · simp [h0]
    · have : SeqInst.u32 b * block < 2 ^ 32 := hb
      simp [h0, this]
  obtain ⟨s0, hs0⟩ := hnew
  obtain ⟨⟨s, outs⟩, hr⟩ := SeqData.run_ok ops (SeqData.new_sim hs0) hfit
  exact ⟨s0, s, outs, hs0, hr⟩

/-- A history touching every operation, on a sequence of 4-byte elements with bound 3. -/
def exSeqOps : List (SeqOp Nat) :=
  [.push 7, .push 8, .resize 3, .push 9, .set 1 5, .copy, .convert (· + 1) 2, .resize 9]

example : (SeqSpec.mk (3 % 2 ^ 32) []).Fits 4 0 exSeqOps ∧
    ((SeqSpec.mk 3 []).run 0 exSeqOps).1.items = [8, 6] ∧
    ((SeqSpec.mk 3 []).run 0 exSeqOps).2 = [true, true, true, false, true, true, true, false] := by
  refine ⟨?_, by decide, by decide⟩
  simp [SeqSpec.Fits, exSeqOps, SeqSpec.step]

/-! ## C02 -/

/-- C02: a sequence with a bound never holds more elements than the bound, whatever was done to it. -/
theorem C02_bound_respected {block : Nat} {d : α} {b : Nat} {s0 s : SeqData α}
    {ops : List (SeqOp α)} {outs : List Bool}
    (h0 : SeqData.new block d b = some s0) (h : SeqData.run block d s0 ops = some (s, outs)) :
    s.bounds = 0 ∨ s.inst.size ≤ s.bounds :=
  (SeqData.run_sim ops (SeqData.new_sim h0) h).1.2.2.2.1

/-- C02: in every reachable state, a push is refused exactly if the sequence has a bound and is at
it; a refused push leaves the sequence as it was; an unbounded sequence refuses nothing; an accepted
push appends the value. -/
theorem C02_push {block : Nat} {d : α} {b : Nat} {s0 s s' : SeqData α}
    {ops : List (SeqOp α)} {outs : List Bool} {v : α} {o : Bool}
    (h0 : SeqData.new block d b = some s0) (h : SeqData.run block d s0 ops = some (s, outs))
    (hp : SeqData.step block d s (.push v) = some (s', o)) :
    (o = false ↔ s.bounds ≠ 0 ∧ s.inst.size = s.bounds) ∧ (o = false → s' = s) ∧
    (o = true → s'.inst.size = s.inst.size + 1 ∧ s'.inst.get s.inst.size = some (some v) ∧
      ∀ i, i < s.inst.size → s'.inst.get i = s.inst.get i) := by
  have hsim := (SeqData.run_sim ops (SeqData.new_sim h0) h).1
  obtain ⟨h1, h2, h3, h4, h5⟩ := hsim
  have hl := SeqInst.abs_length h1
  simp only [SeqData.step, SeqData.push] at hp
  by_cases hc : s.inst.size < s.bounds ∨ s.bounds = 0
  · rw [if_pos hc] at hp
    split at hp
    · cases hp
    · rename_i i hi
      simp only [Option.some.injEq, Prod.mk.injEq] at hp
      obtain ⟨rfl, rfl⟩ := hp
      refine ⟨by simp; omega, by simp, fun _ => ?_⟩
      obtain ⟨i1, i2⟩ := SeqInst.push_ext_spec h1 hi
      have il := SeqInst.abs_length i1
      rw [i2, List.length_append, hl, List.length_singleton] at il
      have hget : ∀ (t : SeqInst α), t.Inv block → ∀ j, j < t.size → t.get j = some (t.abs[j]?) := by
        intro t ht j hj
        unfold SeqInst.get SeqInst.abs
        rw [if_pos hj, List.getElem?_take_of_lt hj]
        cases ht' : t.buf <;> simp
      refine ⟨il.symm, ?_, ?_⟩
      · rw [hget i i1 _ (by omega), i2, ← hl]; simp
      · intro j hj
        rw [hget i i1 _ (by omega), hget _ h1 _ hj, i2, List.getElem?_append_left (by omega)]
  · rw [if_neg hc] at hp
    simp only [Option.some.injEq, Prod.mk.injEq] at hp
    obtain ⟨rfl, rfl⟩ := hp
    exact ⟨by simp; omega, by simp, by simp⟩

example : ∃ s0 s outs s', SeqData.new 4 (0 : Nat) 1 = some s0 ∧
    SeqData.run 4 0 s0 [.push 7] = some (s, outs) ∧
    SeqData.step 4 0 s (.push 8) = some (s', false) := by
  simp [SeqData.new, SeqInst.construct, SeqInst.initMem_eq, SeqData.run, SeqData.step, SeqData.push,
    SeqInst.push, SeqInst.u32]

/-! ## C03 -/

theorem SeqData.resize_wraps {block n : Nat} {d : α} (h0 : 0 < n) (h1 : n < 2 ^ 32)
    (h2 : 2 ^ 32 ≤ n * block) :
    SeqData.run block d ⟨0, ⟨0, none, 0, 0⟩⟩ [.resize n] = none := by
  have hi : SeqInst.initMem block d n = none := by
    rw [SeqInst.initMem_eq, SeqInst.u32_of_lt h1, if_neg (by omega), if_neg (by omega)]
  have hr : SeqInst.realloc block d ⟨0, none, 0, 0⟩ n 0 = none := by
    simp only [SeqInst.realloc, if_true, hi]
  have hz : SeqInst.resize block d ⟨0, none, 0, 0⟩ n 0 = none := by
    unfold SeqInst.resize
    rw [hr]
    exact if_neg (by simp; omega)
  simp only [SeqData.run, SeqData.step, hz, true_or, if_true]

/-- C03, negation 1: byte counts are 32-bit products, so a sequence can write outside its buffer:
resizing an unbounded sequence of 64 KiB elements to 65536 elements allocates 0 bytes. -/
theorem C03_overflow_undefined :
    ∃ s0, SeqData.new 65536 (0 : Nat) 0 = some s0 ∧
      SeqData.run 65536 0 s0 [.resize 65536] = none := by
  refine ⟨⟨0, ⟨0, none, 0, 0⟩⟩, ?_, ?_⟩
  · simp [SeqData.new, SeqInst.construct, SeqInst.initMem_eq]
  · exact SeqData.resize_wraps (by decide) (by decide) (by decide)

/-- C03, negation 2: pushing an element of a full sequence into the same sequence reads freed memory
(the argument points into the buffer that `push` reallocates, SequenceInstance.hpp 153-159). -/
theorem C03_self_push_undefined :
    ∃ s0 s outs, SeqData.new 4 (0 : Nat) 0 = some s0 ∧
      SeqData.run 4 0 s0 [.push 7] = some (s, outs) ∧ SeqData.step 4 0 s (.pushOwn 0) = none := by
  refine ⟨⟨0, ⟨0, none, 0, 0⟩⟩, ⟨0, ⟨1, some [7], 1, 0⟩⟩, [true], ?_, ?_, ?_⟩
  · simp [SeqData.new, SeqInst.construct, SeqInst.initMem_eq]
  · simp [SeqData.run, SeqData.step, SeqData.push, SeqInst.push, SeqInst.realloc, SeqInst.initMem_eq]
  · simp [SeqData.step, SeqData.push, SeqInst.push, SeqInst.realloc, SeqInst.initMem_eq]

/-- C03, partial: in every reachable state the buffer has exactly `capacity` slots, the used part is
within it, the bytes of the buffer are countable in 32 bits, and no buffer means nothing is stored;
every further operation of the kinds below, within the sizes expressible in 32 bits, is defined
(all its accesses are inside the buffer).
Missing: byte sizes of 2^32 and more, and pushing an element into its own full sequence: both are
undefined, see the negations. -/
theorem C03_storage_partial {block : Nat} {d : α} {b : Nat} {s0 s : SeqData α}
    {ops : List (SeqOp α)} {outs : List Bool}
    (h0 : SeqData.new block d b = some s0) (h : SeqData.run block d s0 ops = some (s, outs)) :
    (∀ l, s.inst.buf = some l → l.length = s.inst.cap ∧ s.inst.size ≤ l.length ∧
      s.inst.cap * block < 2 ^ 32) ∧
    (s.inst.buf = none → s.inst.cap = 0 ∧ s.inst.size = 0) ∧
    (∀ op, (∀ i, op ≠ .pushOwn i) → (∀ n, op = .resize n → n * max block 1 < 2 ^ 31) →
      (s.inst.size + 1) * max block 1 < 2 ^ 31 → ∃ r, SeqData.step block d s op = some r) := by
  have hsim := (SeqData.run_sim ops (SeqData.new_sim h0) h).1
  have hsim' := hsim
  obtain ⟨h1, h2, h3, h4, h5⟩ := hsim
  have hl := SeqInst.abs_length h1
  refine ⟨?_, ?_, ?_⟩
  · intro l hb
    unfold SeqInst.Inv at h1; rw [hb] at h1
    simp only at h1; omega
  · intro hb
    unfold SeqInst.Inv at h1; rw [hb] at h1; exact h1
  · intro op hno hres hsz
    apply SeqData.step_ok op hsim' hno
    have hlen : ((SeqSpec.mk (b % 2 ^ 32) []).run d ops).1.items.length = s.inst.size := by
      rw [← h3, hl]
    generalize ((SeqSpec.mk (b % 2 ^ 32) []).run d ops).1 = a at *
    have key : ∀ n, n ≤ s.inst.size + 1 → 2 * n * max block 1 < 2 ^ 32 := by
      intro n hn
      have := Nat.mul_le_mul_right (max block 1) hn
      rw [Nat.mul_assoc]; omega
    cases op with
    | push v =>
      simp only [SeqSpec.step]
      split
      · simp only [List.length_append, List.length_singleton, hlen]; exact key _ (by omega)
      · rw [hlen]; exact key _ (by omega)
    | pushOwn i => exact absurd rfl (hno i)
    | resize n =>
      simp only [SeqSpec.step]
      split
      · simp only [List.length_append, List.length_replicate, hlen]
        have := hres n rfl
        by_cases hn : n ≤ s.inst.size
        · exact key _ (by omega)
        · have : s.inst.size + (n - s.inst.size) = n := by omega
          rw [this, Nat.mul_assoc]; omega
      · rw [hlen]; exact key _ (by omega)
    | set i v =>
      simp only [SeqSpec.step]
      split
      · simp only [List.length_set, hlen]; exact key _ (by omega)
      · rw [hlen]; exact key _ (by omega)
    | copy => simp only [SeqSpec.step, hlen]; exact key _ (by omega)
    | convert f b' =>
      simp only [SeqSpec.step, List.length_map]
      apply key
      split
      · omega
      · rw [List.length_take]; omega

/-- C03: a reallocation preserves all existing elements, in order. -/
theorem C03_realloc_preserves {block : Nat} {d : α} {b : Nat} {s0 s : SeqData α}
    {ops : List (SeqOp α)} {outs : List Bool}
    (h0 : SeqData.new block d b = some s0) (h : SeqData.run block d s0 ops = some (s, outs))
    {n bnd : Nat} {i' : SeqInst α} (hr : s.inst.realloc block d n bnd = some i') :
    i'.size = s.inst.size ∧ ∀ i, i'.get i = s.inst.get i := by
  have h1 := (SeqData.run_sim ops (SeqData.new_sim h0) h).1.1
  obtain ⟨i1, i2, i3, -, -⟩ := SeqInst.realloc_spec h1 hr
  refine ⟨i3, fun i => ?_⟩
  unfold SeqInst.get
  rw [i3]
  split
  · rename_i hi
    have hg : ∀ t : SeqInst α, i < t.size → t.buf.bind (·[i]?) = t.abs[i]? := by
      intro t ht
      unfold SeqInst.abs; rw [List.getElem?_take_of_lt ht]
      cases t.buf <;> simp
    rw [hg i' (by omega), hg s.inst hi, i2]
  · rfl

/-! ## C04 -/

/-- C04: pushing `n` elements one by one onto a fresh unbounded sequence moves, over all
reallocations together, fewer than `2 n` elements (none for `n = 0`). -/
theorem C04_growth_amortised {block : Nat} {d : α} {s0 s : SeqData α} {outs : List Bool}
    (vs : List α) (h0 : SeqData.new block d 0 = some s0)
    (h : SeqData.run block d s0 (vs.map .push) = some (s, outs)) :
    s.inst.moved ≤ 2 * vs.length ∧ (vs ≠ [] → s.inst.moved < 2 * vs.length) := by
  -- invariant: everything pushed, capacity = moved + 1, at most double the size
  have key : ∀ (vs : List α) (s s' : SeqData α) (outs : List Bool) (k : Nat), s.bounds = 0 →
      s.inst.Inv block → s.inst.size = k →
      ((k = 0 ∧ s.inst.cap = 0 ∧ s.inst.moved = 0) ∨
        (0 < k ∧ s.inst.cap = s.inst.moved + 1 ∧ s.inst.cap < 2 * k)) →
      SeqData.run block d s (vs.map .push) = some (s', outs) →
      ((k + vs.length = 0 ∧ s'.inst.moved = 0) ∨
        (0 < k + vs.length ∧ s'.inst.moved + 1 < 2 * (k + vs.length))) := by
    intro vs
    induction vs with
    | nil =>
      intro s s' outs k hb hinv hk hcase hrun
      simp only [List.map_nil, SeqData.run, Option.some.injEq, Prod.mk.injEq] at hrun
      obtain ⟨rfl, -⟩ := hrun
      simp only [List.length_nil, Nat.add_zero]
      omega
    | cons v vs ih =>
      intro s s' outs k hb hinv hk hcase hrun
      simp only [List.map_cons, SeqData.run] at hrun
      split at hrun
      · cases hrun
      · rename_i s1 o hstep
        split at hrun
        · cases hrun
        · rename_i s2 bs hrun'
          simp only [Option.some.injEq, Prod.mk.injEq] at hrun
          obtain ⟨rfl, -⟩ := hrun
          simp only [SeqData.step, SeqData.push] at hstep
          rw [if_pos (by omega)] at hstep
          split at hstep
          · cases hstep
          · rename_i i hi
            simp only [Option.some.injEq, Prod.mk.injEq] at hstep
            obtain ⟨rfl, -⟩ := hstep
            have hspec := SeqInst.push_ext_spec hinv hi
            have hl := SeqInst.abs_length hinv
            have hl' := SeqInst.abs_length hspec.1
            rw [hspec.2, List.length_append, hl, List.length_singleton] at hl'
            have hcl := SeqInst.cap_lt hinv
            have hres : i.cap = i.moved + 1 ∧ i.cap < 2 * (k + 1) := by
              unfold SeqInst.push at hi
              simp only at hi
              have hinv0 := hinv
              unfold SeqInst.Inv at hinv
              by_cases hg : s.inst.buf = none ∨ s.inst.size = s.inst.cap
              · simp only [hg, if_true] at hi
                split at hi
                · cases hi
                · rename_i s3 hs3
                  obtain ⟨j1, -, j3, j4, j5⟩ := SeqInst.realloc_spec hinv0 hs3
                  rw [if_pos hb] at j4
                  split at hi
                  · cases hi
                  · rename_i l hl3
                    unfold SeqInst.Inv at j1; rw [hl3] at j1; simp only at j1
                    split at hi
                    · rename_i hslot
                      simp only [Option.some.injEq] at hi; subst hi
                      simp only
                      rw [hl3] at j5
                      rcases hcase with ⟨c1, c2, c3⟩ | ⟨c1, c2, c3⟩
                      · rw [c2] at j4
                        have : SeqInst.u32 1 = 1 := by decide
                        simp only [Nat.lt_irrefl, gt_iff_lt, if_false, this] at j4
                        have : s.inst.size = 0 := by omega
                        rw [this] at j5
                        simp only [ite_self] at j5
                        omega
                      · have hbuf : s.inst.buf ≠ none := by
                          intro hbn; rw [hbn] at hinv; simp only at hinv; omega
                        have hsz : s.inst.size = s.inst.cap := by
                          rcases hg with hg | hg
                          · exact absurd hg hbuf
                          · exact hg
                        rw [if_neg (by simp [hbuf])] at j5
                        rw [if_pos (by omega)] at j4
                        have hu : SeqInst.u32 (s.inst.cap * 2) ≤ s.inst.cap * 2 := Nat.mod_le _ _
                        -- no wrap-around: the slot written exists
                        have hnw : s.inst.cap * 2 < 2 ^ 32 := by
                          rcases Nat.lt_or_ge (s.inst.cap * 2) (2 ^ 32) with hw | hw
                          · exact hw
                          · have : (s.inst.cap * 2) % 2 ^ 32 = s.inst.cap * 2 - 2 ^ 32 := by omega
                            have h6 : SeqInst.u32 (s.inst.cap * 2) = s.inst.cap * 2 - 2 ^ 32 := this
                            have h7 : s3.cap = s.inst.cap * 2 - 2 ^ 32 := by
                              rw [j4, h6]; exact Nat.mod_eq_of_lt (by omega)
                            have h8 := hl'
                            have h9 : s3.size < s3.cap := by rw [← j1.1]; exact hslot
                            omega
                        rw [SeqInst.u32_of_lt (by rw [SeqInst.u32_of_lt hnw]; exact hnw), SeqInst.u32_of_lt hnw] at j4
                        omega
                    · cases hi
              · simp only [hg, if_false] at hi
                simp only [not_or] at hg
                split at hi
                · cases hi
                · rename_i l hl3
                  rw [hl3] at hinv
                  split at hi
                  · simp only [Option.some.injEq] at hi; subst hi
                    simp only at hinv ⊢
                    omega
                  · cases hi
            have := ih ⟨s.bounds, i⟩ s2 bs (k + 1) hb hspec.1 (by simp only; omega)
              (.inr ⟨by omega, hres⟩) hrun'
            simp only [List.length_cons]
            omega
  have hs0 : s0 = ⟨0, ⟨0, none, 0, 0⟩⟩ := by
    simp [SeqData.new, SeqInst.construct, SeqInst.initMem_eq] at h0
    exact h0.symm
  subst hs0
  have := key vs ⟨0, ⟨0, none, 0, 0⟩⟩ s outs 0 rfl ⟨rfl, rfl⟩ rfl (.inl ⟨rfl, rfl, rfl⟩) h
  constructor
  · omega
  · intro hne
    have : 0 < vs.length := List.length_pos_iff.mpr hne
    omega

example : ∃ s0 s outs, SeqData.new 4 (0 : Nat) 0 = some s0 ∧
    SeqData.run 4 0 s0 ([1, 2, 3, 4, 5].map .push) = some (s, outs) ∧ s.inst.moved = 7 := by
  simp [SeqData.new, SeqInst.construct, SeqInst.initMem_eq, SeqData.run, SeqData.step, SeqData.push,
    SeqInst.push, SeqInst.realloc, SeqInst.u32]

end Verif
