import Verif.Lemmas.MapInst
import Verif.Props.Hash
/-!
# Maps (C05, C06, C08 – C11)

The specification is a bound and a list of (key, value) entries in insertion order, with keys
compared by equality; it does not mention positions or binary search. Hashes appear in it only to say
which entries survive a conversion to a smaller bound.
-/

namespace Verif

variable {κ υ : Type}

/-- The abstract map. -/
structure MapSpec (κ υ : Type) where
  bounds : Nat
  items : List (κ × υ)

namespace MapSpec

variable [DecidableEq κ]

/-- Value of a key. -/
def lookup (s : MapSpec κ υ) (k : κ) : Option υ := (s.items.find? (fun p => p.1 = k)).map (·.2)

/-- Key present. -/
def Has (s : MapSpec κ υ) (k : κ) : Prop := ∃ v, (k, v) ∈ s.items

instance (s : MapSpec κ υ) (k : κ) : Decidable (s.Has k) :=
  decidable_of_iff (∃ p ∈ s.items, p.1 = k) (by
    constructor
    · rintro ⟨⟨a, b⟩, h, rfl⟩; exact ⟨b, h⟩
    · rintro ⟨v, h⟩; exact ⟨_, h, rfl⟩)

/-- No room for a new entry. -/
def Full (s : MapSpec κ υ) : Prop := s.bounds ≠ 0 ∧ s.bounds ≤ s.items.length

instance (s : MapSpec κ υ) : Decidable s.Full := inferInstanceAs (Decidable (_ ∧ _))

/-- Add a new key with the default value. -/
def add (dv : υ) (s : MapSpec κ υ) (k : κ) : MapSpec κ υ := ⟨s.bounds, s.items ++ [(k, dv)]⟩

/-- Change the value of a key. -/
def update (s : MapSpec κ υ) (k : κ) (v : υ) : MapSpec κ υ :=
  ⟨s.bounds, s.items.map (fun p => if p.1 = k then (p.1, v) else p)⟩

/-- Effect of an operation and whether it is accepted. `insert(pair)` adds the key with the *default*
value: see C11. -/
def step (hash : κ → Nat) (dv : υ) (s : MapSpec κ υ) : MapOp κ υ → MapSpec κ υ × Bool
  | .insert k _ => if s.Has k ∨ s.Full then (s, false) else (s.add dv k, true)
  | .insertOwn _ => (s, false)
  | .touch k => if s.Has k then (s, true) else if s.Full then (s, false) else (s.add dv k, true)
  | .set k v =>
    if s.Has k then (s.update k v, true)
    else if s.Full then (s, false) else ((s.add dv k).update k v, true)
  | .atSet k v => if s.Has k then (s.update k v, true) else (s, false)
  | .copy => (s, true)
  | .convert b =>
    let b := b % 2 ^ 32
    -- a smaller bound keeps the `b` entries whose keys have the smallest hashes
    (⟨b, if b = 0 then s.items else
      s.items.filter (fun p => (s.items.filter (fun q => hash q.1 < hash p.1)).length < b)⟩, true)

/-- Run a history. -/
def run (hash : κ → Nat) (dv : υ) (s : MapSpec κ υ) : List (MapOp κ υ) → MapSpec κ υ × List Bool
  | [] => (s, [])
  | op :: ops =>
    let r := run hash dv (s.step hash dv op).1 ops
    (r.1, (s.step hash dv op).2 :: r.2)

/-- The history inserts no element of the map into itself and keeps twice the byte size of the
content, plus one slot, below 2^32. -/
def Fits (hash : κ → Nat) (block : Nat) (dv : υ) (s : MapSpec κ υ) : List (MapOp κ υ) → Prop
  | [] => True
  | op :: ops => (∀ i, op ≠ .insertOwn i) ∧
      2 * (s.items.length + 1) * max block 1 < 2 ^ 32 ∧ Fits hash block dv (s.step hash dv op).1 ops

end MapSpec

/-! ### Lists sorted by hash -/

namespace MapInst

theorem sorted_unique {hash : κ → Nat} {l : List (κ × υ)} (h : Sorted hash l) {p q : κ × υ}
    (hp : p ∈ l) (hq : q ∈ l) (e : hash p.1 = hash q.1) : p = q := by
  obtain ⟨i, hi, rfl⟩ := List.mem_iff_getElem.mp hp
  obtain ⟨j, hj, rfl⟩ := List.mem_iff_getElem.mp hq
  have key := List.pairwise_iff_getElem.mp h
  rcases Nat.lt_trichotomy i j with hlt | heq | hgt
  · have := key i j hi hj hlt; omega
  · subst heq; rfl
  · have := key j i hj hi hgt; omega

/-- Two lists sorted by hash with the same entries are equal. -/
theorem sorted_perm_eq {hash : κ → Nat} {l m : List (κ × υ)} (hl : Sorted hash l) (hm : Sorted hash m)
    (hp : l.Perm m) : l = m := by
  refine List.Perm.eq_of_pairwise (le := fun (p q : κ × υ) => hash p.1 < hash q.1) ?_ hl hm hp
  intro a b _ _ h1 h2; omega

theorem filter_rank {hash : κ → Nat} (b : Nat) (pre suf : List (κ × υ))
    (h : Sorted hash (pre ++ suf)) :
    suf.filter (fun p => ((pre ++ suf).filter (fun q => hash q.1 < hash p.1)).length < b)
      = suf.take (b - pre.length) := by
  have rank : ∀ (pre : List (κ × υ)) (x : κ × υ) (rest : List (κ × υ)),
      Sorted hash (pre ++ x :: rest) →
      ((pre ++ x :: rest).filter (fun q => hash q.1 < hash x.1)).length = pre.length := by
    intro pre x rest hs
    unfold Sorted at hs
    rw [List.pairwise_append, List.pairwise_cons] at hs
    obtain ⟨-, ⟨h1, -⟩, h2⟩ := hs
    rw [List.filter_append, List.length_append]
    have e1 : pre.filter (fun q => decide (hash q.1 < hash x.1)) = pre := by
      rw [List.filter_eq_self]
      intro q hq; simpa using h2 q hq x (List.mem_cons_self ..)
    have e2 : (x :: rest).filter (fun q => decide (hash q.1 < hash x.1)) = [] := by
      rw [List.filter_eq_nil_iff]
      intro q hq
      rcases List.mem_cons.mp hq with rfl | hq
      · simp
      · have := h1 q hq; simp; omega
    rw [e1, e2]; simp
  induction suf generalizing pre with
  | nil => simp
  | cons x rest ih =>
    have hx := rank pre x rest h
    have ih' := ih (pre ++ [x]) (by simpa using h)
    simp only [List.append_assoc, List.singleton_append, List.length_append,
      List.length_singleton] at ih'
    rw [List.filter_cons, hx, ih']
    by_cases hb : pre.length < b
    · simp only [hb, decide_true, if_true]
      rw [show b - pre.length = (b - (pre.length + 1)) + 1 by omega, List.take_succ_cons]
    · simp only [hb, decide_false]
      rw [show b - pre.length = 0 by omega, show b - (pre.length + 1) = 0 by omega]
      simp

end MapInst

namespace MapData

open MapInst

/-- Concrete and abstract map agree (used only in proofs). -/
def Sim (hash : κ → Nat) (block : Nat) (s : MapData κ υ) (a : MapSpec κ υ) : Prop :=
  MapInst.Inv hash block s.inst ∧ s.bounds = a.bounds ∧ s.inst.abs.Perm a.items ∧
    (s.bounds = 0 ∨ s.inst.size ≤ s.bounds) ∧ s.bounds < 2 ^ 32

/-- Part of the invariant that needs no specification. -/
def Good (hash : κ → Nat) (block : Nat) (s : MapData κ υ) : Prop :=
  MapInst.Inv hash block s.inst ∧ (s.bounds = 0 ∨ s.inst.size ≤ s.bounds) ∧ s.bounds < 2 ^ 32

theorem new_good {hash : κ → Nat} {block : Nat} {d : κ × υ} {b : Nat} {s : MapData κ υ}
    (h : MapData.new block d b = some s) :
    Good hash block s ∧ s.inst.abs = [] ∧ s.bounds = b % 2 ^ 32 := by
  unfold MapData.new SeqInst.construct at h
  rw [SeqInst.initMem_eq] at h
  have hlt : SeqInst.u32 b < 2 ^ 32 := Nat.mod_lt _ (by decide)
  rw [SeqInst.u32_of_lt hlt] at h
  by_cases h0 : SeqInst.u32 b = 0
  · simp only [h0, if_true, Option.some.injEq] at h
    subst h
    simp [Good, MapInst.Inv, Sorted, SeqInst.Inv, SeqInst.abs, h0]
  · simp only [h0, if_false] at h
    by_cases h1 : SeqInst.u32 b * block < 2 ^ 32
    · simp only [h1, if_true, Option.some.injEq] at h
      subst h
      refine ⟨⟨⟨⟨by simp, by simp, Nat.pos_of_ne_zero h0, hlt, h1⟩, by simp [Sorted, SeqInst.abs]⟩,
        by simp, hlt⟩, by simp [SeqInst.abs], rfl⟩
    · simp [h1] at h

/-- `insert_instance` with an external key. -/
theorem insertInstance_spec {hash : κ → Nat} {prim : Bool} {block : Nat} {d : κ × υ}
    {s s' : MapData κ υ} {k : κ} {r : Option Nat} (hg : Good hash block s)
    (h : insertInstance hash prim block d s (.ext k) = some (s', r)) :
    Good hash block s' ∧ s'.bounds = s.bounds ∧
    ((r = none ∧ s'.inst.abs = s.inst.abs ∧
        (findPlace hash s.inst k true ≠ none ∨ (s.bounds ≠ 0 ∧ s.bounds ≤ s.inst.size))) ∨
     (findPlace hash s.inst k true = none ∧ ¬ (s.bounds ≠ 0 ∧ s.bounds ≤ s.inst.size) ∧
       ∃ p, r = some p ∧ p ≤ s.inst.size ∧
         s'.inst.abs = s.inst.abs.take p ++ (k, d.2) :: s.inst.abs.drop p)) := by
  obtain ⟨h1, h2, h3⟩ := hg
  unfold insertInstance at h
  have hl := SeqInst.abs_length h1.1
  by_cases hc : s.inst.size < s.bounds ∨ s.bounds = 0
  · rw [if_pos hc] at h
    split at h
    · cases h
    · rename_i i r' hi
      simp only [Option.some.injEq, Prod.mk.injEq] at h
      obtain ⟨rfl, rfl⟩ := h
      obtain ⟨g1, g2⟩ := insert_spec h1 hi
      have hl' := SeqInst.abs_length g1.1
      rcases g2 with ⟨g2, g3, g4⟩ | ⟨g2, p, g3, g4, g5⟩
      · refine ⟨⟨g1, ?_, h3⟩, rfl, .inl ⟨g3, g4, .inl g2⟩⟩
        rw [g4] at hl'; simp only; omega
      · refine ⟨⟨g1, ?_, h3⟩, rfl, .inr ⟨g2, by omega, p, g3, g4, g5⟩⟩
        rw [g5] at hl'
        simp only [List.length_append, List.length_take, List.length_cons, List.length_drop] at hl'
        simp only; omega
  · rw [if_neg hc] at h
    simp only [Option.some.injEq, Prod.mk.injEq] at h
    obtain ⟨rfl, rfl⟩ := h
    exact ⟨⟨h1, h2, h3⟩, rfl, .inl ⟨rfl, rfl, .inr (by omega)⟩⟩

theorem putVal_spec {hash : κ → Nat} {block : Nat} {s s' : MapData κ υ} {p : Nat} {v : υ}
    (hg : Good hash block s) (hp : p < s.inst.size) (h : putVal s p v = some s') :
    ∃ q, s.inst.abs[p]? = some q ∧ s'.inst.abs = s.inst.abs.set p (q.1, v) ∧
      Good hash block s' ∧ s'.bounds = s.bounds := by
  obtain ⟨h1, h2, h3⟩ := hg
  unfold putVal at h
  have hinv := h1.1
  unfold SeqInst.Inv at hinv
  cases hb : s.inst.buf with
  | none => rw [hb] at h; cases h
  | some l =>
    rw [hb] at h hinv
    simp only at h hinv
    split at h
    · cases h
    · rename_i q hq
      simp only [Option.some.injEq] at h
      subst h
      have hset : (l.set p (q.1, v)).take s.inst.size = (l.take s.inst.size).set p (q.1, v) :=
        List.take_set ..
      have habs : s.inst.abs = l.take s.inst.size := by simp [SeqInst.abs, hb]
      have hq' : s.inst.abs[p]? = some q := by rw [habs, List.getElem?_take_of_lt hp]; exact hq
      refine ⟨q, hq', by simp only [SeqInst.abs, Option.getD_some, hb]; exact hset, ⟨⟨?_, ?_⟩, h2, h3⟩, rfl⟩
      · simp only [SeqInst.Inv, List.length_set]; exact hinv
      · have hs := h1.2
        have : ({ s.inst with buf := some (l.set p (q.1, v)) } : SeqInst (κ × υ)).abs
            = s.inst.abs.set p (q.1, v) := by
          simp only [SeqInst.abs, Option.getD_some, hb]; exact hset
        rw [this]
        unfold Sorted at hs ⊢
        rw [List.pairwise_iff_getElem] at hs ⊢
        have hkey : ∀ (i : Nat) (hi : i < (s.inst.abs.set p (q.1, v)).length),
            ((s.inst.abs.set p (q.1, v))[i]).1 = (s.inst.abs[i]'(by simpa using hi)).1 := by
          intro i hi
          rw [List.getElem_set]
          split
          · rename_i e
            subst e
            have := (List.getElem?_eq_some_iff.mp hq').2
            simp only; rw [this]
          · rfl
        intro i j hi hj hij
        rw [hkey i hi, hkey j hj]
        exact hs i j (by simpa using hi) (by simpa using hj) hij

theorem copyFrom_good {hash : κ → Nat} {block : Nat} {d : κ × υ} {s : MapData κ υ}
    {i : SeqInst (κ × υ)} {b : Nat} (hg : Good hash block s)
    (h : s.inst.copyFrom block d id b = some i) :
    MapInst.Inv hash block i ∧ i.abs = (if b = 0 then s.inst.abs else s.inst.abs.take b) := by
  obtain ⟨g1, g2⟩ := SeqInst.copyFrom_spec hg.1.1 h
  rw [List.map_id] at g2
  refine ⟨⟨g1, ?_⟩, g2⟩
  rw [g2]
  split
  · exact hg.1.2
  · exact hg.1.2.sublist (List.take_sublist _ _)

/-- Every operation preserves the invariant. -/
theorem step_good {hash : κ → Nat} {prim : Bool} {block : Nat} {d : κ × υ} {s s' : MapData κ υ}
    {o : Bool} (op : MapOp κ υ) (hg : Good hash block s)
    (h : step hash prim block d s op = some (s', o)) : Good hash block s' := by
  have found : ∀ k p, findPlace hash s.inst k true = some p → p < s.inst.size := by
    intro k p hp
    have hl := SeqInst.abs_length hg.1.1
    rcases findPlace_spec (k := k) hg.1 with ⟨q, g1, g2, g3, g4⟩ | ⟨q, g1, g2, g3, g4, g5⟩
    · rw [g3] at hp; simp only [Option.some.injEq] at hp; omega
    · rw [g4] at hp; cases hp
  have slot : ∀ k s1 r, slotOf hash prim block d s k = some (s1, r) →
      Good hash block s1 ∧ ∀ p, r = some p → p < s1.inst.size := by
    intro k s1 r hs
    unfold slotOf at hs
    split at hs
    · rename_i p hp
      simp only [Option.some.injEq, Prod.mk.injEq] at hs
      obtain ⟨rfl, rfl⟩ := hs
      refine ⟨hg, ?_⟩
      intro q hq; simp only [Option.some.injEq] at hq; subst hq; exact found k _ hp
    · obtain ⟨g1, g2, g3⟩ := insertInstance_spec hg hs
      refine ⟨g1, ?_⟩
      intro q hq
      rcases g3 with ⟨g3, -, -⟩ | ⟨-, -, p, g4, g5, g6⟩
      · rw [g3] at hq; cases hq
      · rw [g4] at hq; simp only [Option.some.injEq] at hq; subst hq
        have hl := SeqInst.abs_length hg.1.1
        have hl' := SeqInst.abs_length g1.1.1
        rw [g6] at hl'
        simp only [List.length_append, List.length_take, List.length_cons, List.length_drop] at hl'
        omega
  cases op with
  | insert k v =>
    simp only [step] at h
    split at h
    · cases h
    · rename_i s1 r hi
      simp only [Option.some.injEq, Prod.mk.injEq] at h
      obtain ⟨rfl, -⟩ := h
      exact (insertInstance_spec hg hi).1
  | insertOwn i =>
    simp only [step] at h
    split at h
    · rename_i hi
      split at h
      · cases h
      · rename_i s1 r hins
        simp only [Option.some.injEq, Prod.mk.injEq] at h
        obtain ⟨rfl, -⟩ := h
        unfold insertInstance at hins
        split at hins
        · split at hins
          · cases hins
          · rename_i i1 r1 hi1
            simp only [Option.some.injEq, Prod.mk.injEq] at hins
            obtain ⟨rfl, -⟩ := hins
            rw [(insert_own_spec hg.1 hi hi1).1]; exact hg
        · simp only [Option.some.injEq, Prod.mk.injEq] at hins
          obtain ⟨rfl, -⟩ := hins; exact hg
    · simp only [Option.some.injEq, Prod.mk.injEq] at h
      obtain ⟨rfl, -⟩ := h; exact hg
  | touch k =>
    simp only [step] at h
    split at h
    · cases h
    · rename_i s1 r hi
      simp only [Option.some.injEq, Prod.mk.injEq] at h
      obtain ⟨rfl, -⟩ := h
      exact (slot k _ _ hi).1
  | set k v =>
    simp only [step] at h
    split at h
    · cases h
    · rename_i s1 hi
      simp only [Option.some.injEq, Prod.mk.injEq] at h
      obtain ⟨rfl, -⟩ := h
      exact (slot k _ _ hi).1
    · rename_i s1 p hi
      split at h
      · cases h
      · rename_i s2 hp
        simp only [Option.some.injEq, Prod.mk.injEq] at h
        obtain ⟨rfl, -⟩ := h
        obtain ⟨g1, g2⟩ := slot k _ _ hi
        obtain ⟨q, -, -, g3, -⟩ := putVal_spec g1 (g2 p rfl) hp
        exact g3
  | atSet k v =>
    simp only [step] at h
    split at h
    · simp only [Option.some.injEq, Prod.mk.injEq] at h
      obtain ⟨rfl, -⟩ := h; exact hg
    · rename_i p hp
      split at h
      · cases h
      · rename_i s2 hs2
        simp only [Option.some.injEq, Prod.mk.injEq] at h
        obtain ⟨rfl, -⟩ := h
        obtain ⟨q, -, -, g3, -⟩ := putVal_spec hg (found k p hp) hs2
        exact g3
  | copy =>
    simp only [step] at h
    split at h
    · cases h
    · rename_i i hi
      simp only [Option.some.injEq, Prod.mk.injEq] at h
      obtain ⟨rfl, -⟩ := h
      rw [SeqInst.copy_eq_copyFrom] at hi
      obtain ⟨g1, g2⟩ := copyFrom_good hg hi
      have hl := SeqInst.abs_length hg.1.1
      have hl' := SeqInst.abs_length g1.1
      rw [g2, if_pos rfl] at hl'
      refine ⟨g1, ?_, hg.2.2⟩
      have := hg.2.1
      simp only; omega
  | convert b =>
    simp only [step] at h
    split at h
    · cases h
    · rename_i i hi
      simp only [Option.some.injEq, Prod.mk.injEq] at h
      obtain ⟨rfl, -⟩ := h
      obtain ⟨g1, g2⟩ := copyFrom_good hg hi
      have hl' := SeqInst.abs_length g1.1
      refine ⟨g1, ?_, Nat.mod_lt _ (by decide)⟩
      simp only
      by_cases hb : SeqInst.u32 b = 0
      · exact .inl hb
      · right; rw [g2, if_neg hb, List.length_take] at hl'; omega

theorem run_good {hash : κ → Nat} {prim : Bool} {block : Nat} {d : κ × υ} (ops : List (MapOp κ υ))
    {s s' : MapData κ υ} {os : List Bool} (hg : Good hash block s)
    (h : run hash prim block d s ops = some (s', os)) : Good hash block s' := by
  induction ops generalizing s os with
  | nil =>
    simp only [run, Option.some.injEq, Prod.mk.injEq] at h
    obtain ⟨rfl, -⟩ := h; exact hg
  | cons op ops ih =>
    simp only [run] at h
    split at h
    · cases h
    · rename_i s1 b hstep
      split at h
      · cases h
      · rename_i s2 bs hrun
        simp only [Option.some.injEq, Prod.mk.injEq] at h
        obtain ⟨rfl, -⟩ := h
        exact ih (step_good op hg hstep) hrun

end MapData

/-! ## C05 -/

/-- C05: after every history that has no undefined behaviour, the entries of a map, in iteration
order, have strictly increasing key hashes; `size()` counts them. (No assumption on the hash.) -/
theorem C05_map_sorted {hash : κ → Nat} {prim : Bool} {block : Nat} {d : κ × υ} {b : Nat}
    {s0 s : MapData κ υ} {ops : List (MapOp κ υ)} {outs : List Bool}
    (h0 : MapData.new block d b = some s0)
    (h : MapData.run hash prim block d s0 ops = some (s, outs)) :
    (s.elements.map (fun p => hash p.1)).Pairwise (· < ·) ∧ s.elements.length = s.inst.size := by
  have hg := MapData.run_good (hash := hash) ops (MapData.new_good h0).1 h
  exact ⟨List.pairwise_map.mpr hg.1.2, SeqInst.abs_length hg.1.1⟩


/-! ## C06 -/

namespace MapData

open MapInst

variable [DecidableEq κ]

omit [DecidableEq κ] in
theorem findPlace_iff {hash : κ → Nat} {block : Nat} {s : MapData κ υ} {a : MapSpec κ υ} {k : κ}
    (hinj : ∀ x y : κ, hash x = hash y → x = y) (hs : Sim hash block s a) :
    findPlace hash s.inst k true ≠ none ↔ a.Has k := by
  obtain ⟨h1, h2, h3, h4, h5⟩ := hs
  constructor
  · intro hf
    rcases findPlace_spec (k := k) h1 with ⟨p, g1, g2, g3, g4⟩ | ⟨p, g1, g2, g3, g4, g5⟩
    · rw [hashAt_eq (List.getElem?_eq_getElem g1)] at g2
      have := hinj _ _ g2
      refine ⟨(s.inst.abs[p]).2, h3.subset ?_⟩
      rw [← this]
      exact List.getElem_mem g1
    · exact absurd g4 hf
  · rintro ⟨v, hv⟩
    have hv' := h3.symm.subset hv
    obtain ⟨i, hi, he⟩ := List.mem_iff_getElem.mp hv'
    have := findPlace_self h1 (List.getElem?_eq_some_iff.mpr ⟨hi, he⟩)
    simp only at this
    rw [this]; simp

theorem set_eq_map {hash : κ → Nat} {l : List (κ × υ)} (hs : Sorted hash l) {p : Nat} {q : κ × υ}
    {v : υ} (hq : l[p]? = some q) :
    l.set p (q.1, v) = l.map (fun e => if e.1 = q.1 then (e.1, v) else e) := by
  have hp := (List.getElem?_eq_some_iff.mp hq).1
  apply List.ext_getElem
  · simp
  · intro i h1 h2
    rw [List.getElem_set, List.getElem_map]
    simp only [List.length_set] at h1
    split
    · rename_i e; subst e
      have := (List.getElem?_eq_some_iff.mp hq).2
      rw [this]; simp
    · rename_i hne
      rw [if_neg]
      intro he
      have e1 := (List.getElem?_eq_some_iff.mp hq).2
      rcases Nat.lt_or_gt_of_ne hne with h | h
      · have := sorted_lt hs h h1
        rw [hashAt_eq hq, hashAt_eq (List.getElem?_eq_getElem h1), he] at this; omega
      · have := sorted_lt hs h hp
        rw [hashAt_eq hq, hashAt_eq (List.getElem?_eq_getElem h1), he] at this; omega

omit [DecidableEq κ] in
theorem insertAt_perm {l m : List (κ × υ)} {e : κ × υ} {p : Nat} (h : l.Perm m) :
    (l.take p ++ e :: l.drop p).Perm (m ++ [e]) := by
  have h1 : (l.take p ++ e :: l.drop p).Perm (e :: (l.take p ++ l.drop p)) := List.perm_middle
  rw [List.take_append_drop] at h1
  exact h1.trans ((h.cons e).trans (List.perm_append_singleton e m).symm)

/-- One step refines the specification. -/
theorem step_sim {hash : κ → Nat} {prim : Bool} {block : Nat} {d : κ × υ} {s s' : MapData κ υ}
    {a : MapSpec κ υ} {o : Bool} (op : MapOp κ υ) (hinj : ∀ x y : κ, hash x = hash y → x = y)
    (hs : Sim hash block s a) (h : step hash prim block d s op = some (s', o)) :
    Sim hash block s' (a.step hash d.2 op).1 ∧ o = (a.step hash d.2 op).2 := by
  have hg : Good hash block s := ⟨hs.1, hs.2.2.2⟩
  have hg' := step_good op hg h
  have hlen : a.items.length = s.inst.size := by
    rw [← hs.2.2.1.length_eq, SeqInst.abs_length hs.1.1]
  have hfull : a.Full ↔ (s.bounds ≠ 0 ∧ s.bounds ≤ s.inst.size) := by
    unfold MapSpec.Full; rw [hlen, hs.2.1]
  have hhas : ∀ k, findPlace hash s.inst k true ≠ none ↔ a.Has k := fun k => findPlace_iff hinj hs
  -- assembling a simulation from its parts
  have mk : ∀ (t : MapData κ υ) (b : MapSpec κ υ), Good hash block t → t.bounds = b.bounds →
      t.inst.abs.Perm b.items → Sim hash block t b :=
    fun t b g1 g2 g3 => ⟨g1.1, g2, g3, g1.2⟩
  have found : ∀ k p, findPlace hash s.inst k true = some p →
      p < s.inst.size ∧ ∃ v, s.inst.abs[p]? = some (k, v) := by
    intro k p hp
    have hl := SeqInst.abs_length hg.1.1
    rcases findPlace_spec (k := k) hg.1 with ⟨q, g1, g2, g3, g4⟩ | ⟨q, g1, g2, g3, g4, g5⟩
    · rw [g3] at hp; simp only [Option.some.injEq] at hp; subst hp
      rw [hashAt_eq (List.getElem?_eq_getElem g1)] at g2
      have := hinj _ _ g2
      refine ⟨by omega, (s.inst.abs[q]).2, ?_⟩
      rw [List.getElem?_eq_getElem g1, ← this]
    · rw [g4] at hp; cases hp
  have upd : ∀ (t t' : MapData κ υ) (b : MapSpec κ υ) (p : Nat) (k : κ) (v w : υ),
      Good hash block t → t.bounds = b.bounds → t.inst.abs.Perm b.items → p < t.inst.size →
      t.inst.abs[p]? = some (k, w) → putVal t p v = some t' → Sim hash block t' (b.update k v) := by
    intro t t' b p k v w g1 g2 g3 g4 g5 g6
    obtain ⟨q, e1, e2, e3, e4⟩ := putVal_spec g1 g4 g6
    rw [g5] at e1; simp only [Option.some.injEq] at e1; subst e1
    refine mk _ _ e3 (by rw [e4, g2]; rfl) ?_
    rw [e2, set_eq_map (q := (k, w)) g1.1.2 g5]
    exact g3.map _
  have ins : ∀ k s1 r, insertInstance hash prim block d s (.ext k) = some (s1, r) →
      Good hash block s1 ∧ s1.bounds = a.bounds ∧
      ((r = none ∧ s1.inst.abs.Perm a.items ∧ (a.Has k ∨ a.Full)) ∨
        (¬ a.Has k ∧ ¬ a.Full ∧ ∃ p, r = some p ∧ s1.inst.abs.Perm (a.add d.2 k).items ∧
          p < s1.inst.size ∧ s1.inst.abs[p]? = some (k, d.2))) := by
    intro k s1 r hi
    obtain ⟨g1, g2, g3⟩ := insertInstance_spec hg hi
    refine ⟨g1, by rw [g2, hs.2.1], ?_⟩
    rcases g3 with ⟨g3, g4, g5⟩ | ⟨g3, g4, p, g5, g6, g7⟩
    · left
      rw [hhas k, ← hfull] at g5
      exact ⟨g3, by rw [g4]; exact hs.2.2.1, g5⟩
    · right
      have hl := SeqInst.abs_length hs.1.1
      have hl' := SeqInst.abs_length g1.1.1
      have hlt : p < s1.inst.size := by
        rw [← hl', g7]
        simp only [List.length_append, List.length_take, List.length_cons, List.length_drop]
        omega
      refine ⟨by rw [← hhas k]; simp [g3], by rw [hfull]; exact g4, p, g5, ?_, hlt, ?_⟩
      · rw [g7]; exact insertAt_perm hs.2.2.1
      · rw [g7, List.getElem?_append_right (by simp; omega)]
        simp [show min p s.inst.abs.length = p by omega]
  have slot : ∀ k s1 r, slotOf hash prim block d s k = some (s1, r) →
      Good hash block s1 ∧ s1.bounds = a.bounds ∧
      ((a.Has k ∧ s1 = s ∧ ∃ p w, r = some p ∧ p < s1.inst.size ∧ s1.inst.abs[p]? = some (k, w)) ∨
       (¬ a.Has k ∧ a.Full ∧ r = none ∧ s1.inst.abs.Perm a.items) ∨
       (¬ a.Has k ∧ ¬ a.Full ∧ ∃ p, r = some p ∧ s1.inst.abs.Perm (a.add d.2 k).items ∧
          p < s1.inst.size ∧ s1.inst.abs[p]? = some (k, d.2))) := by
    intro k s1 r hsl
    unfold slotOf at hsl
    split at hsl
    · rename_i p hp
      simp only [Option.some.injEq, Prod.mk.injEq] at hsl
      obtain ⟨rfl, rfl⟩ := hsl
      obtain ⟨f1, w, f2⟩ := found k p hp
      exact ⟨hg, hs.2.1, .inl ⟨(hhas k).mp (by rw [hp]; simp), rfl, p, w, rfl, f1, f2⟩⟩
    · rename_i hn
      have hnot : ¬ a.Has k := by rw [← hhas k]; simp [hn]
      obtain ⟨g1, g2, g3⟩ := ins k s1 r hsl
      refine ⟨g1, g2, ?_⟩
      rcases g3 with ⟨g3, g4, g5⟩ | g3
      · exact .inr (.inl ⟨hnot, g5.resolve_left hnot, g3, g4⟩)
      · exact .inr (.inr g3)
  cases op with
  | insert k v =>
    simp only [step] at h
    split at h
    · cases h
    · rename_i s1 r hi
      simp only [Option.some.injEq, Prod.mk.injEq] at h
      obtain ⟨rfl, rfl⟩ := h
      simp only [MapSpec.step]
      obtain ⟨g1, g2, g3⟩ := ins k _ r hi
      rcases g3 with ⟨rfl, g4, g5⟩ | ⟨g3, g4, p, rfl, g6, -⟩
      · rw [if_pos g5]; exact ⟨mk _ _ g1 g2 g4, rfl⟩
      · rw [if_neg (by simp [g3, g4])]; exact ⟨mk _ _ g1 g2 g6, rfl⟩
  | insertOwn i =>
    simp only [step] at h
    simp only [MapSpec.step]
    split at h
    · rename_i hi
      split at h
      · cases h
      · rename_i s1 r hins
        simp only [Option.some.injEq, Prod.mk.injEq] at h
        obtain ⟨rfl, rfl⟩ := h
        unfold insertInstance at hins
        split at hins
        · split at hins
          · cases hins
          · rename_i i1 r1 hi1
            simp only [Option.some.injEq, Prod.mk.injEq] at hins
            obtain ⟨rfl, rfl⟩ := hins
            obtain ⟨e1, e2⟩ := insert_own_spec hg.1 hi hi1
            rw [e1, e2]; exact ⟨hs, rfl⟩
        · simp only [Option.some.injEq, Prod.mk.injEq] at hins
          obtain ⟨rfl, rfl⟩ := hins; exact ⟨hs, rfl⟩
    · simp only [Option.some.injEq, Prod.mk.injEq] at h
      obtain ⟨rfl, rfl⟩ := h; exact ⟨hs, rfl⟩
  | touch k =>
    simp only [step] at h
    split at h
    · cases h
    · rename_i s1 r hi
      simp only [Option.some.injEq, Prod.mk.injEq] at h
      obtain ⟨rfl, rfl⟩ := h
      simp only [MapSpec.step]
      obtain ⟨g1, g2, g3⟩ := slot k _ r hi
      rcases g3 with ⟨e1, rfl, p, w, rfl, -⟩ | ⟨e1, e2, rfl, e3⟩ | ⟨e1, e2, p, rfl, e3, -⟩
      · rw [if_pos e1]; exact ⟨hs, rfl⟩
      · rw [if_neg e1, if_pos e2]; exact ⟨mk _ _ g1 g2 e3, rfl⟩
      · rw [if_neg e1, if_neg e2]; exact ⟨mk _ _ g1 g2 e3, rfl⟩
  | set k v =>
    simp only [step] at h
    simp only [MapSpec.step]
    split at h
    · cases h
    · rename_i s1 hi
      simp only [Option.some.injEq, Prod.mk.injEq] at h
      obtain ⟨rfl, rfl⟩ := h
      obtain ⟨g1, g2, g3⟩ := slot k _ _ hi
      rcases g3 with ⟨e1, -, p, w, e2, -⟩ | ⟨e1, e2, -, e3⟩ | ⟨e1, e2, p, e3, -, -⟩
      · cases e2
      · rw [if_neg e1, if_pos e2]; exact ⟨mk _ _ g1 g2 e3, rfl⟩
      · cases e3
    · rename_i s1 p hi
      split at h
      · cases h
      · rename_i s2 hp
        simp only [Option.some.injEq, Prod.mk.injEq] at h
        obtain ⟨rfl, rfl⟩ := h
        obtain ⟨g1, g2, g3⟩ := slot k _ _ hi
        rcases g3 with ⟨e1, rfl, p', w, e2, e3, e4⟩ | ⟨e1, e2, e3, -⟩ | ⟨e1, e2, p', e3, e4, e5, e6⟩
        · simp only [Option.some.injEq] at e2; subst e2
          rw [if_pos e1]; exact ⟨upd _ _ _ _ _ _ _ hg hs.2.1 hs.2.2.1 e3 e4 hp, rfl⟩
        · cases e3
        · simp only [Option.some.injEq] at e3; subst e3
          rw [if_neg e1, if_neg e2]
          exact ⟨upd _ _ _ _ _ _ _ g1 g2 e4 e5 e6 hp, rfl⟩
  | atSet k v =>
    simp only [step] at h
    simp only [MapSpec.step]
    split at h
    · rename_i hn
      simp only [Option.some.injEq, Prod.mk.injEq] at h
      obtain ⟨rfl, rfl⟩ := h
      rw [if_neg (by rw [← hhas k]; simp [hn])]; exact ⟨hs, rfl⟩
    · rename_i p hp
      split at h
      · cases h
      · rename_i s2 hs2
        simp only [Option.some.injEq, Prod.mk.injEq] at h
        obtain ⟨rfl, rfl⟩ := h
        obtain ⟨f1, w, f2⟩ := found k p hp
        rw [if_pos ((hhas k).mp (by rw [hp]; simp))]
        exact ⟨upd _ _ _ _ _ _ _ hg hs.2.1 hs.2.2.1 f1 f2 hs2, rfl⟩
  | copy =>
    simp only [step] at h
    simp only [MapSpec.step]
    split at h
    · cases h
    · rename_i i hi
      simp only [Option.some.injEq, Prod.mk.injEq] at h
      obtain ⟨rfl, rfl⟩ := h
      rw [SeqInst.copy_eq_copyFrom] at hi
      obtain ⟨g1, g2⟩ := copyFrom_good hg hi
      refine ⟨mk _ _ hg' hs.2.1 ?_, rfl⟩
      simp only; rw [g2, if_pos rfl]; exact hs.2.2.1
  | convert b =>
    simp only [step] at h
    simp only [MapSpec.step]
    split at h
    · cases h
    · rename_i i hi
      simp only [Option.some.injEq, Prod.mk.injEq] at h
      obtain ⟨rfl, rfl⟩ := h
      obtain ⟨g1, g2⟩ := copyFrom_good hg hi
      refine ⟨mk _ _ hg' rfl ?_, rfl⟩
      simp only
      rw [g2]
      by_cases hb : SeqInst.u32 b = 0
      · rw [if_pos hb, if_pos hb]; exact hs.2.2.1
      · rw [if_neg hb, if_neg hb]
        have hr := filter_rank (hash := hash) (SeqInst.u32 b) [] s.inst.abs hs.1.2
        simp only [List.nil_append, List.length_nil, Nat.sub_zero] at hr
        rw [← hr]
        have hcount : ∀ p : κ × υ, (s.inst.abs.filter (fun q => decide (hash q.1 < hash p.1))).length
            = (a.items.filter (fun q => decide (hash q.1 < hash p.1))).length :=
          fun p => (hs.2.2.1.filter _).length_eq
        simp only [hcount]
        exact hs.2.2.1.filter _

theorem run_sim {hash : κ → Nat} {prim : Bool} {block : Nat} {d : κ × υ} (ops : List (MapOp κ υ))
    (hinj : ∀ x y : κ, hash x = hash y → x = y) {s s' : MapData κ υ} {a : MapSpec κ υ}
    {os : List Bool} (hs : Sim hash block s a) (h : run hash prim block d s ops = some (s', os)) :
    Sim hash block s' (a.run hash d.2 ops).1 ∧ os = (a.run hash d.2 ops).2 := by
  induction ops generalizing s a os with
  | nil =>
    simp only [run, Option.some.injEq, Prod.mk.injEq] at h
    obtain ⟨rfl, rfl⟩ := h
    exact ⟨hs, rfl⟩
  | cons op ops ih =>
    simp only [run] at h
    split at h
    · cases h
    · rename_i s1 b hstep
      split at h
      · cases h
      · rename_i s2 bs hrun
        simp only [Option.some.injEq, Prod.mk.injEq] at h
        obtain ⟨rfl, rfl⟩ := h
        have h1 := step_sim op hinj hs hstep
        have h2 := ih h1.1 hrun
        exact ⟨h2.1, by simp only [MapSpec.run]; rw [h1.2, h2.2]⟩

omit [DecidableEq κ] in
theorem new_sim {hash : κ → Nat} {block : Nat} {d : κ × υ} {b : Nat} {s : MapData κ υ}
    (h : MapData.new block d b = some s) : Sim hash block s ⟨b % 2 ^ 32, []⟩ := by
  obtain ⟨h1, h2, h3⟩ := new_good (hash := hash) h
  exact ⟨h1.1, h3, by rw [h2], h1.2⟩

theorem lookup_sim {hash : κ → Nat} {block : Nat} {s : MapData κ υ} {a : MapSpec κ υ} (k : κ)
    (hinj : ∀ x y : κ, hash x = hash y → x = y) (hs : Sim hash block s a) :
    s.lookup hash k = a.lookup k := by
  obtain ⟨h1, h2, h3, h4, h5⟩ := hs
  have hl := SeqInst.abs_length h1.1
  unfold lookup MapSpec.lookup
  rcases findPlace_spec (k := k) h1 with ⟨p, g1, g2, g3, g4⟩ | ⟨p, g1, g2, g3, g4, g5⟩
  · rw [g3]
    rw [hashAt_eq (List.getElem?_eq_getElem g1)] at g2
    have hk := hinj _ _ g2
    have hmem : s.inst.abs[p] ∈ a.items := h3.subset (List.getElem_mem g1)
    have hbuf : (s.inst.buf.getD [])[p]? = some s.inst.abs[p] := by
      have := List.getElem?_take_of_lt (l := s.inst.buf.getD []) (i := p) (j := s.inst.size) (by omega)
      rw [← this]; exact List.getElem?_eq_getElem g1
    simp only [Option.bind_some, hbuf, Option.map_some]
    cases hf : a.items.find? (fun q => decide (q.1 = k)) with
    | none =>
      have := List.find?_eq_none.mp hf _ hmem
      simp [hk] at this
    | some q =>
      have hq := List.find?_some hf
      have hqm := List.mem_of_find?_eq_some hf
      simp only [decide_eq_true_eq] at hq
      have : q = s.inst.abs[p] := sorted_unique h1.2 (h3.symm.subset hqm) (List.getElem_mem g1)
        (by rw [hq, hk])
      simp [this]
  · rw [g4]
    have hf : a.items.find? (fun q => decide (q.1 = k)) = none := by
      rw [List.find?_eq_none]
      intro q hq hqk
      simp only [decide_eq_true_eq] at hqk
      obtain ⟨i, hi, he⟩ := List.mem_iff_getElem.mp (h3.symm.subset hq)
      have hself := findPlace_self h1 (List.getElem?_eq_some_iff.mpr ⟨hi, he⟩)
      rw [hqk, g4] at hself; cases hself
    rw [hf]; rfl

end MapData

/-- C06: if the hash of the keys is injective (C07: every key type of at most eight bytes), a map is a
finite map: after every history without undefined behaviour, which operations were accepted,
`size()`, `has_key(k)` and `at(k)` for every key are those of the abstract list of entries. -/
theorem C06_finite_map [DecidableEq κ] {hash : κ → Nat} (hinj : ∀ x y : κ, hash x = hash y → x = y)
    {prim : Bool} {block : Nat} {d : κ × υ} {b : Nat}
    {s0 s : MapData κ υ} {ops : List (MapOp κ υ)} {outs : List Bool}
    (h0 : MapData.new block d b = some s0)
    (h : MapData.run hash prim block d s0 ops = some (s, outs)) :
    let a := (MapSpec.mk (b % 2 ^ 32) []).run hash d.2 ops
    outs = a.2 ∧ s.inst.size = a.1.items.length ∧
    (∀ k, s.hasKey hash k = true ↔ a.1.Has k) ∧ (∀ k, s.lookup hash k = a.1.lookup k) ∧
    (∀ e, e ∈ s.elements ↔ e ∈ a.1.items) := by
  intro a
  obtain ⟨hs, ho⟩ := MapData.run_sim ops hinj (MapData.new_sim h0) h
  refine ⟨ho, ?_, ?_, ?_, ?_⟩
  · rw [← SeqInst.abs_length hs.1.1]; exact hs.2.2.1.length_eq
  · intro k
    rw [← MapData.findPlace_iff hinj hs]
    unfold MapData.hasKey
    cases MapInst.findPlace hash s.inst k true <;> simp
  · intro k; exact MapData.lookup_sim k hinj hs
  · intro e; exact hs.2.2.1.mem_iff


namespace MapData

open MapInst

variable [DecidableEq κ]

omit [DecidableEq κ] in
theorem step_ok {hash : κ → Nat} {prim : Bool} {block : Nat} {d : κ × υ} {s : MapData κ υ}
    {n : Nat} (op : MapOp κ υ) (hg : Good hash block s) (hn : s.inst.size = n)
    (hno : ∀ i, op ≠ .insertOwn i) (hfit : 2 * (n + 1) * max block 1 < 2 ^ 32) :
    ∃ r, step hash prim block d s op = some r := by
  subst hn
  have found : ∀ k p, findPlace hash s.inst k true = some p → p < s.inst.size := by
    intro k p hp
    have hl := SeqInst.abs_length hg.1.1
    rcases findPlace_spec (k := k) hg.1 with ⟨q, g1, g2, g3, g4⟩ | ⟨q, g1, g2, g3, g4, g5⟩
    · rw [g3] at hp; simp only [Option.some.injEq] at hp; omega
    · rw [g4] at hp; cases hp
  have ins : ∀ k, ∃ r, insertInstance hash prim block d s (.ext k) = some r := by
    intro k
    unfold insertInstance
    split
    · rename_i hc
      obtain ⟨⟨i, r⟩, hi⟩ := insert_ok (prim := prim) (d := d) (k := k) (bounds := s.bounds) hg.1
        (by omega) hfit
      rw [hi]; exact ⟨_, rfl⟩
    · exact ⟨_, rfl⟩
  have put : ∀ (t : MapData κ υ) p v, Good hash block t → p < t.inst.size → ∃ t', putVal t p v = some t' := by
    intro t p v ht hp
    unfold putVal
    have := ht.1.1
    unfold SeqInst.Inv at this
    cases hb : t.inst.buf with
    | none => rw [hb] at this; simp only at this; omega
    | some l =>
      rw [hb] at this; simp only at this ⊢
      rw [List.getElem?_eq_getElem (show p < l.length by omega)]
      exact ⟨_, rfl⟩
  have slot : ∀ k, ∃ s1 r, slotOf hash prim block d s k = some (s1, r) ∧ Good hash block s1 ∧
      ∀ p, r = some p → p < s1.inst.size := by
    intro k
    unfold slotOf
    cases hf : findPlace hash s.inst k true with
    | some p =>
      refine ⟨s, some p, rfl, hg, ?_⟩
      intro q hq; simp only [Option.some.injEq] at hq; subst hq; exact found k _ hf
    | none =>
      obtain ⟨⟨s1, r⟩, hi⟩ := ins k
      obtain ⟨g1, g2, g3⟩ := insertInstance_spec hg hi
      refine ⟨s1, r, hi, g1, ?_⟩
      intro q hq
      rcases g3 with ⟨g3, -, -⟩ | ⟨-, -, p, g4, g5, g6⟩
      · rw [g3] at hq; cases hq
      · rw [g4] at hq; simp only [Option.some.injEq] at hq; subst hq
        have hl := SeqInst.abs_length hg.1.1
        have hl' := SeqInst.abs_length g1.1.1
        rw [g6] at hl'
        simp only [List.length_append, List.length_take, List.length_cons, List.length_drop] at hl'
        omega
  cases op with
  | insert k v =>
    simp only [step]
    obtain ⟨⟨s1, r⟩, hi⟩ := ins k
    rw [hi]; exact ⟨_, rfl⟩
  | insertOwn i => exact absurd rfl (hno i)
  | touch k =>
    simp only [step]
    obtain ⟨s1, r, hi, -, -⟩ := slot k
    rw [hi]; exact ⟨_, rfl⟩
  | set k v =>
    simp only [step]
    obtain ⟨s1, r, hi, g1, g2⟩ := slot k
    rw [hi]
    cases r with
    | none => exact ⟨_, rfl⟩
    | some p =>
      obtain ⟨t', ht⟩ := put s1 p v g1 (g2 p rfl)
      simp only [ht]; exact ⟨_, rfl⟩
  | atSet k v =>
    simp only [step]
    cases hf : findPlace hash s.inst k true with
    | none => exact ⟨_, rfl⟩
    | some p =>
      obtain ⟨t', ht⟩ := put s p v hg (found k p hf)
      simp only [ht]; exact ⟨_, rfl⟩
  | copy =>
    simp only [step, SeqInst.copy_eq_copyFrom]
    obtain ⟨i, hi⟩ := SeqInst.copyFrom_ok (d := d) (f := id) (bounds := 0) hg.1.1
    rw [hi]; exact ⟨_, rfl⟩
  | convert b =>
    simp only [step]
    obtain ⟨i, hi⟩ := SeqInst.copyFrom_ok (d := d) (f := id) (bounds := SeqInst.u32 b) hg.1.1
    rw [hi]; exact ⟨_, rfl⟩

theorem run_ok {hash : κ → Nat} {prim : Bool} {block : Nat} {d : κ × υ} (ops : List (MapOp κ υ))
    (hinj : ∀ x y : κ, hash x = hash y → x = y) {s : MapData κ υ} {a : MapSpec κ υ}
    (hs : Sim hash block s a) (hfit : a.Fits hash block d.2 ops) :
    ∃ r, run hash prim block d s ops = some r := by
  induction ops generalizing s a with
  | nil => exact ⟨_, rfl⟩
  | cons op ops ih =>
    obtain ⟨hno, hf, hrest⟩ := hfit
    have hlen : s.inst.size = a.items.length := by
      rw [← hs.2.2.1.length_eq, SeqInst.abs_length hs.1.1]
    obtain ⟨⟨s1, b⟩, hstep⟩ := step_ok (prim := prim) (d := d) op ⟨hs.1, hs.2.2.2⟩ hlen hno hf
    have hsim := step_sim op hinj hs hstep
    obtain ⟨⟨s2, bs⟩, hrun⟩ := ih hsim.1 hrest
    exact ⟨(s2, b :: bs), by simp only [run, hstep, hrun]⟩

end MapData

/-- C06 (the library does get through): within the sizes expressible in 32 bits, and if no element is
inserted into its own map, no history has undefined behaviour. -/
theorem C06_no_undefined_behaviour [DecidableEq κ] {hash : κ → Nat}
    (hinj : ∀ x y : κ, hash x = hash y → x = y) {prim : Bool} {block : Nat} {d : κ × υ} {b : Nat}
    (ops : List (MapOp κ υ)) (hb : b % 2 ^ 32 * block < 2 ^ 32)
    (hfit : (MapSpec.mk (b % 2 ^ 32) []).Fits hash block d.2 ops) :
    ∃ s0 s outs, MapData.new block d b = some s0 ∧
      MapData.run hash prim block d s0 ops = some (s, outs) := by
  have hnew : ∃ s0, MapData.new block d b = some s0 := by
    unfold MapData.new SeqInst.construct
    rw [SeqInst.initMem_eq]
    have hlt : SeqInst.u32 b < 2 ^ 32 := Nat.mod_lt _ (by decide)
    rw [SeqInst.u32_of_lt hlt]
    by_cases h0 : SeqInst.u32 b = 0
    · simp [h0]
    · have : SeqInst.u32 b * block < 2 ^ 32 := hb
      simp [h0, this]
  obtain ⟨s0, hs0⟩ := hnew
  obtain ⟨⟨s, outs⟩, hr⟩ := MapData.run_ok (prim := prim) ops hinj (MapData.new_sim hs0) hfit
  exact ⟨s0, s, outs, hs0, hr⟩

/-- C06, the side condition is needed: `insert` of a pair that is an element of the same map, when its
buffer is full, reads freed memory (the argument points into the buffer that `insert` reallocates,
MapInstance.hpp 143-148). -/
theorem C06_self_insert_undefined : ∃ (s0 s : MapData Nat Nat) (outs : List Bool),
    MapData.new 8 ((0, 0) : Nat × Nat) 0 = some s0 ∧
    MapData.run id true 8 (0, 0) s0 [.touch 5] = some (s, outs) ∧
    MapData.step id true 8 (0, 0) s (.insertOwn 0) = none := by
  refine ⟨⟨0, ⟨0, none, 0, 0⟩⟩, ⟨0, ⟨1, some [(5, 0)], 1, 0⟩⟩, [true], ?_, ?_, ?_⟩
  · simp [MapData.new, SeqInst.construct, SeqInst.initMem_eq]
  · simp [MapData.run, MapData.step, MapData.slotOf, MapInst.findPlace, MapData.insertInstance,
      MapInst.insert, MapInst.realloc, SeqInst.initMem_eq, SeqInst.u32, MapInst.createPlace]
  · simp [MapData.step, MapData.insertInstance, MapInst.insert]
    cases MapInst.realloc id true 8 (0, 0) ⟨1, some [(5, 0)], 1, 0⟩ (SeqInst.u32 2) 0 <;> rfl

/-- Operations of the examples: integer keys that are their own hash, default value 0. -/
def exMapOps : List (MapOp Nat Nat) :=
  [.set 5 50, .touch 3, .insert 9 90, .insert 5 51, .atSet 3 30, .atSet 7 70, .copy, .convert 2]

example : (MapSpec.mk (0 % 2 ^ 32) []).Fits id 8 0 exMapOps ∧
    ((MapSpec.mk 0 []).run id 0 exMapOps).1.items = [(5, 50), (3, 30)] ∧
    ((MapSpec.mk 0 []).run id 0 exMapOps).2 = [true, true, true, false, true, false, true, true] := by
  refine ⟨?_, by decide, by decide⟩
  simp [exMapOps, MapSpec.Fits, MapSpec.step, MapSpec.Has, MapSpec.Full, MapSpec.add, MapSpec.update]

/-- The map of the examples: it exists, so the hypotheses of C05, C06, C09, C10 are met. -/
theorem exMap_run : ∃ s0 s outs, MapData.new 8 ((0, 0) : Nat × Nat) 0 = some s0 ∧
    MapData.run id true 8 (0, 0) s0 exMapOps = some (s, outs) := by
  refine C06_no_undefined_behaviour (fun _ _ h => h) _ (by decide) ?_
  simp [exMapOps, MapSpec.Fits, MapSpec.step, MapSpec.Has, MapSpec.Full, MapSpec.add, MapSpec.update]

/-! ## C08 -/

/-- C08, negation: a key is identified with every other key of equal hash: whatever the content of
the map, `has_key` and `at` give the same answer for `k1` and `k2` of equal hash, equal or not. -/
theorem C08_equal_hash_confused {hash : κ → Nat} {k1 k2 : κ} (hk : hash k1 = hash k2)
    (s : MapData κ υ) :
    s.hasKey hash k2 = s.hasKey hash k1 ∧ s.lookup hash k2 = s.lookup hash k1 := by
  have : ∀ t : SeqInst (κ × υ), MapInst.findPlace hash t k2 true = MapInst.findPlace hash t k1 true := by
    intro t; unfold MapInst.findPlace; rw [hk]
  simp only [MapData.hasKey, MapData.lookup, this, and_self]

/-- C08, negation on real keys: with keys of type `long double` or `uint64_t[2]`, whose hash is
`hash64` of their 16 bytes, a map holding only one key claims to hold a different one. -/
theorem C08_confused_concrete : ∃ (k1 k2 : List (BitVec 8)) (s0 s : MapData (List (BitVec 8)) Nat),
    k1 ≠ k2 ∧ k1.length = 16 ∧ k2.length = 16 ∧
    MapData.new 20 ((List.replicate 16 0, 0) : List (BitVec 8) × Nat) 0 = some s0 ∧
    MapData.run (fun k => (memHash k).toNat) true 20 (List.replicate 16 0, 0) s0 [.set k1 7]
      = some (s, [true]) ∧
    s.hasKey (fun k => (memHash k).toNat) k2 = true ∧
    s.lookup (fun k => (memHash k).toNat) k2 = some 7 := by
  refine ⟨hashTwinA, hashTwinB, ⟨0, ⟨0, none, 0, 0⟩⟩, ⟨0, ⟨1, some [(hashTwinA, 7)], 1, 0⟩⟩, ?_, rfl, rfl,
    ?_, ?_, ?_, ?_⟩
  · exact C07_fails_above_8.2.1
  · simp [MapData.new, SeqInst.construct, SeqInst.initMem_eq]
  · simp [MapData.run, MapData.step, MapData.slotOf, MapInst.findPlace, MapData.insertInstance,
      MapInst.insert, MapInst.realloc, SeqInst.initMem_eq, SeqInst.u32, MapInst.createPlace,
      MapData.putVal]
  · have := C07_fails_above_8.2.2
    simp [MapData.hasKey, MapInst.findPlace, MapInst.findLoop, MapInst.hashAt, this]
  · have := C07_fails_above_8.2.2
    simp [MapData.lookup, MapInst.findPlace, MapInst.findLoop, MapInst.hashAt, this]

/-- C08, partial: keys with different hashes are never confused, whatever the hash and the history:
an operation on `k1` leaves `has_key(k2)` and `at(k2)` as they were.
Missing: different keys with equal hashes (the negations above). -/
theorem C08_distinct_hash_partial {hash : κ → Nat} {prim : Bool} {block : Nat} {d : κ × υ} {b : Nat}
    {s0 s s' : MapData κ υ} {ops : List (MapOp κ υ)} {outs : List Bool} {o : Bool} {k1 k2 : κ} {v : υ}
    (h0 : MapData.new block d b = some s0)
    (h : MapData.run hash prim block d s0 ops = some (s, outs)) (hk : hash k1 ≠ hash k2)
    {op : MapOp κ υ} (hop : op = .insert k1 v ∨ op = .touch k1 ∨ op = .set k1 v ∨ op = .atSet k1 v)
    (hs : MapData.step hash prim block d s op = some (s', o)) :
    s'.hasKey hash k2 = s.hasKey hash k2 ∧ s'.lookup hash k2 = s.lookup hash k2 := by
  have hg := MapData.run_good (hash := hash) ops (MapData.new_good h0).1 h
  -- reading off a lookup from the sorted entries
  have char : ∀ t : MapData κ υ, MapData.Good hash block t →
      (∀ e, e ∈ t.inst.abs → hash e.1 = hash k2 → t.hasKey hash k2 = true ∧ t.lookup hash k2 = some e.2) ∧
      ((∀ e, e ∈ t.inst.abs → hash e.1 ≠ hash k2) → t.hasKey hash k2 = false ∧ t.lookup hash k2 = none) := by
    intro t ht
    have hl := SeqInst.abs_length ht.1.1
    constructor
    · intro e he hek
      obtain ⟨i, hi, hie⟩ := List.mem_iff_getElem.mp he
      have hself := MapInst.findPlace_self ht.1 (List.getElem?_eq_some_iff.mpr ⟨hi, hie⟩)
      have hsame : MapInst.findPlace hash t.inst k2 true = some i := by
        rw [← hself]; unfold MapInst.findPlace; rw [hek]
      have hbuf : (t.inst.buf.getD [])[i]? = some e := by
        have := List.getElem?_take_of_lt (l := t.inst.buf.getD []) (i := i) (j := t.inst.size) (by omega)
        rw [← this, ← hie]; exact List.getElem?_eq_getElem hi
      simp [MapData.hasKey, MapData.lookup, hsame, hbuf]
    · intro hne
      have : MapInst.findPlace hash t.inst k2 true = none := by
        rcases MapInst.findPlace_spec (k := k2) ht.1 with ⟨p, g1, g2, g3, g4⟩ | ⟨p, g1, g2, g3, g4, g5⟩
        · rw [MapInst.hashAt_eq (List.getElem?_eq_getElem g1)] at g2
          exact absurd g2 (hne _ (List.getElem_mem g1))
        · exact g4
      simp [MapData.hasKey, MapData.lookup, this]
  -- entries with other hashes are untouched
  have hmem : ∀ e : κ × υ, hash e.1 ≠ hash k1 → (e ∈ s'.inst.abs ↔ e ∈ s.inst.abs) := by
    intro e he
    have found : ∀ p, MapInst.findPlace hash s.inst k1 true = some p →
        p < s.inst.size ∧ MapInst.hashAt hash s.inst.abs p = hash k1 := by
      intro p hp
      have hl := SeqInst.abs_length hg.1.1
      rcases MapInst.findPlace_spec (k := k1) hg.1 with ⟨q, g1, g2, g3, g4⟩ | ⟨q, g1, g2, g3, g4, g5⟩
      · rw [g3] at hp; simp only [Option.some.injEq] at hp; subst hp; exact ⟨by omega, g2⟩
      · rw [g4] at hp; cases hp
    have ins : ∀ s1 r, MapData.insertInstance hash prim block d s (.ext k1) = some (s1, r) →
        MapData.Good hash block s1 ∧ (e ∈ s1.inst.abs ↔ e ∈ s.inst.abs) ∧
        ∀ p, r = some p → p < s1.inst.size ∧ MapInst.hashAt hash s1.inst.abs p = hash k1 := by
      intro s1 r hi
      obtain ⟨g1, -, g3⟩ := MapData.insertInstance_spec hg hi
      rcases g3 with ⟨g3, g4, -⟩ | ⟨-, -, p, g4, g5, g6⟩
      · exact ⟨g1, by rw [g4], by intro p hp; rw [g3] at hp; cases hp⟩
      · have hl := SeqInst.abs_length hg.1.1
        have hl' := SeqInst.abs_length g1.1.1
        refine ⟨g1, ?_, ?_⟩
        · rw [g6]
          have : e ∈ s.inst.abs ↔ e ∈ s.inst.abs.take p ∨ e ∈ s.inst.abs.drop p := by
            rw [← List.mem_append, List.take_append_drop]
          rw [this]
          simp only [List.mem_append, List.mem_cons]
          constructor
          · rintro (h | rfl | h)
            · exact .inl h
            · exact absurd rfl he
            · exact .inr h
          · rintro (h | h)
            · exact .inl h
            · exact .inr (.inr h)
        · intro q hq
          rw [g4] at hq; simp only [Option.some.injEq] at hq; subst hq
          have hlt : p < s1.inst.abs.length := by
            rw [g6]
            simp only [List.length_append, List.length_take, List.length_cons, List.length_drop]
            omega
          refine ⟨by omega, MapInst.hashAt_eq (p := (k1, d.2)) ?_⟩
          rw [g6, List.getElem?_append_right (by simp; omega)]
          simp [show min p s.inst.abs.length = p by omega]
    have slot : ∀ s1 r, MapData.slotOf hash prim block d s k1 = some (s1, r) →
        MapData.Good hash block s1 ∧ (e ∈ s1.inst.abs ↔ e ∈ s.inst.abs) ∧
        ∀ p, r = some p → p < s1.inst.size ∧ MapInst.hashAt hash s1.inst.abs p = hash k1 := by
      intro s1 r hsl
      unfold MapData.slotOf at hsl
      split at hsl
      · rename_i p hp
        simp only [Option.some.injEq, Prod.mk.injEq] at hsl
        obtain ⟨rfl, rfl⟩ := hsl
        refine ⟨hg, Iff.rfl, ?_⟩
        intro q hq; simp only [Option.some.injEq] at hq; subst hq; exact found _ hp
      · exact ins s1 r hsl
    have put : ∀ (t t' : MapData κ υ) p, MapData.Good hash block t → p < t.inst.size →
        MapInst.hashAt hash t.inst.abs p = hash k1 → MapData.putVal t p v = some t' →
        (e ∈ t'.inst.abs ↔ e ∈ t.inst.abs) := by
      intro t t' p g1 g2 g3 g4
      obtain ⟨q, e1, e2, -, -⟩ := MapData.putVal_spec g1 g2 g4
      rw [MapInst.hashAt_eq e1] at g3
      rw [e2]
      obtain ⟨hp, hq⟩ := List.getElem?_eq_some_iff.mp e1
      simp only [List.mem_iff_getElem, List.getElem_set, List.length_set]
      constructor
      · rintro ⟨i, hi, hie⟩
        split at hie
        · rw [← hie] at he; exact absurd g3 he
        · exact ⟨i, hi, hie⟩
      · rintro ⟨i, hi, hie⟩
        refine ⟨i, hi, ?_⟩
        rw [if_neg]
        · exact hie
        · rintro rfl
          rw [← hie, hq] at he; exact he g3
    rcases hop with rfl | rfl | rfl | rfl
    · simp only [MapData.step] at hs
      split at hs
      · cases hs
      · rename_i s1 r hi
        simp only [Option.some.injEq, Prod.mk.injEq] at hs
        obtain ⟨rfl, -⟩ := hs
        exact (ins _ _ hi).2.1
    · simp only [MapData.step] at hs
      split at hs
      · cases hs
      · rename_i s1 r hi
        simp only [Option.some.injEq, Prod.mk.injEq] at hs
        obtain ⟨rfl, -⟩ := hs
        exact (slot _ _ hi).2.1
    · simp only [MapData.step] at hs
      split at hs
      · cases hs
      · rename_i s1 hi
        simp only [Option.some.injEq, Prod.mk.injEq] at hs
        obtain ⟨rfl, -⟩ := hs
        exact (slot _ _ hi).2.1
      · rename_i s1 p hi
        split at hs
        · cases hs
        · rename_i s2 hp
          simp only [Option.some.injEq, Prod.mk.injEq] at hs
          obtain ⟨rfl, -⟩ := hs
          obtain ⟨g1, g2, g3⟩ := slot _ _ hi
          rw [put _ _ p g1 (g3 p rfl).1 (g3 p rfl).2 hp]; exact g2
    · simp only [MapData.step] at hs
      split at hs
      · simp only [Option.some.injEq, Prod.mk.injEq] at hs
        obtain ⟨rfl, -⟩ := hs; exact Iff.rfl
      · rename_i p hp
        split at hs
        · cases hs
        · rename_i s2 hs2
          simp only [Option.some.injEq, Prod.mk.injEq] at hs
          obtain ⟨rfl, -⟩ := hs
          exact put _ _ p hg (found p hp).1 (found p hp).2 hs2
  have hg' := MapData.step_good op hg hs
  by_cases hex : ∃ e, e ∈ s.inst.abs ∧ hash e.1 = hash k2
  · obtain ⟨e, he, hek⟩ := hex
    have he' : e ∈ s'.inst.abs := (hmem e (by rw [hek]; exact Ne.symm hk)).mpr he
    obtain ⟨a1, a2⟩ := (char s hg).1 e he hek
    obtain ⟨b1, b2⟩ := (char s' hg').1 e he' hek
    rw [a1, a2, b1, b2]; exact ⟨rfl, rfl⟩
  · have hn : ∀ e, e ∈ s.inst.abs → hash e.1 ≠ hash k2 := fun e he hek => hex ⟨e, he, hek⟩
    have hn' : ∀ e, e ∈ s'.inst.abs → hash e.1 ≠ hash k2 := by
      intro e he hek
      exact hn e ((hmem e (by rw [hek]; exact Ne.symm hk)).mp he) hek
    obtain ⟨a1, a2⟩ := (char s hg).2 hn
    obtain ⟨b1, b2⟩ := (char s' hg').2 hn'
    rw [a1, a2, b1, b2]; exact ⟨rfl, rfl⟩

/-! ## C09 -/

/-- C09: two maps with the same entries have the same entries in the same order, so they iterate,
compare and hash alike, however they were built. -/
theorem C09_order_independent {hash : κ → Nat} {prim : Bool} {block : Nat} {d : κ × υ} {b b' : Nat}
    {s0 s t0 t : MapData κ υ} {ops ops' : List (MapOp κ υ)} {outs outs' : List Bool}
    (h0 : MapData.new block d b = some s0) (h : MapData.run hash prim block d s0 ops = some (s, outs))
    (g0 : MapData.new block d b' = some t0) (g : MapData.run hash prim block d t0 ops' = some (t, outs'))
    (same : ∀ e, e ∈ s.elements ↔ e ∈ t.elements) : s.elements = t.elements := by
  have hs := (MapData.run_good (hash := hash) ops (MapData.new_good h0).1 h).1.2
  have ht := (MapData.run_good (hash := hash) ops' (MapData.new_good g0).1 g).1.2
  have nd : ∀ l : List (κ × υ), MapInst.Sorted hash l → l.Nodup := by
    intro l hl
    refine List.Pairwise.imp ?_ hl
    intro p q hpq e; subst e; omega
  exact MapInst.sorted_perm_eq hs ht ((List.perm_ext_iff_of_nodup (nd _ hs) (nd _ ht)).mpr same)

/-- C09, in terms of histories: if the hash is injective, setting the same keys to the same values in
two different orders (any permutation, keys distinct) gives maps with the same element list. -/
theorem C09_set_order [DecidableEq κ] {hash : κ → Nat} (hinj : ∀ x y : κ, hash x = hash y → x = y)
    {prim : Bool} {block : Nat} {d : κ × υ} {s0 s t : MapData κ υ} {l m : List (κ × υ)}
    {outs outs' : List Bool} (hnd : (l.map (·.1)).Nodup) (hp : l.Perm m)
    (h0 : MapData.new block d 0 = some s0)
    (h : MapData.run hash prim block d s0 (l.map (fun e => .set e.1 e.2)) = some (s, outs))
    (g : MapData.run hash prim block d s0 (m.map (fun e => .set e.1 e.2)) = some (t, outs')) :
    s.elements = t.elements ∧ ∀ e, e ∈ s.elements ↔ e ∈ l := by
  have key : ∀ (l : List (κ × υ)) (a : MapSpec κ υ), a.bounds = 0 → (l.map (·.1)).Nodup →
      (∀ e, e ∈ l → ¬ a.Has e.1) →
      (a.run hash d.2 (l.map (fun e => .set e.1 e.2))).1.items = a.items ++ l := by
    intro l
    induction l with
    | nil => intro a _ _ _; simp [MapSpec.run]
    | cons e l ih =>
      intro a hb hnd hnew
      simp only [List.map_cons, List.nodup_cons] at hnd
      simp only [List.map_cons, MapSpec.run, MapSpec.step]
      rw [if_neg (hnew e (List.mem_cons_self ..)), if_neg (by simp [MapSpec.Full, hb])]
      have hitems : ((a.add d.2 e.1).update e.1 e.2).items = a.items ++ [e] := by
        simp only [MapSpec.update, MapSpec.add, List.map_append, List.map_cons, List.map_nil, if_true]
        congr 1
        conv => rhs; rw [← List.map_id a.items]
        apply List.map_congr_left
        intro q hq
        rw [if_neg]
        · rfl
        · intro hqe
          exact hnew e (List.mem_cons_self ..) ⟨q.2, by rw [← hqe]; exact hq⟩
      simp only
      rw [ih ((a.add d.2 e.1).update e.1 e.2) hb hnd.2, hitems]
      · simp
      · intro e' he' ⟨v, hv⟩
        rw [hitems] at hv
        rcases List.mem_append.mp hv with hv | hv
        · exact hnew e' (List.mem_cons_of_mem _ he') ⟨v, hv⟩
        · simp only [List.mem_singleton] at hv
          apply hnd.1
          rw [← hv]
          exact List.mem_map.mpr ⟨e', he', rfl⟩
  have hs := (MapData.run_sim _ hinj (MapData.new_sim h0) h).1.2.2.1
  have ht := (MapData.run_sim _ hinj (MapData.new_sim h0) g).1.2.2.1
  have e1 := key l ⟨0 % 2 ^ 32, []⟩ rfl hnd (by intro e _ ⟨v, hv⟩; simp at hv)
  have e2 := key m ⟨0 % 2 ^ 32, []⟩ rfl ((hp.map _).nodup_iff.mp hnd) (by intro e _ ⟨v, hv⟩; simp at hv)
  rw [e1] at hs; rw [e2] at ht
  simp only [List.nil_append] at hs ht
  refine ⟨C09_order_independent h0 h h0 g ?_, fun e => hs.mem_iff⟩
  intro e
  rw [show (e ∈ s.elements) = (e ∈ s.inst.abs) from rfl, show (e ∈ t.elements) = (e ∈ t.inst.abs) from rfl,
    hs.mem_iff, ht.mem_iff, hp.mem_iff]

/-! ## C10 -/

/-- C10: a map with bound `b > 0` never holds more than `b` entries. -/
theorem C10_bound_respected {hash : κ → Nat} {prim : Bool} {block : Nat} {d : κ × υ} {b : Nat}
    {s0 s : MapData κ υ} {ops : List (MapOp κ υ)} {outs : List Bool}
    (h0 : MapData.new block d b = some s0)
    (h : MapData.run hash prim block d s0 ops = some (s, outs)) (hb : s.bounds ≠ 0) :
    s.inst.size ≤ s.bounds ∧ s.elements.length ≤ s.bounds := by
  have hg := MapData.run_good (hash := hash) ops (MapData.new_good h0).1 h
  have := hg.2.1
  have hl : s.elements.length = s.inst.size := SeqInst.abs_length hg.1.1
  omega

/-- C10: adding a key by `insert` or `operator[]` is refused only if the map is at its bound or (for
`insert`) a key of the same hash is present; a refused operation changes no entry; at the bound,
`operator[]` still works for present keys. -/
theorem C10_refusals {hash : κ → Nat} {prim : Bool} {block : Nat} {d : κ × υ} {b : Nat}
    {s0 s s' : MapData κ υ} {ops : List (MapOp κ υ)} {outs : List Bool} {o : Bool} {k : κ} {v : υ}
    (h0 : MapData.new block d b = some s0)
    (h : MapData.run hash prim block d s0 ops = some (s, outs)) {op : MapOp κ υ}
    (hop : op = .insert k v ∨ op = .touch k)
    (hs : MapData.step hash prim block d s op = some (s', o)) :
    (op = .insert k v → (o = false ↔ s.hasKey hash k = true ∨ (s.bounds ≠ 0 ∧ s.inst.size = s.bounds))) ∧
    (op = .touch k → (o = false ↔ s.hasKey hash k = false ∧ (s.bounds ≠ 0 ∧ s.inst.size = s.bounds))) ∧
    (o = false → s'.elements = s.elements ∧ s'.bounds = s.bounds) := by
  have hg := MapData.run_good (hash := hash) ops (MapData.new_good h0).1 h
  have hbd := hg.2.1
  have hhas : s.hasKey hash k = true ↔ MapInst.findPlace hash s.inst k true ≠ none := by
    unfold MapData.hasKey; cases MapInst.findPlace hash s.inst k true <;> simp
  have hhas' : s.hasKey hash k = false ↔ MapInst.findPlace hash s.inst k true = none := by
    unfold MapData.hasKey; cases MapInst.findPlace hash s.inst k true <;> simp
  rcases hop with rfl | rfl
  · simp only [MapData.step] at hs
    split at hs
    · cases hs
    · rename_i s1 r hi
      simp only [Option.some.injEq, Prod.mk.injEq] at hs
      obtain ⟨rfl, rfl⟩ := hs
      obtain ⟨g1, g2, g3⟩ := MapData.insertInstance_spec hg hi
      rcases g3 with ⟨rfl, g4, g5⟩ | ⟨g3, g4, p, rfl, -, -⟩
      · refine ⟨fun _ => ?_, fun hc => (by cases hc), fun _ => ⟨g4, g2⟩⟩
        simp only [Option.isSome_none, true_iff, hhas]
        rcases g5 with g5 | g5
        · exact .inl g5
        · exact .inr ⟨g5.1, by omega⟩
      · refine ⟨fun _ => ?_, fun hc => (by cases hc), fun hc => by simp at hc⟩
        simp only [Option.isSome_some, hhas, g3]
        simp; omega
  · simp only [MapData.step] at hs
    split at hs
    · cases hs
    · rename_i s1 r hsl
      simp only [Option.some.injEq, Prod.mk.injEq] at hs
      obtain ⟨rfl, rfl⟩ := hs
      unfold MapData.slotOf at hsl
      split at hsl
      · rename_i p hp
        simp only [Option.some.injEq, Prod.mk.injEq] at hsl
        obtain ⟨rfl, rfl⟩ := hsl
        refine ⟨fun hc => (by cases hc), fun _ => ?_, fun hc => by simp at hc⟩
        simp [hhas', hp]
      · rename_i hn
        obtain ⟨g1, g2, g3⟩ := MapData.insertInstance_spec hg hsl
        rcases g3 with ⟨rfl, g4, g5⟩ | ⟨g3, g4, p, rfl, -, -⟩
        · refine ⟨fun hc => (by cases hc), fun _ => ?_, fun _ => ⟨g4, g2⟩⟩
          simp only [Option.isSome_none, true_iff]
          refine ⟨hhas'.mpr hn, ?_⟩
          rcases g5 with g5 | g5
          · exact absurd hn g5
          · exact ⟨g5.1, by omega⟩
        · refine ⟨fun hc => (by cases hc), fun _ => ?_, fun hc => by simp at hc⟩
          simp only [Option.isSome_some]
          simp; omega

/-- A map of bound 1 holding one key: inserting another is refused. -/
example : ∃ s0 s outs s', MapData.new 8 ((0, 0) : Nat × Nat) 1 = some s0 ∧
    MapData.run id true 8 (0, 0) s0 [.set 5 50] = some (s, outs) ∧
    MapData.step id true 8 (0, 0) s (.insert 6 60) = some (s', false) := by
  simp [MapData.new, SeqInst.construct, SeqInst.initMem_eq, SeqInst.u32, MapData.run, MapData.step,
    MapData.slotOf, MapInst.findPlace, MapData.insertInstance, MapInst.insert, MapInst.createPlace,
    MapData.putVal]

/-! ## C11 -/

/-- C11, negation: `insert(pair)` reports success but does not store the value of the pair. -/
theorem C11_insert_loses_value : ∃ (s0 s : MapData Nat Nat) (outs : List Bool),
    MapData.new 8 ((0, 0) : Nat × Nat) 0 = some s0 ∧
    MapData.run id true 8 (0, 0) s0 [.insert 5 50] = some (s, outs) ∧ outs = [true] ∧
    s.lookup id 5 = some 0 ∧ s.lookup id 5 ≠ some 50 := by
  refine ⟨⟨0, ⟨0, none, 0, 0⟩⟩, ⟨0, ⟨1, some [(5, 0)], 1, 0⟩⟩, [true], ?_, ?_, rfl, ?_, ?_⟩
  · simp [MapData.new, SeqInst.construct, SeqInst.initMem_eq]
  · simp [MapData.run, MapData.step, MapInst.findPlace, MapData.insertInstance,
      MapInst.insert, MapInst.realloc, SeqInst.initMem_eq, SeqInst.u32, MapInst.createPlace]
  · simp [MapData.lookup, MapInst.findPlace, MapInst.findLoop, MapInst.hashAt]
  · simp [MapData.lookup, MapInst.findPlace, MapInst.findLoop, MapInst.hashAt]

/-- C11, partial: after an accepted `insert(pair)` the key is present, its value is the default one
whatever the pair held, and no other key changed; after `data[k] = v` (accepted) the value is `v`.
Missing: the value of the inserted pair is not stored (negation above). -/
theorem C11_insert_partial [DecidableEq κ] {hash : κ → Nat}
    (hinj : ∀ x y : κ, hash x = hash y → x = y) {prim : Bool} {block : Nat} {d : κ × υ} {b : Nat}
    {s0 s s' : MapData κ υ} {ops : List (MapOp κ υ)} {outs : List Bool} {k : κ} {v : υ}
    (h0 : MapData.new block d b = some s0)
    (h : MapData.run hash prim block d s0 ops = some (s, outs)) :
    (MapData.step hash prim block d s (.insert k v) = some (s', true) →
      s'.lookup hash k = some d.2 ∧ ∀ k', k' ≠ k → s'.lookup hash k' = s.lookup hash k') ∧
    (MapData.step hash prim block d s (.set k v) = some (s', true) →
      s'.lookup hash k = some v ∧ ∀ k', k' ≠ k → s'.lookup hash k' = s.lookup hash k') := by
  have hsim := (MapData.run_sim ops hinj (MapData.new_sim h0) h).1
  generalize ((MapSpec.mk (b % 2 ^ 32) []).run hash d.2 ops).1 = a at hsim
  have hother : ∀ (op : MapOp κ υ), (op = .insert k v ∨ op = .touch k ∨ op = .set k v ∨ op = .atSet k v) →
      MapData.step hash prim block d s op = some (s', true) →
      ∀ k', k' ≠ k → s'.lookup hash k' = s.lookup hash k' := by
    intro op hop hst k' hk'
    exact (C08_distinct_hash_partial (v := v) h0 h (fun e => hk' (hinj _ _ e).symm) hop hst).2
  have hnot : ∀ a : MapSpec κ υ, ¬ a.Has k → ∀ p ∈ a.items, ¬ p.1 = k := by
    intro a ha p hp e; exact ha ⟨p.2, by rw [← e]; exact hp⟩
  have hadd : ∀ a : MapSpec κ υ, ¬ a.Has k → (a.add d.2 k).lookup k = some d.2 := by
    intro a ha
    unfold MapSpec.lookup MapSpec.add
    simp only [List.find?_append]
    have : a.items.find? (fun p => decide (p.1 = k)) = none := by
      rw [List.find?_eq_none]; intro p hp; simpa using hnot a ha p hp
    simp [this]
  have hupd : ∀ a : MapSpec κ υ, a.Has k → (a.update k v).lookup k = some v := by
    intro a ⟨w, hw⟩
    unfold MapSpec.lookup MapSpec.update
    simp only [List.find?_map]
    cases hf : a.items.find? ((fun p => decide (p.1 = k)) ∘ fun p => if p.1 = k then (p.1, v) else p) with
    | none =>
      have := List.find?_eq_none.mp hf _ hw
      simp at this
    | some q =>
      have := List.find?_some hf
      simp only [Function.comp, decide_eq_true_eq] at this
      simp only [Option.map_some, Option.some.injEq]
      split at this
      · rename_i hq; simp [hq]
      · rename_i hq; exact absurd this hq
  constructor
  · intro hst
    obtain ⟨g1, g2⟩ := MapData.step_sim _ hinj hsim hst
    refine ⟨?_, hother _ (.inl rfl) hst⟩
    rw [MapData.lookup_sim k hinj g1]
    simp only [MapSpec.step] at g2 ⊢
    split at g2
    · cases g2
    · rename_i hc
      rw [if_neg hc]
      exact hadd a (fun hh => hc (.inl hh))
  · intro hst
    obtain ⟨g1, g2⟩ := MapData.step_sim _ hinj hsim hst
    refine ⟨?_, hother _ (.inr (.inr (.inl rfl))) hst⟩
    rw [MapData.lookup_sim k hinj g1]
    simp only [MapSpec.step] at g2 ⊢
    split at g2
    · rename_i hc; rw [if_pos hc]; exact hupd a hc
    · rename_i hc
      rw [if_neg hc]
      split at g2
      · cases g2
      · rename_i hc2
        rw [if_neg hc2]
        exact hupd _ ⟨d.2, by simp [MapSpec.add]⟩

end Verif
