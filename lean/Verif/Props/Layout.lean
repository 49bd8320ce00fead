import Verif.Lemmas.Builder
/-!
# Structure layout and members (C13, C14, C15)

`s.Built`: the structure `s` results from any sequence of constructor and `add_member` calls.
-/

namespace Verif

/-- The bytes of an instance that member `m` occupies: `[offset, offset + size of its type)`. -/
def SMem.covers (m : SMem) (x : Nat) : Prop := m.offset ≤ x ∧ x < m.offset + m.ty.memSize

/-! ## C13 -/

/-- C13: in every structure that can be built, every byte of an instance belongs to exactly one
member, no member has a byte outside the instance, and the ranges follow declaration order. The
size reported by the structure is the sum of the sizes of its members. -/
theorem C13_struct_layout {s : StructB} (h : s.Built) :
    (∀ x, x < s.size ↔ ∃ m ∈ s.agg.members, m.covers x) ∧
    (∀ (i j : Nat) (mi mj : SMem) (x : Nat), s.agg.members[i]? = some mi → s.agg.members[j]? = some mj →
      mi.covers x → mj.covers x → i = j) ∧
    (∀ (i j : Nat) (mi mj : SMem), s.agg.members[i]? = some mi → s.agg.members[j]? = some mj → i < j →
      mi.offset + mi.ty.memSize ≤ mj.offset) ∧
    s.size = (s.agg.members.map (fun m => m.ty.memSize)).sum ∧ s.toTy.memSize = s.size := by
  have hi := StructB.built_inv h
  have hord : ∀ (i j : Nat) (mi mj : SMem), s.agg.members[i]? = some mi → s.agg.members[j]? = some mj → i < j →
      mi.offset + mi.ty.memSize ≤ mj.offset := by
    intro i j mi mj h1 h2 hij
    rw [hi.off i mi h1, hi.off j mj h2, ← sizes_take_succ _ h1]
    exact sizes_take_mono _ hij
  refine ⟨?_, ?_, hord, hi.size, hi.size_toTy⟩
  · intro x
    constructor
    · rw [hi.size]
      intro hx
      -- find the first position whose prefix sum exceeds x
      have key : ∀ k, k ≤ s.agg.members.length → x < sizes (s.agg.members.take k) →
          ∃ m ∈ s.agg.members, m.covers x := by
        intro k
        induction k with
        | zero => intro _ h0; simp [sizes] at h0
        | succ k ih =>
          intro hk hlt
          by_cases hlt' : x < sizes (s.agg.members.take k)
          · exact ih (by omega) hlt'
          · have hget : s.agg.members[k]? = some (s.agg.members[k]'(by omega)) :=
              List.getElem?_eq_getElem (by omega)
            rw [sizes_take_succ _ hget] at hlt
            refine ⟨_, List.mem_of_getElem? hget, ?_, ?_⟩
            · rw [hi.off k _ hget]; omega
            · rw [hi.off k _ hget]; omega
      exact key s.agg.members.length (Nat.le_refl _) (by simpa using hx)
    · rintro ⟨m, hm, hc⟩
      obtain ⟨k, hk⟩ := List.getElem?_of_mem hm
      have h1 := hi.off k m hk
      have h2 := sizes_take_succ _ hk
      have h3 : sizes (s.agg.members.take (k + 1)) ≤ sizes s.agg.members := by
        have := sizes_take_mono s.agg.members (i := k + 1) (j := max (k + 1) s.agg.members.length)
          (Nat.le_max_left _ _)
        rwa [List.take_of_length_le (Nat.le_max_right _ _)] at this
      rw [hi.size]
      have := hc.2
      omega
  · intro i j mi mj x h1 h2 c1 c2
    rcases Nat.lt_trichotomy i j with hlt | heq | hgt
    · have := hord i j mi mj h1 h2 hlt; have := c1.2; have := c2.1; omega
    · exact heq
    · have := hord j i mj mi h2 h1 hgt; have := c2.2; have := c1.1; omega

/-- A structure with a parent, three members of different sizes and a refused duplicate. -/
def exStruct : StructB :=
  ((StructB.child "C" ((StructB.new "P").addMember "a" (.prim .i32)).1).addMember "b"
    (.str .s8 0)).1.addMember "a" (.prim .u8) |>.1

example : exStruct.Built ∧ exStruct.size = 36 ∧
    exStruct.agg.members.map (fun m => (m.name, m.offset)) = [("a", 0), ("b", 4)] :=
  ⟨.add _ _ (.add _ _ (.child _ (.add _ _ (.new _)))), by decide, by decide⟩

/-! ## C14 -/

/-- `s` results from `s0` by any number of `add_member` calls, accepted or refused. -/
inductive StructB.Extends (s0 : StructB) : StructB → Prop
  | refl : Extends s0 s0
  | add (n t) {s} : Extends s0 s → Extends s0 (s.addMember n t).1

/-- `add_member` only appends: accepted calls append one member placed at the current size, refused
calls change nothing. -/
theorem addMember_eq (s : StructB) (n : String) (t : Ty) :
    (s.addMember n t = (s, false) ∧ s.agg.has n = true) ∨
    ((s.addMember n t).2 = true ∧ s.agg.has n = false ∧
      (s.addMember n t).1.agg.members = s.agg.members ++ [⟨n, t, s.size⟩] ∧
      (s.addMember n t).1.size = s.size + t.memSize ∧ (s.addMember n t).1.name = s.name) := by
  unfold StructB.addMember Agg.insert
  by_cases h : s.agg.has n
  · left; simp [h]
  · right; simp [h]

/-- C14: a structure created with a parent and then extended in any way begins with the parent's
members, unchanged (same name, type and offset at the same position); all its own members lie
at or after the parent's memory size, the first one exactly there. -/
theorem C14_inheritance_layout {p s : StructB} (hp : p.Built) (n : String)
    (h : (StructB.child n p).Extends s) :
    ∃ own, s.agg.members = p.agg.members ++ own ∧
      (∀ m ∈ own, p.size ≤ m.offset) ∧
      (∀ m, own.head? = some m → m.offset = p.size) ∧ p.size ≤ s.size ∧ s.name = n := by
  have hinv := StructB.built_inv hp
  have : ∃ own, s.agg.members = p.agg.members ++ own ∧
      (∀ m ∈ own, p.size ≤ m.offset) ∧
      (∀ m, own.head? = some m → m.offset = p.size) ∧ p.size ≤ s.size ∧ s.name = n ∧
      (own = [] → s.size = p.size) := by
    induction h with
    | refl =>
      exact ⟨[], by simp [StructB.child, Agg.ofParent_members hinv.agg], by simp, by simp,
        by simp [StructB.child], rfl, by simp [StructB.child]⟩
    | @add n' t s' _ ih =>
      obtain ⟨own, h1, h2, h3, h4, h5, h6⟩ := ih
      rcases addMember_eq s' n' t with ⟨he, -⟩ | ⟨-, -, hm, hs, hnm⟩
      · rw [he]; exact ⟨own, h1, h2, h3, h4, h5, h6⟩
      · refine ⟨own ++ [⟨n', t, s'.size⟩], by rw [hm, h1]; simp, ?_, ?_, by omega, by rw [hnm, h5],
          by simp⟩
        · intro m hm'
          rcases List.mem_append.mp hm' with hm' | hm'
          · exact h2 m hm'
          · simp only [List.mem_singleton] at hm'; subst hm'; exact h4
        · intro m hm'
          cases own with
          | nil => simp only [List.nil_append, List.head?_cons, Option.some.injEq] at hm'
                   subst hm'; exact h6 rfl
          | cons o r => exact h3 m (by simpa using hm')
  obtain ⟨own, h1, h2, h3, h4, h5, -⟩ := this
  exact ⟨own, h1, h2, h3, h4, h5⟩

/-- Every extension of a child is itself a structure that can be built (so C13 and C15 apply). -/
theorem StructB.Extends.built {p s : StructB} (hp : p.Built) (n : String)
    (h : (StructB.child n p).Extends s) : s.Built := by
  induction h with
  | refl => exact .child n hp
  | add n t _ ih => exact .add n t ih

example : ∃ p : StructB, p.Built ∧ (StructB.child "C" p).Extends exStruct ∧ p.size = 4 :=
  ⟨((StructB.new "P").addMember "a" (.prim .i32)).1, .add _ _ (.new _),
    .add _ _ (.add _ _ .refl), by decide⟩

/-! ## C15 -/

/-- C15: in every structure that can be built, names are pairwise different; lookup by name succeeds
exactly for the names of members and agrees with lookup by index; adding a member is refused
exactly if its name is already a member name (its own or inherited), and then nothing changes;
an accepted one becomes the last member and all earlier ones keep their position. -/
theorem C15_member_names {s : StructB} (h : s.Built) :
    (s.agg.members.map (·.name)).Nodup ∧
    (∀ n m, s.agg.byName? n = some m ↔ ∃ i, s.agg.at? i = some m ∧ m.name = n) ∧
    (∀ i m, s.agg.at? i = some m → s.agg.byName? m.name = some m) ∧
    (∀ n t, (s.addMember n t).2 = false ↔ n ∈ s.agg.members.map (·.name)) ∧
    (∀ n t, (s.addMember n t).2 = false → (s.addMember n t).1 = s) ∧
    (∀ n t, (s.addMember n t).2 = true →
      (s.addMember n t).1.agg.members = s.agg.members ++ [⟨n, t, s.size⟩]) := by
  have hi := StructB.built_inv h
  have hby : ∀ n m, s.agg.byName? n = some m ↔ ∃ i, s.agg.at? i = some m ∧ m.name = n := by
    intro n m
    unfold Agg.byName? Agg.at?
    constructor
    · cases hg : omGet s.agg.indexes n with
      | none => simp
      | some i =>
        intro hm
        obtain ⟨m', hm', hname⟩ := (hi.agg.idx n i).mp hg
        simp only at hm
        rw [hm'] at hm; cases hm
        exact ⟨i, hm', hname⟩
    · rintro ⟨i, hm, hname⟩
      rw [(hi.agg.idx n i).mpr ⟨m, hm, hname⟩]; exact hm
  refine ⟨hi.agg.nodup, hby, fun i m hm => (hby _ _).mpr ⟨i, hm, rfl⟩, ?_, ?_, ?_⟩
  · intro n t
    rw [← hi.agg.has_iff]
    rcases addMember_eq s n t with ⟨he, hh⟩ | ⟨ht, hh, _⟩
    · simp [he, hh]
    · simp [ht, hh]
  · intro n t hf
    rcases addMember_eq s n t with ⟨he, -⟩ | ⟨ht, _⟩
    · rw [he]
    · rw [hf] at ht; cases ht
  · intro n t hf
    rcases addMember_eq s n t with ⟨he, -⟩ | ⟨_, _, hm, _⟩
    · rw [he] at hf; cases hf
    · exact hm

example : (exStruct.addMember "b" (.prim .i8)).2 = false ∧ (exStruct.addMember "c" (.prim .i8)).2 = true ∧
    (exStruct.agg.byName? "b").map (·.offset) = some 4 := by decide

end Verif
