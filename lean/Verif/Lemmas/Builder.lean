import Verif.Model.Builder
import Verif.Lemmas.OMap
/-! Invariants of the builders. -/

namespace Verif

/-- Sum of the sizes of a list of members. -/
def sizes (l : List SMem) : Nat := (l.map (fun m => m.ty.memSize)).sum

theorem sizes_append (a b : List SMem) : sizes (a ++ b) = sizes a + sizes b := by
  simp [sizes]

/-- Invariant of aggregations: names are distinct and the index map gives the position of a name. -/
structure Agg.Inv (a : Agg) : Prop where
  nodup : (a.members.map (·.name)).Nodup
  idx : ∀ n i, omGet a.indexes n = some i ↔ ∃ m, a.members[i]? = some m ∧ m.name = n

theorem Agg.empty_inv : Agg.empty.Inv := ⟨by simp [Agg.empty], by simp [Agg.empty]⟩

theorem Agg.Inv.has_iff {a : Agg} (h : a.Inv) (n : String) :
    a.has n = true ↔ n ∈ a.members.map (·.name) := by
  unfold Agg.has
  rw [← omGet_isSome, Option.isSome_iff_exists]
  constructor
  · rintro ⟨i, hi⟩
    obtain ⟨m, hm, rfl⟩ := (h.idx n i).mp hi
    exact List.mem_map.mpr ⟨m, List.mem_of_getElem? hm, rfl⟩
  · intro hn
    obtain ⟨m, hm, rfl⟩ := List.mem_map.mp hn
    obtain ⟨i, hi⟩ := List.getElem?_of_mem hm
    exact ⟨i, (h.idx _ i).mpr ⟨m, hi, rfl⟩⟩

theorem Agg.insert_inv {a : Agg} (h : a.Inv) (m : SMem) : (a.insert m).1.Inv := by
  unfold Agg.insert
  split
  · exact h
  · rename_i hn
    have hn' : a.has m.name = false := by simpa using hn
    have hmem : m.name ∉ a.members.map (·.name) := by
      rw [← h.has_iff]; simp [hn']
    constructor
    · simp only [List.map_append, List.map_cons, List.map_nil]
      rw [List.nodup_append]
      refine ⟨h.nodup, by simp, ?_⟩
      intro x hx y hy
      simp only [List.mem_singleton] at hy
      subst hy; rintro rfl; exact hmem hx
    · intro n i
      rw [omEmplace_get]
      by_cases hnm : m.name = n
      · subst hnm
        rw [if_pos ⟨rfl, hn'⟩]
        constructor
        · intro hi; simp only [Option.some.injEq] at hi; subst hi
          exact ⟨m, by simp, rfl⟩
        · rintro ⟨m', hm', hname⟩
          by_cases hi : i < a.members.length
          · rw [List.getElem?_append_left hi] at hm'
            exact absurd (List.mem_map.mpr ⟨m', List.mem_of_getElem? hm', hname⟩) hmem
          · have hlt : i < (a.members ++ [m]).length := (List.getElem?_eq_some_iff.mp hm').1
            simp only [List.length_append, List.length_singleton] at hlt
            congr 1; omega
      · rw [if_neg (by simp [hnm]), h.idx]
        constructor
        · rintro ⟨m', hm', hname⟩
          have hi : i < a.members.length := (List.getElem?_eq_some_iff.mp hm').1
          exact ⟨m', by rw [List.getElem?_append_left hi]; exact hm', hname⟩
        · rintro ⟨m', hm', hname⟩
          by_cases hi : i < a.members.length
          · rw [List.getElem?_append_left hi] at hm'; exact ⟨m', hm', hname⟩
          · have hlt : i < (a.members ++ [m]).length := (List.getElem?_eq_some_iff.mp hm').1
            simp only [List.length_append, List.length_singleton] at hlt
            have : i = a.members.length := by omega
            subst this
            simp at hm'; subst hm'; exact absurd hname hnm

theorem Agg.foldl_insert_inv (l : List SMem) {a : Agg} (h : a.Inv) :
    (l.foldl (fun a m => (a.insert m).1) a).Inv := by
  induction l generalizing a with
  | nil => exact h
  | cons m r ih => exact ih (Agg.insert_inv h m)

theorem Agg.foldl_insert_members (l : List SMem) {a : Agg} (h : a.Inv)
    (hn : ((a.members ++ l).map (·.name)).Nodup) :
    (l.foldl (fun a m => (a.insert m).1) a).members = a.members ++ l := by
  induction l generalizing a with
  | nil => simp
  | cons m r ih =>
    have hm : a.has m.name = false := by
      rw [← Bool.not_eq_true, h.has_iff]
      intro hc
      rw [List.map_append, List.nodup_append] at hn
      exact hn.2.2 _ hc m.name (by simp) rfl
    have hins : (a.insert m).1.members = a.members ++ [m] := by simp [Agg.insert, hm]
    simp only [List.foldl_cons]
    rw [ih (Agg.insert_inv h m) (by rw [hins]; simpa using hn), hins]; simp

theorem Agg.ofParent_members {p : Agg} (h : p.Inv) : (Agg.ofParent p).members = p.members := by
  unfold Agg.ofParent
  rw [Agg.foldl_insert_members _ Agg.empty_inv (by simpa [Agg.empty] using h.nodup)]
  simp [Agg.empty]

theorem Agg.ofParent_inv (p : Agg) : (Agg.ofParent p).Inv :=
  Agg.foldl_insert_inv _ Agg.empty_inv

/-- Invariant of structures: the aggregation invariant, and the offset of the member at position `i`
is the sum of the sizes of the members before it; the size is the sum of all. -/
structure StructB.Inv (s : StructB) : Prop where
  agg : s.agg.Inv
  off : ∀ i m, s.agg.members[i]? = some m → m.offset = sizes (s.agg.members.take i)
  size : s.size = sizes s.agg.members

theorem StructB.built_inv {s : StructB} (h : s.Built) : s.Inv := by
  induction h with
  | new n => exact ⟨Agg.empty_inv, by simp [StructB.new, Agg.empty], by simp [StructB.new, Agg.empty, sizes]⟩
  | child n _ ih =>
    refine ⟨Agg.ofParent_inv _, ?_, ?_⟩
    · simp only [StructB.child, Agg.ofParent_members ih.agg]; exact ih.off
    · simp only [StructB.child, Agg.ofParent_members ih.agg]; exact ih.size
  | @add n t s _ ih =>
    unfold StructB.addMember
    have hinv := Agg.insert_inv ih.agg ⟨n, t, s.size⟩
    by_cases hh : s.agg.has n
    · have : s.agg.insert ⟨n, t, s.size⟩ = (s.agg, false) := by simp [Agg.insert, hh]
      rw [this]; exact ih
    · have hins : (s.agg.insert ⟨n, t, s.size⟩).1.members = s.agg.members ++ [⟨n, t, s.size⟩] := by
        simp [Agg.insert, hh]
      have h2 : (s.agg.insert ⟨n, t, s.size⟩).2 = true := by simp [Agg.insert, hh]
      generalize hg : s.agg.insert ⟨n, t, s.size⟩ = g at *
      obtain ⟨a, b⟩ := g
      simp only at h2 hins hinv
      subst h2
      refine ⟨hinv, ?_, ?_⟩
      · simp only [hins]
        intro i m hm
        by_cases hi : i < s.agg.members.length
        · rw [List.getElem?_append_left hi] at hm
          rw [List.take_append_of_le_length (by omega)]
          exact ih.off i m hm
        · have hlt := (List.getElem?_eq_some_iff.mp hm).1
          simp only [List.length_append, List.length_singleton] at hlt
          have : i = s.agg.members.length := by omega
          subst this
          simp at hm; subst hm; simp [ih.size]
      · simp only [hins, sizes_append, ih.size]; simp [sizes]

theorem Mems.ofList_sumSize (l : List (String × Ty)) :
    (Mems.ofList l).sumSize = (l.map (fun p => p.2.memSize)).sum := by
  induction l with
  | nil => simp [Mems.ofList, Mems.sumSize]
  | cons p r ih => obtain ⟨n, t⟩ := p; simp [Mems.ofList, Mems.sumSize, ih]

/-- The counter kept by the structure is the size of the type it denotes. -/
theorem StructB.Inv.size_toTy {s : StructB} (h : s.Inv) : s.toTy.memSize = s.size := by
  simp only [StructB.toTy, Ty.memSize, Mems.ofList_sumSize, List.map_map, h.size, sizes]; rfl

theorem sizes_take_mono (l : List SMem) {i j : Nat} (h : i ≤ j) :
    sizes (l.take i) ≤ sizes (l.take j) := by
  have : l.take i = (l.take j).take i := by rw [List.take_take]; congr 1; omega
  rw [this]
  conv => rhs; rw [← List.take_append_drop i (l.take j), sizes_append]
  omega

theorem sizes_take_succ (l : List SMem) {i : Nat} {m : SMem} (h : l[i]? = some m) :
    sizes (l.take (i + 1)) = sizes (l.take i) + m.ty.memSize := by
  rw [List.take_add_one, sizes_append, h]; simp [sizes]

end Verif
