import Verif.Model.OMap
/-! Lemmas about the `std::map` model. -/

set_option linter.unusedSectionVars false

namespace Verif

variable {α : Type} {β : Type} [LT α] [DecidableLT α] [DecidableEq α]

theorem omHas_iff {m : List (α × β)} {k : α} : omHas m k = true ↔ k ∈ m.map (·.1) := by
  simp [omHas, List.any_eq_true]

theorem omHas_false_iff {m : List (α × β)} {k : α} : omHas m k = false ↔ k ∉ m.map (·.1) := by
  rw [← omHas_iff]; simp

@[simp] theorem mem_omIns {k : α} {v : β} {m : List (α × β)} {p : α × β} :
    p ∈ omIns k v m ↔ p = (k, v) ∨ p ∈ m := by
  induction m with
  | nil => simp [omIns]
  | cons q r ih => simp only [omIns]; split <;> simp [ih]; grind

theorem omIns_perm (k : α) (v : β) (m : List (α × β)) : (omIns k v m).Perm ((k, v) :: m) := by
  induction m with
  | nil => simp [omIns]
  | cons q r ih =>
    simp only [omIns]; split
    · exact List.Perm.refl _
    · exact ((List.Perm.cons q ih).trans (List.Perm.swap _ _ _))

theorem omIns_keys_nodup {k : α} {v : β} {m : List (α × β)} (h : (m.map (·.1)).Nodup)
    (hk : k ∉ m.map (·.1)) : ((omIns k v m).map (·.1)).Nodup := by
  have := ((omIns_perm k v m).map (·.1)).nodup_iff
  rw [this]; simp only [List.map_cons, List.nodup_cons]; exact ⟨hk, h⟩

@[simp] theorem omGet_nil (k : α) : omGet ([] : List (α × β)) k = none := rfl

theorem omGet_cons (p : α × β) (m : List (α × β)) (k : α) :
    omGet (p :: m) k = if p.1 = k then some p.2 else omGet m k := by
  by_cases h : p.1 = k <;> simp [omGet, h]

theorem omGet_eq_none {m : List (α × β)} {k : α} : omGet m k = none ↔ k ∉ m.map (·.1) := by
  induction m with
  | nil => simp
  | cons p r ih => rw [omGet_cons]; by_cases h : p.1 = k <;> simp_all [eq_comm]

theorem omGet_isSome {m : List (α × β)} {k : α} : (omGet m k).isSome = omHas m k := by
  by_cases h : k ∈ m.map (·.1)
  · rw [omHas_iff.mpr h]
    cases hg : omGet m k with
    | none => exact absurd h (omGet_eq_none.mp hg)
    | some _ => rfl
  · rw [omHas_false_iff.mpr h, omGet_eq_none.mpr h]; rfl

theorem omGet_mem {m : List (α × β)} {k : α} {v : β} (h : omGet m k = some v) : (k, v) ∈ m := by
  induction m with
  | nil => simp at h
  | cons p r ih =>
    rw [omGet_cons] at h
    split at h
    · rename_i hp; simp only [Option.some.injEq] at h; subst hp h; simp
    · exact List.mem_cons_of_mem _ (ih h)

theorem omGet_of_mem {m : List (α × β)} (hn : (m.map (·.1)).Nodup) {k : α} {v : β}
    (h : (k, v) ∈ m) : omGet m k = some v := by
  induction m with
  | nil => simp at h
  | cons p r ih =>
    rw [omGet_cons]
    simp only [List.map_cons, List.nodup_cons] at hn
    rcases List.mem_cons.mp h with rfl | h
    · simp
    · rw [if_neg]
      · exact ih hn.2 h
      · intro hp; exact hn.1 (List.mem_map.mpr ⟨(k, v), h, hp.symm⟩)

theorem omGet_omIns {m : List (α × β)} {k k' : α} {v : β} (hk : k ∉ m.map (·.1)) :
    omGet (omIns k v m) k' = if k = k' then some v else omGet m k' := by
  induction m with
  | nil => simp [omIns, omGet_cons]
  | cons q r ih =>
    simp only [List.map_cons, List.mem_cons, not_or] at hk
    simp only [omIns]; split
    · rw [omGet_cons]
    · rw [omGet_cons, ih hk.2, omGet_cons]
      by_cases h1 : q.1 = k'
      · simp only [h1, if_true]; rw [if_neg]; rintro rfl; exact hk.1 h1.symm
      · simp [h1]

theorem omGet_map_set {m : List (α × β)} {k k' : α} {v : β} (hk : k ∈ m.map (·.1)) :
    omGet (m.map (fun p => if p.1 = k then (k, v) else p)) k' =
      if k = k' then some v else omGet m k' := by
  induction m with
  | nil => simp at hk
  | cons q r ih =>
    simp only [List.map_cons, omGet_cons]
    by_cases h1 : q.1 = k
    · by_cases h2 : k = k'
      · simp [h1, h2]
      · have h3 : ¬ q.1 = k' := by rw [h1]; exact h2
        simp only [h1, h2, if_true, if_false]
        by_cases hr : k ∈ r.map (·.1)
        · rw [ih hr, if_neg h2]
        · clear ih hk
          induction r with
          | nil => simp
          | cons p s ih2 =>
            simp only [List.map_cons, List.mem_cons, not_or] at hr
            simp only [List.map_cons, if_neg (Ne.symm hr.1), omGet_cons]
            rw [ih2 hr.2]
    · simp only [List.map_cons, List.mem_cons] at hk
      have hr := hk.resolve_left (fun h => h1 h.symm)
      simp only [if_neg h1, ih hr]
      by_cases h2 : q.1 = k'
      · simp only [h2, if_true]; rw [if_neg]; rintro rfl; exact h1 h2
      · simp [h2]

theorem omGet_omSet {m : List (α × β)} {k k' : α} {v : β} :
    omGet (omSet m k v) k' = if k = k' then some v else omGet m k' := by
  unfold omSet
  split
  · rename_i h; exact omGet_map_set (omHas_iff.mp h)
  · rename_i h; exact omGet_omIns (omHas_false_iff.mp (by simpa using h))

theorem omSet_keys {m : List (α × β)} {k : α} {v : β} (x : α) :
    x ∈ (omSet m k v).map (·.1) ↔ x = k ∨ x ∈ m.map (·.1) := by
  have h1 := not_congr (omGet_eq_none (m := omSet m k v) (k := x))
  have h2 := not_congr (omGet_eq_none (m := m) (k := x))
  rw [omGet_omSet] at h1
  simp only [Decidable.not_not] at h1 h2
  rw [← h1, ← h2]
  by_cases hk : k = x
  · simp [hk]
  · simp [hk, Ne.symm hk]

theorem omSet_nodup {m : List (α × β)} {k : α} {v : β} (h : (m.map (·.1)).Nodup) :
    ((omSet m k v).map (·.1)).Nodup := by
  unfold omSet
  split
  · have : (m.map (fun p => if p.1 = k then (k, v) else p)).map (·.1) = m.map (·.1) := by
      simp only [List.map_map]; apply List.map_congr_left; intro p _; simp only [Function.comp]
      split <;> simp_all
    rw [this]; exact h
  · rename_i h'; exact omIns_keys_nodup h (omHas_false_iff.mp (by simpa using h'))

theorem omEmplace_get {m : List (α × β)} {k k' : α} {v : β} :
    omGet (omEmplace m k v).1 k' =
      if k = k' ∧ omHas m k = false then some v else omGet m k' := by
  unfold omEmplace
  split
  · rename_i h; simp [h]
  · rename_i h
    have h' : omHas m k = false := by simpa using h
    simp only [h', and_true]
    exact omGet_omIns (omHas_false_iff.mp h')

theorem omEmplace_nodup {m : List (α × β)} {k : α} {v : β} (h : (m.map (·.1)).Nodup) :
    ((omEmplace m k v).1.map (·.1)).Nodup := by
  unfold omEmplace
  split
  · exact h
  · rename_i h'; exact omIns_keys_nodup h (omHas_false_iff.mp (by simpa using h'))

/-! ## Order -/

/-- Increasing keys. -/
def Increasing (m : List (α × β)) : Prop := m.Pairwise fun a b => a.1 < b.1

theorem omIns_increasing (htr : ∀ a b c : α, a < b → b < c → a < c) (htot : ∀ a b : α, ¬ a < b → a ≠ b → b < a)
    {k : α} {v : β} {m : List (α × β)} (h : Increasing m) (hk : k ∉ m.map (·.1)) : Increasing (omIns k v m) := by
  induction m with
  | nil => simp [omIns, Increasing]
  | cons p r ih =>
    unfold Increasing at h ih ⊢
    rw [List.pairwise_cons] at h
    simp only [omIns]
    split
    · rename_i hlt
      rw [List.pairwise_cons, List.pairwise_cons]
      refine ⟨?_, h⟩
      intro b hb
      rcases List.mem_cons.mp hb with rfl | hb
      · exact hlt
      · exact htr _ _ _ hlt (h.1 b hb)
    · rename_i hlt
      simp only [List.map_cons, List.mem_cons, not_or] at hk
      rw [List.pairwise_cons]
      refine ⟨?_, ih h.2 hk.2⟩
      intro b hb
      rcases mem_omIns.mp hb with rfl | hb
      · exact htot _ _ hlt hk.1
      · exact h.1 b hb

theorem omEmplace_increasing (htr : ∀ a b c : α, a < b → b < c → a < c) (htot : ∀ a b : α, ¬ a < b → a ≠ b → b < a)
    {k : α} {v : β} {m : List (α × β)} (h : Increasing m) : Increasing (omEmplace m k v).1 := by
  unfold omEmplace
  split
  · exact h
  · rename_i hh
    exact omIns_increasing htr htot h (omHas_false_iff.mp (by simpa using hh))

theorem omSet_increasing (htr : ∀ a b c : α, a < b → b < c → a < c) (htot : ∀ a b : α, ¬ a < b → a ≠ b → b < a)
    {k : α} {v : β} {m : List (α × β)} (h : Increasing m) : Increasing (omSet m k v) := by
  unfold omSet
  split
  · unfold Increasing at h ⊢
    rw [List.pairwise_map]
    refine h.imp ?_
    intro a b hab
    by_cases ha : a.1 = k <;> by_cases hb : b.1 = k <;> simp [ha, hb] <;> first | exact hab | simp_all
  · rename_i hh
    exact omIns_increasing htr htot h (omHas_false_iff.mp (by simpa using hh))

end Verif
