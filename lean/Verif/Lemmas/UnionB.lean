import Verif.Lemmas.Builder
/-! Invariants of the union builder. -/

namespace Verif.UnionB
open Verif

theorem setLabels_get (name : String) (dv : Int) (ds : Nat) (ls : List Int)
    (m : List (Int × String)) (f : Int) (l : Int) :
    omGet (setLabels name dv ds ls m f).1 l =
      if l ∈ ls.map (shrinkLabel · ds) ∧ l ≠ dv then some name else omGet m l := by
  induction ls generalizing m f with
  | nil => simp [setLabels]
  | cons v vs ih =>
    simp only [setLabels]
    split
    · rename_i hv
      rw [ih, omGet_omSet]
      simp only [List.map_cons, List.mem_cons]
      by_cases h1 : l ∈ vs.map (shrinkLabel · ds) ∧ l ≠ dv
      · rw [if_pos h1, if_pos ⟨.inr h1.1, h1.2⟩]
      · rw [if_neg h1]
        by_cases h2 : shrinkLabel v ds = l
        · rw [if_pos h2, if_pos ⟨.inl h2.symm, by rw [← h2]; exact hv⟩]
        · rw [if_neg h2, if_neg]
          rintro ⟨h3 | h3, h4⟩
          · exact h2 h3.symm
          · exact h1 ⟨h3, h4⟩
    · rename_i hv
      simp only [ne_eq, Decidable.not_not] at hv
      rw [ih]
      simp only [List.map_cons, List.mem_cons, hv]
      congr 1
      apply propext; constructor
      · rintro ⟨a, b⟩; exact ⟨.inr a, b⟩
      · rintro ⟨a | a, b⟩
        · exact absurd a b
        · exact ⟨a, b⟩

theorem setLabels_nodup (name : String) (dv : Int) (ds : Nat) (ls : List Int)
    (m : List (Int × String)) (f : Int) (h : (m.map (·.1)).Nodup) :
    ((setLabels name dv ds ls m f).1.map (·.1)).Nodup := by
  induction ls generalizing m f with
  | nil => simpa [setLabels]
  | cons v vs ih =>
    simp only [setLabels]; split
    · exact ih _ _ (omSet_nodup h)
    · exact ih _ _ h

/-- The first label returned is the initial one or one of the labels other than the default value. -/
theorem setLabels_first (name : String) (dv : Int) (ds : Nat) (ls : List Int)
    (m : List (Int × String)) (f : Int) :
    (setLabels name dv ds ls m f).2 = f ∨
      ((setLabels name dv ds ls m f).2 ∈ ls.map (shrinkLabel · ds) ∧
        (setLabels name dv ds ls m f).2 ≠ dv) := by
  induction ls generalizing m f with
  | nil => simp [setLabels]
  | cons v vs ih =>
    simp only [setLabels]; split
    · rename_i hv
      rcases ih (omSet m (shrinkLabel v ds) name) (if f = dv then shrinkLabel v ds else f) with h | h
      · rw [h]; split
        · right; exact ⟨by simp, hv⟩
        · left; rfl
      · right; exact ⟨by simp only [List.map_cons, List.mem_cons]; exact .inr h.1, h.2⟩
    · rcases ih m f with h | h
      · exact .inl h
      · right; exact ⟨by simp only [List.map_cons, List.mem_cons]; exact .inr h.1, h.2⟩

/-- What the checks of `add_case_member` (UnionType.hpp 97-110) require before anything is written. -/
def Accepts (u : UnionB) (ls : List Int) (n : String) (isDefault : Bool) : Prop :=
  (isDefault = true ∨ ls ≠ []) ∧ n ≠ discName ∧
  (∀ v ∈ ls, u.labelAllowed (shrinkLabel v u.disc.memSize) = true ∧
    omHas u.labels (shrinkLabel v u.disc.memSize) = false) ∧ u.agg.has n = false

/-- The state after the part of `add_case_member` that precedes the default handling. -/
def added (u : UnionB) (ls : List Int) (n : String) (t : Ty) : UnionB :=
  { u with
    agg := (u.agg.insert ⟨n, t, u.disc.memSize⟩).1
    maxCase := if t.memSize > u.maxCase then t.memSize else u.maxCase
    size := if t.memSize > u.maxCase then u.disc.memSize + t.memSize else u.size
    labels := (setLabels n u.defaultValue u.disc.memSize ls u.labels u.defaultValue).1 }

/-- Case analysis of `add_case_member`. -/
theorem addCase_cases (u : UnionB) (ls : List Int) (n : String) (t : Ty) (b : Bool) :
    (¬ u.Accepts ls n b ∧ u.addCase ls n t b = (u, false)) ∨
    (u.Accepts ls n b ∧ b = false ∧ u.addCase ls n t b = (u.added ls n t, true)) ∨
    (u.Accepts ls n b ∧ b = true ∧ u.default ≠ u.invalidValue ∧
      u.addCase ls n t b = (u.added ls n t, false)) ∨
    (u.Accepts ls n b ∧ b = true ∧ u.default = u.invalidValue ∧
      u.addCase ls n t b = ({ u.added ls n t with
        default := (setLabels n u.defaultValue u.disc.memSize ls u.labels u.defaultValue).2
        labels := if (setLabels n u.defaultValue u.disc.memSize ls u.labels u.defaultValue).2
            = u.defaultValue
          then omSet (u.added ls n t).labels u.defaultValue n else (u.added ls n t).labels }, true)) := by
  by_cases h1 : (b || !ls.isEmpty) = false
  · left
    refine ⟨?_, by simp only [addCase, if_pos h1]⟩
    rintro ⟨h, -⟩
    simp only [Bool.or_eq_false_iff, Bool.not_eq_false', List.isEmpty_iff] at h1
    rcases h with h | h
    · rw [h1.1] at h; cases h
    · exact h h1.2
  by_cases h2 : n = discName
  · left; exact ⟨fun h => h.2.1 h2, by simp only [addCase, if_neg h1, if_pos h2]⟩
  by_cases h3 : ls.any (fun v => !(u.labelAllowed (shrinkLabel v u.disc.memSize)) ||
      omHas u.labels (shrinkLabel v u.disc.memSize)) = true
  · left
    refine ⟨?_, by simp only [addCase, if_neg h1, if_neg h2, if_pos h3]⟩
    rintro ⟨-, -, h, -⟩
    obtain ⟨v, hv, hbad⟩ := List.any_eq_true.mp h3
    have := h v hv
    simp [this] at hbad
  by_cases h4 : u.agg.has n
  · left
    refine ⟨fun h => Bool.false_ne_true (h.2.2.2.symm.trans h4), ?_⟩
    simp only [addCase, if_neg h1, if_neg h2, if_neg h3]
    simp [Agg.insert, h4]
  right
  have hacc : u.Accepts ls n b := by
    refine ⟨?_, h2, ?_, by simpa using h4⟩
    · simp only [Bool.or_eq_false_iff, Bool.not_eq_false', List.isEmpty_iff, not_and] at h1
      by_cases hb : b = true
      · exact .inl hb
      · exact .inr (h1 (by simpa using hb))
    · intro v hv
      simp only [List.any_eq_true, not_exists, not_and, Bool.or_eq_true, Bool.not_eq_true',
        not_or] at h3
      have := h3 v hv
      simpa using this
  have hins : u.agg.insert ⟨n, t, u.disc.memSize⟩ =
      ((u.agg.insert ⟨n, t, u.disc.memSize⟩).1, true) := by simp [Agg.insert, h4]
  have hbase : (u.addCase ls n t b) =
      if b then
        if u.default ≠ u.invalidValue then (u.added ls n t, false)
        else ({ u.added ls n t with
          default := (setLabels n u.defaultValue u.disc.memSize ls u.labels u.defaultValue).2
          labels := if (setLabels n u.defaultValue u.disc.memSize ls u.labels u.defaultValue).2
              = u.defaultValue
            then omSet (u.added ls n t).labels
              (setLabels n u.defaultValue u.disc.memSize ls u.labels u.defaultValue).2 n
            else (u.added ls n t).labels }, true)
      else (u.added ls n t, true) := by
    simp only [addCase, if_neg h1, if_neg h2, if_neg h3]
    rw [hins]
    simp only [added]
    by_cases hsz : t.memSize > u.maxCase <;> simp [hsz]
  cases b with
  | false => left; exact ⟨hacc, rfl, by simpa using hbase⟩
  | true =>
    by_cases hd : u.default = u.invalidValue
    · right; right
      refine ⟨hacc, rfl, hd, ?_⟩
      rw [hbase]; simp only [if_true, hd, ne_eq, not_true_eq_false, if_false]
      by_cases hf : (setLabels n u.defaultValue u.disc.memSize ls u.labels u.defaultValue).2
        = u.defaultValue
      · simp [hf]
      · simp [hf]
    · right; left
      exact ⟨hacc, rfl, hd, by rw [hbase]; simp [hd]⟩

/-- Invariant of unions. -/
structure Inv (u : UnionB) : Prop where
  agg : u.agg.Inv
  head : ∃ rest, u.agg.members = ⟨discName, u.disc, 0⟩ :: rest ∧
    (∀ m ∈ rest, m.offset = u.disc.memSize ∧ m.ty.memSize ≤ u.maxCase) ∧
    (∀ x, (∀ m ∈ rest, m.ty.memSize ≤ x) → u.maxCase ≤ x)
  check : checkDisc u.disc = true
  nodup : (u.labels.map (·.1)).Nodup
  names : ∀ l n, omGet u.labels l = some n → n ∈ u.caseNames
  size : u.size = u.disc.memSize + u.maxCase
  dv : u.defaultValue = defaultUnionLabel u.disc.memSize
  iv : u.invalidValue = u.defaultValue - 1
  dflt : u.default ≠ u.invalidValue → omHas u.labels u.default = true
  dlab : omHas u.labels u.defaultValue = true → u.default = u.defaultValue

theorem insert_members {a : Agg} {m : SMem} (h : a.has m.name = false) :
    (a.insert m).1.members = a.members ++ [m] := by simp [Agg.insert, h]

theorem added_disc {u : UnionB} (h : u.Inv) (ls : List Int) (n : String) (t : Ty)
    (hn : u.agg.has n = false) : (u.added ls n t).disc = u.disc := by
  obtain ⟨rest, hr, -⟩ := h.head
  have : (u.added ls n t).agg.members = u.agg.members ++ [⟨n, t, u.disc.memSize⟩] :=
    insert_members hn
  unfold disc at *
  rw [this, hr]; simp

theorem added_caseNames {u : UnionB} (h : u.Inv) (ls : List Int) (n : String) (t : Ty)
    (hn : u.agg.has n = false) : (u.added ls n t).caseNames = u.caseNames ++ [n] := by
  obtain ⟨rest, hr, -⟩ := h.head
  have : (u.added ls n t).agg.members = u.agg.members ++ [⟨n, t, u.disc.memSize⟩] :=
    insert_members hn
  unfold caseNames
  rw [this, hr]; simp

theorem added_inv {u : UnionB} (h : u.Inv) {ls : List Int} {n : String} {t : Ty} {b : Bool}
    (ha : u.Accepts ls n b) : (u.added ls n t).Inv := by
  have hd := added_disc h ls n t ha.2.2.2
  have hc := added_caseNames h ls n t ha.2.2.2
  obtain ⟨rest, hr, hoff, hmax⟩ := h.head
  have hmem : (u.added ls n t).agg.members = u.agg.members ++ [⟨n, t, u.disc.memSize⟩] :=
    insert_members ha.2.2.2
  refine ⟨Agg.insert_inv h.agg _, ?_, by rw [hd]; exact h.check,
    setLabels_nodup _ _ _ _ _ _ h.nodup, ?_, ?_, by rw [hd]; exact h.dv, h.iv, ?_, ?_⟩
  · refine ⟨rest ++ [⟨n, t, u.disc.memSize⟩], by rw [hmem, hr, hd]; rfl, ?_, ?_⟩
    · intro m hm
      rw [hd]
      simp only [added]
      rcases List.mem_append.mp hm with hm | hm
      · have := hoff m hm; refine ⟨this.1, ?_⟩; split <;> omega
      · simp only [List.mem_singleton] at hm; subst hm; refine ⟨rfl, ?_⟩
        simp only; split <;> omega
    · intro x hx
      simp only [added]
      split
      · exact hx ⟨n, t, u.disc.memSize⟩ (by simp)
      · exact hmax x (fun m hm => hx m (List.mem_append_left _ hm))
  · intro l n' hl
    rw [hc]
    simp only [added] at hl
    rw [setLabels_get] at hl
    split at hl
    · simp only [Option.some.injEq] at hl; subst hl; simp
    · exact List.mem_append_left _ (h.names l n' hl)
  · rw [hd]
    simp only [added]
    have := h.size
    split <;> omega
  · intro hne
    have h1 := h.dflt hne
    rw [← omGet_isSome] at h1 ⊢
    show (omGet (setLabels n u.defaultValue u.disc.memSize ls u.labels u.defaultValue).1
      u.default).isSome = true
    rw [setLabels_get]; split
    · rfl
    · exact h1
  · intro hh
    apply h.dlab
    rw [← omGet_isSome] at hh ⊢
    have : (omGet (setLabels n u.defaultValue u.disc.memSize ls u.labels u.defaultValue).1
      u.defaultValue).isSome = true := hh
    rw [setLabels_get] at this
    simpa using this

theorem addCase_inv {u : UnionB} (h : u.Inv) (ls : List Int) (n : String) (t : Ty) (b : Bool) :
    (u.addCase ls n t b).1.Inv := by
  rcases addCase_cases u ls n t b with ⟨_, he⟩ | ⟨ha, _, he⟩ | ⟨ha, _, _, he⟩ | ⟨ha, _, hdef, he⟩
  · rw [he]; exact h
  · rw [he]; exact added_inv h ha
  · rw [he]; exact added_inv h ha
  · rw [he]
    have h2 := added_inv (t := t) h ha
    have hc := added_caseNames h ls n t ha.2.2.2
    refine ⟨h2.agg, h2.head, h2.check, ?_, ?_, h2.size, h2.dv, h2.iv, ?_, ?_⟩
    · simp only; split
      · exact omSet_nodup h2.nodup
      · exact h2.nodup
    · intro l n' hl
      simp only at hl
      split at hl
      · rw [omGet_omSet] at hl
        split at hl
        · simp only [Option.some.injEq] at hl; subst hl
          show n ∈ (u.added ls n t).caseNames
          rw [hc]; simp
        · exact h2.names l n' hl
      · exact h2.names l n' hl
    · intro _
      rw [← omGet_isSome]
      simp only
      split
      · rename_i hf; rw [omGet_omSet, hf, if_pos rfl]; rfl
      · rename_i hf
        rcases setLabels_first n u.defaultValue u.disc.memSize ls u.labels u.defaultValue with h3 | h3
        · exact absurd h3 hf
        · simp only [added]; rw [setLabels_get, if_pos h3]; rfl
    · intro hh
      simp only at hh ⊢
      split at hh
      · assumption
      · exfalso
        have h4 := h2.dlab hh
        have h5 : (u.added ls n t).default = u.default := rfl
        have h6 : (u.added ls n t).defaultValue = u.defaultValue := rfl
        rw [h5, h6, hdef, h.iv] at h4; omega

theorem new_inv {n : String} {d : Ty} {u : UnionB} (h : new n d = some u) : u.Inv := by
  unfold new at h
  split at h
  · rename_i hc
    simp only [Option.some.injEq] at h
    subst h
    refine ⟨Agg.insert_inv Agg.empty_inv _, ⟨[], rfl, by simp, by simp⟩, hc, by simp, by simp, rfl, rfl, rfl,
      by simp, by simp [omHas]⟩
  · cases h

theorem built_inv {u : UnionB} (h : u.Built) : u.Inv := by
  induction h with
  | new n d h => exact new_inv h
  | add ls n t b _ ih => exact addCase_inv ih ls n t b

end Verif.UnionB
