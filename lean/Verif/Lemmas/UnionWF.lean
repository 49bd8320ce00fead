import Verif.Lemmas.UnionB
import Verif.Lemmas.Inst
/-! # Unions that can be built are well-formed -/

namespace Verif

theorem shrinkLabel_idem (v : Int) (s : Nat) : shrinkLabel (shrinkLabel v s) s = shrinkLabel v s := by
  unfold shrinkLabel
  rw [BitVec.ofInt_toInt, BitVec.and_assoc, BitVec.and_self]

theorem default_shrink {s : Nat} (hs : s = 1 ∨ s = 2 ∨ s = 4 ∨ s = 8) :
    shrinkLabel (defaultUnionLabel s) s = defaultUnionLabel s ∧
    shrinkLabel (defaultUnionLabel s - 1) s = defaultUnionLabel s - 1 := by
  rcases hs with rfl | rfl | rfl | rfl <;> decide

namespace UnionB

/-- Labels are values of the discriminator, or the value that stands for the default. -/
theorem built_labels {u : UnionB} (h : u.Built) :
    ∀ l n, omGet u.labels l = some n → shrinkLabel l u.disc.memSize = l ∨ l = u.defaultValue := by
  induction h with
  | new n d hn =>
    simp only [new] at hn; split at hn
    · cases hn; intro l n h; simp [omGet] at h
    · cases hn
  | @add ls n t b u hb ih =>
    have hi := built_inv hb
    have hadd : u.Accepts ls n b → ∀ l n', omGet (u.added ls n t).labels l = some n' →
        shrinkLabel l u.disc.memSize = l ∨ l = u.defaultValue := by
      intro _ l n' hl
      change omGet (setLabels n u.defaultValue u.disc.memSize ls u.labels u.defaultValue).1 l = _ at hl
      rw [setLabels_get] at hl
      split at hl
      · rename_i hc
        obtain ⟨v, _, rfl⟩ := List.mem_map.mp hc.1
        exact .inl (shrinkLabel_idem _ _)
      · exact ih l n' hl
    rcases addCase_cases u ls n t b with ⟨_, he⟩ | ⟨ha, _, he⟩ | ⟨ha, _, _, he⟩ | ⟨ha, _, _, he⟩
    · rw [he]; exact ih
    · rw [he]; simp only [added_disc hi ls n t ha.2.2.2]; exact hadd ha
    · rw [he]; simp only [added_disc hi ls n t ha.2.2.2]; exact hadd ha
    · rw [he]
      intro l n' hl
      have hd := added_disc hi ls n t ha.2.2.2
      have hd' : UnionB.disc { u.added ls n t with
        default := (setLabels n u.defaultValue u.disc.memSize ls u.labels u.defaultValue).2
        labels := if (setLabels n u.defaultValue u.disc.memSize ls u.labels u.defaultValue).2
            = u.defaultValue
          then omSet (u.added ls n t).labels u.defaultValue n else (u.added ls n t).labels } = u.disc := hd
      rw [hd']
      simp only at hl
      show _ ∨ l = u.defaultValue
      split at hl
      · rw [omGet_omSet] at hl
        split at hl
        · rename_i hc; exact .inr hc.symm
        · exact hadd ha l n' hl
      · exact hadd ha l n' hl

/-- Labels are allowed by the discriminator, except for the value that stands for the default. -/
theorem built_allowed {u : UnionB} (h : u.Built) :
    ∀ l n, omGet u.labels l = some n → l ≠ u.defaultValue → u.labelAllowed l = true := by
  induction h with
  | new n d hn =>
    simp only [new] at hn; split at hn
    · cases hn; intro l n h; simp [omGet] at h
    · cases hn
  | @add ls n t b u hb ih =>
    have hi := built_inv hb
    have hadd : u.Accepts ls n b → ∀ l n', omGet (u.added ls n t).labels l = some n' → l ≠ u.defaultValue →
        u.labelAllowed l = true := by
      intro ha l n' hl hne
      change omGet (setLabels n u.defaultValue u.disc.memSize ls u.labels u.defaultValue).1 l = _ at hl
      rw [setLabels_get] at hl
      split at hl
      · rename_i hc
        obtain ⟨v, hv, rfl⟩ := List.mem_map.mp hc.1
        exact (ha.2.2.1 v hv).1
      · exact ih l n' hl hne
    have hall : ∀ v : UnionB, v.disc = u.disc → v.defaultValue = u.defaultValue → ∀ l, v.labelAllowed l = u.labelAllowed l := by
      intro v h1 h2 l
      unfold labelAllowed
      rw [h1, h2]
    have hd := fun h => added_disc hi ls n t h
    rcases addCase_cases u ls n t b with ⟨_, he⟩ | ⟨ha, _, he⟩ | ⟨ha, _, _, he⟩ | ⟨ha, _, _, he⟩
    · rw [he]; exact ih
    · rw [he]; intro l n' hl hne; rw [hall _ (hd ha.2.2.2) rfl]; exact hadd ha l n' hl hne
    · rw [he]; intro l n' hl hne; rw [hall _ (hd ha.2.2.2) rfl]; exact hadd ha l n' hl hne
    · rw [he]
      intro l n' hl hne
      refine (hall _ (hd ha.2.2.2) rfl l).trans ?_
      simp only at hl hne
      split at hl
      · rw [omGet_omSet] at hl
        split at hl
        · rename_i hc; exact absurd hc.symm hne
        · exact hadd ha l n' hl hne
      · exact hadd ha l n' hl hne

end UnionB

open Inst

theorem find_ofList : (l : List (String × Ty)) → (n : String) → n ∈ l.map (·.1) → ((Mems.ofList l).find? n).isSome
  | [], n, h => by simp at h
  | (x, t) :: r, n, h => by
    rw [Mems.ofList, Mems.find?]
    split
    · rfl
    · rename_i hx
      refine find_ofList r n ?_
      simp only [List.map_cons, List.mem_cons] at h
      rcases h with h | h
      · exact absurd h.symm hx
      · exact h

theorem wf_ofList : (l : List (String × Ty)) → (∀ p ∈ l, p.2.WF) → (Mems.ofList l).WF
  | [], _ => by rw [Mems.ofList, Mems.WF]; trivial
  | (x, t) :: r, h => by
    rw [Mems.ofList, Mems.WF]
    exact ⟨h (x, t) (by simp), wf_ofList r fun p hp => h p (by simp [hp])⟩

/-- Any union that can be built is well-formed, provided its discriminator is not an enumeration of 8 or 16 bits,
no label is the value kept for "no member" and its members are well-formed. -/
theorem UnionB.built_wf {u : UnionB} (h : u.Built) (hd : discOk u.disc) (hi : omGet u.labels u.invalidValue = none)
    (hm : ∀ m ∈ u.agg.members.tail, m.ty.WF) : u.toTy.WF := by
  have inv := built_inv h
  have hs := default_shrink (discOk_size hd)
  rw [UnionB.toTy, Ty.WF]
  refine ⟨hd, ⟨inv.nodup, ?_, ?_, hi, ?_⟩, wf_ofList _ ?_⟩
  · intro l n hl
    refine ⟨?_, find_ofList _ _ ?_⟩
    · rcases built_labels h l n hl with hh | rfl
      · exact hh
      · rw [inv.dv]; exact hs.1
    · have := inv.names l n hl
      rw [List.map_map]; simpa [UnionB.caseNames, Function.comp_def] using this
  · by_cases hdf : u.default = u.invalidValue
    · exact .inl hdf
    · right
      have := inv.dflt hdf
      rw [← omGet_isSome] at this
      exact this
  · show shrinkLabel u.invalidValue u.disc.memSize = u.invalidValue
    rw [inv.iv, inv.dv]; exact hs.2
  · intro p hp
    obtain ⟨m, hmm, rfl⟩ := List.mem_map.mp hp
    exact hm m hmm

end Verif
