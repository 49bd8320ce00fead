import Verif.Model.TempFile
import Verif.Props.Preprocess
/-!
# Lemmas for C71
-/

namespace Verif.Pre

theorem safe_zero {w : Bytes} (h : Safe w) : 0 ∉ w := fun hm => absurd (h.2 0 hm) (by decide)

theorem joinWords_zero : ∀ {ws : List Bytes}, (∀ w ∈ ws, Safe w) → 0 ∉ joinWords ws
  | [], _ => by simp [joinWords]
  | [w], h => by
    rw [show joinWords [w] = w by simp [joinWords]]
    exact safe_zero (h w (by simp))
  | w :: v :: r, h => by
    rw [show joinWords (w :: v :: r) = w ++ 32 :: joinWords (v :: r) by simp [joinWords, List.intercalate]]
    simp only [List.mem_append, List.mem_cons, not_or]
    exact ⟨safe_zero (h w (by simp)), by decide, joinWords_zero fun x hx => h x (List.mem_cons_of_mem _ hx)⟩

theorem fileCommand_zero {c : Config} {ws : List Bytes} (hc : c.Plain ws) {file : Bytes} (hf : 0 ∉ file) : 0 ∉ fileCommand c file := by
  unfold fileCommand
  rw [hc.exec, hc.redirect]
  simp only [List.mem_append, not_or]
  refine ⟨⟨⟨⟨joinWords_zero hc.words, by decide⟩, fun hm => ?_⟩, hf⟩, by decide⟩
  obtain ⟨p, hp, hm⟩ := List.mem_flatMap.mp hm
  rcases List.mem_append.mp hm with hm | hm
  · rcases List.mem_append.mp hm with hm | hm
    · exact safe_zero hc.flag hm
    · exact safe_zero (hc.paths p hp) hm
  · exact absurd hm (by decide)

theorem put_same (d : Disk) (n : Bytes) (t : Option Bytes) : d.put n t n = t := if_pos rfl

theorem put_other {d : Disk} {n m : Bytes} {t : Option Bytes} (h : m ≠ n) : d.put n t m = d m := if_neg h

theorem put_put (d : Disk) (n : Bytes) (t t' : Option Bytes) : (d.put n t).put n t' = d.put n t' := by
  funext m
  unfold Disk.put
  split <;> rfl

theorem put_none {d : Disk} {n : Bytes} (h : d n = none) : d.put n none = d := by
  funext m
  unfold Disk.put
  split
  · rename_i e; rw [e, h]
  · rfl

end Verif.Pre
