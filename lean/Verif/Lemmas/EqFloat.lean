import Verif.Lemmas.Eq
import Verif.Spec.EqFloat
/-! # Equality of values with floating point numbers -/

namespace Verif.Inst

theorem leNat_inj {x y : List Byte} (hl : x.length = y.length) (h : leNat x = leNat y) : x = y := by
  rw [← leBytes_leNat x, ← leBytes_leNat y, hl, h]

theorem primEq_nonzero {k : PK} {x y : List Byte} (h : primEq k x y = true) (hl : x.length = y.length)
    (hk : k ≠ .f128) (hz : ¬ isZero k x) : x = y := by
  cases k <;> simp only [primEq, floatBitsEq, isZero, Bool.and_eq_true, Bool.or_eq_true, decide_eq_true_eq] at h hz <;>
    first
    | exact h
    | exact absurd rfl hk
    | (rcases h.2 with e | e
       · exact leNat_inj hl e
       · exact absurd e.1 hz)

theorem hasTy_prim {k : PK} {u : Val} (h : HasTy (.prim k) u) : ∃ x, u = .bytes x ∧ x.length = k.size := by
  obtain ⟨cs, h⟩ := h
  rw [decode] at h
  obtain ⟨b, rfl, hb⟩ := decBytes_iff.mp h
  exact ⟨b, rfl, by simp_all⟩

theorem elems_imp {S : Val → Val → Prop} {us vs : List Val} (h : ∀ u ∈ us, ∀ v ∈ vs, S u v → u = v)
    (hs : us.length = vs.length ∧ ∀ (i : Nat) (u v : Val), us[i]? = some u → vs[i]? = some v → S u v) : us = vs := by
  obtain ⟨h1, h2⟩ := hs
  refine List.ext_getElem h1 fun i hi hi' => ?_
  exact h _ (List.getElem_mem hi) _ (List.getElem_mem hi') (h2 i _ _ (List.getElem?_eq_getElem hi) (List.getElem?_eq_getElem hi'))

mutual
/-- Equal values are the same, unless there are zeros. -/
theorem same_nonzero : (T : Ty) → T.WF → (u v : Val) → HasTy T u → HasTy T v → NoZero T u → Same true T u v → u = v
  | .prim k, hw, u, v, hu, hv, hz, h => by
    obtain ⟨x, rfl, hx⟩ := hasTy_prim hu
    obtain ⟨y, rfl, hy⟩ := hasTy_prim hv
    rw [NoZero] at hz
    rw [Same] at h
    rw [primEq_nonzero h (hx.trans hy.symm) hz.1 hz.2]
  | .enum _ _ _, hw, u, v, hu, hv, _, h => by
    obtain ⟨x, rfl⟩ := hasTy_cases hw hu
    obtain ⟨y, rfl⟩ := hasTy_cases hw hv
    rw [Same] at h; rw [h]
  | .str _ _, hw, u, v, hu, hv, _, h => by
    obtain ⟨x, rfl⟩ := hasTy_cases hw hu
    obtain ⟨y, rfl⟩ := hasTy_cases hw hv
    rw [Same] at h; rw [h]
  | .seq c _, hw, u, v, hu, hv, hz, h => by
    obtain ⟨x, rfl, hx⟩ := hasTy_cases hw hu
    obtain ⟨y, rfl, hy⟩ := hasTy_cases hw hv
    rw [Ty.WF] at hw
    rw [NoZero] at hz
    rw [Same] at h
    split at h
    · rw [h]
    · rename_i hc
      rcases hz with hz | hz
      · simp [hz] at hc
      · rw [elems_imp (fun u hu v hv => same_nonzero c hw u v (hx u hu) (hy v hv) (hz u hu)) h]
  | .arr _ c _, hw, u, v, hu, hv, hz, h => by
    obtain ⟨x, rfl, hx⟩ := hasTy_cases hw hu
    obtain ⟨y, rfl, hy⟩ := hasTy_cases hw hv
    rw [Ty.WF] at hw
    rw [NoZero] at hz
    rw [Same] at h
    split at h
    · rw [h]
    · rename_i hc
      rcases hz with hz | hz
      · simp [hz] at hc
      · rw [elems_imp (fun u hu v hv => same_nonzero c hw u v (hx u hu) (hy v hv) (hz u hu)) h]
  | .map k w _, hw, u, v, hu, hv, hz, h => by
    obtain ⟨x, rfl, hx⟩ := hasTy_cases hw hu
    obtain ⟨y, rfl, hy⟩ := hasTy_cases hw hv
    rw [Ty.WF] at hw
    rw [NoZero] at hz
    rw [Same] at h
    split at h
    · rw [h]
    · rename_i hc
      rcases hz with hz | hz
      · simp [hz.1, hz.2] at hc
      · rw [elems_imp (fun u hu v hv => ?_) h]
        rintro ⟨a, b, c, d, rfl, rfl, h1, h2⟩
        obtain ⟨a', b', e, ha, hb⟩ := hx _ hu
        cases e
        obtain ⟨c', d', e, hc, hd⟩ := hy _ hv
        cases e
        obtain ⟨z1, z2⟩ := hz _ hu _ _ rfl
        rw [same_nonzero k hw.1 _ _ ha hc z1 h1, same_nonzero w hw.2 _ _ hb hd z2 h2]
  | .pair k w, hw, u, v, hu, hv, hz, h => by
    obtain ⟨a, b, rfl, ha, hb⟩ := hasTy_cases hw hu
    obtain ⟨c, d, rfl, hc, hd⟩ := hasTy_cases hw hv
    rw [Ty.WF] at hw
    rw [NoZero] at hz
    rw [Same] at h
    rw [same_nonzero k hw.1 _ _ ha hc hz.1 h.1, same_nonzero w hw.2 _ _ hb hd hz.2 h.2]
  | .alias _ t, hw, u, v, hu, hv, hz, h => by
    have h1 := hasTy_cases hw hu
    have h2 := hasTy_cases hw hv
    rw [Ty.WF] at hw
    rw [NoZero] at hz
    rw [Same] at h
    exact same_nonzero t hw u v h1 h2 hz h
  | .struct _ ms, hw, u, v, hu, hv, hz, h => by
    obtain ⟨x, rfl, hx⟩ := hasTy_cases hw hu
    obtain ⟨y, rfl, hy⟩ := hasTy_cases hw hv
    rw [Ty.WF] at hw
    rw [NoZero] at hz
    rw [Same] at h
    rw [sameAll_nonzero ms hw x y hx hy hz h]
  | .union n d ms i, hw, u, v, hu, hv, hz, h => by
    rcases hasTy_cases hw hu with ⟨x, rfl⟩ | ⟨x, n, t, p, rfl, h1, h2, h3⟩ <;>
      rcases hasTy_cases hw hv with ⟨y, rfl⟩ | ⟨y, m, t', q, rfl, h1', h2', h3'⟩ <;> simp only [Same] at h
    · rw [h]
    · obtain ⟨rfl, rfl, h⟩ := h
      rw [h1] at h1'; cases h1'
      rw [NoZero] at hz
      rw [sameCase_nonzero ms (by rw [Ty.WF] at hw; exact hw.2.2) n t h1 p q h3 h3' hz h]
theorem sameAll_nonzero : (ms : Mems) → ms.WF → (us vs : List Val) → (∃ cs, decodeAll ms cs = some us) →
    (∃ cs, decodeAll ms cs = some vs) → NoZeroAll ms us → SameAll true ms us vs → us = vs
  | .nil, _, us, vs, hu, hv, _, h => by
    cases us <;> cases vs <;> simp_all [SameAll]
  | .cons _ t r, hw, us, vs, hu, hv, hz, h => by
    obtain ⟨u, us, rfl, h1, h2⟩ := hasTy_struct hu
    obtain ⟨v, vs, rfl, h3, h4⟩ := hasTy_struct hv
    rw [Mems.WF] at hw
    rw [NoZeroAll] at hz
    rw [SameAll] at h
    rw [same_nonzero t hw.1 u v h1 h3 hz.1 h.1, sameAll_nonzero r hw.2 us vs h2 h4 hz.2 h.2]
theorem sameCase_nonzero : (ms : Mems) → ms.WF → (n : String) → (t : Ty) → ms.find? n = some t →
    (u v : Val) → HasTy t u → HasTy t v → NoZeroCase ms n u → SameCase true ms n u v → u = v
  | .nil, _, _, _, h, _, _, _, _, _, _ => by cases h
  | .cons x s r, hw, n, t, h, u, v, hu, hv, hz, hs => by
    rw [Mems.WF] at hw
    rw [Mems.find?] at h
    rw [SameCase] at hs
    rw [NoZeroCase] at hz
    split at h
    · rename_i e; cases h; rw [if_pos e] at hs hz; exact same_nonzero s hw.1 u v hu hv hz hs
    · rename_i e; rw [if_neg e] at hs hz; exact sameCase_nonzero r hw.2 n t h u v hu hv hz hs
end

end Verif.Inst
