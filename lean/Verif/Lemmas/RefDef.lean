import Verif.Lemmas.RefRead
/-! # Editing what can be read -/

namespace Verif.Inst

theorem tyAt_WF : {ms : Mems} → ms.WF → {i : Nat} → {t : Ty} → Mems.tyAt ms i = some t → t.WF
  | .nil, _, _, _, h => by cases h
  | .cons _ t r, ht, 0, _, h => by rw [Mems.tyAt] at h; cases h; rw [Mems.WF] at ht; exact ht.1
  | .cons _ t r, ht, i + 1, _, h => by rw [Mems.tyAt] at h; rw [Mems.WF] at ht; exact tyAt_WF ht.2 h

theorem child_WF {S : Ty} (h : S.WF) {s : Step} {i : Nat} {t : Ty} (hc : child S s = some (i, t)) : t.WF := by
  cases S with
  | struct n ms => rw [Ty.WF] at h; exact tyAt_WF h (child_tyAt hc)
  | pair x y =>
    rw [Ty.WF] at h
    rcases child_pair hc with ⟨_, rfl⟩ | ⟨_, rfl⟩
    · exact h.1
    · exact h.2
  | arr n c d =>
    rw [Ty.WF] at h
    cases s <;> simp only [child] at hc <;> try cases hc
    split at hc <;> cases hc; exact h
  | seq c b => rw [Ty.WF] at h; cases s <;> simp only [child] at hc <;> cases hc; exact h
  | map k v b => rw [Ty.WF] at h; cases s <;> simp only [child] at hc <;> cases hc; exact h.2
  | str k b => cases s <;> simp only [child] at hc <;> cases hc; rw [Ty.WF]; trivial
  | _ => cases s <;> simp only [child] at hc <;> cases hc

theorem firstLabel_some {i : UInfo} {l : Int} {n : String} (h : UInfo.case i l = some n) : ∃ l', firstLabel i n = some l' := by
  unfold UInfo.case omGet at h
  cases e : i.labels.find? (fun p => p.1 == l) with
  | none => rw [e] at h; cases h
  | some q =>
    rw [e] at h
    simp only [Option.map_some, Option.some.injEq] at h
    have hm := List.mem_of_find?_eq_some e
    cases e2 : i.labels.find? (fun p => decide (p.2 = n)) with
    | none =>
      have := List.find?_eq_none.mp e2 q hm
      simp [h] at this
    | some r => exact ⟨r.1, by simp [firstLabel, e2]⟩

theorem editAt_defined {ro : Bool} {g : Ty → Val → Out} : (p : List Step) → (T : Ty) → T.WF → (cs : List Cell) →
    (v u w : Val) → (t : Ty) → decode T cs = some v → valAt p T v = some u → typeAt p T = some t → g t u = .ok w →
    ∃ v', editAt ro g p T v = .ok v'
  | [], T, hw, cs, v, u, w, t, hv, hu, ht, hg => by
    rw [valAt] at hu; cases hu
    rw [typeAt] at ht; cases ht
    exact ⟨w, hg⟩
  | s :: p, T, hw, cs, v, u, w, t, hv, hu, ht, hg => by
    have hwS := WF_rget T hw
    cases hr : T.rget.isUnion with
    | true =>
      cases hT : T.rget <;> rw [hT] at hr <;> simp only [Ty.isUnion, Bool.false_eq_true] at hr
      rename_i n d ms i
      rw [hT, Ty.WF] at hwS
      have hv' := hv
      rw [← decode_rget, hT] at hv'
      obtain ⟨bs, rest, hb, hl, rfl, hcase⟩ := decode_union_inv hwS.1 hv'
      cases s with
      | member nm =>
        simp only [valAt, typeAt, hT] at hu ht
        rcases hcase with ⟨hc, rfl⟩ | ⟨x, t', w', hc, hf', hd', rfl⟩
        · cases hu
        · simp only [] at hu
          split at hu
          · rename_i hx
            subst hx
            rw [hf'] at hu ht
            simp only [Option.bind_some] at hu ht
            obtain ⟨l, hl⟩ := firstLabel_some hc
            obtain ⟨z, hz⟩ := editAt_defined (ro := ro) (g := g) p t' (find_WF hwS.2.2 hf') _ w' u w t hd' hu ht hg
            refine ⟨.un (discBytes d.memSize l) x z, ?_⟩
            simp only [editAt, hT, hf', hl, Val.isCase, decide_true, Bool.not_true, Bool.and_false, Bool.false_eq_true,
              if_false, caseVal, if_true, hz, Out.map]
          · cases hu
      | index j => simp [valAt, hT, child] at hu
      | key j => simp [valAt, hT, child] at hu
    | false =>
      have hone := locate_reads [s] T hw [] cs [] v hv
      rw [valAt_child rfl hr] at hu
      rw [typeAt_child rfl hr] at ht
      rw [editAt_child rfl hr]
      cases hc : child T.rget s with
      | none => rw [hc] at hu; cases hu
      | some q =>
        rw [hc] at hu ht
        simp only [Option.bind_some] at hu ht
        cases he : elem T.rget v q.1 with
        | none => rw [he] at hu; cases hu
        | some z =>
          rw [he] at hu
          simp only [Option.bind_some] at hu
          have hval : valAt [s] T v = some z := by
            rw [valAt_child rfl hr, hc]; simp only [Option.bind_some, he, valAt]
          obtain ⟨t1, x, ht1, -, hdx⟩ := hone.1 z hval
          rw [typeAt_child rfl hr, hc] at ht1
          simp only [Option.bind_some, typeAt, Option.some.injEq] at ht1
          subst ht1
          rw [decode_rget] at hdx
          obtain ⟨y, hy⟩ := editAt_defined (ro := ro) (g := g) p q.2 (child_WF hwS hc) x z u w t hdx hu ht hg
          exact ⟨putElem T.rget v q.1 y, by simp only [he, hy, Out.map]⟩

end Verif.Inst
