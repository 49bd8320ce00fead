import Verif.Lemmas.WalkTotal
/-! # The nodes a writing visitor is called on -/

namespace Verif.Inst

variable {σ : Type}

/-- The child of a datum a part is. -/
def WPart.info (x : Val) (p : WPart) : Info := ⟨p.ty.rget, (x.part p.pos).getD (.list []), p.index, p.member⟩

theorem elemInfos_parts (t : Ty) (x : Val) : (vs : List Val) → (i : Nat) → (∀ j, x.part (i + j) = vs[j]?) →
    elemInfos t.rget i vs = ((List.range' i vs.length).map fun j => (⟨j, t, j, none⟩ : WPart)).map (WPart.info x)
  | [], _, _ => rfl
  | v :: vs, i, h => by
    simp only [elemInfos, List.length_cons, List.range'_succ, List.map_cons]
    have h0 := h 0
    simp only [Nat.add_zero, List.getElem?_cons_zero] at h0
    rw [elemInfos_parts t x vs (i + 1) (by intro j; have := h (j + 1); rw [show i + 1 + j = i + (j + 1) by omega, this]; rfl)]
    simp only [WPart.info, h0, Option.getD_some]

theorem memberInfos_parts (x : Val) : (ms : Mems) → (vs : List Val) → (i : Nat) → (∀ j, x.part (i + j) = vs[j]?) →
    (∀ p ∈ memberParts i ms, (x.part p.pos).isSome) → memberInfos i ms vs = (memberParts i ms).map (WPart.info x)
  | .nil, _, _, _, _ => by simp [memberInfos, memberParts]
  | .cons n t r, [], i, h, hp => by
    have := hp ⟨i, t, i, some n⟩ (by simp [memberParts])
    have h0 := h 0
    rw [Nat.add_zero] at h0
    simp [h0] at this
  | .cons n t r, v :: vs, i, h, hp => by
    have h0 := h 0
    simp only [Nat.add_zero, List.getElem?_cons_zero] at h0
    rw [memberInfos, memberParts, List.map_cons, memberInfos_parts x r vs (i + 1)
      (by intro j; have := h (j + 1); rw [show i + 1 + j = i + (j + 1) by omega, this]; rfl)
      (fun p hpm => hp p (by simp [memberParts, hpm]))]
    simp only [WPart.info, h0, Option.getD_some]

theorem pairMember_looks {n : TNode} {c : List Info} (h : n.Looks c) : n.pairMember = viaMember Info.member c := by
  have := tpairMember_is h
  rw [this]
  match c with
  | [] => rfl
  | [i] => rfl
  | i :: j :: r => rfl

theorem kids_parts {n : TNode} {x : Val} {up : List Info} (h : n.Looks (⟨n.self.ty, x, n.self.index, n.self.member⟩ :: up))
    (hp : ∀ p ∈ wparts n x, (x.part p.pos).isSome) :
    kids (⟨n.self.ty, x, n.self.index, n.self.member⟩ :: up) = (wparts n x).map (WPart.info x) := by
  have hm := pairMember_looks h
  revert hp
  generalize hT : n.self.ty = T at hm ⊢
  cases x with
  | list vs =>
    cases T with
    | struct nm ms =>
      intro hp
      simp only [wparts, hT] at hp ⊢
      exact memberInfos_parts _ ms vs 0 (fun j => by simp [Val.part]) hp
    | arr nm c d =>
      intro _
      simp only [wparts, hT, kids, elemParts, List.range_eq_range']
      exact elemInfos_parts c _ vs 0 (fun j => by simp [Val.part])
    | pair a b =>
      intro _
      simp only [wparts, hT]
      match vs with
      | [] => rfl
      | [_] => rfl
      | [u, v] =>
        simp only [kids, List.map_cons, List.map_nil, WPart.info, Val.part, hm, List.getElem?_cons_zero, List.getElem?_cons_succ,
          Option.getD_some]
      | _ :: _ :: _ :: _ => rfl
    | _ => intro _; simp only [wparts, hT, kids, List.map_nil]
  | coll vs =>
    cases T with
    | seq c b =>
      intro _
      simp only [wparts, hT, kids, elemParts, List.range_eq_range']
      exact elemInfos_parts c _ vs 0 (fun j => by simp [Val.part])
    | map k w b =>
      intro _
      simp only [wparts, hT, kids, elemParts, List.range_eq_range']
      exact elemInfos_parts (.pair k w) _ vs 0 (fun j => by simp [Val.part])
    | _ => intro _; simp only [wparts, hT, kids, List.map_nil]
  | un b nm w =>
    cases T with
    | union un d ms i =>
      intro _
      cases b with
      | bytes bs =>
        simp only [wparts, hT, kids]
        cases ms.find? nm with
        | none => rfl
        | some t => rfl
      | _ => simp only [wparts, hT, kids, List.map_nil]
    | _ => intro _; cases b <;> simp only [wparts, hT, kids, List.map_nil]
  | bytes bs => intro _; cases T <;> simp only [wparts, kids, List.map_nil]
  | str us => intro _; cases T <;> simp only [wparts, kids, List.map_nil]
  | unNone b => intro _; cases T <;> simp only [wparts, kids, List.map_nil]

theorem setPart_part {v : Val} {i : Nat} {u w : Val} (h : v.part i = some u) : (v.setPart i w).part i = some w := by
  unfold Val.part at h
  split at h
  · rw [List.getElem?_eq_some_iff] at h; obtain ⟨hi, _⟩ := h; simp [Val.setPart, Val.part, hi]
  · rw [List.getElem?_eq_some_iff] at h; obtain ⟨hi, _⟩ := h; simp [Val.setPart, Val.part, hi]
  · rfl
  · cases h

theorem setPart_other {v : Val} {i j : Nat} {w : Val} (h : i ≠ j) : (v.setPart i w).part j = v.part j := by
  unfold Val.setPart
  split
  · simp [Val.part, h]
  · simp [Val.part, h]
  · obtain _ | j := j
    · exact absurd rfl h
    · rfl
  · rfl

theorem wparts_setPart {n : TNode} {v : Val} {i : Nat} {w : Val} : wparts n (v.setPart i w) = wparts n v := by
  unfold Val.setPart
  split
  · rename_i vs
    simp only [wparts, List.length_set]
    split
    · rfl
    · rfl
    · match vs with
      | [] => rfl
      | [_] => cases i <;> rfl
      | [_, _] => match i with
        | 0 => rfl
        | 1 => rfl
        | _ + 2 => rfl
      | _ :: _ :: _ :: _ => match i with
        | 0 => rfl
        | 1 => rfl
        | 2 => rfl
        | _ + 3 => rfl
    · rfl
  · simp only [wparts, List.length_set]
  · rename_i b x _
    cases b <;> simp only [wparts]
  · rfl

theorem memberParts_pos : (ms : Mems) → (i : Nat) → ((memberParts i ms).map WPart.pos) = List.range' i ms.length
  | .nil, _ => rfl
  | .cons n t r, i => by
    simp only [memberParts, List.map_cons, memberParts_pos r (i + 1), Mems.length, List.range'_succ]

theorem wparts_nodup (n : TNode) (v : Val) : ((wparts n v).map WPart.pos).Nodup := by
  unfold wparts
  split
  · split
    · rw [memberParts_pos]; exact List.nodup_range'
    · simp only [elemParts, List.map_map]; exact (by simpa [Function.comp_def] using List.nodup_range)
    · split <;> simp
    · simp
  · split
    · simp only [elemParts, List.map_map]; exact (by simpa [Function.comp_def] using List.nodup_range)
    · simp only [elemParts, List.map_map]; exact (by simpa [Function.comp_def] using List.nodup_range)
    · simp
  · split
    · split <;> simp
    · simp
  · simp

mutual
theorem edited_log {vis : VVisitor σ} {log : σ → List TNode} (hl : vis.Logs log) {n : TNode} {v : Val} {s : σ} {w : Val}
    {s' : σ} {t : Option Throw} : Edited vis n v s w s' t → t = none → ∃ Ns, log s' = log s ++ Ns ∧
      ∀ up, n.Looks (⟨n.self.ty, w, n.self.index, n.self.member⟩ :: up) →
        ∃ L, Preorder kids (⟨n.self.ty, w, n.self.index, n.self.member⟩ :: up) L ∧ List.Forall₂ TNode.Looks Ns L
  | .throws _, h => by cases h
  | .goes (w := w1) (s' := s1) h1 h2, ht => by
    obtain ⟨Ns, e1, e2, _, e4, e5⟩ := editedParts_log hl h2 ht (wparts_nodup _ _)
    have hs : log s1 = log s ++ [n] := by rw [← hl n v s, h1.2.1]
    refine ⟨n :: Ns, by rw [e1, hs, List.append_assoc]; rfl, fun up hup => ?_⟩
    obtain ⟨L, k1, k2⟩ := e5 _ hup
    rw [← e4] at k1 e2
    rw [← kids_parts hup e2] at k1
    exact ⟨_, .node k1, .cons hup k2⟩
theorem editedParts_log {vis : VVisitor σ} {log : σ → List TNode} (hl : vis.Logs log) {n : TNode} {ps : List WPart} {v : Val}
    {s : σ} {x : Val} {s' : σ} {t : Option Throw} : EditedParts vis n ps v s x s' t → t = none → (ps.map WPart.pos).Nodup →
    ∃ Ns, log s' = log s ++ Ns ∧ (∀ p ∈ ps, (x.part p.pos).isSome) ∧ (∀ j, j ∉ ps.map WPart.pos → x.part j = v.part j) ∧
      wparts n x = wparts n v ∧ ∀ c, n.Looks c →
        ∃ L, PreorderAll kids c (ps.map (WPart.info x)) L ∧ List.Forall₂ TNode.Looks Ns L
  | .nil, _, _ => ⟨[], by simp, by simp, fun _ _ => rfl, rfl, fun c _ => ⟨[], .nil, .nil⟩⟩
  | .stop _ _, h, _ => by cases h
  | .next (p := p) (r := r) (w := w) h1 h2 h3, ht, hd => by
    obtain ⟨Ns, e1, e2⟩ := edited_log hl h2 rfl
    rw [List.map_cons, List.nodup_cons] at hd
    obtain ⟨Ns', k1, k2, k3, k4, k5⟩ := editedParts_log hl h3 ht hd.2
    have hx : x.part p.pos = some w := by rw [k3 _ hd.1, setPart_part h1]
    refine ⟨Ns ++ Ns', by rw [k1, e1, List.append_assoc], ?_, ?_, by rw [k4, wparts_setPart], fun c hc => ?_⟩
    · intro q hq
      rcases List.mem_cons.mp hq with rfl | hq
      · rw [hx]; rfl
      · exact k2 q hq
    · intro j hj
      rw [List.map_cons, List.mem_cons, not_or] at hj
      rw [k3 j hj.2, setPart_other (Ne.symm hj.1)]
    · have hc' : (n.child p.ty.rget p.index p.member).Looks (⟨p.ty.rget, w, p.index, p.member⟩ :: c) :=
        match c, hc with
        | [], hc => hc.elim
        | _ :: _, hc => tchild_is hc _ _ _
      obtain ⟨L, g1, g2⟩ := e2 c hc'
      obtain ⟨L', g3, g4⟩ := k5 c hc
      refine ⟨L ++ L', ?_, forall₂_append g2 g4⟩
      rw [List.map_cons]
      refine .cons ?_ g3
      simp only [WPart.info, hx, Option.getD_some]
      exact g1
end

end Verif.Inst
