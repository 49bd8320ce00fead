import Verif.Lemmas.WalkWrite
/-! # Walks with visitors that do nothing forbidden -/

namespace Verif.Inst

variable {σ : Type}

theorem Focus.good {dec : List Cell → Option Val} {td : List Cell → Prop} {off : Nat} {T : Ty} {td' : List Cell → Prop}
    {sel : Val → Option Val} {upd : Val → Val → Val} (h : Focus dec td off (decode T) td' sel upd) {cs : List Cell} {v : Val}
    (hv : dec cs = some v) : ∃ u, sel v = some u ∧ (∃ y, decode T y = some u) ∧
      ∀ x, (∃ y, decode T y = some x) → ∃ cs', dec cs' = some (upd v x) := by
  obtain ⟨x, y, z, u, _, _, h1, h2, _, h3⟩ := h cs v hv
  refine ⟨u, h2, ⟨y, h1⟩, ?_⟩
  rintro w ⟨y', hy⟩
  exact ⟨_, (h3 y' w (by rw [decode_length _ _ _ hy, decode_length _ _ _ h1]) hy).1⟩

theorem fullAll_set : {vs : List Val} → {i : Nat} → {u : Val} → Val.FullAll vs → u.Full → Val.FullAll (vs.set i u)
  | [], _, _, _, _ => trivial
  | v :: vs, 0, u, h, e => by rw [Val.FullAll] at h; exact ⟨e, h.2⟩
  | v :: vs, i + 1, u, h, e => by
    rw [Val.FullAll] at h
    exact ⟨h.1, fullAll_set h.2 e⟩

/-- Walking the type ends well. -/
def Ends (vis : VVisitor σ) (T : Ty) : Prop :=
  ∀ (n : TNode) (v : Val) (s : σ), n.self.ty = T.rget → Good T v → ∃ w s' t, Edited vis n v s w s' t ∧ Good T w

theorem parts_end {vis : VVisitor σ} {n : TNode} {I : Val → Prop} : (ps : List WPart) →
    (∀ p ∈ ps, Ends vis p.ty ∧ ∀ v, I v → ∃ u, v.part p.pos = some u ∧ Good p.ty u ∧ ∀ x, Good p.ty x → I (v.setPart p.pos x)) →
    ∀ v s, I v → ∃ x s' t, EditedParts vis n ps v s x s' t ∧ I x
  | [], _ => fun v s h => ⟨v, s, none, .nil, h⟩
  | p :: r, hp => by
    intro v s hI
    obtain ⟨he, h1⟩ := hp p (by simp)
    obtain ⟨u, h2, h3, h4⟩ := h1 v hI
    obtain ⟨w, s', t, h5, h6⟩ := he (n.child p.ty.rget p.index p.member) u s rfl h3
    cases t with
    | some t => exact ⟨_, _, _, .stop h2 h5, h4 w h6⟩
    | none =>
      obtain ⟨x, s'', t, h7, h8⟩ := parts_end r (fun q hq => hp q (by simp [hq])) _ s' (h4 w h6)
      exact ⟨_, _, _, .next h2 h5 h7, h8⟩

/-- What the visitor leaves is a value of the type. -/
theorem visited_good {vis : VVisitor σ} (ha : vis.Able) {n : TNode} (hw : n.self.ty.WF) {v w : Val} {s s' : σ}
    {t : Option Throw} (hv : ∃ cs, decode n.self.ty cs = some v) (h : Visited vis n v s w s' t) :
    ∃ cs, decode n.self.ty cs = some w := by
  obtain ⟨cs, hv⟩ := hv
  obtain ⟨new, d, _, _, e, _⟩ := (writes_edits hw (cl := False) False.elim _ (ha n v s) [] cs [] 0 v hv).2 w h.1
  exact ⟨new, e⟩

/-- A node whose parts are walked under an invariant. -/
theorem node_end {vis : VVisitor σ} (ha : vis.Able) (hp : vis.Polite) {T : Ty} (hw : T.WF) (hr : T.rget = T)
    (I : Val → Val → Prop) (hI : ∀ w, Good T w → I w w) (hg : ∀ v w, I v w → Good T w)
    (hps : ∀ n w, n.self.ty = T → Good T w → ∀ p ∈ wparts n w, Ends vis p.ty ∧ ∀ v, I w v →
      ∃ u, v.part p.pos = some u ∧ Good p.ty u ∧ ∀ x, Good p.ty x → I w (v.setPart p.pos x)) : Ends vis T := by
  intro n v s hn hv
  rw [hr] at hn
  obtain ⟨w, s', t, h1, h2⟩ := hp n v s (hn ▸ hv)
  have h3 : Good T w := ⟨hn ▸ visited_good ha (hn ▸ hw) (hn ▸ hv.1) h1, h2⟩
  cases t with
  | some t => exact ⟨_, _, _, .throws h1, h3⟩
  | none =>
    obtain ⟨x, s'', t, h4, h5⟩ := parts_end (I := I w) (wparts n w) (hps n w hn h3) w s' (hI w h3)
    exact ⟨_, _, _, .goes h1 h4, hg _ _ h5⟩

theorem leaf_end {vis : VVisitor σ} (ha : vis.Able) (hp : vis.Polite) {T : Ty} (hw : T.WF) (hr : T.rget = T)
    (hl : ∀ n w, n.self.ty = T → Good T w → wparts n w = []) : Ends vis T := by
  refine node_end ha hp hw hr (fun _ w => Good T w) (fun _ h => h) (fun _ _ h => h) ?_
  intro n w hn h p hp
  rw [hl n w hn h] at hp
  cases hp

theorem coll_good {im : Bool} {c : Ty} {s b : Nat} {C : Ty} {cs : List Cell} {v : Val}
    (hv : decColl im c s b (decode C) cs = some v) : ∃ vs, v = .coll vs ∧ ∀ i, i < vs.length → ∃ u, vs[i]? = some u ∧
      (∃ y, decode C y = some u) ∧ ∀ x, (∃ y, decode C y = some x) → ∃ cs', decColl im c s b (decode C) cs' = some (.coll (vs.set i x)) := by
  obtain ⟨size, cap, blk, vs, rfl, h1, h2, h3, h4, rfl⟩ := decColl_iff.mp hv
  have hl := decN_length h4
  refine ⟨_, rfl, fun i hi => ?_⟩
  rw [List.length_take] at hi
  have hd : decArr (decode C) s cap blk = some vs := decArr_iff.mpr ⟨h3, h4⟩
  obtain ⟨x, y, z, u, e1, _, e2, e3, _, e4⟩ := focus_elems (dec := decode C) (td := fun _ => True) (s := s) cap i (by omega) blk vs hd
  refine ⟨u, by rw [List.getElem?_take_of_lt (by omega)]; exact e3, ⟨y, e2⟩, ?_⟩
  rintro w ⟨y', hy⟩
  have hy' : y'.length = y.length := by rw [decode_length _ _ _ hy, decode_length _ _ _ e2]
  have e5 := (e4 y' w hy' hy).1
  obtain ⟨e6, e7⟩ := decArr_iff.mp e5
  refine ⟨objCells (.coll im c size cap (x ++ y' ++ z)) seqSize, decColl_iff.mpr ⟨size, cap, _, _, ?_, h1, h2, e6, e7, rfl⟩⟩
  rw [List.take_set]

theorem elemParts_mem {t : Ty} {n : Nat} {p : WPart} (h : p ∈ elemParts t n) : p.ty = t ∧ p.pos < n := by
  simp only [elemParts, List.mem_map, List.mem_range] at h
  obtain ⟨i, hi, rfl⟩ := h
  exact ⟨rfl, hi⟩

theorem memberParts_mem : {ms : Mems} → {i : Nat} → {p : WPart} → p ∈ memberParts i ms →
    ∃ j off, p.pos = i + j ∧ Mems.locateAt ms j = some (off, p.ty)
  | .nil, _, _, h => by simp [memberParts] at h
  | .cons x t r, i, p, h => by
    simp only [memberParts, List.mem_cons] at h
    rcases h with rfl | h
    · exact ⟨0, 0, rfl, rfl⟩
    · obtain ⟨j, off, h1, h2⟩ := memberParts_mem h
      exact ⟨j + 1, off + t.memSize, by omega, by rw [Mems.locateAt, h2]; simp [Nat.add_comm]⟩

theorem locateAt_forall {P : Ty → Prop} : {ms : Mems} → {j off : Nat} → {t : Ty} → ms.Forall P →
    Mems.locateAt ms j = some (off, t) → P t
  | .nil, _, _, _, _, h => by cases h
  | .cons x u r, 0, _, _, hp, h => by rw [Mems.locateAt] at h; cases h; exact hp.1
  | .cons x u r, j + 1, _, _, hp, h => by
    rw [Mems.locateAt] at h
    cases e : Mems.locateAt r j with
    | none => rw [e] at h; cases h
    | some q => rw [e] at h; cases h; exact locateAt_forall hp.2 e

theorem coll_end {vis : VVisitor σ} (ha : vis.Able) (hp : vis.Polite) {T : Ty} (hw : T.WF) (hr : T.rget = T)
    {im : Bool} {c C : Ty} {s b : Nat} (hd : decode T = decColl im c s b (decode C)) (hC : Ends vis C)
    (hps : ∀ n vs, n.self.ty = T → wparts n (.coll vs) = elemParts C vs.length) : Ends vis T := by
  refine node_end ha hp hw hr (fun w v => Good T v ∧ ∃ ws vs, w = .coll ws ∧ v = .coll vs ∧ vs.length = ws.length)
    ?_ (fun _ _ h => h.1) ?_
  · rintro w h
    obtain ⟨cs, e⟩ := h.1
    rw [hd] at e
    obtain ⟨vs, rfl, _⟩ := coll_good e
    exact ⟨h, _, _, rfl, rfl, rfl⟩
  · rintro n w hn h p hpm
    refine ⟨?_, ?_⟩
    · obtain ⟨cs, e⟩ := h.1
      rw [hd] at e
      obtain ⟨vs, rfl, _⟩ := coll_good e
      rw [hps n _ hn] at hpm
      rw [(elemParts_mem hpm).1]
      exact hC
    · rintro v ⟨⟨⟨cs, e⟩, hf⟩, ws, vs, rfl, rfl, hl⟩
      rw [hps n _ hn] at hpm
      obtain ⟨h1, h2⟩ := elemParts_mem hpm
      rw [hd] at e
      obtain ⟨vs', h0, h3⟩ := coll_good e
      cases h0
      obtain ⟨u, h4, h5, h6⟩ := h3 p.pos (by omega)
      refine ⟨u, h4, ⟨h1 ▸ h5, fullAll_get hf h4⟩, fun x hx => ⟨⟨?_, ?_⟩, ws, _, rfl, rfl, ?_⟩⟩
      · rw [hd]; exact h6 x (h1 ▸ hx.1)
      · exact fullAll_set hf hx.2
      · rw [List.length_set]; exact hl

theorem pair_end {vis : VVisitor σ} (ha : vis.Able) (hp : vis.Polite) {x y : Ty} (hx : Ends vis x) (hy : Ends vis y)
    (hw : (Ty.pair x y).WF) : Ends vis (.pair x y) := by
  have hd : decode (.pair x y) = decPair (decode x) (decode y) x.memSize := by funext cs; rw [decode]
  refine node_end ha hp hw rfl (fun _ v => Good (.pair x y) v) (fun _ h => h) (fun _ _ h => h) ?_
  rintro n w hn ⟨⟨cs, e⟩, _⟩ p hpm
  rw [hd] at e
  obtain ⟨a, b, rfl, _⟩ := decPair_iff.mp e
  simp only [wparts, hn, List.mem_cons, List.not_mem_nil, or_false] at hpm
  rcases hpm with rfl | rfl
  · refine ⟨hx, ?_⟩
    rintro v ⟨⟨cs, e⟩, hf⟩
    rw [hd] at e
    obtain ⟨u, h3, h4, h5⟩ := (focus_fst (t1 := fun _ => True) (t2 := fun _ => True) (decode_length x)).good e
    obtain ⟨a, b, rfl, _⟩ := decPair_iff.mp e
    cases h3
    rw [← hd] at h5
    exact ⟨_, rfl, ⟨h4, fullAll_get (i := 0) hf rfl⟩, fun z hz => ⟨h5 z hz.1, fullAll_set (i := 0) hf hz.2⟩⟩
  · refine ⟨hy, ?_⟩
    rintro v ⟨⟨cs, e⟩, hf⟩
    rw [hd] at e
    obtain ⟨u, h3, h4, h5⟩ := (focus_snd (t1 := fun _ => True) (t2 := fun _ => True) (decode_length x)).good e
    obtain ⟨a, b, rfl, _⟩ := decPair_iff.mp e
    cases h3
    rw [← hd] at h5
    exact ⟨_, rfl, ⟨h4, fullAll_get (i := 1) hf rfl⟩, fun z hz => ⟨h5 z hz.1, fullAll_set (i := 1) hf hz.2⟩⟩

theorem ends_ok {vis : VVisitor σ} (ha : vis.Able) (hp : vis.Polite) (T : Ty) : T.WF → Ends vis T := by
  induction T using Ty.ind with
  | prim k =>
    refine fun hw => leaf_end ha hp hw rfl ?_
    rintro n w hn ⟨⟨cs, e⟩, _⟩
    rw [decode] at e
    obtain ⟨bs, rfl, _⟩ := decBytes_iff.mp e
    rfl
  | enum nm w vs =>
    refine fun hw => leaf_end ha hp hw rfl ?_
    rintro n w hn ⟨⟨cs, e⟩, _⟩
    rw [decode] at e
    obtain ⟨bs, rfl, _⟩ := decBytes_iff.mp e
    rfl
  | str k b =>
    refine fun hw => leaf_end ha hp hw rfl ?_
    rintro n w hn ⟨⟨cs, e⟩, _⟩
    rw [decode] at e
    obtain ⟨us, _, rfl, _⟩ := decStr_iff.mp e
    rfl
  | seq c b ih =>
    intro hw
    have hwc : c.WF := by rw [Ty.WF] at hw; exact hw
    exact coll_end ha hp hw rfl (C := c) (by funext cs; rw [decode]) (ih hwc) (fun n vs hn => by simp only [wparts, hn])
  | map k v b ihk ihv =>
    intro hw
    have hwk : k.WF ∧ v.WF := by rw [Ty.WF] at hw; exact hw
    refine coll_end ha hp hw rfl (C := .pair k v) (by funext cs; rw [decode]; congr 1) ?_
      (fun n vs hn => by simp only [wparts, hn])
    exact pair_end ha hp (ihk hwk.1) (ihv hwk.2) (by rw [Ty.WF]; exact hwk)
  | pair x y ihx ihy =>
    intro hw
    have hwk : x.WF ∧ y.WF := by rw [Ty.WF] at hw; exact hw
    exact pair_end ha hp (ihx hwk.1) (ihy hwk.2) hw
  | arr nm c d ih =>
    intro hw
    have hwc : c.WF := by rw [Ty.WF] at hw; exact hw
    refine node_end ha hp hw rfl (fun _ v => Good (.arr nm c d) v) (fun _ h => h) (fun _ _ h => h) ?_
    rintro n w hn ⟨⟨cs, e⟩, _⟩ p hpm
    obtain ⟨ws, rfl, hl⟩ := (decode_list e).2 _ _ _ rfl
    simp only [wparts, hn, hl] at hpm
    obtain ⟨h1, h2⟩ := elemParts_mem hpm
    refine ⟨h1 ▸ ih hwc, ?_⟩
    rintro v ⟨⟨cs, e⟩, hf⟩
    obtain ⟨vs, rfl, hl⟩ := (decode_list e).2 _ _ _ rfl
    obtain ⟨u, h3, h4, h5⟩ := (focus_array (n := nm) (c := c) h2).good e
    exact ⟨u, h3, ⟨h1 ▸ h4, fullAll_get hf h3⟩, fun x hx => ⟨h5 x (h1 ▸ hx.1), fullAll_set hf hx.2⟩⟩
  | als nm t ih =>
    intro hw
    have hwt : t.WF := by rw [Ty.WF] at hw; exact hw
    intro n v s hn hv
    have hd : decode (.alias nm t) = decode t := by funext cs; rw [decode]
    unfold Good at hv ⊢
    rw [hd] at hv ⊢
    exact ih hwt n v s (by rw [hn, Ty.rget]) hv
  | struct nm ms ih =>
    intro hw
    have hwm : ms.WF := by rw [Ty.WF] at hw; exact hw
    refine node_end ha hp hw rfl (fun _ v => Good (.struct nm ms) v) (fun _ h => h) (fun _ _ h => h) ?_
    rintro n w hn ⟨⟨cs, e⟩, _⟩ p hpm
    obtain ⟨ws, rfl⟩ := (decode_list e).1 rfl
    simp only [wparts, hn] at hpm
    obtain ⟨j, off, h1, h2⟩ := memberParts_mem hpm
    have h1 : p.pos = j := by omega
    refine ⟨locateAt_forall (forall_imp2 (fun t h1 h2 => h1 h2) ih (Mems.WF.forall hwm)) h2, ?_⟩
    rintro v ⟨⟨cs, e⟩, hf⟩
    obtain ⟨vs, rfl⟩ := (decode_list e).1 rfl
    obtain ⟨u, h3, h4, h5⟩ := (focus_struct (n := nm) h2).good e
    rw [h1]
    exact ⟨u, h3, ⟨h4, fullAll_get hf h3⟩, fun x hx => ⟨h5 x hx.1, fullAll_set hf hx.2⟩⟩
  | union nm d ms i ihd ih =>
    intro hw
    have hw0 := hw
    rw [Ty.WF] at hw
    refine node_end ha hp hw0 rfl (fun w v => Good (.union nm d ms i) v ∧ ∃ b x y z, w = .un b x y ∧ v = .un b x z) ?_
      (fun _ _ h => h.1) ?_
    · rintro w h
      obtain ⟨⟨cs, e⟩, hf⟩ := h
      obtain ⟨bs, rest, _, _, _, ⟨_, rfl⟩ | ⟨x, t, u, _, _, _, rfl⟩⟩ := decode_union_inv hw.1 e
      · exact absurd hf (by simp [Val.Full])
      · exact ⟨⟨⟨cs, e⟩, hf⟩, _, _, _, _, rfl, rfl⟩
    · rintro n w hn ⟨⟨cs, e⟩, hf⟩ p hpm
      obtain ⟨bs, rest, _, _, _, ⟨_, rfl⟩ | ⟨x, t, u, _, h3, _, rfl⟩⟩ := decode_union_inv hw.1 e
      · exact absurd hf (by simp [Val.Full])
      · simp only [wparts, hn, h3, List.mem_singleton] at hpm
        subst hpm
        refine ⟨ih.find h3 (WF_mem hw.2.2 h3), ?_⟩
        rintro v ⟨⟨⟨cs, e⟩, hf⟩, b, y, _, z, h0, rfl⟩
        cases h0
        have e' : decSel nm d ms i x cs = some (.un (.bytes bs) x z) := decSel_iff.mpr ⟨_, _, rfl, e⟩
        obtain ⟨u', h6, h7, h8⟩ := (focus_case (n := nm) (i := i) hw.1 h3).good e'
        cases h6
        refine ⟨_, rfl, ⟨h7, hf⟩, fun y hy => ⟨⟨?_, hy.2⟩, _, _, _, y, rfl, rfl⟩⟩
        obtain ⟨cs', h9⟩ := h8 y hy.1
        obtain ⟨_, _, _, h10⟩ := decSel_iff.mp h9
        exact ⟨cs', h10⟩

end Verif.Inst
