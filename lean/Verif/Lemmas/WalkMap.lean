import Verif.Lemmas.WalkTotal
/-! # A visitor that replaces all numbers -/

namespace Verif.Inst

/-- The visitor on values. -/
def mapperV (f : PK → List Byte → List Byte) : VVisitor Unit := fun n v _ =>
  match n.self.ty, v with
  | .prim k, .bytes bs => ([([], .value (.num k (f k bs)))], (), none)
  | _, _ => ([], (), none)

theorem mapper_follows (f : PK → List Byte → List Byte) : (mapper f).Follows (mapperV f) := by
  intro n cs v s hv
  unfold mapper mapperV
  rw [hv]
  cases n.self.ty <;> cases v <;> rfl

theorem mapper_able {f : PK → List Byte → List Byte} (hf : ∀ k bs, (f k bs).length = k.size) : (mapperV f).Able := by
  intro n v s x hx t ht
  unfold mapperV at hx
  split at hx
  · simp only [List.mem_singleton] at hx
    subst hx
    exact hf _ _
  · cases hx

theorem mapper_prim (f : PK → List Byte → List Byte) {n : TNode} {k : PK} (h : n.self.ty = .prim k) (bs : List Byte) :
    Visited (mapperV f) n (.bytes bs) () (.bytes (f k bs)) () none := by
  refine ⟨?_, ?_, trivial⟩
  · simp [mapperV, h, editAll, editAt, Ty.rget, RefOp.spec, Host.fits]
  · simp only [mapperV, h]

theorem mapper_other (f : PK → List Byte → List Byte) {n : TNode} {v : Val} (h : ∀ k, n.self.ty ≠ .prim k) (hc : v.SameCase v) :
    Visited (mapperV f) n v () v () none := by
  have : mapperV f n v () = ([], (), none) := by
    unfold mapperV
    split
    · rename_i k _ e; exact absurd e (h k)
    · rfl
  exact ⟨by rw [this]; rfl, by rw [this], hc⟩

/-- Walking the type replaces the numbers. -/
def Maps (f : PK → List Byte → List Byte) (T : Ty) : Prop :=
  ∀ (n : TNode) (v : Val), n.self.ty = T.rget → Good T v → Edited (mapperV f) n v () (Val.mapNums f T v) () none

/-- Elements of a list, `mk` being that of a collection or an array. -/
theorem maps_elems {f : PK → List Byte → List Byte} {C : Ty} (hC : Maps f C) {n : TNode} {mk : List Val → Val}
    (hm : mk = Val.list ∨ mk = Val.coll) : (vs done : List Val) → (∀ u ∈ vs, Good C u) →
    EditedParts (mapperV f) n ((List.range' done.length vs.length).map fun j => ⟨j, C, j, none⟩) (mk (done ++ vs)) ()
      (mk (done ++ vs.map (Val.mapNums f C))) () none
  | [], done, _ => by simpa using .nil
  | v :: vs, done, h => by
    simp only [List.length_cons, List.range'_succ, List.map_cons]
    have hp : (mk (done ++ v :: vs)).part done.length = some v := by rcases hm with rfl | rfl <;> simp [Val.part]
    have hs : (mk (done ++ v :: vs)).setPart done.length (Val.mapNums f C v) = mk ((done ++ [Val.mapNums f C v]) ++ vs) := by
      rcases hm with rfl | rfl <;> simp [Val.setPart]
    have ih := maps_elems hC (n := n) hm vs (done ++ [Val.mapNums f C v]) (fun u hu => h u (by simp [hu]))
    refine .next hp (hC (n.child C.rget done.length none) v rfl (h v (by simp))) ?_
    dsimp only
    rw [hs]
    simpa [List.append_assoc] using ih

theorem maps_members {f : PK → List Byte → List Byte} {n : TNode} : (ms : Mems) → (vs done : List Val) → (cs : List Cell) →
    (ms.Forall fun t => Maps f t) → decodeAll ms cs = some vs → Val.FullAll vs →
    EditedParts (mapperV f) n (memberParts done.length ms) (.list (done ++ vs)) ()
      (.list (done ++ Val.mapMems f ms vs)) () none
  | .nil, vs, done, _, _, _, _ => by simpa [memberParts, Val.mapMems] using .nil
  | .cons x t r, vs, done, cs, hm, hd, hf => by
    obtain ⟨v, ws, rfl, h1, h2⟩ := decodeAll_cons.mp hd
    rw [Val.FullAll] at hf
    have hp : (Val.list (done ++ v :: ws)).part done.length = some v := by simp [Val.part]
    have hs : (Val.list (done ++ v :: ws)).setPart done.length (Val.mapNums f t v) = .list ((done ++ [Val.mapNums f t v]) ++ ws) := by
      simp [Val.setPart]
    have ih := maps_members (n := n) r ws (done ++ [Val.mapNums f t v]) _ hm.2 h2 hf.2
    rw [memberParts, Val.mapMems]
    refine .next hp (hm.1 (n.child t.rget done.length (some x)) v rfl ⟨⟨_, h1⟩, hf.1⟩) ?_
    dsimp only
    rw [hs]
    simpa [List.append_assoc] using ih

theorem maps_pair {f : PK → List Byte → List Byte} {x y : Ty} (hx : Maps f x) (hy : Maps f y) : Maps f (.pair x y) := by
  rintro n v hn ⟨⟨cs, e⟩, hf⟩
  have hd : decode (.pair x y) = decPair (decode x) (decode y) x.memSize := by funext cs; rw [decode]
  rw [hd] at e
  obtain ⟨a, b, rfl, h1, h2⟩ := decPair_iff.mp e
  simp only [Ty.rget] at hn
  simp only [Val.Full, Val.FullAll] at hf
  refine .goes (mapper_other f (by rw [hn]; simp) trivial) ?_
  simp only [wparts, hn, Val.mapNums]
  refine .next (u := a) rfl (hx _ a rfl ⟨⟨_, h1⟩, hf.1⟩) (.next (u := b) rfl (hy _ b rfl ⟨⟨_, h2⟩, hf.2.1⟩) .nil)

theorem mapNums_pair (f : PK → List Byte → List Byte) {k w : Ty} {p : Val} : (∃ cs, decode (.pair k w) cs = some p) →
    Val.onPair (Val.mapNums f k) (Val.mapNums f w) p = Val.mapNums f (.pair k w) p := by
  rintro ⟨cs, h⟩
  rw [decode] at h
  obtain ⟨a, b, rfl, _⟩ := decPair_iff.mp h
  rw [Val.mapNums, Val.onPair]

theorem mem_coll_good {im : Bool} {c : Ty} {s b : Nat} {C : Ty} {cs : List Cell} {v : Val}
    (hv : decColl im c s b (decode C) cs = some v) (hf : v.Full) : ∃ vs, v = .coll vs ∧ ∀ u ∈ vs, Good C u := by
  obtain ⟨vs, rfl, h⟩ := coll_good hv
  refine ⟨vs, rfl, fun u hu => ?_⟩
  obtain ⟨i, hi, rfl⟩ := List.getElem_of_mem hu
  obtain ⟨u', h1, h2, _⟩ := h i hi
  rw [List.getElem?_eq_getElem hi] at h1
  cases h1
  exact ⟨h2, fullAll_get hf (List.getElem?_eq_getElem hi)⟩

theorem mapCase_find (f : PK → List Byte → List Byte) : {ms : Mems} → {n : String} → {t : Ty} → ms.find? n = some t →
    ∀ w, Val.mapCase f ms n w = Val.mapNums f t w
  | .nil, _, _, h => by simp [Mems.find?] at h
  | .cons x t r, n, t', h => by
    intro w
    rw [Mems.find?] at h
    rw [Val.mapCase]
    split at h
    · rename_i e; cases h; rw [if_pos e]
    · rename_i e; rw [if_neg e]; exact mapCase_find f h w

theorem maps_ok (f : PK → List Byte → List Byte) (T : Ty) : T.WF → Maps f T := by
  induction T using Ty.ind with
  | prim k =>
    rintro hw n v hn ⟨⟨cs, e⟩, _⟩
    rw [decode] at e
    obtain ⟨bs, rfl, _⟩ := decBytes_iff.mp e
    rw [Val.mapNums]
    refine .goes (mapper_prim f hn bs) ?_
    exact .nil
  | enum nm w vs =>
    rintro hw n v hn ⟨⟨cs, e⟩, _⟩
    rw [decode] at e
    obtain ⟨bs, rfl, _⟩ := decBytes_iff.mp e
    simp only [Ty.rget] at hn
    refine .goes (mapper_other f (by rw [hn]; simp) trivial) ?_
    exact .nil
  | str k b =>
    rintro hw n v hn ⟨⟨cs, e⟩, _⟩
    rw [decode] at e
    obtain ⟨us, _, rfl, _⟩ := decStr_iff.mp e
    simp only [Ty.rget] at hn
    refine .goes (mapper_other f (by rw [hn]; simp) trivial) ?_
    exact .nil
  | seq c b ih =>
    rintro hw n v hn ⟨⟨cs, e⟩, hf⟩
    have hwc : c.WF := by rw [Ty.WF] at hw; exact hw
    rw [decode] at e
    obtain ⟨vs, rfl, hg⟩ := mem_coll_good e hf
    simp only [Ty.rget] at hn
    refine .goes (mapper_other f (by rw [hn]; simp) trivial) ?_
    simp only [wparts, hn, elemParts, List.range_eq_range', Val.mapNums]
    exact maps_elems (ih hwc) (n := n) (.inr rfl) vs [] hg
  | arr nm c d ih =>
    rintro hw n v hn ⟨⟨cs, e⟩, hf⟩
    have hwc : c.WF := by rw [Ty.WF] at hw; exact hw
    obtain ⟨vs, rfl, hl⟩ := (decode_list e).2 _ _ _ rfl
    simp only [Ty.rget] at hn
    refine .goes (mapper_other f (by rw [hn]; simp) trivial) ?_
    simp only [wparts, hn, elemParts, List.range_eq_range', Val.mapNums]
    refine maps_elems (ih hwc) (n := n) (.inl rfl) vs [] (fun u hu => ?_)
    obtain ⟨i, hi, rfl⟩ := List.getElem_of_mem hu
    obtain ⟨u, h3, h4, _⟩ := (focus_array (n := nm) (c := c) (i := i) (d := d) (by omega)).good e
    simp only [List.getElem?_eq_getElem hi, Option.some.injEq] at h3
    exact ⟨h3 ▸ h4, fullAll_get hf (List.getElem?_eq_getElem hi)⟩
  | map k w b ihk ihv =>
    rintro hw n v hn ⟨⟨cs, e⟩, hf⟩
    have hwk : k.WF ∧ w.WF := by rw [Ty.WF] at hw; exact hw
    have hd : decode (.map k w b) = decColl true (.pair k w) (k.memSize + w.memSize) b (decode (.pair k w)) := by
      funext cs; rw [decode]; congr 1
    rw [hd] at e
    obtain ⟨vs, rfl, hg⟩ := mem_coll_good e hf
    simp only [Ty.rget] at hn
    refine .goes (mapper_other f (by rw [hn]; simp) trivial) ?_
    simp only [wparts, hn, elemParts, List.range_eq_range', Val.mapNums]
    have := maps_elems (maps_pair (ihk hwk.1) (ihv hwk.2)) (n := n) (.inr rfl) vs [] hg
    rw [List.map_congr_left (g := Val.mapNums f (.pair k w)) (fun p hp => mapNums_pair f (hg p hp).1)]
    exact this
  | pair x y ihx ihy =>
    intro hw
    have hwk : x.WF ∧ y.WF := by rw [Ty.WF] at hw; exact hw
    exact maps_pair (ihx hwk.1) (ihy hwk.2)
  | als nm t ih =>
    intro hw
    have hwt : t.WF := by rw [Ty.WF] at hw; exact hw
    rintro n v hn ⟨⟨cs, e⟩, hf⟩
    rw [decode] at e
    rw [Val.mapNums]
    exact ih hwt n v (by rw [hn, Ty.rget]) ⟨⟨cs, e⟩, hf⟩
  | struct nm ms ih =>
    rintro hw n v hn ⟨⟨cs, e⟩, hf⟩
    have hwm : ms.WF := by rw [Ty.WF] at hw; exact hw
    rw [decode] at e
    cases e' : decodeAll ms cs with
    | none => rw [e'] at e; cases e
    | some vs =>
      rw [e'] at e
      cases e
      simp only [Ty.rget] at hn
      refine .goes (mapper_other f (by rw [hn]; simp) trivial) ?_
      simp only [wparts, hn, Val.mapNums]
      exact maps_members (n := n) ms vs [] cs (forall_imp2 (fun t h1 h2 => h1 h2) ih (Mems.WF.forall hwm)) e' hf
  | union nm d ms i ihd ih =>
    rintro hw n v hn ⟨⟨cs, e⟩, hf⟩
    rw [Ty.WF] at hw
    simp only [Ty.rget] at hn
    obtain ⟨bs, rest, _, _, _, ⟨_, rfl⟩ | ⟨x, t, u, _, h3, h4, rfl⟩⟩ := decode_union_inv hw.1 e
    · exact absurd hf (by simp [Val.Full])
    · refine .goes (mapper_other f (by rw [hn]; simp) ⟨_, rfl⟩) ?_
      simp only [wparts, hn, h3, Val.mapNums, mapCase_find f h3]
      exact .next (u := u) rfl (ih.find h3 (WF_mem hw.2.2 h3) _ u rfl ⟨⟨_, h4⟩, hf⟩) .nil

end Verif.Inst
