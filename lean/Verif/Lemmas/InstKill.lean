import Verif.Lemmas.InstMore
/-! # Destruction -/

namespace Verif.Inst

/-- `f` on an instance changes only its own cells; when the instance is tidy, nothing is lost and no owning
object is left. -/
def Kills {α : Type} (dec : List Cell → Option α) (td : List Cell → Prop) (f : Nat → Mem → M Mem) : Prop :=
  ∀ (pre old post : List Cell) (lk : Nat) (v : α), dec old = some v →
    ∃ new d, f pre.length ⟨pre ++ old ++ post, lk⟩ = .ok ⟨pre ++ new ++ post, lk + d⟩ ∧ new.length = old.length ∧
      (td old → d = 0 ∧ owned new = 0)

theorem kills_weaken {α β : Type} {d : List Cell → Option α} {d' : List Cell → Option β} {t t' : List Cell → Prop}
    {f f' : Nat → Mem → M Mem} (h : Kills d t f) (hf : ∀ a m, f' a m = f a m)
    (hd : ∀ cs v, d' cs = some v → ∃ w, d cs = some w) (ht : ∀ cs v, d' cs = some v → t' cs → t cs) : Kills d' t' f' := by
  intro pre old post lk v hv
  obtain ⟨w, hw⟩ := hd _ _ hv
  obtain ⟨new, e, hr, hl, h0⟩ := h pre old post lk w hw
  exact ⟨new, e, by rw [hf]; exact hr, hl, fun hh => h0 (ht _ _ hv hh)⟩

/-- Nothing happens to cells that own nothing. -/
theorem kills_nop {α : Type} {d : List Cell → Option α} {t : List Cell → Prop} {f : Nat → Mem → M Mem}
    (hf : ∀ a m, f a m = .ok m) (ho : ∀ cs v, d cs = some v → owned cs = 0) : Kills d t f := by
  intro pre old post lk v hv
  exact ⟨old, 0, by rw [hf]; rfl, rfl, fun _ => ⟨rfl, ho _ _ hv⟩⟩

/-- Two parts, destroyed first to last. -/
theorem kills_seq {α β : Type} {d1 : List Cell → Option α} {d2 : List Cell → Option β} {t1 t2 : List Cell → Prop}
    {s1 : Nat} {f g : Nat → Mem → M Mem} (hl1 : ∀ cs v, d1 cs = some v → cs.length = s1) (hf : Kills d1 t1 f)
    (hg : Kills d2 t2 g) :
    Kills (fun cs => (d1 (cs.take s1)).bind fun x => (d2 (cs.drop s1)).map fun y => (x, y))
      (fun cs => t1 (cs.take s1) ∧ t2 (cs.drop s1)) (fun a m => (f a m).bind (g (a + s1))) := by
  intro pre old post lk v hv
  simp only [] at hv
  cases e1 : d1 (old.take s1) with
  | none => simp [e1] at hv
  | some x =>
    cases e2 : d2 (old.drop s1) with
    | none => simp [e2] at hv
    | some y =>
      obtain ⟨n1, k1, hr1, hn1, ht1⟩ := hf pre (old.take s1) (old.drop s1 ++ post) lk x e1
      obtain ⟨n2, k2, hr2, hn2, ht2⟩ := hg (pre ++ n1) (old.drop s1) post (lk + k1) y e2
      have hs := hl1 _ _ e1
      refine ⟨n1 ++ n2, k1 + k2, ?_, ?_, ?_⟩
      · show (f pre.length _).bind _ = _
        rw [split_at pre old post s1, hr1]
        show g (pre.length + s1) _ = _
        rw [show pre.length + s1 = (pre ++ n1).length by rw [List.length_append, hn1, hs], ← List.append_assoc, hr2]
        simp [Nat.add_assoc]
      · simp at hn1 hn2 hs ⊢; omega
      · rintro ⟨h1, h2⟩
        obtain ⟨z1, w1⟩ := ht1 h1
        obtain ⟨z2, w2⟩ := ht2 h2
        exact ⟨by omega, by simp [w1, w2]⟩

/-- Two parts, destroyed last to first. -/
theorem kills_rev {α β : Type} {d1 : List Cell → Option α} {d2 : List Cell → Option β} {t1 t2 : List Cell → Prop}
    {s1 : Nat} {f g : Nat → Mem → M Mem} (hl1 : ∀ cs v, d1 cs = some v → cs.length = s1) (hf : Kills d1 t1 f)
    (hg : Kills d2 t2 g) :
    Kills (fun cs => (d1 (cs.take s1)).bind fun x => (d2 (cs.drop s1)).map fun y => (x, y))
      (fun cs => t1 (cs.take s1) ∧ t2 (cs.drop s1)) (fun a m => (g (a + s1) m).bind (f a)) := by
  intro pre old post lk v hv
  simp only [] at hv
  cases e1 : d1 (old.take s1) with
  | none => simp [e1] at hv
  | some x =>
    cases e2 : d2 (old.drop s1) with
    | none => simp [e2] at hv
    | some y =>
      obtain ⟨n2, k2, hr2, hn2, ht2⟩ := hg (pre ++ old.take s1) (old.drop s1) post lk y e2
      obtain ⟨n1, k1, hr1, hn1, ht1⟩ := hf pre (old.take s1) (n2 ++ post) (lk + k2) x e1
      have hs := hl1 _ _ e1
      refine ⟨n1 ++ n2, k2 + k1, ?_, ?_, ?_⟩
      · show (g (pre.length + s1) _).bind _ = _
        rw [split_at pre old post s1, show pre.length + s1 = (pre ++ old.take s1).length by
          rw [List.length_append, hs], ← List.append_assoc, hr2]
        show f pre.length _ = _
        rw [List.append_assoc (pre ++ old.take s1), hr1]
        simp [Nat.add_assoc]
      · simp at hn1 hn2 hs ⊢; omega
      · rintro ⟨h1, h2⟩
        obtain ⟨z1, w1⟩ := ht1 h1
        obtain ⟨z2, w2⟩ := ht2 h2
        exact ⟨by omega, by simp [w1, w2]⟩

/-- Consecutive instances, from the last. -/
theorem kills_loop {s : Nat} {dec : List Cell → Option Val} {td : List Cell → Prop} {f : Nat → Mem → M Mem}
    (h : Kills dec td f) (pre : List Cell) : ∀ (n : Nat) (old post : List Cell) (lk : Nat) (vs : List Val),
    old.length = n * s → decN dec s n old = some vs →
    ∃ new d, loopDown (fun i m => f (pre.length + i * s) m) n ⟨pre ++ old ++ post, lk⟩ =
        .ok ⟨pre ++ new ++ post, lk + d⟩ ∧ new.length = old.length ∧ (allN td s n old → d = 0 ∧ owned new = 0)
  | 0, old, post, lk, vs, hl, hd => by
    simp at hl; subst hl
    exact ⟨[], 0, rfl, rfl, fun _ => ⟨rfl, rfl⟩⟩
  | n + 1, old, post, lk, vs, hl, hd => by
    have hd1 := decN_take (k := n) (by omega) hl hd
    have hd2 := decN_drop (k := n) (by omega) hl hd
    rw [Nat.succ_mul] at hl
    rw [show n + 1 - n = 0 + 1 by omega, decN] at hd2
    have hdl : (old.drop (n * s)).take s = old.drop (n * s) := List.take_of_length_le (by simp; omega)
    rw [hdl] at hd2
    cases e1 : dec (old.drop (n * s)) with
    | none => rw [e1] at hd2; cases hd2
    | some v =>
      obtain ⟨n2, k2, hr2, hn2, ht2⟩ := h (pre ++ old.take (n * s)) (old.drop (n * s)) post lk v e1
      obtain ⟨n1, k1, hr1, hn1, ht1⟩ := kills_loop h pre n (old.take (n * s)) (n2 ++ post) (lk + k2) _ (by simp; omega) hd1
      refine ⟨n1 ++ n2, k2 + k1, ?_, ?_, ?_⟩
      · rw [loopDown, split_at pre old post (n * s)]
        show (f (pre.length + n * s) _).bind _ = _
        rw [show pre.length + n * s = (pre ++ old.take (n * s)).length by
          rw [List.length_append]; simp; omega, ← List.append_assoc, hr2]
        show loopDown _ _ _ = _
        rw [List.append_assoc (pre ++ old.take (n * s)), hr1]
        simp [Nat.add_assoc]
      · simp at hn1 hn2 ⊢; omega
      · intro ha
        have a1 := allN_take (k := n) (by omega) ha
        have a2 := allN_drop (k := n) (by omega) ha
        rw [show n + 1 - n = 0 + 1 by omega, allN, hdl] at a2
        obtain ⟨z1, w1⟩ := ht1 a1
        obtain ⟨z2, w2⟩ := ht2 a2.1
        exact ⟨by omega, by simp [w1, w2]⟩

/-- The destructor of a collection. -/
theorem kills_coll {s b : Nat} {dec : List Cell → Option Val} {td : List Cell → Prop} {f : Nat → Mem → M Mem}
    {im cons : Bool} {c : Ty} {L : Prop} (h : Kills dec td f)
    (hc : cons = false → ∀ cs v, dec cs = some v → owned cs = 0 ∧ ∃ bs, cs = rawCells bs) :
    Kills (decColl im c s b dec) (tidyColl L td s)
      (fun a m => (peekColl im m.cells a).bind fun o => if o.content = c then deleteColl cons s o f a m else .error .outside) := by
  intro pre old post lk v hv
  obtain ⟨size, cap, blk, vs, rfl, h1, h2, h3, h4, rfl⟩ := decColl_iff.mp hv
  have hol : (objCells (.coll im c size cap blk) seqSize).length = seqSize := objCells_length _ _ (by decide)
  show ∃ new d, (peekColl im (pre ++ _ ++ post) _).bind _ = _ ∧ _
  rw [peekColl_at]
  simp only [Except.bind]
  rw [if_pos trivial]
  unfold deleteColl
  cases hcons : cons with
  | true =>
    obtain ⟨new, d, hr, hn, ht⟩ := kills_loop h [] cap blk [] 0 vs h3 h4
    simp only [List.length_nil, Nat.zero_add, List.nil_append, List.append_nil] at hr
    refine ⟨List.replicate seqSize .junk, d + owned new, ?_, by rw [hol]; simp, ?_⟩
    · simp only [if_true]
      rw [hr]
      simp only [Except.bind]
      rw [clear_at pre _ post lk seqSize hol]
      simp [Except.map, Nat.add_assoc]
    · intro htd
      obtain ⟨rfl, hw⟩ := ht htd.1
      exact ⟨by omega, by simp⟩
  | false =>
    obtain ⟨bs, hb⟩ := decN_raw (fun cs v hh => (hc hcons cs v hh).2) h3 h4
    refine ⟨List.replicate seqSize .junk, owned blk, ?_, by rw [hol]; simp, ?_⟩
    · simp only [Bool.false_eq_true, if_false, Except.bind]
      rw [clear_at pre _ post lk seqSize hol]
      simp [Except.map]
    · intro _
      rw [hb]
      exact ⟨by simp, by simp⟩

theorem destroyCase_eq : {ms : Mems} → {n : String} → {t : Ty} → ms.find? n = some t → destroyCase ms n = destroy t
  | .nil, _, _, h => by simp [Mems.find?] at h
  | .cons x u r, n, t, h => by
    funext a m
    rw [Mems.find?] at h
    rw [destroyCase]
    split at h
    · cases h; rw [if_pos (by assumption)]
    · rw [if_neg (by assumption), destroyCase_eq h]

theorem destroyAll_ok : {ms : Mems} → (ms.Forall fun t => t.WF → Kills (decode t) (tidy t) (destroy t)) → ms.WF →
    Kills (decodeAll ms) (tidyAll ms) (destroyAll ms)
  | .nil, _, _ => by
    refine kills_nop (fun a m => by rw [destroyAll]) ?_
    intro cs v h; rw [decodeAll] at h; split at h
    · rename_i h0; subst h0; rfl
    · cases h
  | .cons x t r, h, hw => by
    rw [Mems.WF] at hw
    refine kills_weaken (kills_rev (decode_length t) (h.1 hw.1) (destroyAll_ok h.2 hw.2)) ?_ ?_ ?_
    · intro a m; rw [destroyAll]
    · intro cs v hv
      rw [decodeAll] at hv
      cases h1 : decode t (cs.take t.memSize) with
      | none => rw [h1] at hv; cases hv
      | some u =>
        cases h2 : decodeAll r (cs.drop t.memSize) with
        | none => rw [h1, h2] at hv; cases hv
        | some ws => exact ⟨(u, ws), rfl⟩
    · intro cs v _ ht; rw [tidyAll] at ht; exact ht

theorem owned_decBytes {n : Nat} {cs : List Cell} {v : Val} (h : decBytes n cs = some v) : owned cs = 0 := by
  obtain ⟨bs, _, _, rfl⟩ := decBytes_iff.mp h; simp

theorem disc_destroy {d : Ty} (h : discOk d) (a : Nat) (m : Mem) : destroy d a m = .ok m := by
  rw [← destroy_rget]
  rcases discOk_cases h with ⟨k, hk, _⟩ | ⟨n, vs, hk⟩ <;> rw [hk, destroy]

/-- `destroy_instance` on a live instance of any type. -/
theorem destroy_ok (T : Ty) : T.WF → Kills (decode T) (tidy T) (destroy T) := by
  induction T using Ty.ind with
  | prim k =>
    intro _
    refine kills_nop (fun a m => by rw [destroy]) ?_
    intro cs v h; rw [decode] at h; exact owned_decBytes h
  | enum n w vs =>
    intro _
    refine kills_nop (fun a m => by rw [destroy]) ?_
    intro cs v h; rw [decode] at h; exact owned_decBytes h
  | str k b =>
    intro _ pre old post lk v hv
    rw [decode] at hv
    obtain ⟨us, hp, rfl, hb, rfl⟩ := decStr_iff.mp hv
    have hol : (objCells (.str k us hp) strSize).length = strSize := objCells_length _ _ (by decide)
    refine ⟨List.replicate strSize .junk, 0, ?_, by rw [hol]; simp, fun _ => ⟨rfl, by simp⟩⟩
    rw [destroy]
    show (peekStr k (pre ++ _ ++ post) _).bind _ = _
    rw [peekStr_at]
    simp only [Except.bind]
    rw [clear_at pre _ post lk strSize hol]
    rfl
  | seq c b ih =>
    intro hw
    rw [Ty.WF] at hw
    refine kills_weaken (kills_coll (L := c.Light) (im := false) (c := c) (s := c.memSize) (b := b) (cons := c.isConstructed) (ih hw) ?_) ?_ ?_ ?_
    · intro hf cs v hv
      obtain ⟨k, rfl⟩ := prim_of_not_constructed hf
      rw [decode] at hv
      obtain ⟨bs, _, _, rfl⟩ := decBytes_iff.mp hv
      exact ⟨by simp, bs, rfl⟩
    · intro a m; rw [destroy]
    · intro cs v hv; rw [decode] at hv; exact ⟨v, hv⟩
    · intro cs v _ ht; rw [tidy] at ht; exact ht
  | arr n c d ih =>
    intro hw
    rw [Ty.WF] at hw
    cases hf : c.isConstructed with
    | true =>
      intro pre old post lk v hv
      rw [decode] at hv
      split at hv
      · rename_i hlen
        cases h4 : decN (decode c) c.memSize d old with
        | none => rw [h4] at hv; cases hv
        | some vs =>
          obtain ⟨new, e, hr, hn, ht⟩ := kills_loop (ih hw) pre d old post lk vs hlen h4
          refine ⟨new, e, ?_, hn, ?_⟩
          · rw [destroy, if_pos hf, hr]
          · intro hh; rw [tidy] at hh; exact ht hh
      · cases hv
    | false =>
      refine kills_nop (fun a m => by rw [destroy, if_neg (by simp [hf])]) ?_
      intro cs v hv
      obtain ⟨k, rfl⟩ := prim_of_not_constructed hf
      rw [decode] at hv
      split at hv
      · rename_i hlen
        cases h4 : decN (decode (.prim k)) (Ty.prim k).memSize d cs with
        | none => rw [h4] at hv; cases hv
        | some vs =>
          obtain ⟨bs, hb, rfl⟩ := decN_prim_raw hlen h4
          simp
      · cases hv
  | map k v b ihk ihv =>
    intro hw
    rw [Ty.WF] at hw
    refine kills_weaken (kills_coll (L := k.Light ∧ v.Light) (im := true) (c := .pair k v) (s := k.memSize + v.memSize) (b := b) (cons := true)
      (dec := decPair (decode k) (decode v) k.memSize)
      (kills_weaken (kills_seq (decode_length k) (ihk hw.1) (ihv hw.2)) (fun _ _ => rfl) ?_ (fun _ _ _ h => h)) ?_) ?_ ?_ ?_
    · intro cs v hv
      obtain ⟨u1, u2, rfl, f1, f2⟩ := decPair_iff.mp hv
      exact ⟨(u1, u2), by simp [f1, f2]⟩
    · intro hf; cases hf
    · intro a m; rw [destroy]
    · intro cs v hv; rw [decode] at hv; exact ⟨v, hv⟩
    · intro cs v _ ht; rw [tidy] at ht; exact ht
  | pair x y ihx ihy =>
    intro hw
    rw [Ty.WF] at hw
    refine kills_weaken (kills_seq (decode_length x) (ihx hw.1) (ihy hw.2)) ?_ ?_ ?_
    · intro a m; rw [destroy]
    · intro cs v hv
      rw [decode] at hv
      obtain ⟨u1, u2, rfl, f1, f2⟩ := decPair_iff.mp hv
      exact ⟨(u1, u2), by simp [f1, f2]⟩
    · intro cs v _ ht; rw [tidy] at ht; exact ht
  | als n t ih =>
    intro hw
    rw [Ty.WF] at hw
    refine kills_weaken (ih hw) ?_ ?_ ?_
    · intro a m; rw [destroy]
    · intro cs v hv; rw [decode] at hv; exact ⟨v, hv⟩
    · intro cs v _ ht; rw [tidy] at ht; exact ht
  | struct n ms ih =>
    intro hw
    rw [Ty.WF] at hw
    refine kills_weaken (destroyAll_ok ih hw) ?_ ?_ ?_
    · intro a m; rw [destroy]
    · intro cs v hv
      rw [decode] at hv
      cases h4 : decodeAll ms cs with
      | none => rw [h4] at hv; cases hv
      | some vs => exact ⟨vs, rfl⟩
    · intro cs v _ ht; rw [tidy] at ht; exact ht
  | union n d ms i _ ih =>
    intro hw
    rw [Ty.WF] at hw
    obtain ⟨hdo, hok, hwm⟩ := hw
    intro pre old post lk v hv
    obtain ⟨bs, rest, hbl, hrl, rfl, hcase⟩ := decode_union_inv hdo hv
    have hlab := readLabel_at hdo pre (rest ++ post) bs hbl
    have he : pre ++ (rawCells bs ++ rest) ++ post = pre ++ rawCells bs ++ (rest ++ post) := by simp
    rcases hcase with ⟨hx, rfl⟩ | ⟨x, t, w, hx, ht, hw', rfl⟩
    · refine ⟨rawCells bs ++ rest, 0, ?_, rfl, ?_⟩
      · rw [destroy, disc_destroy hdo]
        simp only [Except.bind]
        rw [he, hlab]
        simp only []
        rw [show omGet i.labels (labelOf d.memSize bs) = none from hx]
        simp
      · intro htd
        rw [tidy_union_none hdo hbl hx] at htd
        exact ⟨rfl, by simp [htd]⟩
    · have hwt := (Mems.WF.forall hwm).find ht
      obtain ⟨n2, e2, hr2, hl2, ht2⟩ := ih.find ht hwt (pre ++ rawCells bs) (rest.take t.memSize)
        (rest.drop t.memSize ++ post) lk w hw'
      refine ⟨rawCells bs ++ (n2 ++ rest.drop t.memSize), e2, ?_, ?_, ?_⟩
      · rw [destroy, disc_destroy hdo]
        simp only [Except.bind]
        rw [he, hlab]
        simp only []
        rw [show omGet i.labels (labelOf d.memSize bs) = some x from hx]
        simp only []
        rw [destroyCase_eq ht, show pre.length + d.memSize = (pre ++ rawCells bs).length by simp [hbl],
          ← List.append_assoc (pre ++ rawCells bs), split_at (pre ++ rawCells bs) rest post t.memSize, hr2]
        simp
      · simp at hl2 ⊢; omega
      · intro htd
        rw [tidy_union_some hdo hbl hx ht] at htd
        obtain ⟨z, w1⟩ := ht2 htd.1
        exact ⟨z, by simp [w1, htd.2]⟩

end Verif.Inst
