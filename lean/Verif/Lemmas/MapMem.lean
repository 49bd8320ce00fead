import Verif.Spec.MapMem
import Verif.Lemmas.MapInst
import Verif.Lemmas.InstHash
import Verif.Lemmas.Data
/-! # Maps in memory -/

namespace Verif.Inst

/-! ## The search -/

theorem findLoopM_eq {hs : Nat → M Nat} {h : Nat → Nat} {x size : Nat} (hh : ∀ i, i < size → hs i = .ok (h i)) :
    ∀ (f s e : Nat), e - s ≤ f → s < e → e ≤ size →
      findLoopM hs x f s e = .ok ((MapInst.findLoop h x s e).1, (MapInst.findLoop h x s e).2, h (MapInst.findLoop h x s e).1)
  | 0, s, e, h1, h2, _ => by omega
  | f + 1, s, e, h1, h2, h3 => by
    rw [findLoopM, hh _ (by omega), MapInst.findLoop]
    simp only [Except.bind]
    by_cases hc : s < (s + e) / 2
    · rw [if_pos hc, if_pos (by omega)]
      split
      · rfl
      · split
        · exact findLoopM_eq hh f _ _ (by omega) (by omega) h3
        · exact findLoopM_eq hh f _ _ (by omega) (by omega) (by omega)
    · rw [if_neg hc, if_neg (by omega)]

/-- What `find_place` returns. -/
theorem findPlaceM_spec {hs : Nat → M Nat} {h : Nat → Nat} {x size : Nat} (hh : ∀ i, i < size → hs i = .ok (h i))
    (hm : ∀ i j, i < j → j < size → h i < h j) :
    (∃ p, p < size ∧ h p = x ∧ ∀ ex, findPlaceM hs (.ok x) size ex = .ok (some p)) ∨
    (∃ p, p ≤ size ∧ (∀ j, j < p → h j < x) ∧ (∀ j, p ≤ j → j < size → x < h j) ∧
      ∀ ex, findPlaceM hs (.ok x) size ex = .ok (if ex then none else some p)) := by
  unfold findPlaceM
  by_cases h0 : size = 0
  · right
    refine ⟨0, Nat.zero_le _, by omega, by omega, fun ex => ?_⟩
    rw [if_pos h0]
  · simp only [if_neg h0, Except.bind]
    rw [findLoopM_eq hh size 0 size (by omega) (by omega) (Nat.le_refl _)]
    simp only [Except.map]
    have := MapInst.findLoop_spec h x size hm 0 size (by omega) (Nat.le_refl _) (.inl rfl) (by omega)
    revert this
    generalize MapInst.findLoop h x 0 size = r
    obtain ⟨c, e⟩ := r
    simp only
    rintro ⟨h1, h2, h3⟩
    by_cases hx : x = h c
    · left
      refine ⟨c, by omega, hx.symm, fun ex => ?_⟩
      rw [if_pos hx]
    · right
      rcases h3 with h3 | ⟨h3, h4, h5⟩
      · exact absurd h3.symm hx
      · by_cases hlt : x < h c
        · refine ⟨c, by omega, h4, ?_, fun ex => ?_⟩
          · intro j hj hj2
            rcases Nat.eq_or_lt_of_le hj with hj | hj
            · rw [← hj]; exact hlt
            · exact h5 j hj hj2
          · simp only [if_neg hx, if_pos hlt]
        · refine ⟨e, by omega, ?_, ?_, fun ex => ?_⟩
          · intro j hj
            rcases Nat.lt_or_ge j c with hj | hj
            · exact h4 j hj
            · have : j = c := by omega
              rw [this]; omega
          · intro j hj hj2
            exact h5 j (by omega) hj2
          · simp only [if_neg hx, if_neg hlt]

/-- A key in the map is found at its own place. -/
theorem keyIndexM_ok {hs : Nat → M Nat} {h : Nat → Nat} {size i : Nat} (hh : ∀ i, i < size → hs i = .ok (h i))
    (hm : ∀ i j, i < j → j < size → h i < h j) (hi : i < size) : keyIndexM hs size i = .ok i := by
  unfold keyIndexM
  rw [hh i hi]
  rcases findPlaceM_spec (x := h i) hh hm with ⟨p, h1, h2, h3⟩ | ⟨p, h1, h2, h3, h4⟩
  · rw [h3]
    simp only [Except.bind]
    rcases Nat.lt_trichotomy p i with h4 | h4 | h4
    · have := hm p i h4 hi; omega
    · rw [h4]
    · have := hm i p h4 h1; omega
  · rcases Nat.lt_or_ge i p with h5 | h5
    · have := h2 i h5; omega
    · have := h3 i h5 hi; omega

/-! ## The slots -/

theorem decode_pair (k v : Ty) : decode (.pair k v) = decPair (decode k) (decode v) k.memSize := by
  funext cs; rw [decode]

theorem tidy_pair (k v : Ty) : tidy (.pair k v) = fun cs => tidy k (cs.take k.memSize) ∧ tidy v (cs.drop k.memSize) := by
  funext cs; rw [tidy]

theorem pair_memSize (k v : Ty) : (Ty.pair k v).memSize = k.memSize + v.memSize := by rw [Ty.memSize]

/-- `H` is the hash wherever the key is. -/
theorem hashOf_at {env : HashEnv} {k : Ty} {H : Val → BitVec 64} (hk : Hashable k) (hw : k.WF) (hH : HashOf env k H)
    {pre x post : List Cell} {u : Val} (hx : decode k x = some u) : instHash env k (pre ++ x ++ post) pre.length = .ok (H u) := by
  obtain ⟨h, hh⟩ := hash_ok (σ := env.str) k hk hw u
  have h0 : instHash env k (pre ++ x ++ post) pre.length = .ok h := hh env rfl pre x post hx
  rw [h0]
  have h1 : instHash env k ([] ++ x ++ []) ([] : List Cell).length = .ok h := hh env rfl [] x [] hx
  simp only [List.nil_append, List.append_nil, List.length_nil] at h1
  have h2 := hH x u hx
  have h3 := h1.symm.trans h2
  cases h3
  rfl

theorem slotHash_ok {env : HashEnv} {k v : Ty} {H : Val → BitVec 64} (hk : Hashable k) (hw : k.WF) (hH : HashOf env k H)
    {cap : Nat} {blk : List Cell} {vs : List Val} (h3 : blk.length = cap * (Ty.pair k v).memSize)
    (h4 : decN (decode (.pair k v)) (Ty.pair k v).memSize cap blk = some vs) {i : Nat} (hi : i < cap) :
    slotHash env k (k.memSize + v.memSize) blk i = .ok (H (keyOf (vs[i]?.getD (.list [])))).toNat := by
  obtain ⟨a, b, c, w, e1, e2, e3, e4, e5⟩ := decN_slot h3 h4 hi
  rw [decode_pair] at e4
  obtain ⟨u, z, rfl, f1, f2⟩ := decPair_iff.mp e4
  unfold slotHash
  rw [e5, e1, ← pair_memSize, ← e2]
  have := hashOf_at hk hw hH (pre := a) (post := b.drop k.memSize ++ c) f1
  rw [← split_at] at this
  rw [this]
  rfl

/-! ## Growing -/

theorem decode_primPair_raw {k v : PK} {cs : List Cell} {w : Val} (h : decode (.pair (.prim k) (.prim v)) cs = some w) :
    ∃ bs, cs = rawCells bs := by
  rw [decode_pair] at h
  obtain ⟨u1, u2, rfl, f1, f2⟩ := decPair_iff.mp h
  rw [decode] at f1 f2
  obtain ⟨b1, -, -, g1⟩ := decBytes_iff.mp f1
  obtain ⟨b2, -, -, g2⟩ := decBytes_iff.mp f2
  refine ⟨b1 ++ b2, ?_⟩
  rw [← List.take_append_drop (Ty.prim k).memSize cs, g1, g2]; simp [rawCells]

theorem tidy_primPair {k v : PK} (cs : List Cell) : tidy (.pair (.prim k) (.prim v)) cs := by
  simp [tidy]

theorem allN_of_all {p : List Cell → Prop} (h : ∀ cs, p cs) (s : Nat) : (n : Nat) → (cs : List Cell) → allN p s n cs
  | 0, _ => trivial
  | n + 1, _ => ⟨h _, allN_of_all h s n _⟩

theorem reallocMap_ok {env : HashEnv} {k v : Ty} (hk : k.WF) (hv : v.WF) (hck : k.Copyable) (hcv : v.Copyable) (hmk : k.Movable)
    (hmv : v.Movable) {size cap cap' : Nat} {blk : List Cell} {vs : List Val} {h : Nat → Nat} (h1 : size ≤ cap)
    (h2 : size ≤ cap') (h3 : blk.length = cap * (Ty.pair k v).memSize)
    (h4 : decN (decode (.pair k v)) (Ty.pair k v).memSize cap blk = some vs)
    (hh : ∀ i, i < size → slotHash env k (k.memSize + v.memSize) blk i = .ok (h i))
    (hm : ∀ i j, i < j → j < size → h i < h j) (h5 : cap = 0 ∨ 0 < size) :
    ∃ blk' lk, reallocMap env k v ⟨.pair k v, size, cap, blk⟩ cap' = .ok (⟨.pair k v, size, cap', blk'⟩, lk) ∧
      blk'.length = cap' * (Ty.pair k v).memSize ∧
      decN (decode (.pair k v)) (Ty.pair k v).memSize cap' blk' =
        some (vs.take size ++ List.replicate (cap' - size) (defVal (.pair k v))) ∧
      ((Ty.pair k v).Light → (Ty.pair k v).Tight → allN (tidy (.pair k v)) (Ty.pair k v).memSize cap blk →
        lk = 0 ∧ allN (tidy (.pair k v)) (Ty.pair k v).memSize cap' blk' ∧
          owned (blk'.drop (size * (Ty.pair k v).memSize)) = 0) := by
  have hw : (Ty.pair k v).WF := by rw [Ty.WF]; exact ⟨hk, hv⟩
  have hc : (Ty.pair k v).Copyable := by rw [Ty.Copyable]; exact ⟨hck, hcv⟩
  have hmm : (Ty.pair k v).Movable := by rw [Ty.Movable]; exact ⟨hmk, hmv⟩
  have hcon : (Ty.pair k v).isConstructed = true := rfl
  by_cases hf : (k.isConstructed || v.isConstructed) = true ∨ cap = 0
  · obtain ⟨blk', lk, r1, r2, r3, r4⟩ := reallocColl_ok hw hc hmm h1 h2 h3 h4
    refine ⟨blk', lk, ?_, r2, r3, r4⟩
    rw [← r1]
    unfold reallocMap reallocColl
    simp only [hcon, if_true, ← pair_memSize]
    by_cases h0 : cap = 0
    · have : size = 0 := by omega
      subst this
      simp only [h0, if_true]; rfl
    · have hf' := hf.resolve_right h0
      simp only [hf', if_true, if_neg h0]
  · have h0 : cap ≠ 0 := fun h => hf (.inr h)
    have hsz : 0 < size := by omega
    have hf' : (k.isConstructed || v.isConstructed) = false := by
      cases hx : (k.isConstructed || v.isConstructed) with
      | true => exact absurd (.inl hx) hf
      | false => rfl
    obtain ⟨hf1, hf2⟩ := Bool.or_eq_false_iff.mp hf'
    obtain ⟨k', rfl⟩ := prim_of_not_constructed hf1
    obtain ⟨v', rfl⟩ := prim_of_not_constructed hf2
    obtain ⟨nb, hi, hnl, hnd, hna⟩ := initBlock_ok (construct_fresh _ hw) cap'
    have hki := keyIndexM_ok hh hm hsz
    have hle : size * (Ty.pair (.prim k') (.prim v')).memSize ≤ cap' * (Ty.pair (.prim k') (.prim v')).memSize :=
      Nat.mul_le_mul_right _ h2
    have hle2 : size * (Ty.pair (.prim k') (.prim v')).memSize ≤ cap * (Ty.pair (.prim k') (.prim v')).memSize :=
      Nat.mul_le_mul_right _ h1
    have hd1 := decN_take h1 h3 h4
    have hlast := decN_drop h2 hnl hnd
    rw [List.drop_replicate] at hlast
    have htl : (blk.take (size * (Ty.pair (.prim k') (.prim v')).memSize)).length =
        size * (Ty.pair (.prim k') (.prim v')).memSize := by
      rw [List.length_take]; omega
    obtain ⟨bytes, hbs⟩ := decN_raw (fun cs w hd => decode_primPair_raw hd) htl hd1
    obtain ⟨ob, hob⟩ := decN_raw (fun cs w hd => decode_primPair_raw hd) h3 h4
    obtain ⟨nbb, hnbb⟩ := decN_raw (fun cs w hd => decode_primPair_raw hd) hnl hnd
    have hbl : bytes.length = size * (Ty.pair (.prim k') (.prim v')).memSize := by
      rw [← htl, hbs]; simp
    obtain ⟨old, d, hr, hn, ht⟩ := kills_loop (destroy_ok _ hw) [] cap blk [] 0 vs h3 h4
    simp only [List.length_nil, Nat.zero_add, List.nil_append, List.append_nil] at hr
    obtain ⟨rfl, ho⟩ := ht (allN_of_all tidy_primPair _ _ _)
    have hap := decN_append htl hd1 hlast
    rw [show size + (cap' - size) = cap' by omega] at hap
    refine ⟨blk.take (size * (Ty.pair (.prim k') (.prim v')).memSize) ++
      nb.drop (size * (Ty.pair (.prim k') (.prim v')).memSize), 0, ?_, ?_, hap, ?_⟩
    · unfold reallocMap
      simp only [hf', if_neg h0, Bool.false_eq_true, if_false, ← pair_memSize]
      rw [hi]
      simp only [Except.bind]
      rw [pair_memSize, hki, ← pair_memSize]
      simp only [Nat.sub_zero]
      have hp := peekRaw_at [] (blk.drop (size * (Ty.pair (.prim k') (.prim v')).memSize)) bytes _ hbl
      rw [← hbs] at hp
      simp only [List.nil_append, List.take_append_drop, List.length_nil] at hp
      rw [hp]
      simp only []
      have hq := put_at [] (nb.take (size * (Ty.pair (.prim k') (.prim v')).memSize))
        (nb.drop (size * (Ty.pair (.prim k') (.prim v')).memSize)) (rawCells bytes) 0 (by
          simp only [rawCells_length, List.length_take]; rw [hbl, hnl]; exact (Nat.min_eq_left hle).symm)
      simp only [List.nil_append, List.take_append_drop, List.length_nil, Nat.zero_add] at hq
      rw [hq]
      simp only []
      rw [hr, ← hbs]
      simp only [Except.map, ho]
      have : owned (nb.take (size * (Ty.pair (.prim k') (.prim v')).memSize)) = 0 :=
        owned_zero_of_take (by rw [hnbb]; simp)
      rw [this]
    · rw [List.length_append, htl, List.length_drop, hnl]; omega
    · intro _ _ _
      refine ⟨rfl, allN_of_all tidy_primPair _ _ _, ?_⟩
      rw [List.drop_left' htl]
      exact owned_zero_of_drop (by rw [hnbb]; simp)

/-! ## Types that own nothing -/

mutual
theorem flat_light : (T : Ty) → T.Flat → T.Light
  | .prim _, _ => by rw [Ty.Light]; trivial
  | .enum _ _ _, _ => by rw [Ty.Light]; trivial
  | .str _ _, h => by rw [Ty.Flat] at h; exact h.elim
  | .seq _ _, h => by rw [Ty.Flat] at h; exact h.elim
  | .map _ _ _, h => by rw [Ty.Flat] at h; exact h.elim
  | .arr _ c _, h => by rw [Ty.Flat] at h; rw [Ty.Light]; exact flat_light c h
  | .pair x y, h => by rw [Ty.Flat] at h; rw [Ty.Light]; exact ⟨flat_light x h.1, flat_light y h.2⟩
  | .alias _ t, h => by rw [Ty.Flat] at h; rw [Ty.Light]; exact flat_light t h
  | .struct _ ms, h => by rw [Ty.Flat] at h; rw [Ty.Light]; exact flat_lights ms h
  | .union _ _ ms i, h => by
    rw [Ty.Flat] at h; rw [Ty.Light]; exact .inr fun n _ => flat_lightCase ms n h
theorem flat_lights : (ms : Mems) → ms.Flat → ms.Light
  | .nil, _ => by rw [Mems.Light]; trivial
  | .cons _ t r, h => by rw [Mems.Flat] at h; rw [Mems.Light]; exact ⟨flat_light t h.1, flat_lights r h.2⟩
theorem flat_lightCase : (ms : Mems) → (n : String) → ms.Flat → ms.LightCase n
  | .nil, _, _ => by rw [Mems.LightCase]; trivial
  | .cons x t r, n, h => by
    rw [Mems.Flat] at h; rw [Mems.LightCase]
    split
    · exact flat_light t h.1
    · exact flat_lightCase r n h.2
end

mutual
theorem flat_tight : (T : Ty) → T.Flat → T.Tight
  | .prim _, _ => by rw [Ty.Tight]; trivial
  | .enum _ _ _, _ => by rw [Ty.Tight]; trivial
  | .str _ _, h => by rw [Ty.Flat] at h; exact h.elim
  | .seq _ _, h => by rw [Ty.Flat] at h; exact h.elim
  | .map _ _ _, h => by rw [Ty.Flat] at h; exact h.elim
  | .arr _ c _, h => by rw [Ty.Flat] at h; rw [Ty.Tight]; exact flat_tight c h
  | .pair x y, h => by rw [Ty.Flat] at h; rw [Ty.Tight]; exact ⟨flat_tight x h.1, flat_tight y h.2⟩
  | .alias _ t, h => by rw [Ty.Flat] at h; rw [Ty.Tight]; exact flat_tight t h
  | .struct _ ms, h => by rw [Ty.Flat] at h; rw [Ty.Tight]; exact flat_tights ms h
  | .union _ _ ms i, h => by rw [Ty.Flat] at h; rw [Ty.Tight]; exact flat_tights ms h
theorem flat_tights : (ms : Mems) → ms.Flat → ms.Tight
  | .nil, _ => by rw [Mems.Tight]; trivial
  | .cons _ t r, h => by rw [Mems.Flat] at h; rw [Mems.Tight]; exact ⟨flat_tight t h.1, flat_tights r h.2⟩
end

theorem owned_rows {dec : List Cell → Option Val} {td : List Cell → Prop} {s : Nat}
    (h : ∀ cs v, dec cs = some v → td cs → owned cs = 0) : (n : Nat) → (cs : List Cell) → (vs : List Val) →
    cs.length = n * s → decN dec s n cs = some vs → allN td s n cs → owned cs = 0
  | 0, cs, _, hl, _, _ => by simp at hl; subst hl; rfl
  | n + 1, cs, vs, hl, hd, ht => by
    obtain ⟨v, ws, rfl, h1, h2⟩ := decN_cons.mp hd
    rw [owned_split s, h _ _ h1 ht.1, owned_rows h n _ _ (by rw [List.length_drop, hl, Nat.succ_mul]; omega) h2 ht.2]

theorem Mems.Flat.find : {ms : Mems} → ms.Flat → {n : String} → {t : Ty} → ms.find? n = some t → t.Flat
  | .nil, _, _, _, h => by simp [Mems.find?] at h
  | .cons x u r, hf, n, t, h => by
    rw [Mems.Flat] at hf
    rw [Mems.find?] at h
    split at h
    · cases h; exact hf.1
    · exact Mems.Flat.find hf.2 h

mutual
theorem flat_owned : (T : Ty) → T.Flat → T.WF → ∀ cs v, decode T cs = some v → tidy T cs → owned cs = 0
  | .prim _, _, _, cs, v, hd, _ => by rw [decode] at hd; exact owned_decBytes hd
  | .enum _ _ _, _, _, cs, v, hd, _ => by rw [decode] at hd; exact owned_decBytes hd
  | .str _ _, h, _, _, _, _, _ => by rw [Ty.Flat] at h; exact h.elim
  | .seq _ _, h, _, _, _, _, _ => by rw [Ty.Flat] at h; exact h.elim
  | .map _ _ _, h, _, _, _, _, _ => by rw [Ty.Flat] at h; exact h.elim
  | .arr _ c d, h, hw, cs, v, hd, ht => by
    rw [Ty.Flat] at h
    rw [Ty.WF] at hw
    rw [tidy] at ht
    rw [decode] at hd
    split at hd
    · rename_i hl
      cases hn : decN (decode c) c.memSize d cs with
      | none => rw [hn] at hd; cases hd
      | some vs => exact owned_rows (flat_owned c h hw) d cs vs hl hn ht
    · cases hd
  | .pair x y, h, hw, cs, v, hd, ht => by
    rw [Ty.Flat] at h
    rw [Ty.WF] at hw
    rw [tidy] at ht
    rw [decode] at hd
    obtain ⟨u, w, _, h1, h2⟩ := decPair_iff.mp hd
    rw [owned_split x.memSize, flat_owned x h.1 hw.1 _ _ h1 ht.1, flat_owned y h.2 hw.2 _ _ h2 ht.2]
  | .alias _ t, h, hw, cs, v, hd, ht => by
    rw [Ty.Flat] at h
    rw [Ty.WF] at hw
    rw [tidy] at ht
    rw [decode] at hd
    exact flat_owned t h hw cs v hd ht
  | .struct _ ms, h, hw, cs, v, hd, ht => by
    rw [Ty.Flat] at h
    rw [Ty.WF] at hw
    rw [tidy] at ht
    rw [decode] at hd
    cases hn : decodeAll ms cs with
    | none => rw [hn] at hd; cases hd
    | some vs => exact flat_owneds ms h hw cs vs hn ht
  | .union n d ms i, h, hw, cs, v, hd, ht => by
    rw [Ty.Flat] at h
    rw [Ty.WF] at hw
    obtain ⟨bs, rest, hb, hr, rfl, hcase⟩ := decode_union_inv hw.1 hd
    rcases hcase with ⟨hc, rfl⟩ | ⟨x, t, w, hc, hf, hd', rfl⟩
    · rw [tidy_union_none hw.1 hb hc] at ht
      simp [ht]
    · rw [tidy_union_some hw.1 hb hc hf] at ht
      have := flat_ownedCase ms h hw.2.2 x t hf _ _ hd' ht.1
      rw [owned_append, owned_rawCells, owned_split t.memSize, this, ht.2]
theorem flat_owneds : (ms : Mems) → ms.Flat → ms.WF → ∀ cs vs, decodeAll ms cs = some vs → tidyAll ms cs → owned cs = 0
  | .nil, _, _, cs, vs, hd, _ => by
    rw [decodeAll] at hd
    split at hd
    · rename_i e; rw [e]; rfl
    · cases hd
  | .cons _ t r, h, hw, cs, vs, hd, ht => by
    rw [Mems.Flat] at h
    rw [Mems.WF] at hw
    rw [tidyAll] at ht
    obtain ⟨v, ws, rfl, h1, h2⟩ := decodeAll_cons.mp hd
    rw [owned_split t.memSize, flat_owned t h.1 hw.1 _ _ h1 ht.1, flat_owneds r h.2 hw.2 _ _ h2 ht.2]
theorem flat_ownedCase : (ms : Mems) → ms.Flat → ms.WF → ∀ n t, ms.find? n = some t →
    ∀ cs v, decode t cs = some v → tidy t cs → owned cs = 0
  | .nil, _, _, _, _, h, _, _, _, _ => by simp [Mems.find?] at h
  | .cons x u r, hf, hw, n, t, h, cs, v, hd, ht => by
    rw [Mems.Flat] at hf
    rw [Mems.WF] at hw
    rw [Mems.find?] at h
    split at h
    · cases h; exact flat_owned u hf.1 hw.1 cs v hd ht
    · exact flat_ownedCase r hf.2 hw.2 n t h cs v hd ht
end

/-! ## Making room -/

/-- Moving entries up by one slot, the last one first. -/
theorem shift_loop {c : Ty} (hw : c.WF) (hc : c.Copyable) (hm : c.Movable) (pre : List Cell) :
    ∀ (n : Nat) (X Y Z : List Cell) (lk : Nat) (vs : List Val) (w : Val), X.length = n * c.memSize →
      decN (decode c) c.memSize n X = some vs → Y.length = c.memSize → decode c Y = some w →
      ∃ new d x, loopDown (fun j m => move true c m.cells (pre.length + j * c.memSize)
          (pre.length + c.memSize + j * c.memSize) m) n ⟨pre ++ X ++ Y ++ Z, lk⟩ = .ok ⟨pre ++ new ++ Z, lk + d⟩ ∧
        new.length = (n + 1) * c.memSize ∧ decN (decode c) c.memSize (n + 1) new = some (x :: vs) ∧
        (c.Flat → allN (tidy c) c.memSize n X → tidy c Y → d = 0 ∧ allN (tidy c) c.memSize (n + 1) new)
  | 0, X, Y, Z, lk, vs, w, hX, hv, hY, hw' => by
    simp at hX
    subst hX
    rw [decN] at hv
    cases hv
    refine ⟨Y, 0, w, ?_, by omega, ?_, ?_⟩
    · simp [loopDown]
    · rw [decN_cons]; exact ⟨w, [], rfl, by rw [List.take_of_length_le (by omega)]; exact hw', rfl⟩
    · intro _ _ ht
      exact ⟨rfl, by rw [List.take_of_length_le (by omega)]; exact ht, trivial⟩
  | n + 1, X, Y, Z, lk, vs, w, hX, hv, hY, hw' => by
    have hX' := hX
    rw [Nat.succ_mul] at hX
    obtain ⟨X1, L, t0, l, e1, e2, e3, e4, e5⟩ := decN_slot hX' hv (i := n) (by omega)
    have ht0 : t0 = [] := by
      have := congrArg List.length e1
      simp only [List.length_append] at this
      exact List.length_eq_zero_iff.mp (by omega)
    subst ht0
    rw [List.append_nil] at e1
    have hX1 : X.take (n * c.memSize) = X1 := by rw [e1, List.take_left' e2]
    have hL : X.drop (n * c.memSize) = L := by rw [e1, List.drop_left' e2]
    have hvl := decN_length hv
    have d1 := decN_take (k := n) (by omega) hX' hv
    rw [hX1] at d1
    have hvs : vs = vs.take n ++ [l] := by
      have : vs.drop n = [l] := by
        have h1 := List.drop_eq_getElem_cons (l := vs) (i := n) (by omega)
        rw [h1, List.drop_eq_nil_of_le (by omega)]
        congr 1
        rw [List.getElem?_eq_getElem (by omega)] at e5
        exact Option.some.inj e5
      rw [← this, List.take_append_drop]
    obtain ⟨n1, dd1, r1, r2, r3, r4⟩ := over_ok c hw hc hm L l e4 (pre ++ X1) (Y ++ Z) (pre ++ X1 ++ L) Y Z lk hY ⟨w, hw'⟩
    obtain ⟨new, dd2, x, s1, s2, s3, s4⟩ := shift_loop hw hc hm pre n X1 L (n1 ++ Z) (lk + dd1) _ l e2 d1 e3 e4
    have hn1 : decN (decode c) c.memSize 1 n1 = some [l] := by
      rw [decN_cons]; exact ⟨l, [], rfl, by rw [List.take_of_length_le (by omega)]; exact r3, rfl⟩
    refine ⟨new ++ n1, dd1 + dd2, x, ?_, by rw [List.length_append, s2, r2]; rw [Nat.succ_mul (n + 1)], ?_, ?_⟩
    · rw [loopDown]
      have ea : pre.length + n * c.memSize = (pre ++ X1).length := by rw [List.length_append, e2]
      have eb : pre.length + c.memSize + n * c.memSize = (pre ++ X1 ++ L).length := by
        simp only [List.length_append, e2, e3]; omega
      have ec : pre ++ X ++ Y ++ Z = pre ++ X1 ++ L ++ Y ++ Z := by rw [e1]; simp only [List.append_assoc]
      have ed : pre ++ X1 ++ L ++ (Y ++ Z) = pre ++ X1 ++ L ++ Y ++ Z := by simp only [List.append_assoc]
      rw [ed] at r1
      simp only []
      rw [ea, eb, ec, r1]
      simp only [Except.bind]
      have ee : pre ++ X1 ++ L ++ n1 ++ Z = pre ++ X1 ++ L ++ (n1 ++ Z) := by simp only [List.append_assoc]
      rw [ee, s1]
      simp only [List.append_assoc, Nat.add_assoc]
    · have := decN_append s2 s3 hn1
      rw [this]
      congr 1
      rw [List.cons_append, ← hvs]
    · intro hF hA hY'
      have a1 := allN_take (k := n) (by omega) hA
      rw [hX1] at a1
      have a2 := allN_drop (k := n) (by omega) hA
      rw [hL, show n + 1 - n = 1 by omega] at a2
      have a3 := a2.1
      rw [List.take_of_length_le (by omega)] at a3
      obtain ⟨z1, z2⟩ := s4 hF a1 a3
      obtain ⟨y1, y2⟩ := r4 (flat_owned c hF hw Y w hw' hY') (flat_tight c hF)
      refine ⟨by omega, allN_append s2 z2 ⟨by rw [List.take_of_length_le (by omega)]; exact y2, trivial⟩⟩

/-- Making something in one slot of a block. -/
theorem slot_set {c : Ty} {p cap : Nat} {blk : List Cell} {vs : List Val} {f : Nat → Mem → M Mem} {w : Val} {cl : Prop}
    (hmk : Makes c.memSize (decode c) (tidy c) cl f w) (h1 : p < cap)
    (h3 : blk.length = cap * c.memSize) (h4 : decN (decode c) c.memSize cap blk = some vs) (lk : Nat) :
    ∃ blk' d, f (p * c.memSize) ⟨blk, lk⟩ = .ok ⟨blk', lk + d⟩ ∧ blk'.length = cap * c.memSize ∧
      decN (decode c) c.memSize cap blk' = some (vs.set p w) ∧
      blk'.drop ((p + 1) * c.memSize) = blk.drop ((p + 1) * c.memSize) ∧
      (cl → allN (tidy c) c.memSize cap blk → owned ((blk.drop (p * c.memSize)).take c.memSize) = 0 →
        d = 0 ∧ allN (tidy c) c.memSize cap blk') := by
  have hle : (p + 1) * c.memSize ≤ cap * c.memSize := Nat.mul_le_mul_right _ h1
  rw [Nat.succ_mul] at hle
  have hvl := decN_length h4
  obtain ⟨x, sl, y, u, e1, e2, e3, e4, e5⟩ := decN_slot h3 h4 (i := p) h1
  obtain ⟨new, d, r1, r2, r3, r4⟩ := hmk x sl y lk e3
  have hdx := decN_take (k := p) (by omega) h3 h4
  have hdy := decN_drop (k := p + 1) (by omega) h3 h4
  have hx : blk.take (p * c.memSize) = x := by rw [e1, List.append_assoc, List.take_left' e2]
  have hy : blk.drop ((p + 1) * c.memSize) = y := by
    rw [e1, List.drop_left' (by simp [Nat.succ_mul]; omega)]
  rw [hx] at hdx
  rw [hy] at hdy
  have hd1 : decN (decode c) c.memSize 1 new = some [w] := by
    rw [decN_cons]
    refine ⟨w, [], rfl, ?_, rfl⟩
    rw [List.take_of_length_le (by omega)]; exact r3
  have ha := decN_append e2 hdx hd1
  have hb := decN_append (s := c.memSize) (a := p + 1) (by simp [e2, r2, Nat.succ_mul]) ha hdy
  rw [show p + 1 + (cap - (p + 1)) = cap by omega] at hb
  refine ⟨x ++ new ++ y, d, ?_, ?_, ?_, ?_, ?_⟩
  · rw [e1, ← e2, r1]
  · have := congrArg List.length e1
    simp only [List.length_append] at this ⊢
    omega
  · rw [hb]
    congr 1
    rw [List.set_eq_take_append_cons_drop, if_pos (by omega)]
    simp
  · rw [hy, List.drop_left' (by simp [e2, r2, Nat.succ_mul])]
  · intro hT hA hO
    have hso : owned sl = 0 := by
      rw [e1, List.append_assoc, List.drop_left' e2, List.take_left' e3] at hO
      exact hO
    obtain ⟨z1, z2⟩ := r4 hso hT
    have a1 := allN_take (k := p) (by omega) hA
    have a2 := allN_drop (k := p + 1) (by omega) hA
    rw [hx] at a1
    rw [hy] at a2
    have an : allN (tidy c) c.memSize 1 new := ⟨by rw [List.take_of_length_le (by omega)]; exact z2, trivial⟩
    have b1 := allN_append e2 a1 an
    have b2 := allN_append (s := c.memSize) (a := p + 1) (by simp [e2, r2, Nat.succ_mul]) b1 a2
    rw [show p + 1 + (cap - (p + 1)) = cap by omega] at b2
    exact ⟨z1, b2⟩

theorem shiftMap_ok {env : HashEnv} {k v : Ty} (hk : k.WF) (hv : v.WF) (hck : k.Copyable) (hcv : v.Copyable) (hmk : k.Movable)
    (hmv : v.Movable) {size p cap : Nat} {blk : List Cell} {vs : List Val} {h : Nat → Nat} (h1 : size < cap) (h2 : p < size)
    (h3 : blk.length = cap * (Ty.pair k v).memSize)
    (h4 : decN (decode (.pair k v)) (Ty.pair k v).memSize cap blk = some vs)
    (hh : ∀ i, i < size → slotHash env k (k.memSize + v.memSize) blk i = .ok (h i))
    (hm : ∀ i j, i < j → j < size → h i < h j) (lk : Nat) :
    ∃ blk' d x, shiftMap env k v size p ⟨blk, lk⟩ = .ok ⟨blk', lk + d⟩ ∧ blk'.length = cap * (Ty.pair k v).memSize ∧
      decN (decode (.pair k v)) (Ty.pair k v).memSize cap blk' =
        some (vs.take p ++ (x :: (vs.take size).drop p) ++ vs.drop (size + 1)) ∧
      blk'.drop ((size + 1) * (Ty.pair k v).memSize) = blk.drop ((size + 1) * (Ty.pair k v).memSize) ∧
      ((Ty.pair k v).Flat → allN (tidy (.pair k v)) (Ty.pair k v).memSize cap blk →
        d = 0 ∧ allN (tidy (.pair k v)) (Ty.pair k v).memSize cap blk') := by
  have hw : (Ty.pair k v).WF := by rw [Ty.WF]; exact ⟨hk, hv⟩
  have hc : (Ty.pair k v).Copyable := by rw [Ty.Copyable]; exact ⟨hck, hcv⟩
  have hmm : (Ty.pair k v).Movable := by rw [Ty.Movable]; exact ⟨hmk, hmv⟩
  have hki := keyIndexM_ok hh hm h2
  rw [← pair_memSize] at hki
  have hl1 : (size + 1) * (Ty.pair k v).memSize ≤ cap * (Ty.pair k v).memSize := Nat.mul_le_mul_right _ h1
  have hl2 : p * (Ty.pair k v).memSize ≤ size * (Ty.pair k v).memSize := Nat.mul_le_mul_right _ (by omega)
  have hl3 := Nat.succ_mul size (Ty.pair k v).memSize
  have hvl := decN_length h4
  -- the parts of the block
  obtain ⟨sz, hsz⟩ : ∃ s, s = (Ty.pair k v).memSize := ⟨_, rfl⟩
  have hdA := decN_take (k := p) (by omega) h3 h4
  have hdT := decN_take (k := size) (by omega) h3 h4
  have hTl : (blk.take (size * (Ty.pair k v).memSize)).length = size * (Ty.pair k v).memSize := by
    rw [List.length_take, h3]; exact Nat.min_eq_left (Nat.mul_le_mul_right _ (by omega))
  have hdX := decN_drop (k := p) (by omega) hTl hdT
  have hdZ := decN_drop (k := size + 1) (by omega) h3 h4
  obtain ⟨x0, Y, y0, w, e1, e2, e3, e4, e5⟩ := decN_slot h3 h4 (i := size) h1
  have hx0 : blk.take (size * (Ty.pair k v).memSize) = x0 := by rw [e1, List.append_assoc, List.take_left' e2]
  have hy0 : blk.drop ((size + 1) * (Ty.pair k v).memSize) = y0 := by
    rw [e1, List.drop_left' (by rw [List.length_append, e2, e3, hl3])]
  generalize hA : blk.take (p * (Ty.pair k v).memSize) = A at hdA
  generalize hX : (blk.take (size * (Ty.pair k v).memSize)).drop (p * (Ty.pair k v).memSize) = X at hdX
  rw [hy0] at hdZ
  have hAl : A.length = p * (Ty.pair k v).memSize := by
    rw [← hA, List.length_take, h3]; exact Nat.min_eq_left (Nat.mul_le_mul_right _ (by omega))
  have hXl : X.length = (size - p) * (Ty.pair k v).memSize := by
    rw [← hX, List.length_drop, hTl, Nat.sub_mul]
  have hAX : x0 = A ++ X := by
    have := (List.take_append_drop (p * (Ty.pair k v).memSize) x0).symm
    rw [this, ← hA, ← hX, hx0]
    congr 1
    rw [← hx0, List.take_take, Nat.min_eq_left hl2]
  have hblk : blk = A ++ X ++ Y ++ y0 := by rw [e1, hAX]
  have hlens : A.length + X.length + (Ty.pair k v).memSize + y0.length = cap * (Ty.pair k v).memSize := by
    rw [← h3, hblk]; simp only [List.length_append, e3]
  -- what both ways of moving do
  have main : ∃ new d x, shiftMap env k v size p ⟨blk, lk⟩ = .ok ⟨A ++ new ++ y0, lk + d⟩ ∧
      new.length = (size - p + 1) * (Ty.pair k v).memSize ∧
      decN (decode (.pair k v)) (Ty.pair k v).memSize (size - p + 1) new = some (x :: (vs.take size).drop p) ∧
      ((Ty.pair k v).Flat → allN (tidy (.pair k v)) (Ty.pair k v).memSize (size - p) X → tidy (.pair k v) Y →
        d = 0 ∧ allN (tidy (.pair k v)) (Ty.pair k v).memSize (size - p + 1) new) := by
    unfold shiftMap
    simp only [← pair_memSize]
    rw [hki]
    simp only [Except.bind]
    cases hf : (k.isConstructed || v.isConstructed) with
    | true =>
      obtain ⟨new, d, x, r1, r2, r3, r4⟩ := shift_loop hw hc hmm A (size - p) X Y y0 lk _ w hXl hdX e3 e4
      rw [← hblk, hAl] at r1
      exact ⟨new, d, x, by rw [if_pos rfl]; exact r1, r2, r3, r4⟩
    | false =>
      obtain ⟨hf1, hf2⟩ := Bool.or_eq_false_iff.mp hf
      obtain ⟨k', rfl⟩ := prim_of_not_constructed hf1
      obtain ⟨v', rfl⟩ := prim_of_not_constructed hf2
      obtain ⟨bx, hbx⟩ := decN_raw (fun cs w hd => decode_primPair_raw hd) hXl hdX
      obtain ⟨bY, hbY⟩ := decode_primPair_raw e4
      have hbxl : bx.length = (size - p) * (Ty.pair (.prim k') (.prim v')).memSize := by rw [← hXl, hbx]; simp
      have hp := peekRaw_at A (Y ++ y0) bx _ hbxl
      rw [← hbx, hAl] at hp
      have ea : A ++ X ++ (Y ++ y0) = blk := by rw [hblk]; simp only [List.append_assoc]
      rw [ea] at hp
      have hge : (Ty.pair (.prim k') (.prim v')).memSize ≤ X.length := by
        rw [hXl]; exact Nat.le_mul_of_pos_left _ (by omega)
      have hq := put_at (A ++ X.take (Ty.pair (.prim k') (.prim v')).memSize)
        (X.drop (Ty.pair (.prim k') (.prim v')).memSize ++ Y) y0 (rawCells bx) lk (by
          rw [← hbx, List.length_append, List.length_drop, e3]; omega)
      have eb : A ++ X.take (Ty.pair (.prim k') (.prim v')).memSize ++ (X.drop (Ty.pair (.prim k') (.prim v')).memSize ++ Y) ++ y0
          = blk := by
        rw [hblk]
        conv => rhs; rw [← List.take_append_drop (Ty.pair (.prim k') (.prim v')).memSize X]
        simp only [List.append_assoc]
      have ec : (A ++ X.take (Ty.pair (.prim k') (.prim v')).memSize).length =
          p * (Ty.pair (.prim k') (.prim v')).memSize + (Ty.pair (.prim k') (.prim v')).memSize := by
        rw [List.length_append, hAl, List.length_take, Nat.min_eq_left hge]
      rw [eb, ec] at hq
      have hd0 : (X.take (Ty.pair (.prim k') (.prim v')).memSize).length = 1 * (Ty.pair (.prim k') (.prim v')).memSize := by
        rw [List.length_take, Nat.min_eq_left hge, Nat.one_mul]
      have hd1 := decN_take (k := 1) (by omega) hXl hdX
      rw [Nat.one_mul] at hd1
      have hap := decN_append hd0 hd1 hdX
      have hdl := decN_length hdX
      obtain ⟨y1, hy1⟩ : ∃ y, List.take 1 ((vs.take size).drop p) = [y] := by
        cases hz : (vs.take size).drop p with
        | nil => rw [hz] at hdl; simp at hdl; omega
        | cons y ys => exact ⟨y, rfl⟩
      rw [hy1] at hap
      refine ⟨X.take (Ty.pair (.prim k') (.prim v')).memSize ++ X,
        owned (X.drop (Ty.pair (.prim k') (.prim v')).memSize ++ Y), y1, ?_, ?_, ?_, ?_⟩
      · rw [if_neg (by simp), hp]
        simp only []
        rw [hq, ← hbx]
        simp only [List.append_assoc]
      · rw [List.length_append, hd0, hXl, show size - p + 1 = 1 + (size - p) by omega, Nat.add_mul]
      · rw [show size - p + 1 = 1 + (size - p) by omega]; exact hap
      · intro _ _ _
        refine ⟨?_, allN_of_all tidy_primPair _ _ _⟩
        rw [owned_append, hbY, owned_rawCells, owned_zero_of_drop (by rw [hbx]; simp)]
  obtain ⟨new, d, x, r1, r2, r3, r4⟩ := main
  have a1 := decN_append hAl hdA r3
  have hnl : (A ++ new).length = (p + (size - p + 1)) * (Ty.pair k v).memSize := by
    rw [List.length_append, hAl, r2, ← Nat.add_mul]
  have a2 := decN_append hnl a1 hdZ
  rw [show p + (size - p + 1) + (cap - (size + 1)) = cap by omega] at a2
  refine ⟨A ++ new ++ y0, d, x, r1, ?_, a2, ?_, ?_⟩
  · rw [List.length_append, hnl, ← hlens, hAl, hXl]
    rw [show p + (size - p + 1) = p + (size - p) + 1 by omega, Nat.succ_mul, Nat.add_mul]
  · rw [hy0, List.drop_left' (by rw [hnl, show p + (size - p + 1) = size + 1 by omega])]
  · intro hF hall
    have b1 := allN_take (k := p) (by omega) hall
    rw [hA] at b1
    have b2 := allN_take (k := size) (by omega) hall
    have b3 := allN_drop (k := p) (by omega) b2
    rw [hX] at b3
    have b4 := allN_drop (k := size) (by omega) hall
    rw [show cap - size = cap - (size + 1) + 1 by omega] at b4
    have b5 := b4.1
    rw [e1, List.append_assoc, List.drop_left' e2, List.take_left' e3] at b5
    have b6 := allN_drop (k := size + 1) (by omega) hall
    rw [hy0] at b6
    obtain ⟨z1, z2⟩ := r4 hF b3 b5
    have c1 := allN_append hAl b1 z2
    have c2 := allN_append hnl c1 b6
    rw [show p + (size - p + 1) + (cap - (size + 1)) = cap by omega] at c2
    exact ⟨z1, c2⟩

/-! ## Entries in order -/

theorem takeWhile_pos {α : Type} {f : α → Bool} : (es : List α) → (p : Nat) → p ≤ es.length →
    (∀ (j : Nat) (hj : j < es.length), j < p → f es[j] = true) → (∀ (j : Nat) (hj : j < es.length), p ≤ j → f es[j] = false) →
    es.takeWhile f = es.take p ∧ es.dropWhile f = es.drop p
  | [], p, hp, _, _ => by simp at hp; subst hp; simp
  | e :: es, 0, _, _, h2 => by
    have := h2 0 (by simp) (Nat.le_refl _)
    simp only [List.getElem_cons_zero] at this
    simp [this]
  | e :: es, p + 1, hp, h1, h2 => by
    have h0 := h1 0 (by simp) (by omega)
    simp only [List.getElem_cons_zero] at h0
    obtain ⟨i1, i2⟩ := takeWhile_pos es p (by simpa using hp)
      (fun j hj hjp => by have := h1 (j + 1) (by simp; omega) (by omega); simpa using this)
      (fun j hj hjp => by have := h2 (j + 1) (by simp; omega) (by omega); simpa using this)
    simp [h0, i1, i2]

theorem ordered_lt {H : Val → BitVec 64} {es : List Val} (h : Ordered H es) {i j : Nat} (hij : i < j) (hj : j < es.length) :
    (H (keyOf (es[i]?.getD (.list [])))).toNat < (H (keyOf (es[j]?.getD (.list [])))).toNat := by
  have := List.pairwise_iff_getElem.mp h i j (by omega) hj hij
  rw [List.getElem?_eq_getElem (by omega), List.getElem?_eq_getElem hj]
  exact BitVec.lt_def.mp this

/-- Adding an entry at its place. -/
theorem addEntry_pos {H : Val → BitVec 64} {es : List Val} {e : Val} {p : Nat} (hp : p ≤ es.length)
    (h1 : ∀ j, j < p → (H (keyOf (es[j]?.getD (.list [])))).toNat < (H (keyOf e)).toNat)
    (h2 : ∀ j, p ≤ j → j < es.length → (H (keyOf e)).toNat < (H (keyOf (es[j]?.getD (.list [])))).toNat) :
    addEntry H e es = es.take p ++ e :: es.drop p ∧ entryAt H (keyOf e) es = none ∧
      entryAt H (keyOf e) (addEntry H e es) = some p ∧ (Ordered H es → Ordered H (addEntry H e es)) := by
  have hget : ∀ (j : Nat) (hj : j < es.length), es[j]?.getD (.list []) = es[j] := fun j hj => by
    rw [List.getElem?_eq_getElem hj]; rfl
  have l1 : ∀ (j : Nat) (hj : j < es.length), j < p → H (keyOf es[j]) < H (keyOf e) := fun j hj hp => by
    have := h1 j hp; rw [hget j hj] at this; exact BitVec.lt_def.mpr this
  have l2 : ∀ (j : Nat) (hj : j < es.length), p ≤ j → H (keyOf e) < H (keyOf es[j]) := fun j hj hp => by
    have := h2 j hp hj; rw [hget j hj] at this; exact BitVec.lt_def.mpr this
  obtain ⟨t1, t2⟩ := takeWhile_pos (f := fun f => decide (H (keyOf f) < H (keyOf e))) es p hp
    (fun j hj hjp => decide_eq_true (l1 j hj hjp))
    (fun j hj hjp => decide_eq_false (fun hlt => by
      have a := BitVec.lt_def.mp (l2 j hj hjp); have b := BitVec.lt_def.mp hlt; omega))
  have hadd : addEntry H e es = es.take p ++ e :: es.drop p := by unfold addEntry; rw [t1, t2]
  have hmem1 : ∀ f ∈ es.take p, H (keyOf f) < H (keyOf e) := by
    intro f hf
    obtain ⟨i, hi, rfl⟩ := List.mem_iff_getElem.mp hf
    simp only [List.length_take] at hi
    rw [List.getElem_take]
    exact l1 i (by omega) (by omega)
  have hmem2 : ∀ f ∈ es.drop p, H (keyOf e) < H (keyOf f) := by
    intro f hf
    obtain ⟨i, hi, rfl⟩ := List.mem_iff_getElem.mp hf
    simp only [List.length_drop] at hi
    rw [List.getElem_drop]
    exact l2 (p + i) (by omega) (by omega)
  refine ⟨hadd, ?_, ?_, ?_⟩
  · unfold entryAt
    rw [List.findIdx?_eq_none_iff]
    intro f hf
    rw [← List.take_append_drop p es] at hf
    rw [decide_eq_false_iff_not]
    intro heq
    rcases List.mem_append.mp hf with hf | hf
    · have := BitVec.lt_def.mp (hmem1 f hf); rw [heq] at this; omega
    · have := BitVec.lt_def.mp (hmem2 f hf); rw [heq] at this; omega
  · rw [hadd]
    unfold entryAt
    rw [List.findIdx?_append, List.findIdx?_eq_none_iff.mpr, List.findIdx?_cons]
    · simp only [decide_true, if_true]
      simp [hp]
    · intro f hf
      rw [decide_eq_false_iff_not]
      intro heq
      have := BitVec.lt_def.mp (hmem1 f hf); rw [heq] at this; omega
  · intro ho
    rw [hadd]
    unfold Ordered
    rw [List.pairwise_append]
    refine ⟨ho.sublist (List.take_sublist _ _), ?_, ?_⟩
    · rw [List.pairwise_cons]
      exact ⟨hmem2, ho.sublist (List.drop_sublist _ _)⟩
    · intro a ha b hb
      rcases List.mem_cons.mp hb with rfl | hb
      · exact hmem1 a ha
      · have x1 := BitVec.lt_def.mp (hmem1 a ha)
        have x2 := BitVec.lt_def.mp (hmem2 b hb)
        exact BitVec.lt_def.mpr (by omega)

/-- Finding an entry at its place. -/
theorem entryAt_pos {H : Val → BitVec 64} {es : List Val} {u : Val} {p : Nat} (ho : Ordered H es) (hp : p < es.length)
    (h : (H (keyOf (es[p]?.getD (.list [])))).toNat = (H u).toNat) : entryAt H u es = some p := by
  unfold entryAt
  rw [List.findIdx?_eq_some_iff_getElem]
  have he : H (keyOf es[p]) = H u := by
    rw [List.getElem?_eq_getElem hp] at h
    exact BitVec.eq_of_toNat_eq h
  refine ⟨hp, decide_eq_true he, fun j hj => ?_⟩
  rw [Bool.not_eq_true, decide_eq_false_iff_not]
  intro hx
  have := ordered_lt ho hj hp
  rw [List.getElem?_eq_getElem (by omega), List.getElem?_eq_getElem hp] at this
  simp only [Option.getD_some] at this
  rw [hx, he] at this
  omega

/-! ## Inserting -/

/-- Putting a new entry into a block with room for it. -/
theorem place_ok {env : HashEnv} {k v : Ty} {H : Val → BitVec 64} (hkh : Hashable k) (hk : k.WF) (hv : v.WF) (hck : k.Copyable)
    (hcv : v.Copyable) (hmk : k.Movable) (hmv : v.Movable) (hH : HashOf env k H) {x post : List Cell} {u : Val}
    (hx : decode k x = some u) (hsel : u.Selected) {size cap : Nat} {blk : List Cell} {vs : List Val} (h1 : size < cap)
    (h3 : blk.length = cap * (Ty.pair k v).memSize)
    (h4 : decN (decode (.pair k v)) (Ty.pair k v).memSize cap blk = some vs) (ho : Ordered H (vs.take size))
    (hn : entryAt H u (vs.take size) = none) :
    ∃ m p m1 blk' vs' d, createPlaceM env k v size ((instHash env k (x ++ post) 0).map BitVec.toNat) ⟨blk, 0⟩ = .ok (m, p) ∧
      copy k (x ++ post) 0 (p * (k.memSize + v.memSize)) m = .ok m1 ∧
      construct v (p * (k.memSize + v.memSize) + k.memSize) m1 = .ok ⟨blk', d⟩ ∧
      blk'.length = cap * (Ty.pair k v).memSize ∧
      decN (decode (.pair k v)) (Ty.pair k v).memSize cap blk' = some vs' ∧
      vs'.take (size + 1) = addEntry H (.list [u, defVal v]) (vs.take size) ∧
      entryAt H u (addEntry H (.list [u, defVal v]) (vs.take size)) = some p ∧
      Ordered H (addEntry H (.list [u, defVal v]) (vs.take size)) ∧
      ((Ty.pair k v).Flat → allN (tidy (.pair k v)) (Ty.pair k v).memSize cap blk →
        d = 0 ∧ allN (tidy (.pair k v)) (Ty.pair k v).memSize cap blk') := by
  have hw : (Ty.pair k v).WF := by rw [Ty.WF]; exact ⟨hk, hv⟩
  have hvl := decN_length h4
  have hlen : (vs.take size).length = size := by rw [List.length_take]; omega
  have hu : (instHash env k (x ++ post) 0).map BitVec.toNat = .ok (H u).toNat := by
    have := hashOf_at hkh hk hH (pre := []) (post := post) hx
    simp only [List.nil_append, List.length_nil] at this
    rw [this]; rfl
  have hh : ∀ i, i < size → slotHash env k (k.memSize + v.memSize) blk i =
      .ok (H (keyOf ((vs.take size)[i]?.getD (.list [])))).toNat := by
    intro i hi
    rw [slotHash_ok hkh hk hH h3 h4 (by omega), List.getElem?_take_of_lt hi]
  have hm : ∀ i j, i < j → j < size → (H (keyOf ((vs.take size)[i]?.getD (.list [])))).toNat <
      (H (keyOf ((vs.take size)[j]?.getD (.list [])))).toNat := fun i j hij hj => ordered_lt ho hij (by omega)
  have hfp := findPlaceM_spec (x := (H u).toNat) hh hm
  rcases hfp with ⟨p, p1, p2, p3⟩ | ⟨p, p1, p2, p3, p4⟩
  · rw [entryAt_pos ho (by omega) p2] at hn; cases hn
  obtain ⟨a1, a2, a3, a4⟩ := addEntry_pos (e := .list [u, defVal v]) (es := vs.take size) (H := H) (p := p) (by omega) p2
    (fun j hj hj2 => p3 j hj (by omega))
  simp only [keyOf] at a2 a3
  have hmake := makes_pair (copy_ok k hk hck x u hx hsel [] post) (construct_ok v hv)
  rw [← pair_memSize, ← decode_pair, ← tidy_pair] at hmake
  simp only [List.nil_append, List.length_nil] at hmake
  have hct : (Ty.pair k v).Flat → k.Tight ∧ True := fun hF => by
    rw [Ty.Flat] at hF; exact ⟨flat_tight k hF.1, trivial⟩
  by_cases hp : p = size
  · subst hp
    obtain ⟨blk', d, s1, s2, s3, s4, s5⟩ := slot_set hmake h1 h3 h4 0
    rw [Nat.zero_add, pair_memSize] at s1
    cases hc : copy k (x ++ post) 0 (p * (k.memSize + v.memSize)) ⟨blk, 0⟩ with
    | error e => rw [hc] at s1; cases s1
    | ok m1 =>
      rw [hc] at s1
      refine ⟨⟨blk, 0⟩, p, m1, blk', vs.set p (.list [u, defVal v]), d, ?_, hc, s1, s2, s3, ?_, a3, a4 ho, ?_⟩
      · unfold createPlaceM
        simp only []
        rw [hu, p4 false]
        simp only [Bool.false_eq_true, if_false, Except.bind]
        rw [if_pos (.inr trivial)]
        simp only [if_true]
        rw [if_neg (fun h => h rfl)]
        rfl
      · rw [a1, List.drop_eq_nil_of_le (by omega), List.take_of_length_le (l := vs.take p) (by omega)]
        rw [List.set_eq_take_append_cons_drop, if_pos (by omega)]
        rw [show vs.take p ++ .list [u, defVal v] :: vs.drop (p + 1) = (vs.take p ++ [.list [u, defVal v]]) ++ vs.drop (p + 1) by simp]
        rw [List.take_left' (by simp; omega)]
      · intro hF hA
        refine s5 (hct hF) hA ?_
        have := owned_rows (flat_owned _ hF hw) cap blk vs h3 h4 hA
        exact owned_zero_of_take (owned_zero_of_drop this)
  · obtain ⟨b1, d1, y, t1, t2, t3, t4, t5⟩ := shiftMap_ok hk hv hck hcv hmk hmv h1 (show p < size by omega) h3 h4 hh hm 0
    obtain ⟨blk', d, s1, s2, s3, s4, s5⟩ := slot_set hmake (show p < cap by omega) t2 t3 (0 + d1)
    rw [pair_memSize] at s1
    cases hc : copy k (x ++ post) 0 (p * (k.memSize + v.memSize)) ⟨b1, 0 + d1⟩ with
    | error e => rw [hc] at s1; cases s1
    | ok m1 =>
      rw [hc] at s1
      refine ⟨⟨b1, 0 + d1⟩, p, m1, blk', _, 0 + d1 + d, ?_, hc, s1, s2, s3, ?_, a3, a4 ho, ?_⟩
      · unfold createPlaceM
        simp only []
        rw [hu, p4 false]
        simp only [Bool.false_eq_true, if_false, Except.bind]
        rw [if_neg (by omega), hh p (by omega)]
        simp only [Except.map]
        rw [decide_eq_true (by have := p3 p (Nat.le_refl _) (by omega); omega)]
        simp only [if_true]
        rw [if_pos hp, t1]
      · rw [a1, List.append_assoc, List.set_append_right _ _ (by simp)]
        rw [show p - (vs.take p).length = 0 by simp; omega]
        simp only [List.cons_append, List.set_cons_zero]
        rw [← List.cons_append, ← List.append_assoc, List.take_left' (by simp; omega), List.take_take, Nat.min_eq_left p1]
      · intro hF hA
        obtain ⟨z1, z2⟩ := t5 hF hA
        have := owned_rows (flat_owned _ hF hw) cap b1 _ t2 t3 z2
        obtain ⟨w1, w2⟩ := s5 (hct hF) z2 (owned_zero_of_take (owned_zero_of_drop this))
        exact ⟨by omega, w2⟩

theorem insertMap_ok {env : HashEnv} {k v : Ty} {H : Val → BitVec 64} (hkh : Hashable k) (hk : k.WF) (hv : v.WF) (hck : k.Copyable)
    (hcv : v.Copyable) (hmk : k.Movable) (hmv : v.Movable) (hH : HashOf env k H) {x post : List Cell} {u : Val}
    (hx : decode k x = some u) (hsel : u.Selected) {b size cap : Nat} {blk : List Cell} {vs : List Val} (h1 : size ≤ cap)
    (h2 : b > 0 → cap ≤ b) (h3 : blk.length = cap * (Ty.pair k v).memSize)
    (h4 : decN (decode (.pair k v)) (Ty.pair k v).memSize cap blk = some vs) (ho : Ordered H (vs.take size))
    (hn : entryAt H u (vs.take size) = none) (hb : b = 0 ∨ size < b) :
    ∃ cap' blk' vs' p d, insertMap env (x ++ post) k v b ⟨.pair k v, size, cap, blk⟩ =
        .ok (⟨.pair k v, size + 1, cap', blk'⟩, p, d) ∧ size + 1 ≤ cap' ∧ (b > 0 → cap' ≤ b) ∧
      blk'.length = cap' * (Ty.pair k v).memSize ∧
      decN (decode (.pair k v)) (Ty.pair k v).memSize cap' blk' = some vs' ∧
      vs'.take (size + 1) = addEntry H (.list [u, defVal v]) (vs.take size) ∧
      entryAt H u (addEntry H (.list [u, defVal v]) (vs.take size)) = some p ∧
      Ordered H (addEntry H (.list [u, defVal v]) (vs.take size)) ∧
      ((Ty.pair k v).Flat → allN (tidy (.pair k v)) (Ty.pair k v).memSize cap blk →
        d = 0 ∧ allN (tidy (.pair k v)) (Ty.pair k v).memSize cap' blk') := by
  have hvl := decN_length h4
  have hlen : (vs.take size).length = size := by rw [List.length_take]; omega
  unfold insertMap
  simp only []
  by_cases hfull : cap = 0 ∨ size = cap
  · rw [if_pos hfull]
    have hb1 : size < boundedCap (if cap > 0 then cap * 2 else 1) b := by
      unfold boundedCap
      split <;> split <;> omega
    have hb2 : b > 0 → boundedCap (if cap > 0 then cap * 2 else 1) b ≤ b := by
      intro h0; unfold boundedCap; rw [if_neg (by omega)]; omega
    generalize boundedCap (if cap > 0 then cap * 2 else 1) b = cap' at *
    have hh : ∀ i, i < size → slotHash env k (k.memSize + v.memSize) blk i =
        .ok (H (keyOf ((vs.take size)[i]?.getD (.list [])))).toNat := by
      intro i hi
      rw [slotHash_ok hkh hk hH h3 h4 (by omega), List.getElem?_take_of_lt hi]
    have hm : ∀ i j, i < j → j < size → (H (keyOf ((vs.take size)[i]?.getD (.list [])))).toNat <
        (H (keyOf ((vs.take size)[j]?.getD (.list [])))).toNat := fun i j hij hj => ordered_lt ho hij (by omega)
    obtain ⟨blk1, lk, r1, r2, r3, r4⟩ := reallocMap_ok hk hv hck hcv hmk hmv h1 (show size ≤ cap' by omega) h3 h4 hh hm (by omega)
    rw [r1]
    simp only [Except.bind]
    have ht : (vs.take size ++ List.replicate (cap' - size) (defVal (.pair k v))).take size = vs.take size :=
      List.take_left' hlen
    obtain ⟨m, p, m1, blk', vs', d, s1, s2, s3, s4, s5, s6, s7, s8, s9⟩ := place_ok (post := post) hkh hk hv hck hcv hmk hmv hH hx hsel hb1
      r2 r3 (by rw [ht]; exact ho) (by rw [ht]; exact hn)
    rw [s1]
    simp only []
    rw [s2]
    simp only []
    rw [s3]
    rw [ht] at s6 s7 s8
    refine ⟨cap', blk', vs', p, lk + d, rfl, by omega, hb2, s4, s5, s6, s7, s8, ?_⟩
    intro hF hA
    obtain ⟨z1, z2, z3⟩ := r4 (flat_light _ hF) (flat_tight _ hF) hA
    obtain ⟨w1, w2⟩ := s9 hF z2
    exact ⟨by omega, w2⟩
  · rw [if_neg hfull]
    simp only [Except.bind]
    obtain ⟨m, p, m1, blk', vs', d, s1, s2, s3, s4, s5, s6, s7, s8, s9⟩ := place_ok (post := post) hkh hk hv hck hcv hmk hmv hH hx hsel
      (show size < cap by omega) h3 h4 ho hn
    rw [s1]
    simp only []
    rw [s2]
    simp only []
    rw [s3]
    refine ⟨cap, blk', vs', p, 0 + d, rfl, by omega, h2, s4, s5, s6, s7, s8, ?_⟩
    intro hF hA
    obtain ⟨w1, w2⟩ := s9 hF hA
    exact ⟨by omega, w2⟩

/-- A key that is in a block already is refused. -/
theorem insertMap_present {env : HashEnv} {k v : Ty} {H : Val → BitVec 64} (hkh : Hashable k) (hk : k.WF) (hv : v.WF) (hck : k.Copyable)
    (hcv : v.Copyable) (hmk : k.Movable) (hmv : v.Movable) (hH : HashOf env k H) {x post : List Cell} {u : Val}
    (hx : decode k x = some u) {b size cap i : Nat} {blk : List Cell} {vs : List Val} (h1 : size ≤ cap)
    (h3 : blk.length = cap * (Ty.pair k v).memSize)
    (h4 : decN (decode (.pair k v)) (Ty.pair k v).memSize cap blk = some vs) (ho : Ordered H (vs.take size))
    (hn : entryAt H u (vs.take size) = some i) (hb : b = 0 ∨ size < b) :
    insertMap env (x ++ post) k v b ⟨.pair k v, size, cap, blk⟩ = .error .refused := by
  have hvl := decN_length h4
  have hlen : (vs.take size).length = size := by rw [List.length_take]; omega
  obtain ⟨i1, i2, i3⟩ := List.findIdx?_eq_some_iff_getElem.mp hn
  have hi : i < size := by omega
  have i2 := of_decide_eq_true i2
  have hu : (instHash env k (x ++ post) 0).map BitVec.toNat = .ok (H u).toNat := by
    have := hashOf_at hkh hk hH (pre := []) (post := post) hx
    simp only [List.nil_append, List.length_nil] at this
    rw [this]; rfl
  have hm : ∀ i j, i < j → j < size → (H (keyOf ((vs.take size)[i]?.getD (.list [])))).toNat <
      (H (keyOf ((vs.take size)[j]?.getD (.list [])))).toNat := fun i j hij hj => ordered_lt ho hij (by omega)
  have hi2 : (H (keyOf ((vs.take size)[i]?.getD (.list [])))).toNat = (H u).toNat := by
    rw [List.getElem?_eq_getElem i1, Option.getD_some, i2]
  have key : ∀ (cap' : Nat) (blk' : List Cell) (vs' : List Val), size ≤ cap' → blk'.length = cap' * (Ty.pair k v).memSize →
      decN (decode (.pair k v)) (Ty.pair k v).memSize cap' blk' = some vs' → vs'.take size = vs.take size →
      createPlaceM env k v size (.ok (H u).toNat) ⟨blk', 0⟩ = .error .refused := by
    intro cap' blk' vs' g1 g3 g4 g5
    have hh : ∀ i, i < size → slotHash env k (k.memSize + v.memSize) blk' i =
        .ok (H (keyOf ((vs.take size)[i]?.getD (.list [])))).toNat := by
      intro i hi
      rw [slotHash_ok hkh hk hH g3 g4 (by omega), ← g5, List.getElem?_take_of_lt hi]
    rcases findPlaceM_spec (x := (H u).toNat) hh hm with ⟨p, p1, p2, p3⟩ | ⟨p, p1, p2, p3, p4⟩
    · unfold createPlaceM
      simp only []
      rw [p3]
      simp only [Except.bind]
      rw [if_neg (by omega), hh p p1]
      simp only [Except.map]
      rw [decide_eq_false (fun hne => hne p2.symm)]
      simp
    · rcases Nat.lt_or_ge i p with h5 | h5
      · have := p2 i h5; omega
      · have := p3 i h5 hi; omega
  unfold insertMap
  simp only []
  by_cases hfull : cap = 0 ∨ size = cap
  · rw [if_pos hfull]
    have hb1 : size < boundedCap (if cap > 0 then cap * 2 else 1) b := by
      unfold boundedCap
      split <;> split <;> omega
    generalize boundedCap (if cap > 0 then cap * 2 else 1) b = cap' at *
    have hh : ∀ i, i < size → slotHash env k (k.memSize + v.memSize) blk i =
        .ok (H (keyOf ((vs.take size)[i]?.getD (.list [])))).toNat := by
      intro i hi
      rw [slotHash_ok hkh hk hH h3 h4 (by omega), List.getElem?_take_of_lt hi]
    obtain ⟨blk1, lk, r1, r2, r3, r4⟩ := reallocMap_ok hk hv hck hcv hmk hmv h1 (show size ≤ cap' by omega) h3 h4 hh hm (by omega)
    rw [r1, hu]
    simp only [Except.bind]
    rw [key cap' blk1 _ (by omega) r2 r3 (List.take_left' hlen)]
  · rw [if_neg hfull, hu]
    simp only [Except.bind]
    rw [key cap blk vs h1 h3 h4 rfl]

/-! ## Access by key -/

/-- Get the entry of the key `u`, making one with the default value if there is none and there is room, and go on with
`g` at its position. Nothing is said about a map that is not in order. -/
def keySpec (H : Val → BitVec 64) (u : Val) (v : Ty) (b : Nat) (g : Nat → Val → Out) : Val → Out
  | .coll es =>
    if Ordered H es then
      match entryAt H u es with
      | some i => g i (.coll es)
      | none =>
        if b = 0 ∨ es.length < b then
          match entryAt H u (addEntry H (.list [u, defVal v]) es) with
          | some i => g i (.coll (addEntry H (.list [u, defVal v]) es))
          | none => .undef
        else .refused
    else .undef
  | _ => .undef

theorem map_decode {k v : Ty} {b : Nat} {cs : List Cell} {z : Val} :
    decode (.map k v b) cs = some z ↔ ∃ size cap blk vs, z = .coll (vs.take size) ∧ size ≤ cap ∧
      (b > 0 → cap ≤ b) ∧ blk.length = cap * (Ty.pair k v).memSize ∧
      decN (decode (.pair k v)) (Ty.pair k v).memSize cap blk = some vs ∧
      cs = objCells (.coll true (.pair k v) size cap blk) seqSize := by
  rw [decode, decode_pair, pair_memSize]; exact decColl_iff

theorem map_tidy {k v : Ty} {b size cap : Nat} {blk : List Cell} :
    tidy (.map k v b) (objCells (.coll true (.pair k v) size cap blk) seqSize) ↔
      allN (tidy (.pair k v)) (Ty.pair k v).memSize cap blk ∧
        (k.Light ∧ v.Light → owned (blk.drop (size * (Ty.pair k v).memSize)) = 0) := by
  rw [tidy, tidy_pair, pair_memSize]; rfl

/-- What looking for a key finds. -/
theorem findKey_ok {env : HashEnv} {k v : Ty} {H : Val → BitVec 64} {b : Nat} (hkh : Hashable k) (hk : k.WF) (hH : HashOf env k H)
    {x post : List Cell} {u : Val} (hx : decode k x = some u) {cs : List Cell} {es : List Val}
    (hd : decode (.map k v b) cs = some (.coll es)) (ho : Ordered H es) (pre suf : List Cell) :
    findKey env (x ++ post) k v (pre ++ cs ++ suf) pre.length = .ok (entryAt H u es) := by
  obtain ⟨size, cap, blk, vs, he, h1, h2, h3, h4, rfl⟩ := map_decode.mp hd
  have he : es = vs.take size := by simpa using he
  subst he
  have hvl := decN_length h4
  have hlen : (vs.take size).length = size := by rw [List.length_take]; omega
  have hu : (instHash env k (x ++ post) 0).map BitVec.toNat = .ok (H u).toNat := by
    have := hashOf_at hkh hk hH (pre := []) (post := post) hx
    simp only [List.nil_append, List.length_nil] at this
    rw [this]; rfl
  have hh : ∀ i, i < size → slotHash env k (k.memSize + v.memSize) blk i =
      .ok (H (keyOf ((vs.take size)[i]?.getD (.list [])))).toNat := by
    intro i hi
    rw [slotHash_ok hkh hk hH h3 h4 (by omega), List.getElem?_take_of_lt hi]
  have hm : ∀ i j, i < j → j < size → (H (keyOf ((vs.take size)[i]?.getD (.list [])))).toNat <
      (H (keyOf ((vs.take size)[j]?.getD (.list [])))).toNat := fun i j hij hj => ordered_lt ho hij (by omega)
  unfold findKey
  rw [peekColl_at]
  simp only [Except.bind, if_true]
  rw [hu]
  rcases findPlaceM_spec (x := (H u).toNat) hh hm with ⟨p, p1, p2, p3⟩ | ⟨p, p1, p2, p3, p4⟩
  · rw [p3, entryAt_pos ho (by omega) p2]
  · have := (addEntry_pos (e := .list [u]) (es := vs.take size) (H := H) (p := p) (by omega) p2
      (fun j hj hj2 => p3 j hj (by omega))).2.1
    simp only [keyOf] at this
    rw [p4, this]; rfl

/-- `operator[](key)` and what is done with its result. -/
theorem key_edits {env : HashEnv} {k v : Ty} {H : Val → BitVec 64} {b : Nat} (hkh : Hashable k) (hk : k.WF) (hv : v.WF)
    (hck : k.Copyable) (hcv : v.Copyable) (hmk : k.Movable) (hmv : v.Movable) (hH : HashOf env k H) {x post : List Cell} {u : Val}
    (hx : decode k x = some u) (hsel : u.Selected) {cl : Prop} (hcl : cl → (Ty.pair k v).Flat) {F : Nat → Nat → Mem → M Mem}
    {g : Nat → Val → Out} (hF : ∀ i, EditsTo (decode (.map k v b)) (tidy (.map k v b)) cl (F i) (g i)) :
    EditsTo (decode (.map k v b)) (tidy (.map k v b)) cl
      (fun a m => (mapSlot env (x ++ post) (.map k v b) a m).bind fun r => F r.2 a r.1) (keySpec H u v b g) := by
  refine editsTo_iff.mpr ?_
  intro pre old suf lk z hz
  have hz' := hz
  obtain ⟨size, cap, blk, vs, rfl, h1, h2, h3, h4, rfl⟩ := map_decode.mp hz
  have hvl := decN_length h4
  have hlen : (vs.take size).length = size := by rw [List.length_take]; omega
  by_cases ho : Ordered H (vs.take size)
  · have hfk := findKey_ok (post := post) hkh hk hH hx hz' ho pre suf
    simp only [mapSlot, keySpec, if_pos ho]
    rw [hfk]
    cases hent : entryAt H u (vs.take size) with
    | some i => exact editsTo_iff.mp (hF i) pre _ suf lk _ hz'
    | none =>
      simp only [Except.bind, insertInstanceM]
      rw [peekColl_at]
      simp only [if_true, hlen]
      by_cases hb : b = 0 ∨ size < b
      · rw [if_pos hb, if_pos (show size < b ∨ b = 0 by omega)]
        obtain ⟨cap', blk', vs', p, d, r1, r2, r3, r4, r5, r6, r7, r8, r9⟩ := insertMap_ok (post := post) hkh hk hv hck hcv hmk hmv
          hH hx hsel h1 h2 h3 h4 ho hent hb
        rw [r1]
        simp only []
        rw [setColl_at, r7]
        simp only [Except.map]
        have hnew : decode (.map k v b) (objCells (.coll true (.pair k v) (size + 1) cap' blk') seqSize) =
            some (.coll (addEntry H (.list [u, defVal v]) (vs.take size))) :=
          map_decode.mpr ⟨size + 1, cap', blk', vs', by rw [r6], r2, r3, r4, r5, rfl⟩
        obtain ⟨f1, f2⟩ := editsTo_iff.mp (hF p) pre _ suf (lk + d) _ hnew
        refine ⟨f1, fun w hw => ?_⟩
        obtain ⟨new, d', g1, g2, g3, g4⟩ := f2 w hw
        refine ⟨new, d + d', by rw [g1, Nat.add_assoc], ?_, g3, ?_⟩
        · rw [g2]; simp [objCells_length, seqSize]
        · intro hc ht
          obtain ⟨t1, t2⟩ := map_tidy.mp ht
          have hFl := hcl hc
          obtain ⟨y1, y2⟩ := r9 hFl t1
          have hw : (Ty.pair k v).WF := by rw [Ty.WF]; exact ⟨hk, hv⟩
          obtain ⟨y3, y4⟩ := g4 hc (map_tidy.mpr ⟨y2, fun _ => owned_zero_of_drop
            (owned_rows (flat_owned _ hFl hw) cap' blk' vs' r4 r5 y2)⟩)
          exact ⟨by omega, y4⟩
      · rw [if_neg hb, if_neg (show ¬ (size < b ∨ b = 0) by omega)]
        exact ⟨fun _ => rfl, fun w h => by cases h⟩
  · simp only [keySpec, if_neg ho]
    exact ⟨fun h => (by cases h), fun w h => by cases h⟩

/-- `insert(pair)`. -/
theorem insert_edits {env : HashEnv} {k v : Ty} {H : Val → BitVec 64} {b : Nat} (hkh : Hashable k) (hk : k.WF) (hv : v.WF)
    (hck : k.Copyable) (hcv : v.Copyable) (hmk : k.Movable) (hmv : v.Movable) (hH : HashOf env k H) {x post : List Cell} {u : Val}
    (hx : decode k x = some u) (hsel : u.Selected) {S : Ty} (hS : compat (.pair k v) S = Cons.equals) :
    EditsTo (decode (.map k v b)) (tidy (.map k v b)) (Ty.pair k v).Flat
      (fun a m => (mapInsert env S (x ++ post) (.map k v b) a m).map (·.1)) (fun z => match z with
        | .coll es =>
          if Ordered H es then
            if b = 0 ∨ es.length < b then
              if entryAt H u es = none then .ok (.coll (addEntry H (.list [u, defVal v]) es)) else .refused
            else .ok (.coll es)
          else .undef
        | _ => .undef) := by
  refine editsTo_iff.mpr ?_
  intro pre old suf lk z hz
  have hz' := hz
  obtain ⟨size, cap, blk, vs, rfl, h1, h2, h3, h4, rfl⟩ := map_decode.mp hz
  have hvl := decN_length h4
  have hlen : (vs.take size).length = size := by rw [List.length_take]; omega
  by_cases ho : Ordered H (vs.take size)
  · simp only [mapInsert, if_pos ho, if_pos hS, insertInstanceM]
    rw [peekColl_at]
    simp only [if_true, hlen, Except.bind]
    by_cases hb : b = 0 ∨ size < b
    · rw [if_pos hb, if_pos (show size < b ∨ b = 0 by omega)]
      cases hent : entryAt H u (vs.take size) with
      | some i =>
        rw [insertMap_present hkh hk hv hck hcv hmk hmv hH hx h1 h3 h4 ho hent hb]
        exact ⟨fun _ => rfl, fun w h => by simp at h⟩
      | none =>
        obtain ⟨cap', blk', vs', p, d, r1, r2, r3, r4, r5, r6, r7, r8, r9⟩ := insertMap_ok (post := post) hkh hk hv hck hcv hmk hmv
          hH hx hsel h1 h2 h3 h4 ho hent hb
        rw [r1]
        simp only []
        rw [setColl_at]
        simp only [Except.map, if_true]
        refine ⟨fun h => (by cases h), fun w hw => ?_⟩
        cases hw
        refine ⟨_, d, rfl, by simp [objCells_length, seqSize], map_decode.mpr ⟨size + 1, cap', blk', vs', by rw [r6], r2, r3, r4, r5, rfl⟩, ?_⟩
        intro hFl ht
        obtain ⟨t1, t2⟩ := map_tidy.mp ht
        obtain ⟨y1, y2⟩ := r9 hFl t1
        have hw : (Ty.pair k v).WF := by rw [Ty.WF]; exact ⟨hk, hv⟩
        exact ⟨y1, map_tidy.mpr ⟨y2, fun _ => owned_zero_of_drop (owned_rows (flat_owned _ hFl hw) cap' blk' vs' r4 r5 y2)⟩⟩
    · rw [if_neg hb, if_neg (show ¬ (size < b ∨ b = 0) by omega)]
      refine ⟨fun h => (by cases h), fun w hw => ?_⟩
      cases hw
      exact ⟨_, 0, rfl, rfl, hz', fun _ ht => ⟨rfl, ht⟩⟩
  · simp only [if_neg ho]
    exact ⟨fun h => (by cases h), fun w h => by cases h⟩

end Verif.Inst
