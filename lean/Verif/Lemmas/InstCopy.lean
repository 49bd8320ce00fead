import Verif.Lemmas.InstMake
/-! # Copies and conversions -/

namespace Verif.Inst

/-! ## Consecutive instances -/

theorem decN_append {dec : List Cell → Option Val} {s : Nat} : {a b : Nat} → {x y : List Cell} →
    {vs ws : List Val} → x.length = a * s → decN dec s a x = some vs → decN dec s b y = some ws →
    decN dec s (a + b) (x ++ y) = some (vs ++ ws)
  | 0, b, x, y, vs, ws, hl, h1, h2 => by
    simp at hl; subst hl
    simp [decN] at h1; subst h1
    simpa using h2
  | a + 1, b, x, y, vs, ws, hl, h1, h2 => by
    rw [Nat.succ_mul] at hl
    rw [decN] at h1
    cases e1 : dec (x.take s) with
    | none => rw [e1] at h1; cases h1
    | some v =>
      rw [e1] at h1
      cases e2 : decN dec s a (x.drop s) with
      | none => rw [e2] at h1; cases h1
      | some us =>
        rw [e2] at h1; cases h1
        rw [show a + 1 + b = (a + b) + 1 by omega, decN]
        rw [List.take_append_of_le_length (by omega), e1, List.drop_append_of_le_length (by omega),
          decN_append (by simp; omega) e2 h2]
        rfl

theorem allN_append {p : List Cell → Prop} {s : Nat} : {a b : Nat} → {x y : List Cell} →
    x.length = a * s → allN p s a x → allN p s b y → allN p s (a + b) (x ++ y)
  | 0, b, x, y, hl, h1, h2 => by
    simp at hl; subst hl; simpa using h2
  | a + 1, b, x, y, hl, h1, h2 => by
    rw [Nat.succ_mul] at hl
    rw [show a + 1 + b = (a + b) + 1 by omega, allN]
    rw [List.take_append_of_le_length (by omega), List.drop_append_of_le_length (by omega)]
    exact ⟨h1.1, allN_append (by simp; omega) h1.2 h2⟩

/-- The first `k` of `n` instances. -/
theorem decN_take {dec : List Cell → Option Val} {s : Nat} : {n k : Nat} → {x : List Cell} → {vs : List Val} →
    k ≤ n → x.length = n * s → decN dec s n x = some vs → decN dec s k (x.take (k * s)) = some (vs.take k)
  | _, 0, _, _, _, _, _ => by simp [decN]
  | 0, k + 1, _, _, h, _, _ => by omega
  | n + 1, k + 1, x, vs, h, hl, hd => by
    rw [Nat.succ_mul] at hl
    rw [decN] at hd
    cases e1 : dec (x.take s) with
    | none => rw [e1] at hd; cases hd
    | some v =>
      rw [e1] at hd
      cases e2 : decN dec s n (x.drop s) with
      | none => rw [e2] at hd; cases hd
      | some us =>
        rw [e2] at hd; cases hd
        have := decN_take (k := k) (by omega) (by simp; omega) e2
        rw [decN, Nat.succ_mul, List.take_take, Nat.min_eq_left (by omega), e1]
        rw [show k * s + s = s + k * s by omega, List.drop_take, show s + k * s - s = k * s by omega, this]
        simp

/-- The rest of them. -/
theorem decN_drop {dec : List Cell → Option Val} {s : Nat} : {n k : Nat} → {x : List Cell} → {vs : List Val} →
    k ≤ n → x.length = n * s → decN dec s n x = some vs → decN dec s (n - k) (x.drop (k * s)) = some (vs.drop k)
  | _, 0, _, _, _, _, h => by simpa using h
  | 0, k + 1, _, _, h, _, _ => by omega
  | n + 1, k + 1, x, vs, h, hl, hd => by
    rw [Nat.succ_mul] at hl
    rw [decN] at hd
    cases e1 : dec (x.take s) with
    | none => rw [e1] at hd; cases hd
    | some v =>
      rw [e1] at hd
      cases e2 : decN dec s n (x.drop s) with
      | none => rw [e2] at hd; cases hd
      | some us =>
        rw [e2] at hd; cases hd
        have := decN_drop (k := k) (by omega) (by simp; omega) e2
        rw [show n + 1 - (k + 1) = n - k by omega, Nat.succ_mul, show k * s + s = s + k * s by omega,
          ← List.drop_drop, this]
        simp

theorem allN_drop {p : List Cell → Prop} {s : Nat} : {n k : Nat} → {x : List Cell} →
    k ≤ n → allN p s n x → allN p s (n - k) (x.drop (k * s))
  | _, 0, _, _, h => by simpa using h
  | 0, k + 1, _, h, _ => by omega
  | n + 1, k + 1, x, h, hd => by
    have := allN_drop (k := k) (by omega) hd.2
    rw [show n + 1 - (k + 1) = n - k by omega, Nat.succ_mul, show k * s + s = s + k * s by omega,
      ← List.drop_drop]
    exact this

theorem allN_take {p : List Cell → Prop} {s : Nat} : {n k : Nat} → {x : List Cell} →
    k ≤ n → allN p s n x → allN p s k (x.take (k * s))
  | _, 0, _, _, _ => trivial
  | 0, k + 1, _, h, _ => by omega
  | n + 1, k + 1, x, h, hd => by
    have := allN_take (k := k) (by omega) hd.2
    rw [allN, Nat.succ_mul, List.take_take, Nat.min_eq_left (by omega)]
    refine ⟨hd.1, ?_⟩
    rw [show k * s + s = s + k * s by omega, List.drop_take, show s + k * s - s = k * s by omega]
    exact this

/-- Instance number `i` and what is around it. -/
theorem decN_slot {dec : List Cell → Option Val} {s n : Nat} {x : List Cell} {vs : List Val}
    (hl : x.length = n * s) (hd : decN dec s n x = some vs) {i : Nat} (hi : i < n) :
    ∃ a b c v, x = a ++ b ++ c ∧ a.length = i * s ∧ b.length = s ∧ dec b = some v ∧ vs[i]? = some v := by
  have h1 := decN_drop (k := i) (by omega) hl hd
  rw [show n - i = (n - i - 1) + 1 by omega, decN] at h1
  have hm : (i + 1) * s ≤ n * s := Nat.mul_le_mul_right _ (by omega)
  rw [Nat.succ_mul] at hm
  cases e1 : dec ((x.drop (i * s)).take s) with
  | none => rw [e1] at h1; cases h1
  | some v =>
    rw [e1] at h1
    cases e2 : decN dec s (n - i - 1) ((x.drop (i * s)).drop s) with
    | none => rw [e2] at h1; cases h1
    | some us =>
      rw [e2] at h1
      simp only [Option.bind, Option.map, Option.some.injEq] at h1
      refine ⟨x.take (i * s), (x.drop (i * s)).take s, (x.drop (i * s)).drop s, v, ?_, ?_, ?_, e1, ?_⟩
      · rw [List.append_assoc, List.take_append_drop, List.take_append_drop]
      · simp; omega
      · simp; omega
      · have : (vs.drop i)[0]? = some v := by rw [← h1]; rfl
        simpa using this

theorem decN_map {d e : List Cell → Option Val} {f : Val → Val} {s : Nat} (h : ∀ cs v, d cs = some v → e cs = some (f v)) :
    {n : Nat} → {x : List Cell} → {vs : List Val} → decN d s n x = some vs → decN e s n x = some (vs.map f)
  | 0, _, _, hd => by simp [decN] at hd; subst hd; rfl
  | n + 1, x, vs, hd => by
    rw [decN] at hd
    cases e1 : d (x.take s) with
    | none => rw [e1] at hd; cases hd
    | some v =>
      rw [e1] at hd
      cases e2 : decN d s n (x.drop s) with
      | none => rw [e2] at hd; cases hd
      | some us =>
        rw [e2] at hd; cases hd
        rw [decN, h _ _ e1, decN_map h e2]; rfl

theorem decN_raw {d : List Cell → Option Val} {s : Nat} (h : ∀ cs v, d cs = some v → ∃ bs, cs = rawCells bs) :
    {n : Nat} → {x : List Cell} → {vs : List Val} → x.length = n * s → decN d s n x = some vs → ∃ bs, x = rawCells bs
  | 0, x, _, hl, hd => by simp at hl; subst hl; exact ⟨[], rfl⟩
  | n + 1, x, vs, hl, hd => by
    rw [Nat.succ_mul] at hl
    rw [decN] at hd
    cases e1 : d (x.take s) with
    | none => rw [e1] at hd; cases hd
    | some v =>
      rw [e1] at hd
      cases e2 : decN d s n (x.drop s) with
      | none => rw [e2] at hd; cases hd
      | some us =>
        obtain ⟨b1, h1⟩ := h _ _ e1
        obtain ⟨b2, h2⟩ := decN_raw h (by simp; omega) e2
        refine ⟨b1 ++ b2, ?_⟩
        rw [← List.take_append_drop s x, h1, h2]; simp [rawCells]

/-! ## Looking through -/

mutual
theorem unwrap_memSize : (S : Ty) → (unwrap S).memSize = S.memSize
  | .alias _ t => by rw [unwrap, Ty.memSize, unwrap_memSize t]
  | .struct n ms => by rw [unwrap, unwrapMems_memSize n ms]
  | .prim _ | .enum _ _ _ | .str _ _ | .seq _ _ | .arr _ _ _ | .map _ _ _ | .pair _ _
  | .union _ _ _ _ => by simp [unwrap]
theorem unwrapMems_memSize (n : String) : (ms : Mems) → (unwrapMems n ms).memSize = (Ty.struct n ms).memSize
  | .cons x t .nil => by rw [unwrapMems, unwrap_memSize t]; simp [Ty.memSize, Mems.sumSize]
  | .nil => by simp [unwrapMems]
  | .cons _ _ (.cons _ _ _) => by simp [unwrapMems]
end

mutual
theorem decode_unwrap : (S : Ty) → (cs : List Cell) → (v : Val) → decode S cs = some v →
    decode (unwrap S) cs = some (unwrapVal S v)
  | .alias _ t, cs, v, h => by rw [decode] at h; rw [unwrap, unwrapVal]; exact decode_unwrap t cs v h
  | .struct n ms, cs, v, h => by rw [unwrap, unwrapVal]; exact decode_unwrapMems n ms cs v h
  | .prim _, cs, v, h | .enum _ _ _, cs, v, h | .str _ _, cs, v, h | .seq _ _, cs, v, h | .arr _ _ _, cs, v, h
  | .map _ _ _, cs, v, h | .pair _ _, cs, v, h | .union _ _ _ _, cs, v, h => by simpa [unwrap, unwrapVal] using h
theorem decode_unwrapMems (n : String) : (ms : Mems) → (cs : List Cell) → (v : Val) → decode (.struct n ms) cs = some v →
    decode (unwrapMems n ms) cs = some (unwrapVals ms v)
  | .cons x t .nil, cs, v, h => by
    have hl := decode_length _ _ _ h
    rw [Ty.memSize, Mems.sumSize, Mems.sumSize] at hl
    rw [decode, decodeAll] at h
    cases e1 : decode t (cs.take t.memSize) with
    | none => rw [e1] at h; cases h
    | some w =>
      rw [e1, List.drop_of_length_le (by omega), decodeAll] at h
      cases h
      rw [List.take_of_length_le (by omega)] at e1
      rw [unwrapMems, unwrapVals]
      exact decode_unwrap t cs w e1
  | .nil, cs, v, h => by rw [unwrapMems, unwrapVals]; exact h; all_goals simp
  | .cons _ _ (.cons _ _ _), cs, v, h => by rw [unwrapMems, unwrapVals]; exact h; all_goals simp
end

theorem unwrap_rget : (S : Ty) → unwrap S.rget = unwrap S
  | .alias _ t => by rw [Ty.rget, unwrap, unwrap_rget t]
  | .prim _ | .enum _ _ _ | .str _ _ | .seq _ _ | .arr _ _ _ | .map _ _ _ | .pair _ _
  | .struct _ _ | .union _ _ _ _ => rfl

theorem unwrapVal_rget : (S : Ty) → (v : Val) → unwrapVal S.rget v = unwrapVal S v
  | .alias _ t, v => by rw [Ty.rget, unwrapVal, unwrapVal_rget t]
  | .prim _, _ | .enum _ _ _, _ | .str _ _, _ | .seq _ _, _ | .arr _ _ _, _ | .map _ _ _, _ | .pair _ _, _
  | .struct _ _, _ | .union _ _ _ _, _ => rfl

theorem scalarKind_rget (S : Ty) : scalarKind S.rget = scalarKind S := by
  unfold scalarKind; rw [unwrap_rget]

/-- What a source with a scalar looks like. -/
theorem scalar_source {S : Ty} {l : PK} (h : scalarKind S = some l) {cs : List Cell} {v : Val}
    (hd : decode S cs = some v) : S.memSize = l.size ∧ ∃ bs, bs.length = l.size ∧ cs = rawCells bs ∧
      unwrapVal S v = .bytes bs := by
  have hu := decode_unwrap _ _ _ hd
  have hs := unwrap_memSize S
  unfold scalarKind at h
  split at h
  · rename_i k hk
    cases h
    rw [hk] at hu hs
    rw [decode] at hu
    obtain ⟨bs, h1, h2, h3⟩ := decBytes_iff.mp hu
    exact ⟨hs.symm, bs, h2, h3, h1⟩
  · rename_i hk
    cases h
    rw [hk] at hu hs
    rw [decode] at hu
    obtain ⟨bs, h1, h2, h3⟩ := decBytes_iff.mp hu
    exact ⟨hs.symm, bs, h2, h3, h1⟩
  · cases h

theorem copyScalar_eq {S : Ty} {l : PK} (h : scalarKind S = some l) (k : PK) (sm : List Cell) (sa ta : Nat) (m : Mem) :
    copyScalar k S sm sa ta m = (peekRaw sm sa l.size).bind fun bs => put m ta (rawCells (convert l k bs)) := by
  unfold scalarKind at h
  unfold copyScalar
  split at h
  · rename_i hk; cases h; rw [hk]
  · rename_i hk; cases h; rw [hk]; rfl
  · cases h

theorem convert_length (l k : PK) (bs : List Byte) (h : bs.length = l.size) : (convert l k bs).length = k.size := by
  unfold convert
  split
  · rename_i e; subst e; exact h
  · split
    · simp [fixLen]
    · unfold intBytes
      split
      · rename_i e; subst e; simp [leBytes_length, PK.size]
      · simp [leBytes_length]

theorem convert_sameRep {l k : PK} (h : sameRep l k) {bs : List Byte} (hb : bs.length = l.size) : convert l k bs = bs := by
  unfold convert
  split
  · rfl
  · rename_i hne
    rcases h with h | ⟨h1, h2, h3, h4⟩
    · exact absurd h hne
    · rw [h1, h2]
      simp only [Bool.or_self, Bool.false_eq_true, if_false]
      unfold intBytes
      rw [if_neg h4]
      have hlt := leNat_lt bs
      rw [hb] at hlt
      have e : (intVal l bs % 2 ^ (8 * k.size)).toNat = leNat bs := by
        rw [← h3]
        unfold intVal
        have : (256 : Nat) ^ l.size = 2 ^ (8 * l.size) := by rw [Nat.pow_mul]
        rw [this] at hlt
        have e2 : ((leNat bs : Int) % 2 ^ (8 * l.size)).toNat = leNat bs := by
          have : ((2 : Int) ^ (8 * l.size)) = ((2 ^ (8 * l.size) : Nat) : Int) := by push_cast; rfl
          rw [this, ← Int.natCast_mod, Int.toNat_natCast, Nat.mod_eq_of_lt hlt]
        split
        · rw [Int.sub_emod_right, e2]
        · exact e2
      rw [e, ← h3, ← hb]
      exact leBytes_leNat bs

theorem decN_mem {d : List Cell → Option Val} {s : Nat} :
    {n : Nat} → {x : List Cell} → {vs : List Val} → decN d s n x = some vs → ∀ v ∈ vs, ∃ cs, d cs = some v
  | 0, _, _, hd => by simp [decN] at hd; subst hd; simp
  | n + 1, x, vs, hd => by
    rw [decN] at hd
    cases e1 : d (x.take s) with
    | none => rw [e1] at hd; cases hd
    | some v =>
      rw [e1] at hd
      cases e2 : decN d s n (x.drop s) with
      | none => rw [e2] at hd; cases hd
      | some us =>
        rw [e2] at hd; cases hd
        intro w hw
        rcases List.mem_cons.mp hw with rfl | hw
        · exact ⟨_, e1⟩
        · exact decN_mem e2 w hw

theorem decPair_iff {d1 d2 : List Cell → Option Val} {s : Nat} {cs : List Cell} {v : Val} :
    decPair d1 d2 s cs = some v ↔ ∃ u w, v = .list [u, w] ∧ d1 (cs.take s) = some u ∧ d2 (cs.drop s) = some w := by
  unfold decPair
  cases h1 : d1 (cs.take s) with
  | none => simp
  | some u =>
    cases h2 : d2 (cs.drop s) with
    | none => simp
    | some w => simp [eq_comm]

theorem decodeCase_find {nm : String} : (ms : Mems) → {x : List Cell} → {w : Val} → decodeCase ms nm x = some w →
    ∃ t, ms.find? nm = some t
  | .nil, _, _, h => by simp [decodeCase] at h
  | .cons y t r, x, w, h => by
    rw [decodeCase] at h
    rw [Mems.find?]
    split at h
    · rename_i e; exact ⟨t, by rw [if_pos e]⟩
    · rename_i e; rw [if_neg e]; exact decodeCase_find r h

/-- The members of a decoded union. -/
theorem decode_union_inv {n : String} {d : Ty} {ms : Mems} {i : UInfo} (hd : discOk d) {cs : List Cell} {v : Val}
    (h : decode (.union n d ms i) cs = some v) : ∃ bs rest, bs.length = d.memSize ∧ rest.length = ms.maxSize ∧
      cs = rawCells bs ++ rest ∧
      ((UInfo.case i (labelOf d.memSize bs) = none ∧ v = .unNone (.bytes bs)) ∨
        ∃ nm t w, UInfo.case i (labelOf d.memSize bs) = some nm ∧ ms.find? nm = some t ∧
          decode t (rest.take t.memSize) = some w ∧ v = .un (.bytes bs) nm w) := by
  have hl := decode_length _ _ _ h
  rw [Ty.memSize] at hl
  have h0 := h
  rw [decode, if_pos hl, disc_decode hd] at h
  split at h
  · rename_i bs hb
    obtain ⟨bs', e1, e2, e3⟩ := decBytes_iff.mp hb
    cases e1
    refine ⟨bs, cs.drop d.memSize, e2, by simp; omega, ?_, ?_⟩
    · rw [← e3, List.take_append_drop]
    · split at h
      · rename_i nm hn
        right
        cases hc : decodeCase ms nm (cs.drop d.memSize) with
        | none => rw [hc] at h; cases h
        | some w =>
          obtain ⟨t, ht⟩ := decodeCase_find ms hc
          rw [hc] at h; cases h
          refine ⟨nm, t, w, hn, ht, ?_, rfl⟩
          rw [decodeCase_eq ht] at hc; exact hc
      · rename_i hn
        cases h
        exact .inl ⟨hn, rfl⟩
  · cases h
theorem clip_id {b : Nat} {us : List Nat} (h : b > 0 → us.length ≤ b) : clip b us = us := by
  unfold clip; split
  · exact List.take_of_length_le (h (by assumption))
  · rfl

theorem clipV_id {b : Nat} {us : List Val} (h : b > 0 → us.length ≤ b) : clipV b us = us := by
  unfold clipV; split
  · exact List.take_of_length_le (h (by assumption))
  · rfl

/-! ## A conversion to the same type changes nothing -/

theorem convAll_self : {ms : Mems} →
    (ms.Forall fun t => ∀ (S : Ty) (cs : List Cell) (v : Val), S.rget = t.rget → Convertible t S → decode t cs = some v →
      conv t S v = v) → ConvertibleAll ms ms → ∀ (cs : List Cell) (vs : List Val), decodeAll ms cs = some vs → convAll ms ms vs = vs
  | .nil, _, _, cs, vs, hd => by
    rw [decodeAll] at hd; split at hd
    · cases hd; rw [convAll]; all_goals simp
    · cases hd
  | .cons x t r, h, hc, cs, vs, hd => by
    rw [decodeAll] at hd
    rw [ConvertibleAll] at hc
    cases e1 : decode t (cs.take t.memSize) with
    | none => rw [e1] at hd; cases hd
    | some v =>
      rw [e1] at hd
      cases e2 : decodeAll r (cs.drop t.memSize) with
      | none => rw [e2] at hd; cases hd
      | some ws =>
        rw [e2] at hd; cases hd
        simp only [convAll]
        rw [h.1 t _ v rfl hc.1 e1, convAll_self h.2 hc.2 _ _ e2]

theorem conv_self (T : Ty) : ∀ (S : Ty) (cs : List Cell) (v : Val), S.rget = T.rget → Convertible T S →
    decode T cs = some v → conv T S v = v := by
  induction T using Ty.ind with
  | prim k =>
    intro S cs v hs hc hd
    rw [decode] at hd
    obtain ⟨bs, rfl, -, -⟩ := decBytes_iff.mp hd
    rw [conv, ← scalarKind_rget, ← unwrapVal_rget, hs]
    simp [scalarKind, Ty.rget, unwrap, unwrapVal, convert]
  | enum n w vs =>
    intro S cs v hs hc hd
    rw [decode] at hd
    obtain ⟨bs, rfl, -, -⟩ := decBytes_iff.mp hd
    rw [Convertible, ← scalarKind_rget, hs] at hc
    rw [conv, ← scalarKind_rget, ← unwrapVal_rget, hs]
    cases w <;> simp [scalarKind, Ty.rget, unwrap, unwrapVal, convert, EW.kind] at hc ⊢
  | str k b =>
    intro S cs v hs hc hd
    rw [decode] at hd
    obtain ⟨us, _, rfl, hb, -⟩ := decStr_iff.mp hd
    rw [conv, ← unwrapVal_rget, hs]
    simp [Ty.rget, unwrapVal, clip_id hb]
  | seq c b ih =>
    intro S cs v hs hc hd
    rw [decode] at hd
    obtain ⟨size, cap, blk, vs, rfl, h1, h2, h3, h4, -⟩ := decColl_iff.mp hd
    rw [Convertible, ← unwrap_rget, hs] at hc
    obtain ⟨oc, b', e, hcc, -⟩ := hc
    simp only [Ty.rget, unwrap] at e
    cases e
    rw [conv, ← unwrapVal_rget, ← unwrap_rget, hs]
    simp only [Ty.rget, unwrapVal, unwrap]
    rw [clipV_id]
    · congr 1
      conv_rhs => rw [← List.map_id (vs.take size)]
      apply List.map_congr_left
      intro v hv
      obtain ⟨cs, hcs⟩ := decN_mem h4 v (List.mem_of_mem_take hv)
      exact ih c cs v rfl hcc hcs
    · intro hb; have := h2 hb; simp; omega
  | arr n c d ih =>
    intro S cs v hs hc hd
    rw [decode] at hd
    split at hd
    · cases h4 : decN (decode c) c.memSize d cs with
      | none => rw [h4] at hd; cases hd
      | some vs =>
        rw [h4] at hd; cases hd
        rw [Convertible, ← unwrap_rget, hs] at hc
        obtain ⟨_, oc, od, e, _, hcc, -⟩ := hc
        simp only [Ty.rget, unwrap] at e
        cases e
        rw [conv, ← unwrapVal_rget, ← unwrap_rget, hs]
        simp only [Ty.rget, unwrapVal, unwrap]
        rw [List.take_of_length_le (by rw [decN_length h4])]
        congr 1
        conv_rhs => rw [← List.map_id vs]
        apply List.map_congr_left
        intro v hv
        obtain ⟨cs, hcs⟩ := decN_mem h4 v hv
        exact ih c cs v rfl hcc hcs
    · cases hd
  | map k v b ihk ihv =>
    intro S cs x hs hc hd
    rw [decode] at hd
    obtain ⟨size, cap, blk, vs, rfl, h1, h2, h3, h4, -⟩ := decColl_iff.mp hd
    rw [conv, ← unwrapVal_rget, hs]
    simp only [Ty.rget, unwrapVal]
    rw [clipV_id]
    intro hb; have := h2 hb; simp; omega
  | pair x y ihx ihy =>
    intro S cs v hs hc hd
    rw [decode] at hd
    obtain ⟨u, w, rfl, h1, h2⟩ := decPair_iff.mp hd
    rw [Convertible, ← unwrap_rget, hs] at hc
    obtain ⟨ox, oy, e, _, hx, hy⟩ := hc
    simp only [Ty.rget, unwrap] at e
    cases e
    rw [conv, ← unwrapVal_rget, ← unwrap_rget, hs]
    simp only [Ty.rget, unwrapVal, unwrap]
    rw [ihx x _ _ rfl hx h1, ihy y _ _ rfl hy h2]
  | als n t ih =>
    intro S cs v hs hc hd
    rw [decode] at hd
    rw [Convertible] at hc
    rw [conv]
    exact ih S cs v hs hc hd
  | struct n ms ih =>
    intro S cs v hs hc hd
    rw [decode] at hd
    cases h4 : decodeAll ms cs with
    | none => rw [h4] at hd; cases hd
    | some vs =>
      rw [h4] at hd; cases hd
      rw [Convertible, hs] at hc
      simp only [Ty.rget] at hs hc
      simp only [conv, hs]
      rw [convAll_self ih hc _ _ h4]
  | union n d ms i _ _ =>
    intro S cs v hs hc hd
    rw [Convertible] at hc
    obtain ⟨n', oms, oi, rfl, _, _⟩ := hc
    simp only [Ty.rget] at hs
    cases hs
    rw [decode] at hd
    split at hd
    · split at hd
      · split at hd
        · rename_i bs _ _ nm hnm
          cases hc : decodeCase ms nm (cs.drop d.memSize) with
          | none => rw [hc] at hd; cases hd
          | some w => rw [hc] at hd; cases hd; simp only [conv]; rw [hnm]
        · cases hd; simp only [conv]
      · cases hd
    · cases hd

/-! ## Collections -/

theorem copyCount_eq {b ocap osize : Nat} (h : osize ≤ ocap) (hc : (if b = 0 then ocap else min ocap b) ≠ 0) :
    copyCount (if b = 0 then ocap else min ocap b) ocap osize (if b = 0 then osize else min osize b) =
      (if b = 0 then osize else min osize b) := by
  unfold copyCount
  split
  · simp_all
  · simp_all; omega

theorem map_range_take (vs : List Val) (f : Val → Val) (n : Nat) (h : n ≤ vs.length) :
    (List.range n).map (fun i => f (vs[i]?.getD (.list []))) = (vs.take n).map f := by
  apply List.ext_getElem
  · simp; omega
  · intro i h1 h2
    simp at h1
    simp [List.getElem?_eq_getElem (show i < vs.length by omega)]

theorem copyContent_ok {bs obs n cap : Nat} {dec decO : List Cell → Option Val} {td : List Cell → Prop} {light cl : Prop}
    {elem : Nat → Nat → Mem → M Mem} {f : Val → Val} {fast : Bool} {src blk : List Cell} {vs : List Val}
    (hn : n ≤ cap) {ocap : Nat} (hno : n ≤ ocap)
    (hblk : blk.length = cap * bs) (hl : light → allN (fun cs => owned cs = 0) bs cap blk)
    (hsrc : src.length = ocap * obs) (hdec : decN decO obs ocap src = some vs)
    (hslow : fast = false → ∀ i v, vs[i]? = some v → i < n → Makes bs dec td cl (elem (i * obs)) (f v))
    (hfast : fast = true → obs = bs ∧ (∀ cs v, decO cs = some v → dec cs = some (f v) ∧ ∃ bytes, cs = rawCells bytes) ∧
      ∀ cs, td cs) :
    ∃ new d, copyContent elem fast bs obs n src ⟨blk, 0⟩ = .ok ⟨new ++ blk.drop (n * bs), d⟩ ∧ new.length = n * bs ∧
      decN dec bs n new = some ((vs.take n).map f) ∧ (light → cl → d = 0 ∧ allN td bs n new) := by
  have hm : n * bs ≤ cap * bs := Nat.mul_le_mul_right _ hn
  have hm2 : n * obs ≤ ocap * obs := Nat.mul_le_mul_right _ hno
  have hvl := decN_length hdec
  have hown : light → owned (blk.take (n * bs)) = 0 := fun h =>
    allN_owned n _ (by simp; omega) (allN_take hn (hl h))
  unfold copyContent
  cases fast with
  | true =>
    obtain ⟨rfl, hf, ht⟩ := hfast rfl
    have hd1 := decN_take hno hsrc hdec
    obtain ⟨bytes, hb⟩ := decN_raw (fun cs v h => (hf cs v h).2) (n := n) (by simp; omega) hd1
    have hbl : bytes.length = n * obs := by
      have := congrArg List.length hb; simp at this; omega
    refine ⟨rawCells bytes, owned (blk.take (n * obs)), ?_, by simp [hbl], ?_, ?_⟩
    · rw [if_pos rfl]
      have hp := peekRaw_at [] (src.drop (n * obs)) bytes _ hbl
      rw [← hb] at hp
      simp only [List.nil_append, List.take_append_drop, List.length_nil] at hp
      rw [hp]
      have hq := put_at [] (blk.take (n * obs)) (blk.drop (n * obs)) (rawCells bytes) 0 (by simp [hbl]; omega)
      simp only [List.nil_append, List.take_append_drop, List.length_nil, Nat.zero_add] at hq
      exact hq
    · rw [← hb]; exact decN_map (fun cs v h => (hf cs v h).1) hd1
    · intro h1 h2
      refine ⟨hown h1, ?_⟩
      have : ∀ k (x : List Cell), allN td obs k x := by
        intro k
        induction k with
        | zero => intro x; trivial
        | succ k ih => intro x; exact ⟨ht _, ih _⟩
      exact this _ _
  | false =>
    rw [if_neg (by simp)]
    obtain ⟨new, d, h1, h2, h3, h4⟩ := makes_loop (g := fun i => elem (i * obs))
      (v := fun i => f (vs[i]?.getD (.list []))) 0 n 0 (fun i _ hi => by
        have hi' : i < vs.length := by omega
        have := hslow rfl i vs[i] (List.getElem?_eq_getElem hi') (by omega)
        simpa [List.getElem?_eq_getElem hi'] using this) [] (blk.take (n * bs)) (blk.drop (n * bs)) 0 (by simp)
      (by simp; omega)
    simp only [List.nil_append, List.take_append_drop, Nat.zero_add] at h1
    refine ⟨new, d, h1, h2, ?_, fun a b => h4 (hown a) b⟩
    rw [h3, ← List.range_eq_range', map_range_take _ _ _ (by omega)]

theorem makes_clone {bs obs : Nat} {dec decO : List Cell → Option Val} {td : List Cell → Prop} {light cl : Prop}
    {cons : Nat → Mem → M Mem} {elem : Nat → Nat → Mem → M Mem} {dv : Val} {f : Val → Val} (im : Bool) (c : Ty) (o : Coll)
    (b b' : Nat) (fast : Bool) {vs : List Val}
    (hcons : Makes bs dec (fun cs => td cs ∧ (light → owned cs = 0)) True cons dv)
    (hblk : o.block.length = o.cap * obs) (hsz : o.size ≤ o.cap) (hdec : decN decO obs o.cap o.block = some vs)
    (hb : b > 0 → (if b' = 0 then o.cap else min o.cap b') ≤ b)
    (hslow : fast = false → ∀ i v, vs[i]? = some v → Makes bs dec td cl (elem (i * obs)) (f v))
    (hfast : fast = true → obs = bs ∧ (∀ cs v, decO cs = some v → dec cs = some (f v) ∧ ∃ bytes, cs = rawCells bytes) ∧
      ∀ cs, td cs) :
    Makes seqSize (decColl im c bs b dec) (tidyColl light td bs) (light ∧ cl) (cloneColl im c bs obs o b' fast cons elem)
      (.coll ((clipV b' (vs.take o.size)).map f)) := by
  intro pre old post lk hl
  have hclip : clipV b' (vs.take o.size) = vs.take (if b' = 0 then o.size else min o.size b') := by
    unfold clipV
    by_cases h0 : b' = 0
    · subst h0; simp
    · rw [if_pos (by omega), if_neg h0, List.take_take, Nat.min_comm]
  rw [hclip]
  have hvl := decN_length hdec
  obtain ⟨blk, hi, hbl, hdb, hall⟩ := initBlock_ok hcons (if b' = 0 then o.cap else min o.cap b')
  unfold cloneColl
  simp only []
  by_cases hc0 : (if b' = 0 then o.cap else min o.cap b') = 0
  · have hs0 : (if b' = 0 then o.size else min o.size b') = 0 := by
      split at hc0 <;> rename_i h <;> simp [h] <;> omega
    refine ⟨objCells (.coll im c 0 0 []) seqSize, owned old, ?_, objCells_length _ _ (by decide), ?_, ?_⟩
    · rw [hi]
      simp only [Except.bind]
      rw [if_pos hc0, hc0, hs0, put_at pre old post _ lk (by rw [hl]; exact objCells_length _ _ (by decide))]
    · rw [hs0]
      exact decColl_iff.mpr ⟨0, 0, [], [], by simp, Nat.le_refl _, fun _ => Nat.zero_le _, by simp, rfl, rfl⟩
    · intro h0 _
      exact ⟨h0, trivial, fun _ => by simp⟩
  · have hn : (if b' = 0 then o.size else min o.size b') ≤ (if b' = 0 then o.cap else min o.cap b') := by
      split <;> omega
    have hno : (if b' = 0 then o.size else min o.size b') ≤ o.cap := by split <;> omega
    obtain ⟨new, d, h1, h2, h3, h4⟩ := copyContent_ok (light := light) hn hno hbl
      (fun h => allN_mono (fun _ hh => hh.2 h) _ _ _ hall) hblk hdec (fun h i v hv _ => hslow h i v hv) hfast
    generalize hN : (if b' = 0 then o.size else min o.size b') = N at *
    have hcount := copyCount_eq (b := b') hsz hc0
    rw [hN] at hcount
    generalize hC : (if b' = 0 then o.cap else min o.cap b') = C at *
    refine ⟨objCells (.coll im c N C (new ++ blk.drop (N * bs))) seqSize, owned old + d, ?_,
      objCells_length _ _ (by decide), ?_, ?_⟩
    · rw [hi]
      simp only [Except.bind]
      rw [if_neg hc0, hcount, h1]
      simp only []
      rw [put_at pre old post _ lk (by rw [hl]; exact objCells_length _ _ (by decide))]
      simp [Except.map, Nat.add_assoc]
    · have hdr := decN_drop hn hbl hdb
      have hap := decN_append h2 h3 hdr
      rw [show N + (C - N) = C by omega] at hap
      refine decColl_iff.mpr ⟨N, C, _, _, ?_, hn, hb, ?_, hap, rfl⟩
      · rw [List.take_left' (by simp; omega)]
      · have hm : N * bs ≤ C * bs := Nat.mul_le_mul_right _ hn
        simp [h2]; omega
    · intro h0 ⟨hl1, hl2⟩
      obtain ⟨hd0, ha⟩ := h4 hl1 hl2
      refine ⟨by omega, ?_⟩
      show allN td bs C (new ++ blk.drop (N * bs)) ∧ (light → owned ((new ++ blk.drop (N * bs)).drop (N * bs)) = 0)
      refine ⟨?_, fun hh => by
        rw [List.drop_left' h2]
        exact owned_zero_of_drop (allN_owned C blk hbl (allN_mono (fun _ h => h.2 hh) _ _ _ hall))⟩
      rw [show C = N + (C - N) by omega]
      exact allN_append h2 ha (allN_drop hn (allN_mono (fun _ h => h.1) _ _ _ hall))

/-! ## `copy_instance_from_type` -/

theorem makes_scalar {S : Ty} {l k : PK} (h : scalarKind S = some l) {src : List Cell} {v : Val} (hd : decode S src = some v)
    (spre spost : List Cell) {td : List Cell → Prop} {cl : Prop} (ht : ∀ cs, td cs) :
    ∃ bs, unwrapVal S v = .bytes bs ∧ Makes k.size (decBytes k.size) td cl
      (copyScalar k S (spre ++ src ++ spost) spre.length) (.bytes (convert l k bs)) := by
  obtain ⟨hs, bs, hb, rfl, hv⟩ := scalar_source h hd
  refine ⟨bs, hv, makes_raw _ ?_ (convert_length l k bs hb) ht⟩
  intro a m
  rw [copyScalar_eq h, peekRaw_at _ _ _ _ hb]
  rfl

theorem peekStr_at (k : SK) (us : List Nat) (h : Bool) (pre post : List Cell) :
    peekStr k (pre ++ objCells (.str k us h) strSize ++ post) pre.length = .ok us := by
  unfold peekStr
  rw [peek_at _ _ _ _ (objCells_length _ _ (by decide))]
  simp [Except.bind, objCells, Cell.isTail]

theorem peekColl_at (im : Bool) (c : Ty) (s cap : Nat) (blk : List Cell) (pre post : List Cell) :
    peekColl im (pre ++ objCells (.coll im c s cap blk) seqSize ++ post) pre.length = .ok ⟨c, s, cap, blk⟩ := by
  unfold peekColl
  rw [peek_at _ _ _ _ (objCells_length _ _ (by decide))]
  simp [Except.bind, objCells, Cell.isTail]

theorem clip_le (b : Nat) (us : List Nat) : b > 0 → (clip b us).length ≤ b := by
  intro h; unfold clip; rw [if_pos h]; simp

theorem copyFromCase_eq : {ms : Mems} → {n : String} → {t : Ty} → ms.find? n = some t →
    copyFromCase ms n = copyFrom t t
  | .nil, _, _, h => by simp [Mems.find?] at h
  | .cons x u r, n, t, h => by
    funext sm sa ta m
    rw [Mems.find?] at h
    rw [copyFromCase]
    split at h
    · cases h; rw [if_pos (by assumption)]
    · rw [if_neg (by assumption), copyFromCase_eq h]

theorem convertibleSelf_find : {ms : Mems} → ConvertibleSelf ms → {n : String} → {t : Ty} → ms.find? n = some t →
    Convertible t t
  | .nil, _, _, _, h => by simp [Mems.find?] at h
  | .cons x u r, hc, n, t, h => by
    rw [ConvertibleSelf] at hc
    rw [Mems.find?] at h
    split at h
    · cases h; exact hc.1
    · exact convertibleSelf_find hc.2 h

theorem Mems.Tight.find : {ms : Mems} → ms.Tight → {n : String} → {t : Ty} → ms.find? n = some t → t.Tight
  | .nil, _, _, _, h => by simp [Mems.find?] at h
  | .cons x u r, hc, n, t, h => by
    rw [Verif.Mems.Tight] at hc
    rw [Mems.find?] at h
    split at h
    · cases h; exact hc.1
    · exact Mems.Tight.find hc.2 h

/-- The statement proved by induction. -/
def CopiesFrom (T : Ty) : Prop :=
  T.WF → ∀ (S : Ty) (src : List Cell) (v : Val), Convertible T S → decode S src = some v →
    ∀ spre spost : List Cell, Makes T.memSize (decode T) (tidy T) T.Tight (copyFrom T S (spre ++ src ++ spost) spre.length)
      (conv T S v)

theorem blockOk_fast {c oc : Ty} {cs : List Cell} {v : Val} (hb : blockOk c oc) (hc : Convertible c oc)
    (hf : c.isConstructed = false) (hs : c.memSize = oc.memSize) (hd : decode oc cs = some v) :
    (decode c cs = some (conv c oc v) ∧ ∃ bytes, cs = rawCells bytes) ∧ ∀ x, tidy c x := by
  cases c with
  | prim k =>
    rw [Convertible] at hc
    obtain ⟨l, hl⟩ := Option.isSome_iff_exists.mp hc
    have hrep := hb hs l hl
    obtain ⟨h1, bs, h2, rfl, h4⟩ := scalar_source hl hd
    refine ⟨⟨?_, bs, rfl⟩, fun x => by rw [tidy]; trivial⟩
    rw [conv, hl, h4]
    simp only []
    rw [convert_sameRep hrep h2, decode]
    rw [Ty.memSize] at hs
    exact decBytes_iff.mpr ⟨bs, rfl, by omega, rfl⟩
  | _ => simp [Ty.isConstructed] at hf

theorem copyFromAll_ok : {ms : Mems} → ms.Forall CopiesFrom → ms.WF → ∀ (os : Mems) (src : List Cell) (vs : List Val),
    ConvertibleAll ms os → decodeAll os src = some vs → ∀ spre spost : List Cell,
    Makes ms.sumSize (decodeAll ms) (tidyAll ms) ms.Tight (copyFromAll ms os (spre ++ src ++ spost) spre.length)
      (convAll ms os vs)
  | .nil, _, _, os, src, vs, _, hd, spre, spost => by
    intro pre old post lk hl
    simp [Mems.sumSize] at hl; subst hl
    refine ⟨[], 0, by simp [copyFromAll], rfl, ?_, fun _ _ => ⟨rfl, trivial⟩⟩
    simp [decodeAll, convAll]
  | .cons x t r, h, hw, .cons y u s, src, vs, hc, hd, spre, spost => by
    rw [Mems.WF] at hw
    rw [ConvertibleAll] at hc
    rw [decodeAll] at hd
    cases e1 : decode u (src.take u.memSize) with
    | none => rw [e1] at hd; cases hd
    | some v =>
      rw [e1] at hd
      cases e2 : decodeAll s (src.drop u.memSize) with
      | none => rw [e2] at hd; cases hd
      | some ws =>
        rw [e2] at hd; cases hd
        have hlen : (src.take u.memSize).length = u.memSize := decode_length _ _ _ e1
        have m1 := h.1 hw.1 u _ v hc.1 e1 spre (src.drop u.memSize ++ spost)
        rw [← split_at] at m1
        have m2 := copyFromAll_ok h.2 hw.2 s _ ws hc.2 e2 (spre ++ src.take u.memSize) spost
        have esrc : spre ++ src.take u.memSize ++ src.drop u.memSize ++ spost = spre ++ src ++ spost := by
          rw [List.append_assoc (spre ++ src.take u.memSize), ← split_at]
        rw [esrc, List.length_append, hlen] at m2
        refine makes_weaken (makes_seq m1 m2) ?_ ?_ ?_ ?_
        · intro a m; rw [copyFromAll]
        · intro cs _ hh
          rw [decodeAll, convAll]
          cases h1 : decode t (cs.take t.memSize) with
          | none => simp [h1] at hh
          | some v =>
            cases h2 : decodeAll r (cs.drop t.memSize) with
            | none => simp [h2] at hh
            | some ws => simp [h1, h2] at hh ⊢; exact hh
        · intro hh; rw [Mems.Tight] at hh; exact hh
        · intro cs _ _ hh; rw [tidyAll]; exact hh
  | .cons x t .nil, h, hw, .nil, src, vs, hc, hd, spre, spost => by
    rw [Mems.WF] at hw
    refine makes_weaken (construct_ok t hw.1) ?_ ?_ (fun _ => trivial) ?_
    · intro a m; rw [copyFromAll]
    · intro cs hl hh
      simp only [Mems.sumSize, Nat.add_zero] at hl
      rw [decodeAll, List.take_of_length_le (by omega), List.drop_of_length_le (by omega), hh]
      simp [decodeAll, convAll]
    · intro cs hl _ hh
      simp only [Mems.sumSize, Nat.add_zero] at hl
      rw [tidyAll, List.take_of_length_le (by omega)]
      exact ⟨hh, trivial⟩
  | .cons x t (.cons y u r), h, hw, .nil, src, vs, hc, hd, spre, spost => by
    rw [ConvertibleAll] at hc; cases hc

theorem copyFromOnly_ok {ms : Mems} (h : ms.Forall CopiesFrom) (hw : ms.WF) (S : Ty) (src : List Cell) (v : Val)
    (hc : ConvertibleOnly ms S) (hd : decode S src = some v) (spre spost : List Cell) :
    Makes ms.sumSize (decodeAll ms) (tidyAll ms) ms.Tight (copyFromOnly ms S (spre ++ src ++ spost) spre.length)
      (convOnly ms S v) := by
  match ms, h, hw, hc with
  | .cons x t .nil, h, hw, hc =>
    rw [Mems.WF] at hw
    rw [ConvertibleOnly] at hc
    refine makes_weaken (s := t.memSize) (h.1 hw.1 S src v hc hd spre spost) ?_ ?_ ?_ ?_
    · intro a m; rw [copyFromOnly]
    · intro cs hl hh
      rw [decodeAll, List.take_of_length_le (by omega), List.drop_of_length_le (by omega), hh]
      simp [decodeAll, convOnly]
    · intro hh; rw [Mems.Tight] at hh; exact hh.1
    · intro cs hl _ hh
      rw [tidyAll, List.take_of_length_le (by omega)]
      exact ⟨hh, trivial⟩
  | .nil, _, _, hc => simp [ConvertibleOnly] at hc
  | .cons _ _ (.cons _ _ _), _, _, hc => simp [ConvertibleOnly] at hc

theorem disc_copyFrom {d : Ty} (h : discOk d) (bs : List Byte) (hb : bs.length = d.memSize) (spre spost : List Cell)
    (ta : Nat) (m : Mem) : copyFrom d d (spre ++ rawCells bs ++ spost) spre.length ta m = put m ta (rawCells bs) := by
  rw [← copyFrom_rget]
  rw [← Ty.rget_memSize] at hb
  rcases discOk_cases h with ⟨k, hk, _⟩ | ⟨n, vs, hk⟩
  · have hsk : scalarKind d = some k := by unfold scalarKind; rw [← unwrap_rget, hk]; rfl
    rw [hk] at hb ⊢
    rw [copyFrom, copyScalar_eq hsk, peekRaw_at _ _ _ _ (by rw [hb]; rfl)]
    simp [Except.bind, convert]
  · have hsk : scalarKind d = some .u32 := by unfold scalarKind; rw [← unwrap_rget, hk]; rfl
    rw [hk] at hb ⊢
    rw [copyFrom, copyScalar_eq hsk, peekRaw_at _ _ _ _ (by rw [hb]; rfl)]
    simp [Except.bind, convert, EW.kind]

/-- `copy_instance_from_type` makes an instance with the converted value and touches nothing else. -/
theorem copyFrom_ok (T : Ty) : CopiesFrom T := by
  induction T using Ty.ind with
  | prim k =>
    intro _ S src v hc hd spre spost
    rw [Convertible] at hc
    obtain ⟨l, hl⟩ := Option.isSome_iff_exists.mp hc
    obtain ⟨bs, hv, hm⟩ := makes_scalar (k := k) (cl := (Ty.prim k).Tight) (td := fun _ => True) hl hd spre spost (fun _ => trivial)
    refine makes_weaken (s := k.size) hm ?_ ?_ id ?_
    · intro a m; rw [copyFrom]
    · intro cs _ hh; rw [decode, conv, hl, hv]; exact hh
    · intro cs _ _ _; rw [tidy]; trivial
  | enum n w vs =>
    intro _ S src v hc hd spre spost
    rw [Convertible] at hc
    obtain ⟨l, hl⟩ := Option.isSome_iff_exists.mp hc
    obtain ⟨bs, hv, hm⟩ := makes_scalar (k := EW.kind w) (cl := (Ty.enum n w vs).Tight) (td := fun _ => True) hl hd spre spost
      (fun _ => trivial)
    have hsz : (EW.kind w).size = w.size := by cases w <;> rfl
    rw [hsz] at hm
    refine makes_weaken (s := w.size) hm ?_ ?_ id ?_
    · intro a m; rw [copyFrom]
    · intro cs _ hh; rw [decode, conv, hl, hv]; exact hh
    · intro cs _ _ _; rw [tidy]; trivial
  | str k b =>
    intro _ S src v hc hd spre spost
    rw [Convertible] at hc
    obtain ⟨b', hu⟩ := hc
    have hd' := decode_unwrap _ _ _ hd
    rw [hu, decode] at hd'
    obtain ⟨us, hp, hv, -, rfl⟩ := decStr_iff.mp hd'
    refine makes_weaken (s := strSize) (makes_str (td := fun _ => True) (cl := True) k b (clip b us)
      (decide ((clip b us).length > SK.sso k)) (fun _ _ => rfl) (clip_le b us) (fun _ => trivial)) ?_ ?_ (fun _ => trivial) ?_
    · intro a m
      rw [copyFrom, hu]
      simp only []
      rw [if_pos trivial, peekStr_at]; rfl
    · intro cs _ hh; rw [decode, conv, hv]; exact hh
    · intro cs _ _ _; rw [tidy]; trivial
  | seq c b ih =>
    intro hw S src v hc hd spre spost
    rw [Ty.WF] at hw
    rw [Convertible] at hc
    obtain ⟨oc, b', hu, hcc, hbk⟩ := hc
    have hd' := decode_unwrap _ _ _ hd
    rw [hu, decode] at hd'
    obtain ⟨size, cap, blk, vs, hv, h1, h2, h3, h4, rfl⟩ := decColl_iff.mp hd'
    refine makes_weaken (s := seqSize) (makes_clone (light := c.Light) (cl := c.Tight) (td := tidy c) (f := conv c oc) false c
      ⟨oc, size, cap, blk⟩ b b (!c.isConstructed && decide (c.memSize = oc.memSize)) (vs := vs)
      (construct_fresh c hw) h3 h1 h4 ?_ (elem := copyFrom c oc blk) ?_ ?_) ?_ ?_ ?_ ?_
    · intro hb; rw [if_neg (by omega)]; simp only []; omega
    · intro _ i w hi
      obtain ⟨x, sl, y, w', e1, e2, e3, e4, e5⟩ := decN_slot h3 h4 (i := i)
        (by rw [← decN_length h4]; exact (List.getElem?_eq_some_iff.mp hi).1)
      rw [hi] at e5; cases e5
      have := ih hw oc sl w hcc e4 x y
      rw [← e1, e2] at this
      exact this
    · intro hf
      simp only [Bool.and_eq_true, Bool.not_eq_true', decide_eq_true_eq] at hf
      refine ⟨hf.2.symm, fun cs v hcs => (blockOk_fast hbk hcc hf.1 hf.2 hcs).1, fun x => ?_⟩
      cases c with
      | prim k => rw [tidy]; trivial
      | _ => simp [Ty.isConstructed] at hf
    · intro a m
      rw [copyFrom, hu]
      simp only []
      rw [peekColl_at]; rfl
    · intro cs _ hh; rw [decode, conv, hu, hv]; exact hh
    · intro hh; rw [Ty.Tight] at hh; exact hh
    · intro cs _ _ hh; rw [tidy]; exact hh
  | arr n c d ih =>
    intro hw S src v hc hd spre spost
    rw [Ty.WF] at hw
    rw [Convertible] at hc
    obtain ⟨n', oc, od, hu, hle, hcc, hbk⟩ := hc
    have hd' := decode_unwrap _ _ _ hd
    rw [hu, decode] at hd'
    split at hd'
    · rename_i hlen
      cases h4 : decN (decode oc) oc.memSize od src with
      | none => rw [h4] at hd'; cases hd'
      | some vs =>
        rw [h4] at hd'
        simp only [Option.map, Option.some.injEq] at hd'
        have hvl := decN_length h4
        by_cases hf : (c.isConstructed || decide (c.memSize ≠ oc.memSize)) = true
        · refine makes_weaken (s := d * c.memSize) (makes_array (dec := decode c) (cl := c.Tight) (td := tidy c) d
            (g := fun i => copyFrom c oc (spre ++ src ++ spost) (spre.length + i * oc.memSize))
            (v := fun i => conv c oc (vs[i]?.getD (.list []))) ?_) ?_ ?_ ?_ ?_
          · intro i hi
            obtain ⟨x, sl, y, w, e1, e2, e3, e4, e5⟩ := decN_slot hlen h4 (i := i) (by omega)
            have := ih hw oc sl w hcc e4 (spre ++ x) (y ++ spost)
            rw [e5, ← e2]
            have es : spre ++ x ++ sl ++ (y ++ spost) = spre ++ src ++ spost := by rw [e1]; simp
            rw [es, List.length_append] at this
            exact this
          · intro a m
            rw [copyFrom, hu]
            simp only []
            rw [if_pos hf, Nat.min_eq_left hle]
          · intro cs hl hh
            rw [decode, if_pos hl, hh, conv, hu, ← hd', map_range_take _ _ _ (by omega)]
            rfl
          · intro hh; rw [Ty.Tight] at hh; exact hh
          · intro cs _ _ hh; rw [tidy]; exact hh
        · simp only [Bool.or_eq_true, decide_eq_true_eq, not_or, Bool.not_eq_true, not_not] at hf
          have hd1 := decN_take hle hlen h4
          have hm : d * oc.memSize ≤ od * oc.memSize := Nat.mul_le_mul_right _ hle
          obtain ⟨bytes, hb⟩ := decN_raw (fun cs v h => (blockOk_fast hbk hcc hf.1 hf.2 h).1.2) (n := d) (by simp; omega) hd1
          have hbl : bytes.length = d * c.memSize := by
            have := congrArg List.length hb
            rw [List.length_take, rawCells_length, hlen] at this
            rw [hf.2]; omega
          have hdec : decN (decode c) c.memSize d (rawCells bytes) = some ((vs.take d).map (conv c oc)) := by
            rw [← hb, hf.2]; exact decN_map (fun cs v h => (blockOk_fast hbk hcc hf.1 hf.2 h).1.1) hd1
          refine makes_put (rawCells bytes) ?_ (by rw [rawCells_length, hbl, Ty.memSize]) ?_ ?_
          · intro a m
            rw [copyFrom, hu]
            simp only []
            rw [if_neg (by simp [hf.1, hf.2]), Nat.min_eq_left hle]
            have hp := peekRaw_at spre (src.drop (d * oc.memSize) ++ spost) bytes _ hbl
            rw [← hb, ← split_at] at hp
            rw [hp]; rfl
          · rw [decode, if_pos (by simp [hbl]), hdec, conv, hu, ← hd']; rfl
          · intro _
            rw [tidy]
            cases c with
            | prim k =>
              have : ∀ k' (x : List Cell), allN (tidy (.prim k)) (Ty.prim k).memSize k' x := by
                intro k'
                induction k' with
                | zero => intro x; trivial
                | succ k' ih => intro x; exact ⟨by rw [tidy]; trivial, ih _⟩
              exact this _ _
            | _ => simp [Ty.isConstructed] at hf
    · cases hd'
  | map k v b ihk ihv =>
    intro hw S src x hc hd spre spost
    rw [Ty.WF] at hw
    rw [Convertible] at hc
    obtain ⟨b', hu, hck, hcv⟩ := hc
    have hd' := decode_unwrap _ _ _ hd
    rw [hu, decode] at hd'
    obtain ⟨size, cap, blk, vs, hv, h1, h2, h3, h4, rfl⟩ := decColl_iff.mp hd'
    have hcons := makes_weaken (makes_pair (construct_fresh k hw.1) (construct_fresh v hw.2))
      (t' := fun cs => (tidy k (cs.take k.memSize) ∧ tidy v (cs.drop k.memSize)) ∧ (k.Light ∧ v.Light → owned cs = 0))
      (c' := True) (fun _ _ => rfl) (fun _ _ h => h) (fun _ => ⟨trivial, trivial⟩) (fun cs _ _ h =>
        ⟨⟨h.1.1, h.2.1⟩, fun hl => by rw [owned_split k.memSize, h.1.2 hl.1, h.2.2 hl.2]⟩)
    refine makes_weaken (s := seqSize) (makes_clone (light := k.Light ∧ v.Light) (cl := k.Tight ∧ v.Tight)
      (td := fun s => tidy k (s.take k.memSize) ∧ tidy v (s.drop k.memSize)) (f := id) true (.pair k v)
      ⟨.pair k v, size, cap, blk⟩ b b (!k.isConstructed && !v.isConstructed) (vs := vs)
      hcons h3 h1 h4 ?_
      (elem := copyPair (copyFrom k k blk) (copyFrom v v blk) k.memSize) ?_ ?_) ?_ ?_ ?_ ?_
    · intro hb; rw [if_neg (by omega)]; simp only []; omega
    · intro _ i w hi
      obtain ⟨x, sl, y, w', e1, e2, e3, e4, e5⟩ := decN_slot h3 h4 (i := i)
        (by rw [← decN_length h4]; exact (List.getElem?_eq_some_iff.mp hi).1)
      rw [hi] at e5; cases e5
      obtain ⟨u1, u2, rfl, f1, f2⟩ := decPair_iff.mp e4
      have m1 := ihk hw.1 k _ u1 hck f1 x (sl.drop k.memSize ++ y)
      have m2 := ihv hw.2 v _ u2 hcv f2 (x ++ sl.take k.memSize) y
      rw [conv_self k k _ _ rfl hck f1] at m1
      rw [conv_self v v _ _ rfl hcv f2] at m2
      have hlen : (sl.take k.memSize).length = k.memSize := decode_length _ _ _ f1
      rw [← split_at, ← e1] at m1
      rw [List.append_assoc (x ++ sl.take k.memSize), ← split_at, ← e1, List.length_append, hlen] at m2
      rw [e2] at m1 m2
      exact makes_pair m1 m2
    · intro hf
      simp only [Bool.and_eq_true, Bool.not_eq_true'] at hf
      cases k with
      | prim k' =>
        cases v with
        | prim v' =>
          refine ⟨rfl, fun cs w hcs => ⟨hcs, ?_⟩, fun x => by simp [tidy]⟩
          obtain ⟨u1, u2, rfl, f1, f2⟩ := decPair_iff.mp hcs
          rw [decode] at f1 f2
          obtain ⟨b1, -, -, g1⟩ := decBytes_iff.mp f1
          obtain ⟨b2, -, -, g2⟩ := decBytes_iff.mp f2
          refine ⟨b1 ++ b2, ?_⟩
          rw [← List.take_append_drop (Ty.prim k').memSize cs, g1, g2]; simp [rawCells]
        | _ => simp [Ty.isConstructed] at hf
      | _ => simp [Ty.isConstructed] at hf
    · intro a m
      rw [copyFrom, hu]
      simp only []
      rw [if_pos trivial, peekColl_at]
      simp only [Except.bind]
      rw [if_pos trivial]
    · intro cs _ hh; rw [decode, conv, hv]; simpa using hh
    · intro hh; rw [Ty.Tight] at hh; exact hh
    · intro cs _ _ hh; rw [tidy]; exact hh
  | pair x y ihx ihy =>
    intro hw S src v hc hd spre spost
    rw [Ty.WF] at hw
    rw [Convertible] at hc
    obtain ⟨ox, oy, hu, hsz, hcx, hcy⟩ := hc
    have hd' := decode_unwrap _ _ _ hd
    rw [hu, decode] at hd'
    obtain ⟨u1, u2, hv, f1, f2⟩ := decPair_iff.mp hd'
    have m1 := ihx hw.1 ox _ u1 hcx f1 spre (src.drop ox.memSize ++ spost)
    have m2 := ihy hw.2 oy _ u2 hcy f2 (spre ++ src.take ox.memSize) spost
    have hlen : (src.take ox.memSize).length = ox.memSize := decode_length _ _ _ f1
    rw [← split_at] at m1
    rw [List.append_assoc (spre ++ src.take ox.memSize), ← split_at, List.length_append, hlen, hsz] at m2
    refine makes_weaken (makes_pair m1 m2) ?_ ?_ ?_ ?_
    · intro a m; rw [copyFrom, hu]; rfl
    · intro cs _ hh; rw [decode, conv, hu, hv]; exact hh
    · intro hh; rw [Ty.Tight] at hh; exact hh
    · intro cs _ _ hh; rw [tidy]; exact hh
  | als n t ih =>
    intro hw S src v hc hd spre spost
    rw [Ty.WF] at hw
    rw [Convertible] at hc
    refine makes_weaken (s := t.memSize) (ih hw S src v hc hd spre spost) ?_ ?_ ?_ ?_
    · intro a m; rw [copyFrom]
    · intro cs _ hh; rw [decode, conv]; exact hh
    · intro hh; rw [Ty.Tight] at hh; exact hh
    · intro cs _ _ hh; rw [tidy]; exact hh
  | struct n ms ih =>
    intro hw S src v hc hd spre spost
    rw [Ty.WF] at hw
    rw [Convertible] at hc
    rw [← decode_rget] at hd
    by_cases hS : ∃ n' os, S.rget = .struct n' os
    · obtain ⟨n', os, hS⟩ := hS
      rw [hS] at hc hd
      simp only [] at hc
      rw [decode] at hd
      cases h4 : decodeAll os src with
      | none => rw [h4] at hd; cases hd
      | some vs =>
        rw [h4] at hd; cases hd
        refine makes_weaken (s := ms.sumSize) (copyFromAll_ok ih hw os src vs hc h4 spre spost) ?_ ?_ ?_ ?_
        · intro a m; rw [copyFrom, hS]
        · intro cs _ hh; rw [decode, hh]; simp only [conv, hS]; rfl
        · intro hh; rw [Ty.Tight] at hh; exact hh
        · intro cs _ _ hh; rw [tidy]; exact hh
    · have hc' : ConvertibleOnly ms S.rget := by
        split at hc
        · rename_i h; exact absurd ⟨_, _, h⟩ hS
        · exact hc
      refine makes_weaken (s := ms.sumSize) (copyFromOnly_ok ih hw S.rget src v hc' hd spre spost) ?_ ?_ ?_ ?_
      · intro a m
        rw [copyFrom]
        split
        · rename_i h; exact absurd ⟨_, _, h⟩ hS
        · rfl
      · intro cs _ hh
        rw [decode, hh]
        simp only [conv]
        split
        · rename_i _ _ h; exact absurd ⟨_, _, h⟩ hS
        · rfl
      · intro hh; rw [Ty.Tight] at hh; exact hh
      · intro cs _ _ hh; rw [tidy]; exact hh
  | union n d ms i _ ih =>
    intro hw S src v hc hd spre spost
    rw [Ty.WF] at hw
    obtain ⟨hdo, hok, hwm⟩ := hw
    rw [Convertible] at hc
    obtain ⟨n', oms, oi, rfl, hmatch, hself⟩ := hc
    obtain ⟨bs, rest, hbl, hrl, rfl, hcase⟩ := decode_union_inv hdo hd
    intro pre old post lk hl
    rw [Ty.memSize] at hl
    have ho : pre ++ old ++ post = pre ++ old.take d.memSize ++ (old.drop d.memSize ++ post) := split_at _ _ _ _
    have hput := put_at pre (old.take d.memSize) (old.drop d.memSize ++ post) (rawCells bs) lk (by simp [hbl]; omega)
    have hlab := readLabel_at hdo pre (old.drop d.memSize ++ post) bs hbl
    have hesrc : spre ++ (rawCells bs ++ rest) ++ spost = spre ++ rawCells bs ++ (rest ++ spost) := by simp
    cases hx : UInfo.case i (labelOf d.memSize bs) with
    | none =>
      refine ⟨rawCells bs ++ old.drop d.memSize, owned (old.take d.memSize), ?_, by simp [Ty.memSize]; omega, ?_, ?_⟩
      · rw [copyFrom, hesrc, disc_copyFrom hdo bs hbl, ho, hput]
        simp only [Except.bind]
        rw [hlab]
        simp only []
        rw [show omGet i.labels (labelOf d.memSize bs) = none from hx]
        simp
      · rw [decode_union_none hdo hbl (by simp; omega) hx]
        rcases hcase with ⟨_, rfl⟩ | ⟨nm, t, w, _, _, _, rfl⟩
        · simp only [conv]
        · simp only [conv]; rw [hx]
      · intro h0 _
        refine ⟨owned_zero_of_take h0, ?_⟩
        rw [tidy_union_none hdo hbl hx]
        exact owned_zero_of_drop h0
    | some x =>
      obtain ⟨y, hy, hfind⟩ := hmatch _ _ hx
      obtain ⟨t, ht⟩ := Option.isSome_iff_exists.mp (hok.label _ _ hx).2
      rcases hcase with ⟨hn, _⟩ | ⟨nm, t', w, hnm, ht', hw', rfl⟩
      · rw [hy] at hn; cases hn
      · rw [hy] at hnm; cases hnm
        rw [hfind, ht] at ht'
        cases ht'
        have hwt := (Mems.WF.forall hwm).find ht
        have hct := convertibleSelf_find hself ht
        have m1 := ih.find ht hwt t _ w hct hw' (spre ++ rawCells bs) (rest.drop t.memSize ++ spost)
        rw [conv_self t t _ _ rfl hct hw', ← split_at] at m1
        obtain ⟨n2, e2, hr2, hl2, hd2, ht2⟩ := makes_case m1 (Mems.maxSize_find ht) (pre ++ rawCells bs)
          (old.drop d.memSize) post (lk + owned (old.take d.memSize)) (by simp; omega)
        refine ⟨rawCells bs ++ n2, owned (old.take d.memSize) + e2, ?_, by simp [Ty.memSize]; omega, ?_, ?_⟩
        · rw [copyFrom, hesrc, disc_copyFrom hdo bs hbl, ho, hput]
          simp only [Except.bind]
          rw [hlab]
          simp only []
          rw [show omGet i.labels (labelOf d.memSize bs) = some x from hx]
          simp only []
          rw [copyFromCase_eq ht, show pre.length + d.memSize = (pre ++ rawCells bs).length by simp [hbl],
            show spre.length + d.memSize = (spre ++ rawCells bs).length by simp [hbl],
            ← List.append_assoc (pre ++ rawCells bs), ← List.append_assoc (spre ++ rawCells bs), hr2]
          simp [Nat.add_assoc]
        · simp only [conv]
          rw [hx, decode_union_some hdo hbl hl2 hx ht, show decode t (n2.take t.memSize) = some w from hd2]
          rfl
        · intro h0 hti
          rw [Ty.Tight] at hti
          obtain ⟨z2, w2⟩ := ht2 (owned_zero_of_drop h0) (Mems.Tight.find hti ht)
          refine ⟨by have := owned_zero_of_take (n := d.memSize) h0; omega, ?_⟩
          rw [tidy_union_some hdo hbl hx ht]
          exact w2

end Verif.Inst
