import Verif.Lemmas.Inst
import Verif.Spec.Conv
/-! # Operations that make an instance in a region of memory -/

namespace Verif.Inst

/-! ## Decoding -/

theorem decN_length {dec : List Cell → Option Val} {s : Nat} : {n : Nat} → {cs : List Cell} → {vs : List Val} →
    decN dec s n cs = some vs → vs.length = n
  | 0, _, _, h => by simp [decN] at h; subst h; rfl
  | n + 1, cs, vs, h => by
    rw [decN] at h
    cases h1 : dec (cs.take s) with
    | none => rw [h1] at h; cases h
    | some v =>
      rw [h1] at h
      cases h2 : decN dec s n (cs.drop s) with
      | none => rw [h2] at h; cases h
      | some ws => rw [h2] at h; cases h; simp [decN_length h2]

theorem decStr_iff {k : SK} {b : Nat} {cs : List Cell} {v : Val} :
    decStr k b cs = some v ↔ ∃ us h, v = .str us ∧ (b > 0 → us.length ≤ b) ∧
      cs = objCells (.str k us h) strSize := by
  constructor
  · intro h
    unfold decStr at h
    split at h
    · rename_i k' us hp t
      split at h
      · rename_i hc
        cases h
        obtain ⟨rfl, hl, ht, hb⟩ := hc
        refine ⟨us, hp, rfl, hb, ?_⟩
        unfold objCells
        congr 1
        apply List.eq_replicate_iff.mpr
        refine ⟨by simp [strSize] at hl ⊢; omega, fun c hc => ?_⟩
        have := List.all_eq_true.mp ht c hc
        cases c <;> simp_all [Cell.isTail]
      · cases h
    · cases h
  · rintro ⟨us, h, rfl, hb, rfl⟩
    simp only [objCells, decStr]
    rw [if_pos]
    refine ⟨trivial, by simp [strSize], ?_, hb⟩
    simp [Cell.isTail]

theorem decColl_iff {im : Bool} {c : Ty} {s b : Nat} {dec : List Cell → Option Val} {cs : List Cell} {v : Val} :
    decColl im c s b dec cs = some v ↔ ∃ size cap blk vs, v = .coll (vs.take size) ∧ size ≤ cap ∧
      (b > 0 → cap ≤ b) ∧ blk.length = cap * s ∧ decN dec s cap blk = some vs ∧
      cs = objCells (.coll im c size cap blk) seqSize := by
  constructor
  · intro h
    unfold decColl at h
    split at h
    · rename_i im' c' size cap blk t
      split at h
      · rename_i hc
        obtain ⟨rfl, rfl, hl, ht, hsz, hb, hbl⟩ := hc
        cases hd : decN dec s cap blk with
        | none => rw [hd] at h; cases h
        | some vs =>
          rw [hd] at h; cases h
          refine ⟨size, cap, blk, vs, rfl, hsz, hb, hbl, hd, ?_⟩
          unfold objCells
          congr 1
          apply List.eq_replicate_iff.mpr
          refine ⟨by simp [seqSize] at hl ⊢; omega, fun c hc => ?_⟩
          have := List.all_eq_true.mp ht c hc
          cases c <;> simp_all [Cell.isTail]
      · cases h
    · cases h
  · rintro ⟨size, cap, blk, vs, rfl, hsz, hb, hbl, hd, rfl⟩
    simp only [objCells, decColl]
    rw [if_pos]
    · rw [hd]; rfl
    · refine ⟨trivial, trivial, by simp [seqSize], ?_, hsz, hb, hbl⟩
      simp [Cell.isTail]

theorem objCells_length (c : Cell) (n : Nat) (h : 0 < n) : (objCells c n).length = n := by
  simp [objCells]; omega

theorem decodeAll_length_of : {ms : Mems} →
    (ms.Forall fun t => ∀ cs v, decode t cs = some v → cs.length = t.memSize) →
    ∀ cs vs, decodeAll ms cs = some vs → cs.length = ms.sumSize
  | .nil, _ => by intro cs vs hd; rw [decodeAll] at hd; split at hd <;> simp_all [Mems.sumSize]
  | .cons x t r, h => by
    intro cs vs hd
    rw [decodeAll] at hd
    cases h1 : decode t (cs.take t.memSize) with
    | none => rw [h1] at hd; cases hd
    | some v =>
      rw [h1] at hd
      cases h2 : decodeAll r (cs.drop t.memSize) with
      | none => rw [h2] at hd; cases hd
      | some ws =>
        have e1 := h.1 _ _ h1
        have e2 := decodeAll_length_of h.2 _ _ h2
        simp [Mems.sumSize] at e1 e2 ⊢
        omega

theorem split_at (pre old post : List Cell) (s : Nat) :
    pre ++ old ++ post = pre ++ old.take s ++ (old.drop s ++ post) := by
  rw [List.append_assoc pre (old.take s), ← List.append_assoc (old.take s), List.take_append_drop, List.append_assoc]

theorem Mems.WF.forall : {ms : Mems} → ms.WF → ms.Forall Ty.WF
  | .nil, _ => trivial
  | .cons _ _ _, h => by rw [Verif.Mems.WF] at h; exact ⟨h.1, Mems.WF.forall h.2⟩

theorem decode_length (T : Ty) : ∀ cs v, decode T cs = some v → cs.length = T.memSize := by
  induction T using Ty.ind with
  | prim k => intro cs v h; rw [decode] at h; obtain ⟨bs, _, hl, rfl⟩ := decBytes_iff.mp h; simpa [Ty.memSize] using hl
  | enum n w vs => intro cs v h; rw [decode] at h; obtain ⟨bs, _, hl, rfl⟩ := decBytes_iff.mp h; simpa [Ty.memSize] using hl
  | str k b =>
    intro cs v h; rw [decode] at h; obtain ⟨us, _, _, _, rfl⟩ := decStr_iff.mp h
    rw [objCells_length _ _ (by decide)]; rfl
  | seq c b _ =>
    intro cs v h; rw [decode] at h; obtain ⟨_, _, _, _, _, _, _, _, _, rfl⟩ := decColl_iff.mp h
    rw [objCells_length _ _ (by decide)]; rfl
  | arr n c d _ => intro cs v h; rw [decode] at h; split at h <;> simp_all [Ty.memSize]
  | map k v b _ _ =>
    intro cs v h; rw [decode] at h; obtain ⟨_, _, _, _, _, _, _, _, _, rfl⟩ := decColl_iff.mp h
    rw [objCells_length _ _ (by decide)]; rfl
  | pair x y hx hy =>
    intro cs v h
    rw [decode, decPair] at h
    cases h1 : decode x (cs.take x.memSize) with
    | none => rw [h1] at h; cases h
    | some u =>
      rw [h1] at h
      cases h2 : decode y (cs.drop x.memSize) with
      | none => rw [h2] at h; cases h
      | some w =>
        have e1 := hx _ _ h1
        have e2 := hy _ _ h2
        simp [Ty.memSize] at e1 e2 ⊢; omega
  | als n t ih => intro cs v h; rw [decode] at h; rw [Ty.memSize]; exact ih _ _ h
  | struct n ms ih =>
    intro cs v h
    rw [decode] at h
    cases h1 : decodeAll ms cs with
    | none => rw [h1] at h; cases h
    | some vs => rw [Ty.memSize]; exact decodeAll_length_of ih _ _ h1
  | union n d ms i _ _ => intro cs v h; rw [decode] at h; split at h <;> simp_all [Ty.memSize]

theorem decode_rget : (T : Ty) → decode T.rget = decode T
  | .alias _ t => by
    rw [Ty.rget, decode_rget t]; funext cs; rw [decode]
  | .prim _ | .enum _ _ _ | .str _ _ | .seq _ _ | .arr _ _ _ | .map _ _ _ | .pair _ _
  | .struct _ _ | .union _ _ _ _ => rfl

theorem construct_rget : (T : Ty) → construct T.rget = construct T
  | .alias _ t => by
    rw [Ty.rget, construct_rget t]; funext a m; rw [construct]
  | .prim _ | .enum _ _ _ | .str _ _ | .seq _ _ | .arr _ _ _ | .map _ _ _ | .pair _ _
  | .struct _ _ | .union _ _ _ _ => rfl

theorem copy_rget : (T : Ty) → copy T.rget = copy T
  | .alias _ t => by
    rw [Ty.rget, copy_rget t]; funext sm sa ta m; rw [copy]
  | .prim _ | .enum _ _ _ | .str _ _ | .seq _ _ | .arr _ _ _ | .map _ _ _ | .pair _ _
  | .struct _ _ | .union _ _ _ _ => rfl

theorem copyFrom_rget : (T : Ty) → copyFrom T.rget = copyFrom T
  | .alias _ t => by
    rw [Ty.rget, copyFrom_rget t]; funext o sm sa ta m; rw [copyFrom]
  | .prim _ | .enum _ _ _ | .str _ _ | .seq _ _ | .arr _ _ _ | .map _ _ _ | .pair _ _
  | .struct _ _ | .union _ _ _ _ => rfl

theorem move_rget (b : Bool) : (T : Ty) → move b T.rget = move b T
  | .alias _ t => by
    rw [Ty.rget, move_rget b t]; funext sm sa ta m; rw [move]
  | .prim _ | .enum _ _ _ | .str _ _ | .seq _ _ | .arr _ _ _ | .map _ _ _ | .pair _ _
  | .struct _ _ | .union _ _ _ _ => rfl

theorem destroy_rget : (T : Ty) → destroy T.rget = destroy T
  | .alias _ t => by
    rw [Ty.rget, destroy_rget t]; funext a m; rw [destroy]
  | .prim _ | .enum _ _ _ | .str _ _ | .seq _ _ | .arr _ _ _ | .map _ _ _ | .pair _ _
  | .struct _ _ | .union _ _ _ _ => rfl

theorem compare_rget : (T : Ty) → compare T.rget = compare T
  | .alias _ t => by
    rw [Ty.rget, compare_rget t]; funext x a y b; rw [compare]
  | .prim _ | .enum _ _ _ | .str _ _ | .seq _ _ | .arr _ _ _ | .map _ _ _ | .pair _ _
  | .struct _ _ | .union _ _ _ _ => rfl

/-- What `discOk` gives: the discriminator is a scalar. -/
theorem discOk_cases {d : Ty} (h : discOk d) :
    (∃ k, d.rget = .prim k ∧ k.isFloat = false) ∨ (∃ n vs, d.rget = .enum n .w4 vs) := by
  unfold discOk at h
  split at h
  · rename_i k hk; exact .inl ⟨k, hk, h⟩
  · rename_i n w vs hk; subst h; exact .inr ⟨n, vs, hk⟩
  · cases h

theorem disc_decode {d : Ty} (h : discOk d) (cs : List Cell) : decode d cs = decBytes d.memSize cs := by
  rw [← decode_rget, ← Ty.rget_memSize]
  rcases discOk_cases h with ⟨k, hk, _⟩ | ⟨n, vs, hk⟩ <;> rw [hk, decode] <;> rfl

/-! ## Making instances -/

/-- `f` at any address of a big enough memory writes just the `size` cells there, leaving an instance with
value `v`; if nothing owning was there and `clean`, nothing is lost and the result is tidy. -/
def Makes {α : Type} (size : Nat) (dec : List Cell → Option α) (td : List Cell → Prop) (clean : Prop)
    (f : Nat → Mem → M Mem) (v : α) : Prop :=
  ∀ (pre old post : List Cell) (lk : Nat), old.length = size →
    ∃ new d, f pre.length ⟨pre ++ old ++ post, lk⟩ = .ok ⟨pre ++ new ++ post, lk + d⟩ ∧ new.length = size ∧
      dec new = some v ∧ (owned old = 0 → clean → d = 0 ∧ td new)

theorem makes_seq {α β : Type} {s1 s2 : Nat} {d1 : List Cell → Option α} {d2 : List Cell → Option β}
    {t1 t2 : List Cell → Prop} {c1 c2 : Prop} {f g : Nat → Mem → M Mem} {u : α} {v : β}
    (hf : Makes s1 d1 t1 c1 f u) (hg : Makes s2 d2 t2 c2 g v) :
    Makes (s1 + s2) (fun cs => (d1 (cs.take s1)).bind fun x => (d2 (cs.drop s1)).map fun y => (x, y))
      (fun cs => t1 (cs.take s1) ∧ t2 (cs.drop s1)) (c1 ∧ c2)
      (fun a m => (f a m).bind (g (a + s1))) (u, v) := by
  intro pre old post lk hl
  obtain ⟨n1, e1, hr1, hl1, hd1, ht1⟩ := hf pre (old.take s1) (old.drop s1 ++ post) lk (by simp; omega)
  obtain ⟨n2, e2, hr2, hl2, hd2, ht2⟩ := hg (pre ++ n1) (old.drop s1) post (lk + e1) (by simp; omega)
  refine ⟨n1 ++ n2, e1 + e2, ?_, by simp [hl1, hl2], ?_, ?_⟩
  · have ho : pre ++ old ++ post = pre ++ old.take s1 ++ (old.drop s1 ++ post) := split_at _ _ _ _
    show (f pre.length _).bind _ = _
    rw [ho, hr1]
    show g (pre.length + s1) _ = _
    have : pre.length + s1 = (pre ++ n1).length := by simp [hl1]
    rw [this]
    have ho2 : pre ++ n1 ++ (old.drop s1 ++ post) = pre ++ n1 ++ old.drop s1 ++ post := by simp
    rw [ho2, hr2]
    simp [Nat.add_assoc]
  · simp [← hl1, hd1, hd2]
  · intro h0 ⟨hc1, hc2⟩
    obtain ⟨z1, w1⟩ := ht1 (owned_zero_of_take h0) hc1
    obtain ⟨z2, w2⟩ := ht2 (owned_zero_of_drop h0) hc2
    refine ⟨by omega, ?_⟩
    simp [← hl1, w1, w2]

theorem makes_weaken {α β : Type} {s : Nat} {d : List Cell → Option α} {d' : List Cell → Option β}
    {t t' : List Cell → Prop} {c c' : Prop} {f f' : Nat → Mem → M Mem} {u : α} {u' : β} (h : Makes s d t c f u)
    (hf : ∀ a m, f' a m = f a m) (hd : ∀ cs, cs.length = s → d cs = some u → d' cs = some u')
    (hc : c' → c) (ht : ∀ cs, cs.length = s → d cs = some u → t cs → t' cs) : Makes s d' t' c' f' u' := by
  intro pre old post lk hl
  obtain ⟨n, e, hr, hl1, hd1, ht1⟩ := h pre old post lk hl
  refine ⟨n, e, by rw [hf]; exact hr, hl1, hd _ hl1 hd1, fun h0 h1 => ?_⟩
  obtain ⟨z, w⟩ := ht1 h0 (hc h1)
  exact ⟨z, ht _ hl1 hd1 w⟩

theorem makes_pair {s1 s2 : Nat} {d1 d2 : List Cell → Option Val}
    {t1 t2 : List Cell → Prop} {c1 c2 : Prop} {f g : Nat → Mem → M Mem} {u v : Val}
    (hf : Makes s1 d1 t1 c1 f u) (hg : Makes s2 d2 t2 c2 g v) :
    Makes (s1 + s2) (decPair d1 d2 s1) (fun cs => t1 (cs.take s1) ∧ t2 (cs.drop s1)) (c1 ∧ c2)
      (fun a m => (f a m).bind (g (a + s1))) (.list [u, v]) := by
  refine makes_weaken (makes_seq hf hg) (fun _ _ => rfl) ?_ id (fun _ _ _ h => h)
  intro cs _ h
  unfold decPair
  cases h1 : d1 (cs.take s1) with
  | none => rw [h1] at h; cases h
  | some x =>
    rw [h1] at h
    cases h2 : d2 (cs.drop s1) with
    | none => simp [h2] at h
    | some y => simp [h2] at h; obtain ⟨rfl, rfl⟩ := h; rfl

theorem makes_loop {s : Nat} {dec : List Cell → Option Val} {td : List Cell → Prop} {cl : Prop}
    {g : Nat → Nat → Mem → M Mem} {v : Nat → Val} (a : Nat) : ∀ (n j : Nat),
    (∀ i, j ≤ i → i < j + n → Makes s dec td cl (g i) (v i)) →
    ∀ (pre old post : List Cell) (lk : Nat), pre.length = a + j * s → old.length = n * s →
    ∃ new d, loop (fun i m => g i (a + i * s) m) j n ⟨pre ++ old ++ post, lk⟩ = .ok ⟨pre ++ new ++ post, lk + d⟩ ∧
      new.length = n * s ∧ decN dec s n new = some ((List.range' j n).map v) ∧
      (owned old = 0 → cl → d = 0 ∧ allN td s n new)
  | 0, j, _, pre, old, post, lk, hp, hl => by
    refine ⟨[], 0, ?_, by simp, rfl, fun _ _ => ⟨rfl, trivial⟩⟩
    simp at hl
    subst hl
    rfl
  | n + 1, j, h, pre, old, post, lk, hp, hl => by
    rw [Nat.succ_mul] at hl
    obtain ⟨n1, e1, hr1, hl1, hd1, ht1⟩ := h j (Nat.le_refl _) (by omega) pre (old.take s) (old.drop s ++ post) lk
      (by simp; omega)
    obtain ⟨n2, e2, hr2, hl2, hd2, ht2⟩ := makes_loop a n (j + 1) (fun i h1 h2 => h i (by omega) (by omega)) (pre ++ n1)
      (old.drop s) post (lk + e1) (by simp [hl1, hp, Nat.succ_mul, Nat.add_assoc]) (by simp; omega)
    refine ⟨n1 ++ n2, e1 + e2, ?_, by simp [hl1, hl2, Nat.succ_mul]; omega, ?_, ?_⟩
    · have ho : pre ++ old ++ post = pre ++ old.take s ++ (old.drop s ++ post) := split_at _ _ _ _
      rw [loop, ← hp, ho, hr1]
      show loop _ _ _ _ = _
      have ho2 : pre ++ n1 ++ (old.drop s ++ post) = pre ++ n1 ++ old.drop s ++ post := by simp
      rw [ho2, hr2]
      simp [Nat.add_assoc]
    · simp [decN, ← hl1, hd1, List.range'_succ]
      simp [hl1, hd2]
    · intro h0 hc
      obtain ⟨z1, w1⟩ := ht1 (owned_zero_of_take h0) hc
      obtain ⟨z2, w2⟩ := ht2 (owned_zero_of_drop h0) hc
      refine ⟨by omega, ?_⟩
      simp [allN, ← hl1, w1]
      simp [hl1, w2]

/-- A loop as one operation. -/
theorem makes_array {s : Nat} {dec : List Cell → Option Val} {td : List Cell → Prop} {cl : Prop}
    {g : Nat → Nat → Mem → M Mem} {v : Nat → Val} (n : Nat) (h : ∀ i, i < n → Makes s dec td cl (g i) (v i)) :
    Makes (n * s) (decN dec s n) (allN td s n) cl (fun a m => loop (fun i m => g i (a + i * s) m) 0 n m)
      ((List.range n).map v) := by
  intro pre old post lk hl
  have := makes_loop pre.length n 0 (fun i _ h2 => h i (by omega)) pre old post lk (by simp) hl
  rwa [← List.range_eq_range'] at this

theorem makes_put {α : Type} {s : Nat} {dec : List Cell → Option α} {td : List Cell → Prop} {cl : Prop}
    {f : Nat → Mem → M Mem} (cs : List Cell) {v : α} (hf : ∀ a m, f a m = put m a cs) (hl : cs.length = s)
    (hd : dec cs = some v) (ht : cl → td cs) : Makes s dec td cl f v := by
  intro pre old post lk ho
  refine ⟨cs, owned old, ?_, hl, hd, fun h0 hc => ⟨h0, ht hc⟩⟩
  rw [hf]
  exact put_at pre old post cs lk (by omega)

theorem makes_raw {s : Nat} {td : List Cell → Prop} {cl : Prop} {f : Nat → Mem → M Mem} (bs : List Byte)
    (hf : ∀ a m, f a m = put m a (rawCells bs)) (hl : bs.length = s) (ht : ∀ cs, td cs) :
    Makes s (decBytes s) td cl f (.bytes bs) :=
  makes_put (rawCells bs) hf (by simpa using hl) (decBytes_iff.mpr ⟨bs, rfl, hl, rfl⟩) (fun _ => ht _)

theorem makes_str {td : List Cell → Prop} {cl : Prop} {f : Nat → Mem → M Mem} (k : SK) (b : Nat) (us : List Nat)
    (h : Bool) (hf : ∀ a m, f a m = putStr m a k us h) (hb : b > 0 → us.length ≤ b) (ht : ∀ cs, td cs) :
    Makes strSize (decStr k b) td cl f (.str us) :=
  makes_put _ hf (objCells_length _ _ (by decide)) (decStr_iff.mpr ⟨us, h, rfl, hb, rfl⟩) (fun _ => ht _)

/-- A fresh block of constructed slots. -/
theorem initBlock_ok {s : Nat} {dec : List Cell → Option Val} {td : List Cell → Prop} {f : Nat → Mem → M Mem}
    {v : Val} (h : Makes s dec td True f v) (cap : Nat) :
    ∃ blk, initBlock f s cap = .ok ⟨blk, 0⟩ ∧ blk.length = cap * s ∧
      decN dec s cap blk = some (List.replicate cap v) ∧ allN td s cap blk := by
  obtain ⟨new, d, hr, hl, hd, ht⟩ := makes_loop (g := fun _ => f) (v := fun _ => v) 0 cap 0 (fun _ _ _ => h) []
    (List.replicate (cap * s) (.raw 0)) [] 0 (by simp) (by simp)
  obtain ⟨rfl, hall⟩ := ht (by simp) trivial
  refine ⟨new, ?_, hl, ?_, hall⟩
  · unfold initBlock
    simp only [Nat.zero_add, List.nil_append, List.append_nil] at hr
    exact hr
  · rw [hd]; simp [List.map_const']

theorem owned_objCells (c : Cell) (n : Nat) : owned (objCells c n) = if c.owning then 1 else 0 := by
  unfold owned objCells
  rw [List.countP_cons, List.countP_replicate]
  simp [Cell.owning]

theorem allN_mono {p q : List Cell → Prop} (h : ∀ cs, p cs → q cs) (s : Nat) : (n : Nat) → (cs : List Cell) →
    allN p s n cs → allN q s n cs
  | 0, _, _ => trivial
  | n + 1, _, ⟨h1, h2⟩ => ⟨h _ h1, allN_mono h s n _ h2⟩

theorem allN_owned {s : Nat} : (n : Nat) → (cs : List Cell) → cs.length = n * s →
    allN (fun cs => owned cs = 0) s n cs → owned cs = 0
  | 0, cs, hl, _ => by simp at hl; subst hl; rfl
  | n + 1, cs, hl, ⟨h1, h2⟩ => by
    rw [owned_split s, h1, allN_owned n (cs.drop s) (by simp [hl, Nat.succ_mul]) h2]

theorem makes_newColl {s : Nat} {dec : List Cell → Option Val} {td : List Cell → Prop} {f : Nat → Mem → M Mem}
    {v : Val} (h : Makes s dec td True f v) (im : Bool) (c : Ty) (b : Nat) {L : Prop}
    (hL : ∀ cs, td cs → L → owned cs = 0) :
    Makes seqSize (decColl im c s b dec) (fun cs => tidyColl L td s cs ∧ (b = 0 → owned cs = 0)) True
      (newColl im c s b f) (.coll []) := by
  intro pre old post lk hl
  obtain ⟨blk, hi, hbl, hdb, hall⟩ := initBlock_ok h b
  refine ⟨objCells (.coll im c 0 b blk) seqSize, owned old, ?_, objCells_length _ _ (by decide), ?_, ?_⟩
  · unfold newColl
    rw [hi]
    show Except.map _ (put _ _ _) = _
    rw [put_at pre old post _ lk (by rw [hl]; exact objCells_length _ _ (by decide))]
    rfl
  · exact decColl_iff.mpr ⟨0, b, blk, _, by simp, by omega, fun _ => Nat.le_refl _, hbl, hdb, rfl⟩
  · intro h0 _
    refine ⟨h0, ⟨hall, fun hh => by rw [Nat.zero_mul, List.drop_zero]; exact allN_owned b blk hbl (allN_mono (fun cs hc => hL cs hc hh) _ _ _ hall)⟩, fun hb => ?_⟩
    subst hb
    simp [owned_objCells, Cell.owning]

theorem makes_case {s : Nat} {dec : List Cell → Option Val} {td : List Cell → Prop} {cl : Prop}
    {f : Nat → Mem → M Mem} {v : Val} (h : Makes s dec td cl f v) {n : Nat} (hn : s ≤ n) :
    Makes n (fun cs => dec (cs.take s)) (fun cs => td (cs.take s) ∧ owned (cs.drop s) = 0) cl f v := by
  intro pre old post lk hl
  obtain ⟨n1, e1, hr1, hl1, hd1, ht1⟩ := h pre (old.take s) (old.drop s ++ post) lk (by simp; omega)
  refine ⟨n1 ++ old.drop s, e1, ?_, by simp [hl1]; omega, ?_, ?_⟩
  · have ho : pre ++ old ++ post = pre ++ old.take s ++ (old.drop s ++ post) := split_at _ _ _ _
    rw [ho, hr1]
    simp
  · simp [← hl1, hd1]
  · intro h0 hc
    obtain ⟨z1, w1⟩ := ht1 (owned_zero_of_take h0) hc
    refine ⟨z1, ?_⟩
    simp [← hl1, w1]
    rw [hl1]; exact owned_zero_of_drop h0

theorem constructCase_eq : {ms : Mems} → {n : String} → {t : Ty} → ms.find? n = some t → constructCase ms n = construct t
  | .nil, _, _, h => by simp [Mems.find?] at h
  | .cons x u r, n, t, h => by
    funext a m
    rw [Mems.find?] at h
    rw [constructCase]
    split at h
    · cases h; rw [if_pos (by assumption)]
    · rw [if_neg (by assumption), constructCase_eq h]

theorem decodeCase_eq : {ms : Mems} → {n : String} → {t : Ty} → ms.find? n = some t →
    ∀ cs, decodeCase ms n cs = decode t (cs.take t.memSize)
  | .nil, _, _, h => by simp [Mems.find?] at h
  | .cons x u r, n, t, h => by
    intro cs
    rw [Mems.find?] at h
    rw [decodeCase]
    split at h
    · cases h; rw [if_pos (by assumption)]
    · rw [if_neg (by assumption), decodeCase_eq h]

theorem tidyCase_eq : {ms : Mems} → {n : String} → {t : Ty} → ms.find? n = some t →
    ∀ cs, tidyCase ms n cs = (tidy t (cs.take t.memSize) ∧ owned (cs.drop t.memSize) = 0)
  | .nil, _, _, h => by simp [Mems.find?] at h
  | .cons x u r, n, t, h => by
    intro cs
    rw [Mems.find?] at h
    rw [tidyCase]
    split at h
    · cases h; rw [if_pos (by assumption)]
    · rw [if_neg (by assumption), tidyCase_eq h]

theorem defCase_eq : {ms : Mems} → {n : String} → {t : Ty} → ms.find? n = some t → defCase ms n = defVal t
  | .nil, _, _, h => by simp [Mems.find?] at h
  | .cons x u r, n, t, h => by
    rw [Mems.find?] at h
    rw [defCase]
    split at h
    · cases h; rw [if_pos (by assumption)]
    · rw [if_neg (by assumption), defCase_eq h]

theorem decode_union_some {n : String} {d : Ty} {ms : Mems} {i : UInfo} (hd : discOk d) {bs : List Byte}
    {rest : List Cell} (hb : bs.length = d.memSize) (hr : rest.length = ms.maxSize) {nm : String} {t : Ty}
    (hc : UInfo.case i (labelOf d.memSize bs) = some nm) (ht : ms.find? nm = some t) :
    decode (.union n d ms i) (rawCells bs ++ rest) =
      (decode t (rest.take t.memSize)).map (.un (.bytes bs) nm) := by
  rw [decode, if_pos (by simp [hb, hr]), List.take_left' (by simp [hb]), disc_decode hd,
    decBytes_iff.mpr ⟨bs, rfl, hb, rfl⟩]
  simp only []
  rw [hc, List.drop_left' (by simp [hb])]
  simp only []
  rw [decodeCase_eq ht]

theorem decode_union_none {n : String} {d : Ty} {ms : Mems} {i : UInfo} (hd : discOk d) {bs : List Byte}
    {rest : List Cell} (hb : bs.length = d.memSize) (hr : rest.length = ms.maxSize)
    (hc : UInfo.case i (labelOf d.memSize bs) = none) :
    decode (.union n d ms i) (rawCells bs ++ rest) = some (.unNone (.bytes bs)) := by
  rw [decode, if_pos (by simp [hb, hr]), List.take_left' (by simp [hb]), disc_decode hd,
    decBytes_iff.mpr ⟨bs, rfl, hb, rfl⟩]
  simp only []
  rw [hc]

theorem tidy_union_some {n : String} {d : Ty} {ms : Mems} {i : UInfo} (hd : discOk d) {bs : List Byte}
    {rest : List Cell} (hb : bs.length = d.memSize) {nm : String} {t : Ty}
    (hc : UInfo.case i (labelOf d.memSize bs) = some nm) (ht : ms.find? nm = some t) :
    tidy (.union n d ms i) (rawCells bs ++ rest) =
      (tidy t (rest.take t.memSize) ∧ owned (rest.drop t.memSize) = 0) := by
  rw [tidy, List.take_left' (by simp [hb]), disc_decode hd,
    decBytes_iff.mpr ⟨bs, rfl, hb, rfl⟩]
  simp only []
  rw [hc, List.drop_left' (by simp [hb])]
  simp only []
  rw [tidyCase_eq ht]

theorem tidy_union_none {n : String} {d : Ty} {ms : Mems} {i : UInfo} (hd : discOk d) {bs : List Byte}
    {rest : List Cell} (hb : bs.length = d.memSize)
    (hc : UInfo.case i (labelOf d.memSize bs) = none) :
    tidy (.union n d ms i) (rawCells bs ++ rest) = (owned rest = 0) := by
  rw [tidy, List.take_left' (by simp [hb]), disc_decode hd,
    decBytes_iff.mpr ⟨bs, rfl, hb, rfl⟩]
  simp only []
  rw [hc, List.drop_left' (by simp [hb])]

/-- Writing the label of a union: the discriminator's bytes are replaced, nothing else. -/
theorem writeLabel_at {d : Ty} (h : discOk d) (pre post : List Cell) (bs : List Byte) (lk : Nat) (l : Int)
    (hb : bs.length = d.memSize) :
    writeLabel d ⟨pre ++ rawCells bs ++ post, lk⟩ pre.length l =
      .ok ⟨pre ++ rawCells (leBytes d.memSize (l % 2 ^ (8 * d.memSize)).toNat) ++ post, lk⟩ := by
  unfold writeLabel
  rw [labelBytes_ok h]
  show put _ _ _ = _
  rw [put_at _ _ _ _ _ (by simp [leBytes_length, hb])]
  simp

theorem construct_disc {d : Ty} (h : discOk d) :
    Makes d.memSize (decBytes d.memSize) (fun _ => True) True (construct d) (.bytes (List.replicate d.memSize 0)) := by
  refine makes_raw (List.replicate d.memSize 0) ?_ (by simp) (fun _ => trivial)
  intro a m
  rw [← construct_rget, ← Ty.rget_memSize]
  rcases discOk_cases h with ⟨k, hk, _⟩ | ⟨n, vs, hk⟩ <;> rw [hk, construct] <;> rfl

/-- Tidy, and owning nothing if the type says so. -/
def fresh (T : Ty) (cs : List Cell) : Prop := tidy T cs ∧ (T.Light → owned cs = 0)

theorem tidyColl_mono {L : Prop} {p q : List Cell → Prop} (h : ∀ cs, p cs → q cs) (s : Nat) (cs : List Cell)
    (ht : tidyColl L p s cs) : tidyColl L q s cs := by
  unfold tidyColl at *
  split
  · exact ⟨allN_mono h s _ _ ht.1, ht.2⟩
  · trivial

theorem lightCase_eq : {ms : Mems} → {n : String} → {t : Ty} → ms.find? n = some t → ms.LightCase n = t.Light
  | .nil, _, _, h => by simp [Mems.find?] at h
  | .cons x u r, n, t, h => by
    rw [Mems.find?] at h
    rw [Mems.LightCase]
    split at h
    · cases h; rw [if_pos (by assumption)]
    · rw [if_neg (by assumption), lightCase_eq h]

theorem constructAll_ok : {ms : Mems} →
    (ms.Forall fun t => t.WF → Makes t.memSize (decode t) (fresh t) True (construct t) (defVal t)) → ms.WF →
    Makes ms.sumSize (decodeAll ms) (fun cs => tidyAll ms cs ∧ (ms.Light → owned cs = 0)) True (constructAll ms) (defVals ms)
  | .nil, _, _ => by
    intro pre old post lk hl
    simp [Mems.sumSize] at hl; subst hl
    exact ⟨[], 0, rfl, rfl, rfl, fun _ _ => ⟨rfl, trivial, fun _ => rfl⟩⟩
  | .cons x t r, h, hw => by
    refine makes_weaken (makes_seq (h.1 hw.1) (constructAll_ok h.2 hw.2)) ?_ ?_ (fun _ => ⟨trivial, trivial⟩) ?_
    · intro a m; rw [constructAll]
    · intro cs _ hd
      rw [decodeAll, defVals]
      cases h1 : decode t (cs.take t.memSize) with
      | none => simp [h1] at hd
      | some v =>
        cases h2 : decodeAll r (cs.drop t.memSize) with
        | none => simp [h2] at hd
        | some ws => simp [h1, h2] at hd ⊢; exact hd
    · intro cs _ _ ht
      rw [tidyAll, Mems.Light]
      refine ⟨⟨ht.1.1, ht.2.1⟩, fun hl => ?_⟩
      rw [owned_split t.memSize, ht.1.2 hl.1, ht.2.2 hl.2]

/-- `construct_instance` makes a default instance and loses nothing. -/
theorem construct_fresh (T : Ty) : T.WF → Makes T.memSize (decode T) (fresh T) True (construct T) (defVal T) := by
  induction T using Ty.ind with
  | prim k =>
    intro _
    refine makes_weaken (makes_raw (cl := True) (td := fun _ => True) (List.replicate k.size 0) (fun _ _ => rfl) (by simp [Ty.memSize])
      (fun _ => trivial)) (fun a m => by rw [construct]) ?_ id ?_
    · intro cs _ h; rw [decode, defVal]; exact h
    · intro cs _ hd _; refine ⟨by rw [tidy]; trivial, fun _ => by obtain ⟨bs, -, -, rfl⟩ := decBytes_iff.mp hd; simp⟩
  | enum n w vs =>
    intro _
    refine makes_weaken (makes_raw (cl := True) (td := fun _ => True) (List.replicate w.size 0) (fun _ _ => rfl) (by simp [Ty.memSize])
      (fun _ => trivial)) (fun a m => by rw [construct]) ?_ id ?_
    · intro cs _ h; rw [decode, defVal]; exact h
    · intro cs _ hd _; refine ⟨by rw [tidy]; trivial, fun _ => by obtain ⟨bs, -, -, rfl⟩ := decBytes_iff.mp hd; simp⟩
  | str k b =>
    intro _
    refine makes_put (objCells (.str k [] (decide (b > SK.sso k))) strSize) (fun a m => by rw [construct]; rfl)
      (objCells_length _ _ (by decide)) ?_ ?_
    · rw [decode, defVal]; exact decStr_iff.mpr ⟨_, _, rfl, by simp, rfl⟩
    · intro _
      refine ⟨by rw [tidy]; trivial, fun hb => ?_⟩
      rw [Ty.Light] at hb
      rw [owned_objCells, if_neg (by simp [Cell.owning]; omega)]
  | seq c b ih =>
    intro hw
    refine makes_weaken (makes_newColl (ih hw) false c b (L := c.Light) (fun _ h => h.2)) (fun a m => by rw [construct]) ?_ id ?_
    · intro cs _ h; rw [decode, defVal]; exact h
    · intro cs _ _ h
      refine ⟨?_, fun hb => h.2 (by rw [Ty.Light] at hb; exact hb)⟩
      rw [tidy]; exact tidyColl_mono (fun _ h => h.1) _ _ h.1
  | arr n c d ih =>
    intro hw
    refine makes_weaken (makes_array d (fun i _ => ih hw)) (fun a m => by rw [construct]) ?_ id ?_
    · intro cs hl h; rw [Ty.memSize] at hl; rw [decode, defVal, if_pos hl, h]; simp [List.map_const']
    · intro cs hl _ h
      refine ⟨by rw [tidy]; exact allN_mono (fun _ h => h.1) _ _ _ h, fun hb => ?_⟩
      rw [Ty.Light] at hb
      rw [Ty.memSize] at hl
      exact allN_owned d cs hl (allN_mono (fun _ h => h.2 hb) _ _ _ h)
  | map k v b ihk ihv =>
    intro hw
    have hp := makes_pair (ihk hw.1) (ihv hw.2)
    have hp' := makes_weaken hp (f' := fun a m => (construct k a m).bind (construct v (a + k.memSize))) (c' := True)
      (fun _ _ => rfl) (fun _ _ h => h) (fun _ => ⟨trivial, trivial⟩) (fun _ _ _ h => h)
    refine makes_weaken (makes_newColl hp' true (.pair k v) b (L := k.Light ∧ v.Light) (fun cs h hl => by
      rw [owned_split k.memSize, h.1.2 hl.1, h.2.2 hl.2])) (fun a m => by rw [construct]) ?_ id ?_
    · intro cs _ h; rw [decode, defVal]; exact h
    · intro cs _ _ h
      refine ⟨?_, fun hb => h.2 (by rw [Ty.Light] at hb; exact hb)⟩
      rw [tidy]; exact tidyColl_mono (fun _ h => ⟨h.1.1, h.2.1⟩) _ _ h.1
  | pair x y ihx ihy =>
    intro hw
    refine makes_weaken (makes_pair (ihx hw.1) (ihy hw.2)) (fun a m => by rw [construct]) ?_ (fun _ => ⟨trivial, trivial⟩) ?_
    · intro cs _ h; rw [decode, defVal]; exact h
    · intro cs _ _ h
      refine ⟨by rw [tidy]; exact ⟨h.1.1, h.2.1⟩, fun hb => ?_⟩
      rw [Ty.Light] at hb
      rw [owned_split x.memSize, h.1.2 hb.1, h.2.2 hb.2]
  | als n t ih =>
    intro hw
    refine makes_weaken (ih hw) (fun a m => by rw [construct]) ?_ id ?_
    · intro cs _ h; rw [decode, defVal]; exact h
    · intro cs _ _ h; unfold fresh; rw [tidy, Ty.Light]; exact h
  | struct n ms ih =>
    intro hw
    refine makes_weaken (constructAll_ok ih hw) (fun a m => by rw [construct]) ?_ id ?_
    · intro cs _ h; rw [decode, defVal, h]; rfl
    · intro cs _ _ h; unfold fresh; rw [tidy, Ty.Light]; exact h
  | union n d ms i _ ih =>
    intro hw
    obtain ⟨hdo, hok, hwm⟩ := hw
    have hds := construct_disc hdo
    intro pre old post lk hl
    rw [Ty.memSize] at hl
    obtain ⟨n1, e1, hr1, hl1, hd1, ht1⟩ := hds pre (old.take d.memSize) (old.drop d.memSize ++ post) lk (by simp; omega)
    obtain ⟨z, hz, hzl, rfl⟩ := decBytes_iff.mp hd1
    have ho : pre ++ old ++ post = pre ++ old.take d.memSize ++ (old.drop d.memSize ++ post) := split_at _ _ _ _
    have hsz := discOk_size hdo
    by_cases hdef : i.default = i.invalidValue
    · -- no default member
      refine ⟨rawCells (leBytes d.memSize (i.invalidValue % 2 ^ (8 * d.memSize)).toNat) ++ old.drop d.memSize, e1, ?_,
        by simp [leBytes_length, Ty.memSize]; omega, ?_, ?_⟩
      · rw [construct, ho, hr1]
        simp only [Except.bind]
        rw [if_neg (by simpa using hdef), writeLabel_at hdo _ _ _ _ _ hzl]
        simp
      · rw [defVal, if_pos hdef, decode_union_none hdo (leBytes_length _ _) (by simp; omega)
          (by rw [labelOf_bytes hsz hok.range]; exact hok.invalid)]
        rfl
      · intro h0 _
        obtain ⟨ze, -⟩ := ht1 (owned_zero_of_take h0) trivial
        refine ⟨ze, ?_, fun _ => by simp [owned_zero_of_drop h0]⟩
        rw [tidy_union_none hdo (leBytes_length _ _) (by rw [labelOf_bytes hsz hok.range]; exact hok.invalid)]
        exact owned_zero_of_drop h0
    · obtain ⟨nm, hnm⟩ := Option.isSome_iff_exists.mp (hok.default.resolve_left hdef)
      obtain ⟨hfit, hfind⟩ := hok.label _ _ hnm
      obtain ⟨t, ht⟩ := Option.isSome_iff_exists.mp hfind
      have hwt := (Mems.WF.forall hwm).find ht
      obtain ⟨n2, e2, hr2, hl2, hd2, ht2⟩ := makes_case (ih.find ht hwt) (Mems.maxSize_find ht) (pre ++ rawCells z)
        (old.drop d.memSize) post (lk + e1) (by simp; omega)
      refine ⟨rawCells (leBytes d.memSize (i.default % 2 ^ (8 * d.memSize)).toNat) ++ n2, e1 + e2, ?_,
        by simp [leBytes_length, Ty.memSize]; omega, ?_, ?_⟩
      · rw [construct, ho, hr1]
        simp only [Except.bind]
        rw [if_pos (by simpa using hdef), show omGet i.labels i.default = some nm from hnm]
        simp only []
        rw [constructCase_eq ht, show pre.length + d.memSize = (pre ++ rawCells z).length by simp [hzl],
          ← List.append_assoc (pre ++ rawCells z), hr2]
        simp only []
        rw [List.append_assoc (pre ++ rawCells z), writeLabel_at hdo _ _ _ _ _ hzl]
        simp [Nat.add_assoc]
      · have hlab : UInfo.case i (labelOf d.memSize (leBytes d.memSize (i.default % 2 ^ (8 * d.memSize)).toNat)) = some nm := by
          rw [labelOf_bytes hsz hfit]; exact hnm
        rw [defVal, if_neg hdef, hnm, decode_union_some hdo (leBytes_length _ _) hl2 hlab ht,
          show decode t (n2.take t.memSize) = some (defVal t) from hd2]
        simp only [defCase_eq ht]
        rfl
      · intro h0 _
        have hlab : UInfo.case i (labelOf d.memSize (leBytes d.memSize (i.default % 2 ^ (8 * d.memSize)).toNat)) = some nm := by
          rw [labelOf_bytes hsz hfit]; exact hnm
        obtain ⟨z1, -⟩ := ht1 (owned_zero_of_take h0) trivial
        obtain ⟨z2, w2⟩ := ht2 (owned_zero_of_drop h0) trivial
        refine ⟨by omega, ?_, fun hb => ?_⟩
        · rw [tidy_union_some hdo (leBytes_length _ _) hlab ht]
          exact ⟨w2.1.1, w2.2⟩
        · rw [Ty.Light] at hb
          have hb' := hb.resolve_left hdef nm hnm
          rw [lightCase_eq ht] at hb'
          rw [owned_append, owned_rawCells, owned_split t.memSize, w2.1.2 hb', w2.2]

/-- `construct_instance` makes a default instance and loses nothing. -/
theorem construct_ok (T : Ty) (h : T.WF) : Makes T.memSize (decode T) (tidy T) True (construct T) (defVal T) :=
  makes_weaken (construct_fresh T h) (fun _ _ => rfl) (fun _ _ h => h) id (fun _ _ _ h => h.1)

end Verif.Inst
