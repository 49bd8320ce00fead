import Verif.Lemmas.Ref
/-! # Operations at the end of a path -/

namespace Verif.Inst

/-! ## Moves onto live instances -/

theorem forall_imp2 {P Q R : Ty → Prop} (h : ∀ t, P t → Q t → R t) : {ms : Mems} → ms.Forall P → ms.Forall Q → ms.Forall R
  | .nil, _, _ => trivial
  | .cons _ t r, a, b => ⟨h t a.1 b.1, forall_imp2 h a.2 b.2⟩

theorem moveAll_noColl : {ms : Mems} → (ms.Forall fun t => t.NoColl → move true t = move false t) → ms.NoColl →
    moveAll true ms = moveAll false ms
  | .nil, _, _ => by funext sm sa ta m; simp only [moveAll]
  | .cons x t r, h, hn => by
    rw [Mems.NoColl] at hn
    funext sm sa ta m
    simp only [moveAll, h.1 hn.1, moveAll_noColl h.2 hn.2]

theorem moveCase_noColl {n : String} : {ms : Mems} → (ms.Forall fun t => t.NoColl → move true t = move false t) → ms.NoColl →
    moveCase true ms n = moveCase false ms n
  | .nil, _, _ => by funext sm sa ta m; simp only [moveCase]
  | .cons x t r, h, hn => by
    rw [Mems.NoColl] at hn
    funext sm sa ta m
    simp only [moveCase, h.1 hn.1, moveCase_noColl h.2 hn.2]

theorem disc_move_eq {d : Ty} (h : discOk d) : move true d = move false d := by
  rw [← move_rget, ← move_rget false]
  rcases discOk_cases h with ⟨k, hk, _⟩ | ⟨n, vs, hk⟩ <;> rw [hk] <;> funext sm sa ta m <;> simp only [move]

theorem move_noColl (T : Ty) : T.WF → T.NoColl → move true T = move false T := by
  induction T using Ty.ind with
  | prim k => intro _ _; funext sm sa ta m; simp only [move]
  | enum n w vs => intro _ _; funext sm sa ta m; simp only [move]
  | str k b => intro _ _; funext sm sa ta m; simp only [move]
  | seq c b ih => intro _ h; rw [Ty.NoColl] at h; exact h.elim
  | map k v b ihk ihv => intro _ h; rw [Ty.NoColl] at h; exact h.elim
  | arr n c d ih => intro hw h; rw [Ty.NoColl] at h; rw [Ty.WF] at hw; funext sm sa ta m; simp only [move, ih hw h]
  | pair x y ihx ihy =>
    intro hw h; rw [Ty.NoColl] at h; rw [Ty.WF] at hw; funext sm sa ta m; simp only [move, ihx hw.1 h.1, ihy hw.2 h.2]
  | als n t ih => intro hw h; rw [Ty.NoColl] at h; rw [Ty.WF] at hw; funext sm sa ta m; simp only [move, ih hw h]
  | struct n ms ih =>
    intro hw h; rw [Ty.NoColl] at h; rw [Ty.WF] at hw; funext sm sa ta m
    have := moveAll_noColl (ms := ms) (forall_imp2 (fun t a b => a b) ih (Mems.WF.forall hw)) h
    simp only [move, this]
  | union n d ms i ihd ih =>
    intro hw h; rw [Ty.NoColl] at h; rw [Ty.WF] at hw; funext sm sa ta m
    have := fun nm => moveCase_noColl (n := nm) (ms := ms) (forall_imp2 (fun t a b => a b) ih (Mems.WF.forall hw.2.2)) h
    simp only [move, this, disc_move_eq hw.1]

/-- Like `Makes`, for targets that hold something known. -/
def MakesOn {α : Type} (P : List Cell → Prop) (size : Nat) (dec : List Cell → Option α) (td : List Cell → Prop) (clean : Prop)
    (f : Nat → Mem → M Mem) (v : α) : Prop :=
  ∀ (pre old post : List Cell) (lk : Nat), old.length = size → P old →
    ∃ new d, f pre.length ⟨pre ++ old ++ post, lk⟩ = .ok ⟨pre ++ new ++ post, lk + d⟩ ∧ new.length = size ∧
      dec new = some v ∧ (owned old = 0 → clean → d = 0 ∧ td new)

theorem makesOn_of {α : Type} {P : List Cell → Prop} {s : Nat} {d : List Cell → Option α} {t : List Cell → Prop}
    {c : Prop} {f : Nat → Mem → M Mem} {v : α} (h : Makes s d t c f v) : MakesOn P s d t c f v :=
  fun pre old post lk hl _ => h pre old post lk hl

theorem makesOn_seq {α β : Type} {s1 s2 : Nat} {P1 P2 : List Cell → Prop} {d1 : List Cell → Option α}
    {d2 : List Cell → Option β} {t1 t2 : List Cell → Prop} {c1 c2 : Prop} {f g : Nat → Mem → M Mem} {u : α} {v : β}
    (hf : MakesOn P1 s1 d1 t1 c1 f u) (hg : MakesOn P2 s2 d2 t2 c2 g v) :
    MakesOn (fun cs => P1 (cs.take s1) ∧ P2 (cs.drop s1)) (s1 + s2)
      (fun cs => (d1 (cs.take s1)).bind fun x => (d2 (cs.drop s1)).map fun y => (x, y))
      (fun cs => t1 (cs.take s1) ∧ t2 (cs.drop s1)) (c1 ∧ c2)
      (fun a m => (f a m).bind (g (a + s1))) (u, v) := by
  intro pre old post lk hl hP
  obtain ⟨n1, e1, hr1, hl1, hd1, ht1⟩ := hf pre (old.take s1) (old.drop s1 ++ post) lk (by simp; omega) hP.1
  obtain ⟨n2, e2, hr2, hl2, hd2, ht2⟩ := hg (pre ++ n1) (old.drop s1) post (lk + e1) (by simp; omega) hP.2
  refine ⟨n1 ++ n2, e1 + e2, ?_, by simp [hl1, hl2], ?_, ?_⟩
  · have ho : pre ++ old ++ post = pre ++ old.take s1 ++ (old.drop s1 ++ post) := split_at _ _ _ _
    show (f pre.length _).bind _ = _
    rw [ho, hr1]
    show g (pre.length + s1) _ = _
    have : pre.length + s1 = (pre ++ n1).length := by simp [hl1]
    rw [this]
    have ho2 : pre ++ n1 ++ (old.drop s1 ++ post) = pre ++ n1 ++ old.drop s1 ++ post := by simp
    rw [ho2, hr2]
    simp [Nat.add_assoc]
  · simp [← hl1, hd1, hd2]
  · intro h0 ⟨hc1, hc2⟩
    obtain ⟨z1, w1⟩ := ht1 (owned_zero_of_take h0) hc1
    obtain ⟨z2, w2⟩ := ht2 (owned_zero_of_drop h0) hc2
    refine ⟨by omega, ?_⟩
    simp [← hl1, w1, w2]

theorem makesOn_weaken {α β : Type} {P P' : List Cell → Prop} {s : Nat} {d : List Cell → Option α} {d' : List Cell → Option β}
    {t t' : List Cell → Prop} {c c' : Prop} {f f' : Nat → Mem → M Mem} {u : α} {u' : β} (h : MakesOn P s d t c f u)
    (hP : ∀ cs, cs.length = s → P' cs → P cs)
    (hf : ∀ a m, f' a m = f a m) (hd : ∀ cs, cs.length = s → d cs = some u → d' cs = some u')
    (hc : c' → c) (ht : ∀ cs, cs.length = s → d cs = some u → t cs → t' cs) : MakesOn P' s d' t' c' f' u' := by
  intro pre old post lk hl hp
  obtain ⟨n, e, hr, hl1, hd1, ht1⟩ := h pre old post lk hl (hP _ hl hp)
  refine ⟨n, e, by rw [hf]; exact hr, hl1, hd _ hl1 hd1, fun h0 h1 => ?_⟩
  obtain ⟨z, w⟩ := ht1 h0 (hc h1)
  exact ⟨z, ht _ hl1 hd1 w⟩

theorem makesOn_loop {P : List Cell → Prop} {s : Nat} {dec : List Cell → Option Val} {td : List Cell → Prop} {cl : Prop}
    {g : Nat → Nat → Mem → M Mem} {v : Nat → Val} (a : Nat) : ∀ (n j : Nat),
    (∀ i, j ≤ i → i < j + n → MakesOn P s dec td cl (g i) (v i)) →
    ∀ (pre old post : List Cell) (lk : Nat), pre.length = a + j * s → old.length = n * s → allN P s n old →
    ∃ new d, loop (fun i m => g i (a + i * s) m) j n ⟨pre ++ old ++ post, lk⟩ = .ok ⟨pre ++ new ++ post, lk + d⟩ ∧
      new.length = n * s ∧ decN dec s n new = some ((List.range' j n).map v) ∧
      (owned old = 0 → cl → d = 0 ∧ allN td s n new)
  | 0, j, _, pre, old, post, lk, hp, hl, _ => by
    refine ⟨[], 0, ?_, by simp, rfl, fun _ _ => ⟨rfl, trivial⟩⟩
    simp at hl
    subst hl
    rfl
  | n + 1, j, h, pre, old, post, lk, hp, hl, hP => by
    rw [Nat.succ_mul] at hl
    obtain ⟨n1, e1, hr1, hl1, hd1, ht1⟩ := h j (Nat.le_refl _) (by omega) pre (old.take s) (old.drop s ++ post) lk
      (by simp; omega) hP.1
    obtain ⟨n2, e2, hr2, hl2, hd2, ht2⟩ := makesOn_loop a n (j + 1) (fun i h1 h2 => h i (by omega) (by omega)) (pre ++ n1)
      (old.drop s) post (lk + e1) (by simp [hl1, hp, Nat.succ_mul, Nat.add_assoc]) (by simp; omega) hP.2
    refine ⟨n1 ++ n2, e1 + e2, ?_, by simp [hl1, hl2, Nat.succ_mul]; omega, ?_, ?_⟩
    · have ho : pre ++ old ++ post = pre ++ old.take s ++ (old.drop s ++ post) := split_at _ _ _ _
      rw [loop, ← hp, ho, hr1]
      show loop _ _ _ _ = _
      have ho2 : pre ++ n1 ++ (old.drop s ++ post) = pre ++ n1 ++ old.drop s ++ post := by simp
      rw [ho2, hr2]
      simp [Nat.add_assoc]
    · simp [decN, ← hl1, hd1, List.range'_succ]
      simp [hl1, hd2]
    · intro h0 hc
      obtain ⟨z1, w1⟩ := ht1 (owned_zero_of_take h0) hc
      obtain ⟨z2, w2⟩ := ht2 (owned_zero_of_drop h0) hc
      refine ⟨by omega, ?_⟩
      simp [allN, ← hl1, w1]
      simp [hl1, w2]

/-- The statement proved by induction. -/
def Overs (T : Ty) : Prop :=
  T.WF → T.Copyable → T.Movable → ∀ (src : List Cell) (v : Val), decode T src = some v →
    ∀ spre spost : List Cell, MakesOn (fun cs => ∃ w, decode T cs = some w) T.memSize (decode T) (tidy T) T.Tight
      (move true T (spre ++ src ++ spost) spre.length) v

theorem decN_allN {dec : List Cell → Option Val} {s : Nat} : (n : Nat) → (cs : List Cell) → (vs : List Val) →
    decN dec s n cs = some vs → allN (fun x => ∃ w, dec x = some w) s n cs
  | 0, _, _, _ => trivial
  | n + 1, cs, vs, h => by
    obtain ⟨v, ws, rfl, h1, h2⟩ := decN_cons.mp h
    exact ⟨⟨v, h1⟩, decN_allN n _ ws h2⟩

/-- Destroying a collection that owns nothing, then making another one in its place. -/
theorem over_coll {im : Bool} {c C : Ty} {s b : Nat} {dec : List Cell → Option Val} {td : List Cell → Prop} {L cl : Prop}
    {f g : Nat → Mem → M Mem} {v : Val} (hC : C.memSize = seqSize)
    (hk : Kills (decColl im c s b dec) (tidyColl L td s) f)
    (hm : Makes seqSize (decode C) (tidy C) cl g v) :
    MakesOn (fun cs => ∃ w, decColl im c s b dec cs = some w) C.memSize (decode C) (tidy C) cl
      (fun a m => (f a m).bind (g a)) v := by
  intro pre old post lk hl hP
  obtain ⟨w, hw⟩ := hP
  obtain ⟨n1, e1, hr1, hn1, ht1⟩ := hk pre old post lk w hw
  obtain ⟨n2, e2, hr2, hn2, hd2, ht2⟩ := hm pre n1 post (lk + e1) (by omega)
  refine ⟨n2, e1 + e2, ?_, by omega, hd2, ?_⟩
  · show (f pre.length _).bind _ = _
    rw [hr1]
    show g pre.length _ = _
    rw [hr2]; simp [Nat.add_assoc]
  · intro h0 hc
    obtain ⟨size, cap, blk, vs, rfl, h1, h2, h3, h4, rfl⟩ := decColl_iff.mp hw
    have hcap : cap = 0 := by
      rw [owned_objCells] at h0
      simp [Cell.owning] at h0
      exact h0
    subst hcap
    have hbl : blk = [] := by simpa using h3
    subst hbl
    obtain ⟨z1, w1⟩ := ht1 ⟨trivial, fun _ => by simp⟩
    obtain ⟨z2, w2⟩ := ht2 w1 hc
    exact ⟨by omega, w2⟩

theorem moveAll_over : {ms : Mems} → ms.Forall Overs → ms.WF → ms.Copyable → ms.Movable → ∀ (src : List Cell) (vs : List Val),
    decodeAll ms src = some vs → ∀ spre spost : List Cell,
    MakesOn (fun cs => ∃ w, decodeAll ms cs = some w) ms.sumSize (decodeAll ms) (tidyAll ms) ms.Tight
      (moveAll true ms (spre ++ src ++ spost) spre.length) vs
  | .nil, _, _, _, _, src, vs, hd, spre, spost => by
    intro pre old post lk hl _
    simp [Mems.sumSize] at hl; subst hl
    refine ⟨[], 0, by simp [moveAll], rfl, ?_, fun _ _ => ⟨rfl, trivial⟩⟩
    rw [decodeAll] at hd ⊢
    split at hd
    · cases hd; rfl
    · cases hd
  | .cons x t r, h, hw, hc, hm, src, vs, hd, spre, spost => by
    rw [Mems.WF] at hw
    rw [Mems.Copyable] at hc
    rw [Mems.Movable] at hm
    obtain ⟨v, ws, rfl, e1, e2⟩ := decodeAll_cons.mp hd
    have hlen : (src.take t.memSize).length = t.memSize := decode_length _ _ _ e1
    have m1 := h.1 hw.1 hc.1 hm.1 _ v e1 spre (src.drop t.memSize ++ spost)
    rw [← split_at] at m1
    have m2 := moveAll_over h.2 hw.2 hc.2 hm.2 _ ws e2 (spre ++ src.take t.memSize) spost
    rw [List.append_assoc (spre ++ src.take t.memSize), ← split_at, List.length_append, hlen] at m2
    refine makesOn_weaken (s := t.memSize + r.sumSize) (makesOn_seq m1 m2) ?_ ?_ ?_ ?_ ?_
    · rintro cs _ ⟨w, hw⟩
      obtain ⟨v, ws, rfl, e1, e2⟩ := decodeAll_cons.mp hw
      exact ⟨⟨_, e1⟩, ⟨_, e2⟩⟩
    · intro a m; rw [moveAll]
    · intro cs _ hh
      apply decodeAll_cons.mpr
      cases h1 : decode t (cs.take t.memSize) with
      | none => simp [h1] at hh
      | some v =>
        cases h2 : decodeAll r (cs.drop t.memSize) with
        | none => simp [h2] at hh
        | some ws => simp [h1, h2] at hh ⊢; exact ⟨hh.1.symm, hh.2.symm⟩
    · intro hh; rw [Mems.Tight] at hh; exact hh
    · intro cs _ _ hh; rw [tidyAll]; exact hh

theorem over_ok (T : Ty) : Overs T := by
  induction T using Ty.ind with
  | prim k =>
    intro hw hc _ src v hd spre spost
    rw [move_noColl _ hw (by rw [Ty.NoColl]; trivial)]
    exact makesOn_of (move_ok _ hw hc src v hd spre spost)
  | enum n w vs =>
    intro hw hc _ src v hd spre spost
    rw [move_noColl _ hw (by rw [Ty.NoColl]; trivial)]
    exact makesOn_of (move_ok _ hw hc src v hd spre spost)
  | str k b =>
    intro hw hc _ src v hd spre spost
    rw [move_noColl _ hw (by rw [Ty.NoColl]; trivial)]
    exact makesOn_of (move_ok _ hw hc src v hd spre spost)
  | seq c b ih =>
    intro hw hc _ src v hd spre spost
    have hm := move_ok (.seq c b) hw hc src v hd spre spost
    have hk := destroy_ok (.seq c b) hw
    have := over_coll (C := .seq c b) (im := false) (c := c) (s := c.memSize) (b := b) (dec := decode c) (td := tidy c)
      (L := c.Light) (f := destroy (.seq c b)) rfl (kills_weaken hk (fun _ _ => rfl)
        (fun cs v h => ⟨v, by rw [decode]; exact h⟩) (fun cs v _ h => by rw [tidy]; exact h)) hm
    refine makesOn_weaken this ?_ ?_ (fun _ _ h => h) id (fun _ _ _ h => h)
    · rintro cs _ ⟨w, h⟩; exact ⟨w, by rw [decode] at h; exact h⟩
    · intro a m; simp only [move]; rfl
  | map k v b ihk ihv =>
    intro hw hc _ src x hd spre spost
    have hm := move_ok (.map k v b) hw hc src x hd spre spost
    have hk := destroy_ok (.map k v b) hw
    have := over_coll (C := .map k v b) (im := true) (c := .pair k v) (s := k.memSize + v.memSize) (b := b)
      (dec := decPair (decode k) (decode v) k.memSize)
      (td := fun s => tidy k (s.take k.memSize) ∧ tidy v (s.drop k.memSize))
      (L := k.Light ∧ v.Light) (f := destroy (.map k v b)) rfl (kills_weaken hk (fun _ _ => rfl)
        (fun cs v h => ⟨v, by rw [decode]; exact h⟩) (fun cs v _ h => by rw [tidy]; exact h)) hm
    refine makesOn_weaken this ?_ ?_ (fun _ _ h => h) id (fun _ _ _ h => h)
    · rintro cs _ ⟨w, h⟩; exact ⟨w, by rw [decode] at h; exact h⟩
    · intro a m; simp only [move]; rfl
  | arr n c d ih =>
    intro hw hc hmv src v hd spre spost
    cases hf : c.isConstructed with
    | false =>
      obtain ⟨k, rfl⟩ := prim_of_not_constructed hf
      rw [move_noColl _ hw (by rw [Ty.NoColl, Ty.NoColl]; trivial)]
      exact makesOn_of (move_ok _ hw hc src v hd spre spost)
    | true =>
      rw [Ty.WF] at hw
      rw [Ty.Copyable] at hc
      rw [Ty.Movable] at hmv
      rw [decode] at hd
      split at hd
      · rename_i hlen
        cases h4 : decN (decode c) c.memSize d src with
        | none => rw [h4] at hd; cases hd
        | some vs =>
          rw [h4] at hd; cases hd
          have hvl := decN_length h4
          intro pre old post lk hl ⟨w, hw0⟩
          rw [Ty.memSize] at hl
          rw [decode, if_pos hl] at hw0
          cases h5 : decN (decode c) c.memSize d old with
          | none => rw [h5] at hw0; cases hw0
          | some us =>
            obtain ⟨new, e, r1, r2, r3, r4⟩ := makesOn_loop (P := fun cs => ∃ w, decode c cs = some w) (dec := decode c)
              (cl := c.Tight) (td := tidy c) (s := c.memSize)
              (g := fun i => move true c (spre ++ src ++ spost) (spre.length + i * c.memSize))
              (v := fun i => id (vs[i]?.getD (.list []))) pre.length d 0 (by
                intro i _ hi
                obtain ⟨x, sl, y, w, e1, e2, e3, e4, e5⟩ := decN_slot hlen h4 (i := i) (by omega)
                have := ih hw hc hmv sl w e4 (spre ++ x) (y ++ spost)
                rw [e5, ← e2]
                have es : spre ++ x ++ sl ++ (y ++ spost) = spre ++ src ++ spost := by rw [e1]; simp
                rw [es, List.length_append] at this
                exact this) pre old post lk (by simp) hl (decN_allN _ _ _ h5)
            refine ⟨new, e, ?_, by rw [Ty.memSize]; exact r2, ?_, ?_⟩
            · rw [move, if_pos hf]; exact r1
            · rw [decode, if_pos r2, r3, ← List.range_eq_range', map_range_take _ _ _ (by omega),
                List.take_of_length_le (by omega), List.map_id]
              rfl
            · intro h0 ht
              rw [Ty.Tight] at ht
              obtain ⟨z1, z2⟩ := r4 h0 ht
              exact ⟨z1, by rw [tidy]; exact z2⟩
      · cases hd
  | pair x y ihx ihy =>
    intro hw hc hmv src v hd spre spost
    rw [Ty.WF] at hw
    rw [Ty.Copyable] at hc
    rw [Ty.Movable] at hmv
    rw [decode] at hd
    obtain ⟨u1, u2, rfl, f1, f2⟩ := decPair_iff.mp hd
    have m1 := ihx hw.1 hc.1 hmv.1 _ u1 f1 spre (src.drop x.memSize ++ spost)
    have m2 := ihy hw.2 hc.2 hmv.2 _ u2 f2 (spre ++ src.take x.memSize) spost
    have hlen : (src.take x.memSize).length = x.memSize := decode_length _ _ _ f1
    rw [← split_at] at m1
    rw [List.append_assoc (spre ++ src.take x.memSize), ← split_at, List.length_append, hlen] at m2
    refine makesOn_weaken (s := x.memSize + y.memSize) (makesOn_seq m1 m2) ?_ ?_ ?_ ?_ ?_
    · rintro cs _ ⟨w, h⟩
      rw [decode] at h
      obtain ⟨a, b, rfl, g1, g2⟩ := decPair_iff.mp h
      exact ⟨⟨_, g1⟩, ⟨_, g2⟩⟩
    · intro a m; rw [move]; rfl
    · intro cs _ hh
      rw [decode]
      apply decPair_iff.mpr
      cases h1 : decode x (cs.take x.memSize) with
      | none => simp [h1] at hh
      | some v =>
        cases h2 : decode y (cs.drop x.memSize) with
        | none => simp [h2] at hh
        | some ws =>
          simp only [h1, h2, Option.bind_some, Option.map_some, Option.some.injEq, Prod.mk.injEq] at hh
          exact ⟨v, ws, by rw [hh.1, hh.2], rfl, rfl⟩
    · intro hh; rw [Ty.Tight] at hh; exact hh
    · intro cs _ _ hh; rw [tidy]; exact hh
  | als n t ih =>
    intro hw hc hmv src v hd spre spost
    rw [Ty.WF] at hw
    rw [Ty.Copyable] at hc
    rw [Ty.Movable] at hmv
    rw [decode] at hd
    refine makesOn_weaken (s := t.memSize) (ih hw hc hmv src v hd spre spost) ?_ ?_ ?_ ?_ ?_
    · rintro cs _ ⟨w, h⟩; exact ⟨w, by rw [decode] at h; exact h⟩
    · intro a m; rw [move]
    · intro cs _ hh; rw [decode]; exact hh
    · intro hh; rw [Ty.Tight] at hh; exact hh
    · intro cs _ _ hh; rw [tidy]; exact hh
  | struct n ms ih =>
    intro hw hc hmv src v hd spre spost
    rw [Ty.WF] at hw
    rw [Ty.Copyable] at hc
    rw [Ty.Movable] at hmv
    rw [decode] at hd
    cases h4 : decodeAll ms src with
    | none => rw [h4] at hd; cases hd
    | some vs =>
      rw [h4] at hd; cases hd
      refine makesOn_weaken (s := ms.sumSize) (moveAll_over ih hw hc hmv src vs h4 spre spost) ?_ ?_ ?_ ?_ ?_
      · rintro cs _ ⟨w, h⟩
        rw [decode] at h
        cases h5 : decodeAll ms cs with
        | none => rw [h5] at h; cases h
        | some us => exact ⟨us, rfl⟩
      · intro a m; rw [move]
      · intro cs _ hh; rw [decode, hh]; rfl
      · intro hh; rw [Ty.Tight] at hh; exact hh
      · intro cs _ _ hh; rw [tidy]; exact hh
  | union n d ms i _ ih =>
    intro hw hc hmv src v hd spre spost
    rw [Ty.Movable] at hmv
    rw [move_noColl _ hw (by rw [Ty.NoColl]; exact hmv)]
    exact makesOn_of (move_ok _ hw hc src v hd spre spost)

/-! ## Growing a sequence -/

theorem reallocColl_ok {c : Ty} (hw : c.WF) (hc : c.Copyable) (hm : c.Movable) {size cap cap' : Nat} {blk : List Cell}
    {vs : List Val} (h1 : size ≤ cap) (h2 : size ≤ cap') (h3 : blk.length = cap * c.memSize)
    (h4 : decN (decode c) c.memSize cap blk = some vs) :
    ∃ blk' lk, reallocColl c ⟨c, size, cap, blk⟩ cap' = .ok (⟨c, size, cap', blk'⟩, lk) ∧ blk'.length = cap' * c.memSize ∧
      decN (decode c) c.memSize cap' blk' = some (vs.take size ++ List.replicate (cap' - size) (defVal c)) ∧
      (c.Light → c.Tight → allN (tidy c) c.memSize cap blk →
        lk = 0 ∧ allN (tidy c) c.memSize cap' blk' ∧ owned (blk'.drop (size * c.memSize)) = 0) := by
  obtain ⟨nb, hi, hnl, hnd, hna⟩ := initBlock_ok (construct_fresh c hw) cap'
  have hvl := decN_length h4
  have hle : size * c.memSize ≤ cap' * c.memSize := Nat.mul_le_mul_right _ h2
  have hle2 : size * c.memSize ≤ cap * c.memSize := Nat.mul_le_mul_right _ h1
  have hno : c.Light → owned nb = 0 := fun hL => allN_owned cap' nb hnl (allN_mono (fun _ h => h.2 hL) _ _ _ hna)
  have hlast := decN_drop h2 hnl hnd
  rw [List.drop_replicate] at hlast
  -- the moved block
  have move : ∃ new d, (if c.isConstructed then
      loop (fun i m => move true c blk (i * c.memSize) (i * c.memSize) m) 0 size ⟨nb, 0⟩
    else (peekRaw blk 0 (size * c.memSize)).bind fun bytes => put ⟨nb, 0⟩ 0 (rawCells bytes)) =
      .ok ⟨new ++ nb.drop (size * c.memSize), d⟩ ∧ new.length = size * c.memSize ∧
      decN (decode c) c.memSize size new = some (vs.take size) ∧
      (c.Light → c.Tight → d = 0 ∧ allN (tidy c) c.memSize size new) := by
    cases hf : c.isConstructed with
    | true =>
      obtain ⟨new, e, r1, r2, r3, r4⟩ := makesOn_loop (P := fun cs => ∃ w, decode c cs = some w) (dec := decode c)
        (cl := c.Tight) (td := tidy c) (s := c.memSize)
        (g := fun i => Inst.move true c blk (i * c.memSize))
        (v := fun i => id (vs[i]?.getD (.list []))) 0 size 0 (by
          intro i _ hi
          obtain ⟨x, sl, y, w, e1, e2, e3, e4, e5⟩ := decN_slot h3 h4 (i := i) (by omega)
          have := over_ok c hw hc hm sl w e4 x y
          rw [e5, ← e2]
          rw [← e1] at this
          exact this) [] (nb.take (size * c.memSize)) (nb.drop (size * c.memSize)) 0 (by simp) (by simp; omega)
            (decN_allN _ _ _ (decN_take h2 hnl hnd))
      simp only [List.nil_append, List.take_append_drop, Nat.zero_add] at r1
      refine ⟨new, e, by rw [if_pos rfl]; exact r1, r2, ?_, ?_⟩
      · rw [r3, ← List.range_eq_range', map_range_take _ _ _ (by omega), List.map_id]
      · intro hL hT; exact r4 (owned_zero_of_take (hno hL)) hT
    | false =>
      obtain ⟨k, rfl⟩ := prim_of_not_constructed hf
      have hd1 := decN_take h1 h3 h4
      obtain ⟨bytes, hb, hbs⟩ := decN_prim_raw (k := k) (n := size) (by
        simp only [List.length_take]; exact Nat.min_eq_left (by omega)) hd1
      refine ⟨rawCells bytes, owned (nb.take (size * (Ty.prim k).memSize)), ?_, by
        simp only [rawCells_length]; rw [hb]; rfl, ?_, ?_⟩
      · rw [if_neg (by simp)]
        have hp := peekRaw_at [] (blk.drop (size * (Ty.prim k).memSize)) bytes (size * (Ty.prim k).memSize) (by rw [hb]; rfl)
        rw [← hbs] at hp
        simp only [List.nil_append, List.take_append_drop, List.length_nil] at hp
        rw [hp]
        have hq := put_at [] (nb.take (size * (Ty.prim k).memSize)) (nb.drop (size * (Ty.prim k).memSize)) (rawCells bytes) 0 (by
          simp only [rawCells_length, List.length_take]; rw [hb, hnl]; exact (Nat.min_eq_left hle).symm)
        simp only [List.nil_append, List.take_append_drop, List.length_nil, Nat.zero_add] at hq
        exact hq
      · rw [← hbs]; exact hd1
      · intro hL _
        exact ⟨owned_zero_of_take (hno hL), allN_prim _ _ _ _⟩
  obtain ⟨new, d, r1, r2, r3, r4⟩ := move
  -- the old block
  have kill : ∃ old d, (if c.isConstructed then loopDown (fun i m => destroy c (i * c.memSize) m) cap ⟨blk, 0⟩
        else .ok ⟨blk, 0⟩) = .ok ⟨old, d⟩ ∧ (allN (tidy c) c.memSize cap blk → d = 0 ∧ owned old = 0) := by
    cases hf : c.isConstructed with
    | true =>
      obtain ⟨old, d, hr, hn, ht⟩ := kills_loop (destroy_ok c hw) [] cap blk [] 0 vs h3 h4
      simp only [List.length_nil, Nat.zero_add, List.nil_append, List.append_nil] at hr
      exact ⟨old, d, by rw [if_pos rfl]; exact hr, ht⟩
    | false =>
      obtain ⟨k, rfl⟩ := prim_of_not_constructed hf
      obtain ⟨bytes, hb, hbs⟩ := decN_prim_raw (k := k) h3 h4
      exact ⟨blk, 0, by rw [if_neg (by simp)], fun _ => ⟨rfl, by rw [hbs]; simp⟩⟩
  obtain ⟨old, d2, k1, k2⟩ := kill
  have hap := decN_append r2 r3 hlast
  rw [show size + (cap' - size) = cap' by omega] at hap
  refine ⟨new ++ nb.drop (size * c.memSize), d + d2 + owned old, ?_, by simp [r2]; omega, hap, ?_⟩
  · unfold reallocColl
    rw [hi]
    simp only [Except.bind] at r1 k1 ⊢
    rw [r1]
    simp only []
    rw [k1]
    rfl
  · intro hL hT hA
    obtain ⟨z1, z2⟩ := r4 hL hT
    obtain ⟨y1, y2⟩ := k2 hA
    refine ⟨by omega, ?_, ?_⟩
    · have := allN_append r2 z2 (allN_drop h2 (allN_mono (fun _ h => h.1) _ _ _ hna))
      rwa [show size + (cap' - size) = cap' by omega] at this
    · rw [List.drop_left' r2]
      exact owned_zero_of_drop (hno hL)

/-! ## The operations -/

theorem editsTo_iff {dec : List Cell → Option Val} {td : List Cell → Prop} {cl : Prop} {f : Nat → Mem → M Mem}
    {g : Val → Out} : EditsTo dec td cl f g ↔
      ∀ (pre old post : List Cell) (lk : Nat) (v : Val), dec old = some v →
        (g v = .refused → f pre.length ⟨pre ++ old ++ post, lk⟩ = .error .refused) ∧
        (∀ w, g v = .ok w → ∃ new d, f pre.length ⟨pre ++ old ++ post, lk⟩ = .ok ⟨pre ++ new ++ post, lk + d⟩ ∧
          new.length = old.length ∧ dec new = some w ∧ (cl → td old → d = 0 ∧ td new)) := Iff.rfl

/-- Destroy, then make. -/
theorem edits_replace {dec : List Cell → Option Val} {td : List Cell → Prop} {s : Nat} {cl : Prop} {f g : Nat → Mem → M Mem}
    {w : Val} {h : Val → Out} (hl : ∀ cs v, dec cs = some v → cs.length = s) (hk : Kills dec td f) (hm : Makes s dec td cl g w)
    (hh : ∀ v, h v = .ok w) : EditsTo dec td cl (fun a m => (f a m).bind (g a)) h := by
  intro pre old post lk v hv
  refine ⟨fun h0 => by simp [hh] at h0, fun w' h0 => ?_⟩
  simp only [hh, Out.ok.injEq] at h0
  subst h0
  obtain ⟨n1, e1, hr1, hn1, ht1⟩ := hk pre old post lk v hv
  obtain ⟨n2, e2, hr2, hn2, hd2, ht2⟩ := hm pre n1 post (lk + e1) (by rw [hn1]; exact hl _ _ hv)
  refine ⟨n2, e1 + e2, ?_, by rw [hn2]; exact (hl _ _ hv).symm, hd2, ?_⟩
  · show (f pre.length _).bind _ = _
    rw [hr1]
    show g pre.length _ = _
    rw [hr2]; simp [Nat.add_assoc]
  · intro hc ht
    obtain ⟨z1, w1⟩ := ht1 ht
    obtain ⟨z2, w2⟩ := ht2 w1 hc
    exact ⟨by omega, w2⟩

theorem value_edits (h : Host) (hh : h.WF) (T : Ty) (hw : T.WF) :
    EditsTo (decode T) (tidy T) True (setValue h T) (RefOp.spec (.value h) T) := by
  by_cases hf : h.fits T
  · have he : setValue h T = fun a m => (destroy T a m).bind (copy T h.cells 0 a) := by
      funext a m; unfold setValue; rw [if_pos hf]
    rw [he]
    cases h with
    | num k bs =>
      have hb : bs.length = T.memSize ∧ Makes T.memSize (decode T) (tidy T) True (copy T (rawCells bs) 0) (.bytes bs) := by
        simp only [Host.WF] at hh
        cases T <;> simp only [Host.fits, Bool.false_eq_true] at hf
        · simp only [decide_eq_true_eq] at hf
          subst hf
          refine ⟨hh, ?_⟩
          have hp := peekRaw_at [] [] bs _ hh
          simp only [List.nil_append, List.append_nil, List.length_nil] at hp
          refine makes_weaken (s := k.size) (makes_raw (td := fun _ => True) (cl := True) bs
            (f := fun a m => put m a (rawCells bs)) (fun _ _ => rfl) hh (fun _ => trivial)) ?_ ?_ id ?_
          · intro a m; rw [copy, hp]; rfl
          · intro cs _ h; rw [decode]; exact h
          · intro cs _ _ _; rw [tidy]; trivial
        · rename_i n w vals
          simp only [Bool.and_eq_true, decide_eq_true_eq] at hf
          have hh' : bs.length = w.size := by rw [hh]; exact hf.1
          refine ⟨hh', ?_⟩
          have hp := peekRaw_at [] [] bs _ hh'
          simp only [List.nil_append, List.append_nil, List.length_nil] at hp
          refine makes_weaken (s := w.size) (makes_raw (td := fun _ => True) (cl := True) bs
            (f := fun a m => put m a (rawCells bs)) (fun _ _ => rfl) hh' (fun _ => trivial)) ?_ ?_ id ?_
          · intro a m; rw [copy, hp]; rfl
          · intro cs _ h; rw [decode]; exact h
          · intro cs _ _ _; rw [tidy]; trivial
      refine edits_replace (decode_length T) (destroy_ok T hw) hb.2 ?_
      intro v
      simp only [RefOp.spec, if_pos hf]
    | str k us =>
      cases T <;> simp only [Host.fits, Bool.false_eq_true] at hf
      rename_i l b
      simp only [decide_eq_true_eq] at hf
      subst hf
      refine edits_replace (w := .str (clip b us)) (decode_length _) (destroy_ok _ hw) ?_ ?_
      · have hp := peekStr_at k us (decide (us.length > SK.sso k)) [] []
        simp only [List.nil_append, List.append_nil, List.length_nil] at hp
        refine makes_weaken (s := strSize) (makes_str (td := fun _ => True) (cl := True) k b (clip b us)
          (decide ((clip b us).length > SK.sso k)) (fun _ _ => rfl) (clip_le b us) (fun _ => trivial)) ?_ ?_ id ?_
        · intro a m; rw [copy, Host.cells, hp]; rfl
        · intro cs _ h; rw [decode]; exact h
        · intro cs _ _ _; rw [tidy]; trivial
      · intro v
        simp only [RefOp.spec, Host.fits, decide_true, if_true]
  · refine editsTo_refuse ?_ ?_
    · intro a m; unfold setValue; rw [if_neg hf]
    · intro v w; simp only [RefOp.spec, if_neg hf]; exact fun h => by cases h

theorem assign_edits (src : List Cell) (T : Ty) (hw : T.WF) (hc : T.Copyable) (hs : ∀ w, decode T src = some w → w.Selected) :
    EditsTo (decode T) (tidy T) T.Tight (assignRef src T) (RefOp.spec (.assign src) T) := by
  cases hd : decode T src with
  | none =>
    intro pre old post lk v hv
    simp [RefOp.spec, hd]
  | some w =>
    have hm := copy_ok T hw hc src w hd (hs w hd) [] []
    simp only [List.nil_append, List.append_nil, List.length_nil] at hm
    have := edits_replace (h := RefOp.spec (.assign src) T) (decode_length T) (destroy_ok T hw) hm (by
      intro v; simp only [RefOp.spec, hd])
    exact this

theorem seq_decode {c : Ty} {b : Nat} {cs : List Cell} {v : Val} :
    decode (.seq c b) cs = some v ↔ ∃ size cap blk vs, v = .coll (vs.take size) ∧ size ≤ cap ∧
      (b > 0 → cap ≤ b) ∧ blk.length = cap * c.memSize ∧ decN (decode c) c.memSize cap blk = some vs ∧
      cs = objCells (.coll false c size cap blk) seqSize := by
  rw [decode]; exact decColl_iff

theorem seq_tidy {c : Ty} {b size cap : Nat} {blk : List Cell} :
    tidy (.seq c b) (objCells (.coll false c size cap blk) seqSize) ↔
      allN (tidy c) c.memSize cap blk ∧ (c.Light → owned (blk.drop (size * c.memSize)) = 0) := by
  rw [tidy]; rfl

/-- Writing one more element into a block with room for it. -/
theorem push_slot {c : Ty} {size cap : Nat} {blk : List Cell} {vs : List Val} {f : Nat → Mem → M Mem} {w : Val}
    (hmk : Makes c.memSize (decode c) (tidy c) c.Tight f w) (h1 : size < cap)
    (h3 : blk.length = cap * c.memSize) (h4 : decN (decode c) c.memSize cap blk = some vs) :
    ∃ blk' d, f (size * c.memSize) ⟨blk, 0⟩ = .ok ⟨blk', d⟩ ∧ blk'.length = cap * c.memSize ∧
      (∃ vs', decN (decode c) c.memSize cap blk' = some vs' ∧ vs'.take (size + 1) = vs.take size ++ [w]) ∧
      (c.Light → c.Tight → allN (tidy c) c.memSize cap blk → owned (blk.drop (size * c.memSize)) = 0 →
        d = 0 ∧ allN (tidy c) c.memSize cap blk' ∧ owned (blk'.drop ((size + 1) * c.memSize)) = 0) := by
  have hle : (size + 1) * c.memSize ≤ cap * c.memSize := Nat.mul_le_mul_right _ h1
  rw [Nat.succ_mul] at hle
  have hvl := decN_length h4
  obtain ⟨x, sl, y, u, e1, e2, e3, e4, e5⟩ := decN_slot h3 h4 (i := size) h1
  obtain ⟨new, d, r1, r2, r3, r4⟩ := hmk x sl y 0 e3
  have hyl : y.length = (cap - (size + 1)) * c.memSize := by
    have := congrArg List.length e1
    simp only [List.length_append] at this
    rw [Nat.sub_mul, Nat.succ_mul]; omega
  have hdx := decN_take (k := size) (by omega) h3 h4
  have hdy := decN_drop (k := size + 1) (by omega) h3 h4
  have hx : blk.take (size * c.memSize) = x := by rw [e1, List.append_assoc, List.take_left' e2]
  have hy : blk.drop ((size + 1) * c.memSize) = y := by
    rw [e1, List.drop_left' (by simp [Nat.succ_mul]; omega)]
  rw [hx] at hdx
  rw [hy] at hdy
  have hd1 : decN (decode c) c.memSize 1 new = some [w] := by
    rw [decN_cons]
    refine ⟨w, [], rfl, ?_, rfl⟩
    rw [List.take_of_length_le (by omega)]; exact r3
  have ha := decN_append e2 hdx hd1
  have hb := decN_append (s := c.memSize) (a := size + 1) (by simp [e2, r2, Nat.succ_mul]) ha hdy
  rw [show size + 1 + (cap - (size + 1)) = cap by omega] at hb
  refine ⟨x ++ new ++ y, d, ?_, ?_, ⟨_, hb, ?_⟩, ?_⟩
  · rw [e1, ← e2, r1]; simp
  · simp [e2, r2, hyl]; rw [Nat.sub_mul, Nat.succ_mul]; omega
  · rw [List.take_left' (by simp; omega)]
  · intro hL hT hA hO
    have hso : owned sl = 0 := by
      rw [e1, List.append_assoc, List.drop_left' e2] at hO
      simp at hO; exact hO.1
    have hyo : owned y = 0 := by
      rw [e1, List.append_assoc, List.drop_left' e2] at hO
      simp at hO; exact hO.2
    obtain ⟨z1, z2⟩ := r4 hso hT
    have a1 := allN_take (k := size) (by omega) hA
    have a2 := allN_drop (k := size + 1) (by omega) hA
    rw [hx] at a1
    rw [hy] at a2
    have an : allN (tidy c) c.memSize 1 new := ⟨by rw [List.take_of_length_le (by omega)]; exact z2, trivial⟩
    have b1 := allN_append e2 a1 an
    have b2 := allN_append (s := c.memSize) (a := size + 1) (by simp [e2, r2, Nat.succ_mul]) b1 a2
    rw [show size + 1 + (cap - (size + 1)) = cap by omega] at b2
    refine ⟨z1, b2, ?_⟩
    rw [List.drop_left' (by simp [e2, r2, Nat.succ_mul])]
    exact hyo

theorem push_edits {src : List Cell} {c : Ty} {b : Nat} {w : Val} (hw : c.WF) (hc : c.Copyable) (hm : c.Movable)
    (hmk : Makes c.memSize (decode c) (tidy c) c.Tight (copy c src 0) w) :
    EditsTo (decode (.seq c b)) (tidy (.seq c b)) (Ty.seq c b).Tight (push src (.seq c b)) (fun v => match v with
      | .coll vs => if b = 0 ∨ vs.length < b then .ok (.coll (vs ++ [w])) else .refused
      | _ => .undef) := by
  intro pre old post lk v hv
  obtain ⟨size, cap, blk, vs, rfl, h1, h2, h3, h4, rfl⟩ := seq_decode.mp hv
  have hp := peekColl_at false c size cap blk pre post
  have hvl := decN_length h4
  have hlen : (vs.take size).length = size := by simp; omega
  unfold push
  simp only []
  rw [hp]
  simp only [Except.bind, if_true, hlen]
  by_cases hb : b = 0 ∨ size < b
  · rw [if_pos hb, if_pos (show size < b ∨ b = 0 by omega)]
    refine ⟨fun h => (by cases h), ?_⟩
    intro w' hw'
    cases hw'
    by_cases hfull : size = cap
    · subst hfull
      rw [if_pos rfl]
      have hb1 : size < boundedCap (if size > 0 then size * 2 else 1) b := by
        unfold boundedCap
        split <;> split <;> omega
      have hb2 : b > 0 → boundedCap (if size > 0 then size * 2 else 1) b ≤ b := by
        intro h0; unfold boundedCap; rw [if_neg (by omega)]; omega
      generalize boundedCap (if size > 0 then size * 2 else 1) b = cap' at *
      obtain ⟨blk', lk', r1, r2, r3, r4⟩ := reallocColl_ok hw hc hm (Nat.le_refl _) (show size ≤ cap' by omega) h3 h4
      rw [r1]
      simp only []
      obtain ⟨blk2, d, s1, s2, ⟨vs', s3, s4⟩, s5⟩ := push_slot hmk hb1 r2 r3
      rw [s1]
      simp only []
      rw [setColl_at]
      refine ⟨objCells (.coll false c (size + 1) cap' blk2) seqSize, lk' + d, ?_, ?_, ?_, ?_⟩
      · simp [Except.map, Nat.add_assoc]
      · simp [objCells_length, seqSize]
      · refine seq_decode.mpr ⟨size + 1, cap', blk2, vs', ?_, by omega, hb2, s2, s3, rfl⟩
        rw [s4, List.take_left' (by simp; omega)]
      · intro hT ht
        rw [Ty.Tight] at hT
        obtain ⟨t1, t2⟩ := seq_tidy.mp ht
        obtain ⟨z1, z2, z3⟩ := r4 hT.1 hT.2 t1
        obtain ⟨y1, y2, y3⟩ := s5 hT.1 hT.2 z2 z3
        exact ⟨by omega, seq_tidy.mpr ⟨y2, fun _ => y3⟩⟩
    · rw [if_neg hfull]
      simp only []
      obtain ⟨blk2, d, s1, s2, ⟨vs', s3, s4⟩, s5⟩ := push_slot hmk (show size < cap by omega) h3 h4
      rw [s1]
      simp only []
      rw [setColl_at]
      refine ⟨objCells (.coll false c (size + 1) cap blk2) seqSize, d, ?_, ?_, ?_, ?_⟩
      · simp [Except.map]
      · simp [objCells_length, seqSize]
      · refine seq_decode.mpr ⟨size + 1, cap, blk2, vs', ?_, by omega, h2, s2, s3, rfl⟩
        rw [s4]
      · intro hT ht
        rw [Ty.Tight] at hT
        obtain ⟨t1, t2⟩ := seq_tidy.mp ht
        obtain ⟨y1, y2, y3⟩ := s5 hT.1 hT.2 t1 (t2 hT.1)
        exact ⟨by omega, seq_tidy.mpr ⟨y2, fun _ => y3⟩⟩
  · rw [if_neg hb, if_neg (show ¬ (size < b ∨ b = 0) by omega)]
    exact ⟨fun _ => rfl, fun w' h => by cases h⟩

theorem resize_edits {c : Ty} {b n : Nat} (hw : c.WF) (hc : c.Copyable) (hm : c.Movable) :
    EditsTo (decode (.seq c b)) (tidy (.seq c b)) (Ty.seq c b).Tight (resize n (.seq c b))
      (RefOp.spec (.resize n) (.seq c b)) := by
  intro pre old post lk v hv
  obtain ⟨size, cap, blk, vs, rfl, h1, h2, h3, h4, rfl⟩ := seq_decode.mp hv
  have hp := peekColl_at false c size cap blk pre post
  have hvl := decN_length h4
  have hlen : (vs.take size).length = size := by simp; omega
  simp only [RefOp.spec, hlen]
  by_cases hb : b = 0 ∨ n ≤ b
  · rw [if_pos hb]
    refine ⟨fun h => (by cases h), ?_⟩
    intro w' hw'
    cases hw'
    unfold resize
    simp only []
    rw [if_pos (show b = 0 ∨ b ≥ n from hb), hp]
    simp only [Except.bind, if_true]
    by_cases hs : size ≥ n
    · rw [if_pos hs, show n - size = 0 by omega]
      refine ⟨_, 0, rfl, rfl, ?_, fun _ ht => ⟨rfl, ht⟩⟩
      simpa using hv
    · rw [if_neg hs]
      have hbc : boundedCap n b = n := by unfold boundedCap; split <;> omega
      rw [hbc]
      obtain ⟨blk', lk', r1, r2, r3, r4⟩ := reallocColl_ok hw hc hm h1 (show size ≤ n by omega) h3 h4
      rw [r1]
      simp only []
      have hle : size * c.memSize ≤ n * c.memSize := Nat.mul_le_mul_right _ (by omega)
      obtain ⟨new, d, s1, s2, s3, s4⟩ := makes_loop (g := fun _ => construct c) (v := fun _ => defVal c) (dec := decode c)
        (td := fresh c) (cl := True) (s := c.memSize) 0 (n - size) size (fun _ _ _ => construct_fresh c hw)
        (blk'.take (size * c.memSize)) (blk'.drop (size * c.memSize)) [] 0 (by simp; omega)
        (by simp [r2, Nat.sub_mul])
      simp only [List.append_nil, List.take_append_drop, Nat.zero_add] at s1
      rw [s1]
      simp only []
      rw [setColl_at]
      have htk := decN_take (k := size) (by omega) r2 r3
      rw [List.take_left' (by simp; omega)] at htk
      have htl : (blk'.take (size * c.memSize)).length = size * c.memSize := by simp; omega
      have hap := decN_append htl htk s3
      rw [show size + (n - size) = n by omega] at hap
      refine ⟨objCells (.coll false c n n (blk'.take (size * c.memSize) ++ new)) seqSize, lk' + d, ?_, ?_, ?_, ?_⟩
      · simp [Except.map, Nat.add_assoc]
      · simp [objCells_length, seqSize]
      · refine seq_decode.mpr ⟨n, n, _, _, ?_, Nat.le_refl _, fun h0 => by omega, ?_, hap, rfl⟩
        · have e : ∀ l : List Val, l.length = n → l.take n = l := fun l h => List.take_of_length_le (by omega)
          rw [e _ (by simp; omega), List.map_const', List.length_range']
        · simp [s2, Nat.sub_mul]; omega
      · intro hT ht
        rw [Ty.Tight] at hT
        obtain ⟨t1, t2⟩ := seq_tidy.mp ht
        obtain ⟨z1, z2, z3⟩ := r4 hT.1 hT.2 t1
        obtain ⟨y1, y2⟩ := s4 z3 trivial
        refine ⟨by omega, seq_tidy.mpr ⟨?_, fun _ => ?_⟩⟩
        · have := allN_append htl (allN_take (k := size) (by omega) z2) (allN_mono (fun _ h => h.1) _ _ _ y2)
          rwa [show size + (n - size) = n by omega] at this
        · rw [List.drop_eq_nil_of_le]
          · rfl
          · simp [s2, Nat.sub_mul]; omega
  · rw [if_neg hb]
    refine ⟨fun _ => ?_, fun w' h => by cases h⟩
    unfold resize
    simp only []
    rw [if_neg (show ¬ (b = 0 ∨ b ≥ n) from hb)]

theorem union_disc_run {d : Ty} (hd : discOk d) {i : UInfo} (bs : List Byte) (hb : bs.length = d.memSize) (rest pre post : List Cell)
    (lk : Nat) (value : Int) :
    selectDisc d i value pre.length ⟨pre ++ (rawCells bs ++ rest) ++ post, lk⟩ =
      if omGet i.labels value = none ∧ i.default = i.invalidValue then .ok ⟨pre ++ (rawCells bs ++ rest) ++ post, lk⟩
      else match omGet i.labels (labelOf d.memSize bs) with
        | some x => match omGet i.labels value with
          | some y => if x = y then
              .ok ⟨pre ++ (rawCells (leBytes d.memSize (value % 2 ^ (8 * d.memSize)).toNat) ++ rest) ++ post, lk⟩
              else .error .refused
          | none => .error .refused
        | none => .ok ⟨pre ++ (rawCells (leBytes d.memSize (value % 2 ^ (8 * d.memSize)).toNat) ++ rest) ++ post, lk⟩ := by
  have hread : readLabel d (pre ++ (rawCells bs ++ rest) ++ post) pre.length = .ok (labelOf d.memSize bs) := by
    have := readLabel_at hd pre (rest ++ post) bs hb
    simpa using this
  have hwr := writeLabel_at hd pre (rest ++ post) bs lk value hb
  have e1 : pre ++ (rawCells bs ++ rest) ++ post = pre ++ rawCells bs ++ (rest ++ post) := by simp
  have e2 : ∀ x : List Cell, pre ++ x ++ (rest ++ post) = pre ++ (x ++ rest) ++ post := fun x => by simp
  unfold selectDisc
  simp only []
  rw [hread]
  split
  · rfl
  · simp only [Except.bind]
    cases omGet i.labels (labelOf d.memSize bs) with
    | none => simp only []; rw [e1, hwr, e2]
    | some x =>
      cases omGet i.labels value with
      | none => rfl
      | some y =>
        simp only []
        by_cases hxy : x = y
        · rw [if_pos hxy, if_pos hxy, e1, hwr, e2]
        · rw [if_neg hxy, if_neg hxy]

theorem disc_edits {n : String} {d : Ty} {ms : Mems} {i : UInfo} (hw : (Ty.union n d ms i).WF) (value : Int) :
    EditsTo (decode (.union n d ms i)) (tidy (.union n d ms i)) True (selectDisc d i value) (discSpec d i value) := by
  have hw0 := hw
  rw [Ty.WF] at hw
  obtain ⟨hd, hi, hms⟩ := hw
  refine editsTo_iff.mpr ?_
  intro pre old post lk v hv
  obtain ⟨bs, rest, hb, hr, rfl, hcase⟩ := decode_union_inv hd hv
  rw [union_disc_run hd bs hb]
  have hsz := discOk_size hd
  have hcv : UInfo.case i value = omGet i.labels value := rfl
  by_cases hn : omGet i.labels value = none ∧ i.default = i.invalidValue
  · rw [if_pos hn]
    have hv' : discSpec d i value v = .ok v := by
      rcases hcase with ⟨hc, rfl⟩ | ⟨x, t, w, hc, hf, hd', rfl⟩
      · simp only [discSpec]; exact if_pos hn
      · simp only [discSpec]
        rw [if_neg (by rw [hcv, hn.1]; simp)]; exact if_pos hn
    refine ⟨fun h => (by rw [hv'] at h; cases h), fun w h => ?_⟩
    rw [hv'] at h; cases h
    exact ⟨_, 0, rfl, rfl, hv, fun _ ht => ⟨rfl, ht⟩⟩
  · rw [if_neg hn]
    rcases hcase with ⟨hc, rfl⟩ | ⟨x, t, w, hc, hf, hd', rfl⟩
    · have hv' : discSpec d i value (.unNone (.bytes bs)) = .undef := by
        simp only [discSpec]; exact if_neg hn
      exact ⟨fun h => (by rw [hv'] at h; cases h), fun w h => by rw [hv'] at h; cases h⟩
    · rw [show omGet i.labels (labelOf d.memSize bs) = some x from hc]
      simp only [discSpec]
      rw [← hcv]
      cases hval : UInfo.case i value with
      | none =>
        simp only []
        have : i.default ≠ i.invalidValue := fun h => hn ⟨hval, h⟩
        rw [if_neg (by simp), if_neg (by simp [this])]
        exact ⟨fun _ => (by first | rfl | trivial), fun w h => by cases h⟩
      | some y =>
        simp only []
        by_cases hxy : x = y
        · subst hxy
          rw [if_pos rfl, if_pos rfl]
          refine ⟨fun h => (by cases h), fun w' h => ?_⟩
          cases h
          have hbl : (leBytes d.memSize (value % 2 ^ (8 * d.memSize)).toNat).length = d.memSize := leBytes_length _ _
          have hll : labelOf d.memSize (leBytes d.memSize (value % 2 ^ (8 * d.memSize)).toNat) = value :=
            labelOf_bytes hsz (hi.label value x hval).1
          refine ⟨_, 0, rfl, by simp [hbl, hb], ?_, ?_⟩
          · rw [decode_union_some hd hbl hr (by rw [hll]; exact hval) hf, hd']; rfl
          · intro _ ht
            refine ⟨rfl, ?_⟩
            rw [tidy_union_some hd hbl (by rw [hll]; exact hval) hf]
            rw [tidy_union_some hd hb hc hf] at ht
            exact ht
        · rw [if_neg hxy, if_neg (by simp; exact fun h => hxy h.symm), if_neg (by simp)]
          exact ⟨fun _ => rfl, fun w h => by cases h⟩

theorem edits_clean {dec : List Cell → Option Val} {td : List Cell → Prop} {cl cl' : Prop} {f : Nat → Mem → M Mem}
    {g : Val → Out} (h : EditsTo dec td cl f g) (hc : cl' → cl) : EditsTo dec td cl' f g := by
  refine editsTo_iff.mpr ?_
  intro pre old post lk v hv
  obtain ⟨h1, h2⟩ := editsTo_iff.mp h pre old post lk v hv
  refine ⟨h1, fun w hw => ?_⟩
  obtain ⟨new, d, a, b, c, e⟩ := h2 w hw
  exact ⟨new, d, a, b, c, fun x => e (hc x)⟩

theorem editsTo_congr {dec : List Cell → Option Val} {td : List Cell → Prop} {cl : Prop} {f : Nat → Mem → M Mem}
    {g g' : Val → Out} (h : EditsTo dec td cl f g)
    (hg : ∀ cs v, dec cs = some v → g' v = g v ∨ g' v = .undef) : EditsTo dec td cl f g' := by
  refine editsTo_iff.mpr ?_
  intro pre old post lk v hv
  obtain ⟨h1, h2⟩ := editsTo_iff.mp h pre old post lk v hv
  rcases hg _ _ hv with e | e
  · exact ⟨fun hr => h1 (by rw [← e]; exact hr), fun w hw => h2 w (by rw [← e]; exact hw)⟩
  · exact ⟨fun hr => (by rw [e] at hr; cases hr), fun w hw => by rw [e] at hw; cases hw⟩

/-- Every operation does what its specification says. -/
theorem refOp_edits (op : RefOp) (T : Ty) (hw : T.WF) (ho : op.Ok T) :
    EditsTo (decode T) (tidy T) T.Tight (op.run T) (op.spec T) := by
  cases op with
  | touch =>
    intro pre old post lk v hv
    refine ⟨fun h => (by cases h), fun w h => ?_⟩
    cases h
    exact ⟨old, 0, rfl, rfl, hv, fun _ ht => ⟨rfl, ht⟩⟩
  | value h => exact edits_clean (value_edits h ho T hw) (fun _ => trivial)
  | assign src => exact assign_edits src T hw ho.1 ho.2
  | push src =>
    by_cases hs : ∃ c b, T = .seq c b
    · obtain ⟨c, b, rfl⟩ := hs
      obtain ⟨hc, hm, hsel⟩ := ho
      rw [Ty.WF] at hw
      cases hd : decode c src with
      | none =>
        intro pre old post lk v hv
        obtain ⟨size, cap, blk, vs, rfl, h1, h2, h3, h4, rfl⟩ := seq_decode.mp hv
        simp only [RefOp.spec, hd]
        by_cases hb : b = 0 ∨ (vs.take size).length < b
        · rw [if_pos hb]
          exact ⟨fun h => (by cases h), fun w h => (by cases h)⟩
        · rw [if_neg hb]
          refine ⟨fun _ => ?_, fun w h => by cases h⟩
          have hvl := decN_length h4
          have hp := peekColl_at false c size cap blk pre post
          simp only [RefOp.run, push]
          rw [hp]
          simp only [Except.bind, if_true]
          rw [if_neg]
          simp only [List.length_take] at hb
          omega
      | some w =>
        have hmk := copy_ok c hw hc src w hd (hsel w hd) [] []
        simp only [List.nil_append, List.append_nil, List.length_nil] at hmk
        refine editsTo_congr (push_edits hw hc hm hmk) ?_
        intro cs v hv
        left
        obtain ⟨size, cap, blk, vs, rfl, h1, h2, h3, h4, rfl⟩ := seq_decode.mp hv
        simp only [RefOp.spec, hd]
    · have : ∀ v, RefOp.spec (.push src) T v = .refused := by
        intro v; cases T <;> first | rfl | exact (hs ⟨_, _, rfl⟩).elim
      refine editsTo_refuse ?_ (fun v w h => by rw [this] at h; cases h)
      intro a m
      cases T <;> first | rfl | exact (hs ⟨_, _, rfl⟩).elim
  | pushHost h =>
    by_cases hs : ∃ c b, T = .seq c b
    · obtain ⟨c, b, rfl⟩ := hs
      rw [Ty.WF] at hw
      by_cases hf : h.fits c ∧ c.isEnumerated = false
      · cases h with
        | num k bs =>
          cases c <;> simp only [Host.fits, Bool.false_eq_true, false_and] at hf
          · rename_i l
            have hk : k = l := by simpa using hf.1
            subst hk
            have hp := peekRaw_at [] [] bs _ ho
            simp only [List.nil_append, List.append_nil, List.length_nil] at hp
            have hmk : Makes (Ty.prim k).memSize (decode (.prim k)) (tidy (.prim k)) (Ty.prim k).Tight
                (copy (.prim k) (rawCells bs) 0) (.bytes bs) := by
              refine makes_weaken (s := k.size) (makes_raw (td := fun _ => True) (cl := True) bs
                (f := fun a m => put m a (rawCells bs)) (fun _ _ => rfl) ho (fun _ => trivial)) ?_ ?_ (fun _ => trivial) ?_
              · intro a m; rw [copy, hp]; rfl
              · intro cs _ h; rw [decode]; exact h
              · intro cs _ _ _; rw [tidy]; trivial
            have := push_edits (b := b) hw (by rw [Ty.Copyable]; trivial) (by rw [Ty.Movable]; trivial) hmk
            have he : RefOp.run (.pushHost (.num k bs)) (.seq (.prim k) b) = push (rawCells bs) (.seq (.prim k) b) := by
              funext a m; simp only [RefOp.run, pushHost, if_true, Host.cells]
            rw [he]
            refine editsTo_congr this ?_
            intro cs v hv
            left
            obtain ⟨size, cap, blk, vs, rfl, h1, h2, h3, h4, rfl⟩ := seq_decode.mp hv
            simp only [RefOp.spec]
            rw [if_pos ⟨by simp [Host.fits], hf.2⟩]
          · simp [Ty.isEnumerated] at hf
        | str k us =>
          cases c <;> simp only [Host.fits, Bool.false_eq_true, false_and] at hf
          rename_i l b'
          have hk : k = l := by simpa using hf.1
          subst hk
          have hp := peekStr_at k us (decide (us.length > SK.sso k)) [] []
          simp only [List.nil_append, List.append_nil, List.length_nil] at hp
          have hmk : Makes (Ty.str k b').memSize (decode (.str k b')) (tidy (.str k b')) (Ty.str k b').Tight
              (copy (.str k b') (Host.str k us).cells 0) (.str (clip b' us)) := by
            refine makes_weaken (s := strSize) (makes_str (td := fun _ => True) (cl := True) k b' (clip b' us)
              (decide ((clip b' us).length > SK.sso k)) (fun _ _ => rfl) (clip_le b' us) (fun _ => trivial)) ?_ ?_
              (fun _ => trivial) ?_
            · intro a m; rw [copy, Host.cells, hp]; rfl
            · intro cs _ h; rw [decode]; exact h
            · intro cs _ _ _; rw [tidy]; trivial
          have := push_edits (b := b) hw (by rw [Ty.Copyable]; trivial) (by rw [Ty.Movable]; trivial) hmk
          have he : RefOp.run (.pushHost (.str k us)) (.seq (.str k b') b) =
              push (Host.str k us).cells (.seq (.str k b') b) := by
            funext a m; simp only [RefOp.run, pushHost, if_true]
          rw [he]
          refine editsTo_congr this ?_
          intro cs v hv
          left
          obtain ⟨size, cap, blk, vs, rfl, h1, h2, h3, h4, rfl⟩ := seq_decode.mp hv
          simp only [RefOp.spec]
          rw [if_pos ⟨by simp [Host.fits], hf.2⟩]
      · refine editsTo_refuse ?_ ?_
        · intro a m
          simp only [RefOp.run, pushHost]
          cases h <;> cases c <;> simp_all [Host.fits, Ty.isEnumerated]
        · intro v w h'
          cases v <;> simp only [RefOp.spec, if_neg hf] at h' <;> cases h'
    · have : ∀ v, RefOp.spec (.pushHost h) T v = .refused := by
        intro v; cases T <;> first | rfl | exact (hs ⟨_, _, rfl⟩).elim
      refine editsTo_refuse ?_ (fun v w h => by rw [this] at h; cases h)
      intro a m
      cases T <;> first | rfl | exact (hs ⟨_, _, rfl⟩).elim
  | resize n =>
    by_cases hs : ∃ c b, T = .seq c b
    · obtain ⟨c, b, rfl⟩ := hs
      rw [Ty.WF] at hw
      exact resize_edits hw ho.1 ho.2
    · have : ∀ v, RefOp.spec (.resize n) T v = .refused := by
        intro v; cases T <;> first | rfl | exact (hs ⟨_, _, rfl⟩).elim
      refine editsTo_refuse ?_ (fun v w h => by rw [this] at h; cases h)
      intro a m
      cases T <;> first | rfl | exact (hs ⟨_, _, rfl⟩).elim
  | disc l =>
    by_cases hs : ∃ n d ms i, T = .union n d ms i
    · obtain ⟨n, d, ms, i, rfl⟩ := hs
      refine editsTo_congr (edits_clean (disc_edits hw l) (fun _ => trivial)) ?_
      intro cs v _; left; rfl
    · have : ∀ v, RefOp.spec (.disc l) T v = .refused := by
        intro v; cases T <;> first | rfl | exact (hs ⟨_, _, _, _, rfl⟩).elim
      refine editsTo_refuse ?_ (fun v w h => by rw [this] at h; cases h)
      intro a m
      cases T <;> first | rfl | exact (hs ⟨_, _, _, _, rfl⟩).elim
  | discRef S src =>
    by_cases hs : ∃ n d ms i, T = .union n d ms i
    · obtain ⟨n, d, ms, i, rfl⟩ := hs
      cases hd : decode S src with
      | none =>
        intro pre old post lk v hv
        simp [RefOp.spec, hd]
      | some w =>
        have hS : discOk S := ho
        rw [disc_decode hS] at hd
        obtain ⟨bs, rfl, hb, rfl⟩ := decBytes_iff.mp hd
        have hread := readLabel_at hS [] [] bs hb
        simp only [List.nil_append, List.append_nil, List.length_nil] at hread
        have he : RefOp.run (.discRef S (rawCells bs)) (.union n d ms i) = selectDisc d i (labelOf S.memSize bs) := by
          funext a m
          simp only [RefOp.run, setDiscRef, hread]; rfl
        rw [he]
        refine editsTo_congr (edits_clean (disc_edits hw _) (fun _ => trivial)) ?_
        intro cs v _
        left
        simp only [RefOp.spec]
        rw [disc_decode hS, hd]
    · have : ∀ v, RefOp.spec (.discRef S src) T v = .refused := by
        intro v; cases T <;> first | rfl | exact (hs ⟨_, _, _, _, rfl⟩).elim
      refine editsTo_refuse ?_ (fun v w h => by rw [this] at h; cases h)
      intro a m
      cases T <;> first | rfl | exact (hs ⟨_, _, _, _, rfl⟩).elim

end Verif.Inst
