import Verif.Lemmas.RefRead
import Verif.Spec.Eq
/-! # Comparison -/

namespace Verif.Inst

theorem loopAll_ok {f : Nat → M Bool} {P : Nat → Prop} : (i n : Nat) → (∀ j, i ≤ j → j < i + n → ∃ b, f j = .ok b ∧ (b = true ↔ P j)) →
    ∃ b, loopAll f i n = .ok b ∧ (b = true ↔ ∀ j, i ≤ j → j < i + n → P j)
  | i, 0, _ => ⟨true, rfl, by simp; intro j h1 h2; omega⟩
  | i, n + 1, h => by
    obtain ⟨b, h1, h2⟩ := h i (by omega) (by omega)
    obtain ⟨r, h3, h4⟩ := loopAll_ok (i + 1) n (fun j hj hj' => h j (by omega) (by omega))
    refine ⟨b && r, by rw [loopAll, h1]; simp only [Except.bind, h3, Except.map], ?_⟩
    rw [Bool.and_eq_true, h2, h4]
    constructor
    · rintro ⟨h5, h6⟩ j hj hj'
      by_cases e : j = i
      · exact e ▸ h5
      · exact h6 j (by omega) (by omega)
    · intro h5
      exact ⟨h5 i (by omega) (by omega), fun j hj hj' => h5 j (by omega) (by omega)⟩

/-- The comparison `f` answers whether `S` holds of the values. -/
def Compares (dec : List Cell → Option Val) (f : List Cell → Nat → List Cell → Nat → M Bool) (S : Val → Val → Prop) : Prop :=
  ∀ (pre x post pre' y post' : List Cell) (u v : Val), dec x = some u → dec y = some v →
    ∃ b, f (pre ++ x ++ post) pre.length (pre' ++ y ++ post') pre'.length = .ok b ∧ (b = true ↔ S u v)

theorem compares_seq {f : List Cell → Nat → List Cell → Nat → M Bool} {S : Val → Val → Prop} {dec : List Cell → Option Val}
    {s : Nat} (h : Compares dec f S) {n m : Nat} {x y : List Cell} {us vs : List Val} {k : Nat} (hk : k ≤ n) (hk' : k ≤ m)
    (hx : x.length = n * s) (hy : y.length = m * s) (hu : decN dec s n x = some us) (hv : decN dec s m y = some vs)
    (pre post pre' post' : List Cell) :
    ∃ b, loopAll (fun i => f (pre ++ x ++ post) (pre.length + i * s) (pre' ++ y ++ post') (pre'.length + i * s)) 0 k = .ok b ∧
      (b = true ↔ ∀ i u v, i < k → us[i]? = some u → vs[i]? = some v → S u v) := by
  obtain ⟨b, h1, h2⟩ := loopAll_ok (f := fun i => f (pre ++ x ++ post) (pre.length + i * s) (pre' ++ y ++ post') (pre'.length + i * s))
    (P := fun i => ∀ u v, us[i]? = some u → vs[i]? = some v → S u v) 0 k (by
    intro j _ hj
    obtain ⟨a, c, e, u, e1, e2, e3, e4, e5⟩ := decN_slot hx hu (i := j) (by omega)
    obtain ⟨a', c', e', v, f1, f2, f3, f4, f5⟩ := decN_slot hy hv (i := j) (by omega)
    obtain ⟨b, h1, h2⟩ := h (pre ++ a) c (e ++ post) (pre' ++ a') c' (e' ++ post') u v e4 f4
    refine ⟨b, ?_, ?_⟩
    · rw [← h1]
      simp only [e1, f1, List.length_append, e2, f2, List.append_assoc]
    · rw [h2, e5, f5]
      constructor
      · intro h u' v' hu hv; cases hu; cases hv; exact h
      · intro h; exact h u v rfl rfl)
  exact ⟨b, h1, h2.trans ⟨fun h i u v hi => h i (by omega) (by omega) u v, fun h i _ hi u v => h i u v (by omega)⟩⟩

theorem getElem?_forall_take {us vs : List Val} {k : Nat} {S : Val → Val → Prop} :
    (∀ i u v, i < k → us[i]? = some u → vs[i]? = some v → S u v) ↔
    (∀ (i : Nat) (u v : Val), (us.take k)[i]? = some u → (vs.take k)[i]? = some v → S u v) := by
  constructor
  · intro h i u v hu hv
    rw [List.getElem?_take] at hu hv
    split at hu
    · rename_i hi; rw [if_pos hi] at hv; exact h i u v hi hu hv
    · cases hu
  · intro h i u v hi hu hv
    exact h i u v (by rw [List.getElem?_take_of_lt hi]; exact hu) (by rw [List.getElem?_take_of_lt hi]; exact hv)

/-- Scalars of a fixed size in a row are determined by their bytes. -/
theorem decN_bytes_inj {dec : List Cell → Option Val} {s : Nat}
    (hd : ∀ x y u, dec x = some u → dec y = some u → x = y) :
    {n : Nat} → {x y : List Cell} → {us vs : List Val} → x.length = n * s → y.length = n * s → decN dec s n x = some us →
    decN dec s n y = some vs → (x = y ↔ us = vs)
  | 0, x, y, us, vs, hx, hy, hu, hv => by
    simp at hx hy; subst hx; subst hy
    rw [hu] at hv; cases hv; simp
  | n + 1, x, y, us, vs, hx, hy, hu, hv => by
    constructor
    · rintro rfl; rw [hu] at hv; cases hv; rfl
    · rintro rfl
      rw [decN] at hu hv
      cases e1 : dec (x.take s) with
      | none => rw [e1] at hu; cases hu
      | some a =>
        rw [e1] at hu
        cases e2 : decN dec s n (x.drop s) with
        | none => rw [e2] at hu; cases hu
        | some as =>
          rw [e2] at hu
          cases e3 : dec (y.take s) with
          | none => rw [e3] at hv; cases hv
          | some b =>
            rw [e3] at hv
            cases e4 : decN dec s n (y.drop s) with
            | none => rw [e4] at hv; cases hv
            | some bs =>
              rw [e4] at hv
              rw [Nat.succ_mul] at hx hy
              have hu' : a :: as = us := Option.some.inj hu
              have hv' : b :: bs = us := Option.some.inj hv
              subst hu'
              cases hv'
              rw [← List.take_append_drop s x, ← List.take_append_drop s y, hd _ _ _ e1 e3,
                (decN_bytes_inj hd (by simp; omega) (by simp; omega) e2 e4).mpr rfl]

theorem decode_prim_inj {k : PK} : ∀ x y u, decode (.prim k) x = some u → decode (.prim k) y = some u → x = y := by
  intro x y u h1 h2
  rw [decode] at h1 h2
  obtain ⟨b, rfl, _, rfl⟩ := decBytes_iff.mp h1
  obtain ⟨c, e, _, rfl⟩ := decBytes_iff.mp h2
  cases e; rfl

theorem rawCells_inj {x y : List Byte} : rawCells x = rawCells y ↔ x = y := by
  constructor
  · intro h
    have := congrArg bytesOf h
    simpa using this
  · rintro rfl; rfl

/-- A collection compared as bytes. -/
theorem memcmp_ok {dec : List Cell → Option Val} {s : Nat} (hr : ∀ cs v, dec cs = some v → ∃ bs, cs = rawCells bs)
    (hd : ∀ x y u, dec x = some u → dec y = some u → x = y) {n : Nat} {x y : List Cell} {us vs : List Val}
    (hx : x.length = n * s) (hy : y.length = n * s) (hu : decN dec s n x = some us) (hv : decN dec s n y = some vs)
    (pre post pre' post' : List Cell) :
    ∃ b, ((peekRaw (pre ++ x ++ post) pre.length (n * s)).bind fun u => (peekRaw (pre' ++ y ++ post') pre'.length (n * s)).map
      fun v => decide (u = v)) = .ok b ∧ (b = true ↔ us = vs) := by
  obtain ⟨bx, rfl⟩ := decN_raw hr hx hu
  obtain ⟨by', rfl⟩ := decN_raw hr hy hv
  rw [peekRaw_at _ _ _ _ (by simpa using hx), peekRaw_at _ _ _ _ (by simpa using hy)]
  refine ⟨decide (bx = by'), rfl, ?_⟩
  rw [decide_eq_true_iff, ← rawCells_inj]
  exact decN_bytes_inj hd hx hy hu hv

theorem prim_raw {k : PK} : ∀ cs v, decode (.prim k) cs = some v → ∃ bs, cs = rawCells bs := by
  intro cs v hd
  rw [decode] at hd; obtain ⟨b, -, -, e⟩ := decBytes_iff.mp hd; exact ⟨b, e⟩

theorem eqColl_ok {dec : List Cell → Option Val} {f : List Cell → Nat → List Cell → Nat → M Bool} {S : Val → Val → Prop} {slow : Bool}
    (h : Compares dec f S) (hr : slow = false → (∀ cs v, dec cs = some v → ∃ bs, cs = rawCells bs) ∧
      ∀ x y u, dec x = some u → dec y = some u → x = y) {im : Bool} {c : Ty} {s b : Nat} :
    Compares (decColl im c s b dec) (fun x a y b => (peekColl im x a).bind fun o => (peekColl im y b).bind fun p =>
      if o.content = c then eqColl slow s o p (fun i => f o.block (i * s) p.block (i * s)) else .error .outside)
      (fun u v => ∃ us vs, u = .coll us ∧ v = .coll vs ∧
        if slow = false then us = vs else us.length = vs.length ∧ ∀ (i : Nat) (u v : Val), us[i]? = some u → vs[i]? = some v → S u v) := by
  intro pre x post pre' y post' u v hu hv
  obtain ⟨size, cap, blk, us, rfl, h1, h2, h3, h4, rfl⟩ := decColl_iff.mp hu
  obtain ⟨size', cap', blk', vs, rfl, h1', h2', h3', h4', rfl⟩ := decColl_iff.mp hv
  have hl := decN_length h4
  have hl' := decN_length h4'
  simp only [peekColl_at, Except.bind, if_true, eqColl]
  by_cases hs : size' = size
  · subst hs
    simp only [ne_eq, not_true, if_false]
    cases slow with
    | false =>
      obtain ⟨r1, r2⟩ := hr rfl
      have k1 := decN_take h1 h3 h4
      have k2 := decN_take h1' h3' h4'
      have hm := Nat.mul_le_mul_right s h1
      have hm' := Nat.mul_le_mul_right s h1'
      obtain ⟨b, e1, e2⟩ := memcmp_ok r1 r2 (by simp; omega) (by simp; omega) k1 k2 [] (blk.drop (size' * s)) [] (blk'.drop (size' * s))
      refine ⟨b, ?_, ?_⟩
      · rw [← e1]; simp only [List.nil_append, List.take_append_drop, List.length_nil]; rfl
      · rw [e2]
        constructor
        · intro h; exact ⟨_, _, rfl, rfl, h⟩
        · rintro ⟨_, _, e, e', h⟩; cases e; cases e'; exact h
    | true =>
      obtain ⟨b, e1, e2⟩ := compares_seq h h1 h1' h3 h3' h4 h4' [] [] [] []
      refine ⟨b, ?_, ?_⟩
      · rw [← e1]; simp
      · rw [e2, getElem?_forall_take]
        constructor
        · intro h; exact ⟨_, _, rfl, rfl, by simp; omega, h⟩
        · rintro ⟨_, _, e, e', h⟩; cases e; cases e'; exact h.2
  · refine ⟨false, by simp [hs], ?_⟩
    constructor
    · intro h; cases h
    · rintro ⟨_, _, e, e', h⟩
      cases e; cases e'
      exfalso
      have : (us.take size).length = (vs.take size').length := by
        cases slow with
        | false => exact congrArg _ h
        | true => exact h.1
      simp at this; omega

theorem compares_iff {dec : List Cell → Option Val} {f : List Cell → Nat → List Cell → Nat → M Bool} {S S' : Val → Val → Prop}
    (h : Compares dec f S) (hS : ∀ x y u v, dec x = some u → dec y = some v → (S u v ↔ S' u v)) : Compares dec f S' := by
  intro pre x post pre' y post' u v hu hv
  obtain ⟨b, h1, h2⟩ := h pre x post pre' y post' u v hu hv
  exact ⟨b, h1, h2.trans (hS x y u v hu hv)⟩

theorem compares_pair {d1 d2 : List Cell → Option Val} {f1 f2 : List Cell → Nat → List Cell → Nat → M Bool} {S1 S2 : Val → Val → Prop}
    {s : Nat} (h1 : Compares d1 f1 S1) (h2 : Compares d2 f2 S2) (hs : ∀ x u, d1 x = some u → x.length = s) :
    Compares (decPair d1 d2 s) (fun x a y b => (f1 x a y b).bind fun e => if e then f2 x (a + s) y (b + s) else .ok false)
      (fun u v => ∃ a b x y, u = .list [a, b] ∧ v = .list [x, y] ∧ S1 a x ∧ S2 b y) := by
  intro pre x post pre' y post' u v hu hv
  obtain ⟨a, b, rfl, ha, hb⟩ := decPair_iff.mp hu
  obtain ⟨a', b', rfl, ha', hb'⟩ := decPair_iff.mp hv
  have la := hs _ _ ha
  have la' := hs _ _ ha'
  obtain ⟨e, k1, k2⟩ := h1 pre (x.take s) (x.drop s ++ post) pre' (y.take s) (y.drop s ++ post') _ _ ha ha'
  obtain ⟨e', k3, k4⟩ := h2 (pre ++ x.take s) (x.drop s) post (pre' ++ y.take s) (y.drop s) post' _ _ hb hb'
  have c1 : pre ++ x.take s ++ (x.drop s ++ post) = pre ++ x ++ post := by
    rw [List.append_assoc, ← List.append_assoc (x.take s), List.take_append_drop, List.append_assoc]
  have c2 : pre' ++ y.take s ++ (y.drop s ++ post') = pre' ++ y ++ post' := by
    rw [List.append_assoc, ← List.append_assoc (y.take s), List.take_append_drop, List.append_assoc]
  have c3 : pre ++ x.take s ++ x.drop s ++ post = pre ++ x ++ post := by rw [List.append_assoc, c1]
  have c4 : pre' ++ y.take s ++ y.drop s ++ post' = pre' ++ y ++ post' := by rw [List.append_assoc, c2]
  rw [c1, c2] at k1
  rw [c3, c4, List.length_append, List.length_append, la, la'] at k3
  simp only [k1, Except.bind]
  cases e with
  | false =>
    refine ⟨false, rfl, ?_⟩
    simp only [Bool.false_eq_true, false_iff] at k2 ⊢
    rintro ⟨_, _, _, _, e, f, g, _⟩; cases e; cases f; exact k2 g
  | true =>
    refine ⟨e', by simpa using k3, ?_⟩
    rw [k4]
    constructor
    · intro h; exact ⟨_, _, _, _, rfl, rfl, k2.mp rfl, h⟩
    · rintro ⟨_, _, _, _, e, f, _, g⟩; cases e; cases f; exact g

theorem compareAll_ok : {ms : Mems} → (ms.Forall fun T => T.WF → Compares (decode T) (compare T) (Same true T)) → ms.WF →
    ∀ (pre x post pre' y post' : List Cell) (us vs : List Val), decodeAll ms x = some us → decodeAll ms y = some vs →
    ∃ b, compareAll ms (pre ++ x ++ post) pre.length (pre' ++ y ++ post') pre'.length = .ok b ∧ (b = true ↔ SameAll true ms us vs)
  | .nil, _, _, pre, x, post, pre', y, post', us, vs, hu, hv => by
    rw [decodeAll] at hu hv
    split at hu
    · split at hv
      · cases hu; cases hv
        exact ⟨true, by rw [compareAll], by simp [SameAll]⟩
      · cases hv
    · cases hu
  | .cons n t r, hf, hw, pre, x, post, pre', y, post', us, vs, hu, hv => by
    rw [decodeAll] at hu hv
    cases e1 : decode t (x.take t.memSize) with
    | none => rw [e1] at hu; cases hu
    | some u =>
      rw [e1] at hu
      cases e2 : decodeAll r (x.drop t.memSize) with
      | none => rw [e2] at hu; cases hu
      | some us' =>
        rw [e2] at hu
        cases e3 : decode t (y.take t.memSize) with
        | none => rw [e3] at hv; cases hv
        | some v =>
          rw [e3] at hv
          cases e4 : decodeAll r (y.drop t.memSize) with
          | none => rw [e4] at hv; cases hv
          | some vs' =>
            rw [e4] at hv
            cases hu; cases hv
            have la := decode_length _ _ _ e1
            have la' := decode_length _ _ _ e3
            rw [Mems.WF] at hw
            obtain ⟨e, k1, k2⟩ := hf.1 hw.1 pre _ (x.drop t.memSize ++ post) pre' _ (y.drop t.memSize ++ post') _ _ e1 e3
            obtain ⟨e', k3, k4⟩ := compareAll_ok hf.2 hw.2 (pre ++ x.take t.memSize) _ post (pre' ++ y.take t.memSize) _ post' _ _ e2 e4
            have c1 : pre ++ x.take t.memSize ++ (x.drop t.memSize ++ post) = pre ++ x ++ post := by
              rw [List.append_assoc, ← List.append_assoc (x.take _), List.take_append_drop, List.append_assoc]
            have c2 : pre' ++ y.take t.memSize ++ (y.drop t.memSize ++ post') = pre' ++ y ++ post' := by
              rw [List.append_assoc, ← List.append_assoc (y.take _), List.take_append_drop, List.append_assoc]
            rw [c1, c2] at k1
            rw [List.append_assoc _ (x.drop _), List.append_assoc _ (y.drop _), c1, c2, List.length_append, List.length_append, la, la'] at k3
            rw [compareAll, k1]
            simp only [Except.bind, SameAll]
            cases e with
            | false =>
              refine ⟨false, rfl, ?_⟩
              simp only [Bool.false_eq_true, false_iff] at k2 ⊢
              exact fun h => k2 h.1
            | true =>
              refine ⟨e', by simpa using k3, ?_⟩
              rw [k4]
              exact ⟨fun h => ⟨k2.mp rfl, h⟩, fun h => h.2⟩

theorem compareCase_eq : {ms : Mems} → {n : String} → {t : Ty} → ms.find? n = some t → compareCase ms n = compare t
  | .nil, _, _, h => by cases h
  | .cons x u r, n, t, h => by
    rw [Mems.find?] at h
    funext a b c d
    rw [compareCase]
    split at h
    · rename_i e; cases h; rw [if_pos e]
    · rename_i e; rw [if_neg e, compareCase_eq h]

theorem sameCase_eq {bw : Bool} : {ms : Mems} → {n : String} → {t : Ty} → ms.find? n = some t → SameCase bw ms n = Same bw t
  | .nil, _, _, h => by cases h
  | .cons x u r, n, t, h => by
    rw [Mems.find?] at h
    funext a b
    rw [SameCase]
    split at h
    · rename_i e; cases h; rw [if_pos e]
    · rename_i e; rw [if_neg e, sameCase_eq h]

theorem disc_compare {d : Ty} (h : discOk d) {bs bs' : List Byte} (hb : bs.length = d.memSize) (hb' : bs'.length = d.memSize)
    (pre post pre' post' : List Cell) :
    compare d (pre ++ rawCells bs ++ post) pre.length (pre' ++ rawCells bs' ++ post') pre'.length = .ok (decide (bs = bs')) := by
  have hr : ∀ d : Ty, compare d = compare d.rget := by
    intro d
    induction d using Ty.ind with
    | als n t ih => funext a b c e; rw [compare, ih, Ty.rget]
    | _ => rfl
  rw [hr]
  rw [← Ty.rget_memSize] at hb hb'
  unfold discOk at h
  split at h
  · rename_i k hk
    rw [hk] at hb hb' ⊢
    rw [Ty.memSize] at hb hb'
    rw [compare, peekRaw_at _ _ _ _ hb, peekRaw_at _ _ _ _ hb']
    cases k <;> simp [PK.isFloat] at h <;> rfl
  · rename_i n w vs hk
    rw [hk] at hb hb' ⊢
    rw [Ty.memSize] at hb hb'
    rw [compare, peekRaw_at _ _ _ _ hb, peekRaw_at _ _ _ _ hb']
    rfl
  · cases h

theorem WF_mem {ms : Mems} : ms.WF → {n : String} → {t : Ty} → ms.find? n = some t → t.WF := by
  intro hw n t h
  have : {ms : Mems} → ms.WF → ms.Forall Ty.WF := by
    intro ms
    let rec go : (ms : Mems) → ms.WF → ms.Forall Ty.WF
      | .nil, _ => trivial
      | .cons _ _ r, h => by rw [Mems.WF] at h; exact ⟨h.1, go r h.2⟩
    exact go ms
  exact (this hw).find h

/-- What `compare_instance` computes. -/
theorem compare_ok (T : Ty) : T.WF → Compares (decode T) (compare T) (Same true T) := by
  induction T using Ty.ind with
  | prim k =>
    intro _ pre x post pre' y post' u v hu hv
    rw [decode] at hu hv
    obtain ⟨bx, rfl, hl, rfl⟩ := decBytes_iff.mp hu
    obtain ⟨by', rfl, hl', rfl⟩ := decBytes_iff.mp hv
    rw [compare, peekRaw_at _ _ _ _ hl, peekRaw_at _ _ _ _ hl']
    exact ⟨_, rfl, by rw [Same]⟩
  | enum n w es =>
    intro _ pre x post pre' y post' u v hu hv
    rw [decode] at hu hv
    obtain ⟨bx, rfl, hl, rfl⟩ := decBytes_iff.mp hu
    obtain ⟨by', rfl, hl', rfl⟩ := decBytes_iff.mp hv
    rw [compare, peekRaw_at _ _ _ _ hl, peekRaw_at _ _ _ _ hl']
    exact ⟨_, rfl, by rw [Same]; exact decide_eq_true_iff⟩
  | str k b =>
    intro _ pre x post pre' y post' u v hu hv
    rw [decode] at hu hv
    obtain ⟨us, hp, rfl, _, rfl⟩ := decStr_iff.mp hu
    obtain ⟨us', hp', rfl, _, rfl⟩ := decStr_iff.mp hv
    rw [compare, peekStr_at, peekStr_at]
    exact ⟨_, rfl, by rw [Same]; exact decide_eq_true_iff⟩
  | seq c b ih =>
    intro hw
    rw [Ty.WF] at hw
    have := eqColl_ok (slow := c.isConstructed) (im := false) (c := c) (s := c.memSize) (b := b) (ih hw) (by
      intro h
      obtain ⟨k, rfl⟩ := prim_of_not_constructed h
      exact ⟨prim_raw, decode_prim_inj⟩)
    rw [show decode (.seq c b) = decColl false c c.memSize b (decode c) from by funext cs; rw [decode],
      show compare (.seq c b) = _ from by funext x a y b; rw [compare]]
    refine compares_iff this ?_
    intro x y u v hu hv
    obtain ⟨_, _, _, us, rfl, _⟩ := decColl_iff.mp hu
    obtain ⟨_, _, _, vs, rfl, _⟩ := decColl_iff.mp hv
    rw [Same]
    cases hc : c.isConstructed <;> simp
  | arr n c d ih =>
    intro hw pre x post pre' y post' u v hu hv
    rw [Ty.WF] at hw
    rw [decode] at hu hv
    split at hu
    · rename_i hx
      split at hv
      · rename_i hy
        cases e1 : decN (decode c) c.memSize d x with
        | none => rw [e1] at hu; cases hu
        | some us =>
          cases e2 : decN (decode c) c.memSize d y with
          | none => rw [e2] at hv; cases hv
          | some vs =>
            rw [e1] at hu; rw [e2] at hv
            cases hu; cases hv
            have l1 := decN_length e1
            have l2 := decN_length e2
            rw [compare, Same]
            cases hc : c.isConstructed with
            | true =>
              obtain ⟨b, k1, k2⟩ := compares_seq (ih hw) (le_refl d) (le_refl d) hx hy e1 e2 pre post pre' post'
              refine ⟨b, by rw [if_pos rfl]; exact k1, ?_⟩
              rw [k2]
              simp only [Bool.not_true, Bool.and_false, Bool.false_eq_true, if_false]
              constructor
              · intro h
                refine ⟨by omega, fun i u v hu hv => h i u v ?_ hu hv⟩
                have := (List.getElem?_eq_some_iff.mp hu).1
                omega
              · intro h i u v _ hu hv; exact h.2 i u v hu hv
            | false =>
              obtain ⟨k, rfl⟩ := prim_of_not_constructed hc
              obtain ⟨b, k1, k2⟩ := memcmp_ok prim_raw decode_prim_inj hx hy e1 e2 pre post pre' post'
              refine ⟨b, ?_, ?_⟩
              · simp only [Bool.false_eq_true, if_false]; exact k1
              · rw [k2]; simp
      · cases hv
    · cases hu
  | map k w b ihk ihw =>
    intro hw
    rw [Ty.WF] at hw
    have := eqColl_ok (slow := k.isConstructed || w.isConstructed) (im := true) (c := .pair k w) (s := k.memSize + w.memSize) (b := b)
      (compares_pair (ihk hw.1) (ihw hw.2) (fun x u h => decode_length _ _ _ h)) (by
        intro h
        rw [Bool.or_eq_false_iff] at h
        obtain ⟨k, rfl⟩ := prim_of_not_constructed h.1
        obtain ⟨w, rfl⟩ := prim_of_not_constructed h.2
        refine ⟨?_, ?_⟩
        · intro cs v hv
          obtain ⟨u, v, rfl, h1, h2⟩ := decPair_iff.mp hv
          obtain ⟨b1, e1⟩ := prim_raw _ _ h1
          obtain ⟨b2, e2⟩ := prim_raw _ _ h2
          exact ⟨b1 ++ b2, by rw [← List.take_append_drop (Ty.prim k).memSize cs, e1, e2]; simp [rawCells]⟩
        · intro x y u h1 h2
          obtain ⟨u, v, rfl, h1, h1'⟩ := decPair_iff.mp h1
          obtain ⟨u', v', e, h2, h2'⟩ := decPair_iff.mp h2
          cases e
          rw [← List.take_append_drop (Ty.prim k).memSize x, ← List.take_append_drop (Ty.prim k).memSize y,
            decode_prim_inj _ _ _ h1 h2, decode_prim_inj _ _ _ h1' h2'])
    rw [show decode (.map k w b) = decColl true (.pair k w) (k.memSize + w.memSize) b (decPair (decode k) (decode w) k.memSize)
      from by funext cs; rw [decode], show compare (.map k w b) = _ from by funext x a y b; rw [compare]]
    refine compares_iff this ?_
    intro x y u v hu hv
    obtain ⟨_, _, _, us, rfl, _, _, _, hus, _⟩ := decColl_iff.mp hu
    obtain ⟨_, _, _, vs, rfl, _, _, _, hvs, _⟩ := decColl_iff.mp hv
    rw [Same]
    constructor
    · rintro ⟨_, _, e, f, h⟩
      cases e; cases f
      cases hk : k.isConstructed <;> cases hc : w.isConstructed <;> simp only [hk, hc, Bool.or_self, Bool.or_true, Bool.true_or, Bool.false_or, Bool.or_false, Bool.not_true, Bool.not_false, Bool.and_true, Bool.and_false, Bool.true_and, Bool.false_and, Bool.and_self, Bool.false_eq_true, Bool.true_eq_false, if_true, if_false, reduceIte, reduceCtorEq] at h ⊢ <;> exact h
    · intro h
      refine ⟨_, _, rfl, rfl, ?_⟩
      cases hk : k.isConstructed <;> cases hc : w.isConstructed <;> simp only [hk, hc, Bool.or_self, Bool.or_true, Bool.true_or, Bool.false_or, Bool.or_false, Bool.not_true, Bool.not_false, Bool.and_true, Bool.and_false, Bool.true_and, Bool.false_and, Bool.and_self, Bool.false_eq_true, Bool.true_eq_false, if_true, if_false, reduceIte, reduceCtorEq] at h ⊢ <;> exact h
  | pair s t ihs iht =>
    intro hw
    rw [Ty.WF] at hw
    rw [show decode (.pair s t) = decPair (decode s) (decode t) s.memSize from by funext cs; rw [decode],
      show compare (.pair s t) = _ from by funext x a y b; rw [compare]]
    refine compares_iff (compares_pair (ihs hw.1) (iht hw.2) (fun x u h => decode_length _ _ _ h)) ?_
    intro x y u v hu hv
    obtain ⟨a, b, rfl, _⟩ := decPair_iff.mp hu
    obtain ⟨c, d, rfl, _⟩ := decPair_iff.mp hv
    rw [Same]
    constructor
    · rintro ⟨_, _, _, _, e, f, g⟩; cases e; cases f; exact g
    · intro h; exact ⟨_, _, _, _, rfl, rfl, h⟩
  | als n t ih =>
    intro hw
    rw [Ty.WF] at hw
    rw [show decode (.alias n t) = decode t from by funext cs; rw [decode],
      show compare (.alias n t) = compare t from by funext x a y b; rw [compare],
      show Same true (.alias n t) = Same true t from by funext u v; rw [Same]]
    exact ih hw
  | struct n ms ih =>
    intro hw pre x post pre' y post' u v hu hv
    rw [Ty.WF] at hw
    rw [decode] at hu hv
    cases e1 : decodeAll ms x with
    | none => rw [e1] at hu; cases hu
    | some us =>
      cases e2 : decodeAll ms y with
      | none => rw [e2] at hv; cases hv
      | some vs =>
        rw [e1] at hu; rw [e2] at hv; cases hu; cases hv
        rw [compare, Same]
        exact compareAll_ok ih hw pre x post pre' y post' us vs e1 e2
  | union n d ms i _ ih =>
    intro hw pre x post pre' y post' u v hu hv
    rw [Ty.WF] at hw
    obtain ⟨bs, rest, l1, l2, rfl, h1⟩ := decode_union_inv hw.1 hu
    obtain ⟨bs', rest', l1', l2', rfl, h1'⟩ := decode_union_inv hw.1 hv
    have hd := disc_compare hw.1 l1 l1' pre (rest ++ post) pre' (rest' ++ post')
    have hr := readLabel_at hw.1 pre (rest ++ post) bs l1
    simp only [← List.append_assoc] at hd hr ⊢
    rw [compare, hd]
    simp only [Except.bind]
    by_cases he : bs = bs'
    · subst he
      simp only [decide_true, if_true]
      rw [hr]
      simp only []
      change ∃ b, (match UInfo.case i (labelOf d.memSize bs) with | some n => _ | none => _) = Except.ok b ∧ _
      rcases h1 with ⟨hn, rfl⟩ | ⟨nm, t, w, hn, ht, hdt, rfl⟩
      · rcases h1' with ⟨hn', rfl⟩ | ⟨nm', t', w', hn', ht', hdt', rfl⟩
        · rw [hn]; exact ⟨true, rfl, by rw [Same]; simp⟩
        · rw [hn] at hn'; cases hn'
      · rcases h1' with ⟨hn', rfl⟩ | ⟨nm', t', w', hn', ht', hdt', rfl⟩
        · rw [hn] at hn'; cases hn'
        · rw [hn] at hn'; cases hn'
          rw [ht] at ht'; cases ht'
          rw [hn]
          simp only []
          rw [compareCase_eq ht, Same, sameCase_eq ht]
          obtain ⟨b, k1, k2⟩ := ih.find ht (WF_mem hw.2.2 ht) (pre ++ rawCells bs) (rest.take t.memSize) (rest.drop t.memSize ++ post)
            (pre' ++ rawCells bs) (rest'.take t.memSize) (rest'.drop t.memSize ++ post') _ _ hdt hdt'
          refine ⟨b, ?_, ?_⟩
          · rw [← k1]
            simp only [List.length_append, rawCells_length, l1, List.append_assoc]
            rw [← List.append_assoc (rest.take _), List.take_append_drop, ← List.append_assoc (rest'.take _), List.take_append_drop]
          · rw [k2]; simp
    · simp only [decide_eq_false he, Bool.false_eq_true, if_false]
      refine ⟨false, rfl, ?_⟩
      simp only [Bool.false_eq_true, false_iff]
      rcases h1 with ⟨hn, rfl⟩ | ⟨nm, t, w, hn, ht, hdt, rfl⟩ <;>
        rcases h1' with ⟨hn', rfl⟩ | ⟨nm', t', w', hn', ht', hdt', rfl⟩ <;> rw [Same] <;> simp [he]

/-! ## Relations between values -/

theorem floatBitsEq_symm {e f x y : Nat} (h : floatBitsEq e f x y = true) : floatBitsEq e f y x = true := by
  simp only [floatBitsEq, Bool.and_eq_true, Bool.or_eq_true, decide_eq_true_eq] at *
  obtain ⟨⟨h1, h2⟩, h3⟩ := h
  exact ⟨⟨h2, h1⟩, h3.imp Eq.symm And.symm⟩

theorem floatBitsEq_trans {e f x y z : Nat} (h : floatBitsEq e f x y = true) (h' : floatBitsEq e f y z = true) :
    floatBitsEq e f x z = true := by
  simp only [floatBitsEq, Bool.and_eq_true, Bool.or_eq_true, decide_eq_true_eq] at *
  obtain ⟨⟨h1, h2⟩, h3⟩ := h
  obtain ⟨⟨h4, h5⟩, h6⟩ := h'
  refine ⟨⟨h1, h5⟩, ?_⟩
  rcases h3 with rfl | h3
  · exact h6
  · rcases h6 with rfl | h6
    · exact .inr h3
    · exact .inr ⟨h3.1, h6.2⟩

theorem primEq_symm {k : PK} {x y : List Byte} (h : primEq k x y = true) : primEq k y x = true := by
  cases k <;> simp only [primEq] at * <;> first
    | exact floatBitsEq_symm h
    | (simp only [decide_eq_true_eq] at *; exact h.symm)

theorem primEq_trans {k : PK} {x y z : List Byte} (h : primEq k x y = true) (h' : primEq k y z = true) : primEq k x z = true := by
  cases k <;> simp only [primEq] at * <;> first
    | exact floatBitsEq_trans h h'
    | (simp only [decide_eq_true_eq] at *; exact h.trans h')

theorem primEq_refl {k : PK} {x : List Byte} : primEq k x x = true ↔ ¬ isNan k x := by
  cases k <;> simp only [primEq, isNan, floatBitsEq, decide_true, Bool.true_or, Bool.and_true, Bool.and_eq_true, Bool.not_eq_true',
    Bool.and_eq_false_iff, decide_eq_false_iff_not, and_self, not_false_eq_true, not_and_or] <;> norm_num
  omega

theorem primEq_eq {k : PK} (hk : k.isFloat = false) {x y : List Byte} : primEq k x y = true ↔ x = y := by
  cases k <;> simp [PK.isFloat] at hk <;> simp [primEq]

theorem same_pair {bw : Bool} {s t : Ty} {u v : Val} : Same bw (.pair s t) u v ↔
    ∃ a b x y, u = .list [a, b] ∧ v = .list [x, y] ∧ Same bw s a x ∧ Same bw t b y := by
  constructor
  · intro h
    rcases u with _ | _ | us | _ | _ | _ <;> try (simp only [Same] at h; done)
    rcases us with _ | ⟨a, _ | ⟨b, _ | _⟩⟩ <;> try (simp only [Same] at h; done)
    rcases v with _ | _ | vs | _ | _ | _ <;> try (simp only [Same] at h; done)
    rcases vs with _ | ⟨x, _ | ⟨y, _ | _⟩⟩ <;> try (simp only [Same] at h; done)
    simp only [Same] at h
    exact ⟨_, _, _, _, rfl, rfl, h⟩
  · rintro ⟨_, _, _, _, rfl, rfl, h⟩
    simp only [Same]; exact h

mutual
theorem same_symm {bw : Bool} : (T : Ty) → (u v : Val) → Same bw T u v → Same bw T v u
  | .prim k, u, v, h => by
    cases u <;> cases v <;> simp only [Same] at h ⊢
    exact primEq_symm h
  | .enum _ _ _, u, v, h => by cases u <;> cases v <;> simp only [Same] at h ⊢; exact h.symm
  | .str _ _, u, v, h => by cases u <;> cases v <;> simp only [Same] at h ⊢; exact h.symm
  | .seq c _, u, v, h => by
    cases u <;> cases v <;> simp only [Same] at h ⊢
    split at h
    · rename_i e; rw [if_pos e]; exact h.symm
    · rename_i e; rw [if_neg e]
      exact ⟨h.1.symm, fun i u v hu hv => same_symm c _ _ (h.2 i v u hv hu)⟩
  | .arr _ c _, u, v, h => by
    cases u <;> cases v <;> simp only [Same] at h ⊢
    split at h
    · rename_i e; rw [if_pos e]; exact h.symm
    · rename_i e; rw [if_neg e]
      exact ⟨h.1.symm, fun i u v hu hv => same_symm c _ _ (h.2 i v u hv hu)⟩
  | .map k w _, u, v, h => by
    cases u <;> cases v <;> simp only [Same] at h ⊢
    split at h
    · rename_i e; rw [if_pos e]; exact h.symm
    · rename_i e; rw [if_neg e]
      refine ⟨h.1.symm, fun i u v hu hv => ?_⟩
      obtain ⟨a, b, x, y, h1, h2, h3, h4⟩ := h.2 i v u hv hu
      exact ⟨x, y, a, b, h2, h1, same_symm k _ _ h3, same_symm w _ _ h4⟩
  | .pair s t, u, v, h => by
    rw [same_pair] at h ⊢
    obtain ⟨a, b, x, y, h1, h2, h3, h4⟩ := h
    exact ⟨x, y, a, b, h2, h1, same_symm s _ _ h3, same_symm t _ _ h4⟩
  | .alias _ t, u, v, h => by rw [Same] at h ⊢; exact same_symm t u v h
  | .struct _ ms, u, v, h => by
    cases u <;> cases v <;> simp only [Same] at h ⊢
    exact sameAll_symm ms _ _ h
  | .union _ _ ms _, u, v, h => by
    cases u <;> cases v <;> simp only [Same] at h ⊢
    · obtain ⟨rfl, rfl, h⟩ := h
      exact ⟨rfl, rfl, sameCase_symm ms _ _ _ h⟩
    · exact h.symm
theorem sameAll_symm {bw : Bool} : (ms : Mems) → (us vs : List Val) → SameAll bw ms us vs → SameAll bw ms vs us
  | .nil, us, vs, h => by cases us <;> cases vs <;> simp only [SameAll] at h ⊢
  | .cons _ t r, us, vs, h => by
    cases us <;> cases vs <;> simp only [SameAll] at h ⊢
    exact ⟨same_symm t _ _ h.1, sameAll_symm r _ _ h.2⟩
theorem sameCase_symm {bw : Bool} : (ms : Mems) → (n : String) → (u v : Val) → SameCase bw ms n u v → SameCase bw ms n v u
  | .nil, _, _, _, h => by simp only [SameCase] at h
  | .cons x t r, n, u, v, h => by
    rw [SameCase] at h ⊢
    split at h
    · rename_i e; rw [if_pos e]; exact same_symm t _ _ h
    · rename_i e; rw [if_neg e]; exact sameCase_symm r _ _ _ h
end

theorem sameElems_trans {S : Val → Val → Prop} (hS : ∀ u v w, S u v → S v w → S u w) {us vs ws : List Val}
    (h : us.length = vs.length ∧ ∀ (i : Nat) (u v : Val), us[i]? = some u → vs[i]? = some v → S u v)
    (h' : vs.length = ws.length ∧ ∀ (i : Nat) (u v : Val), vs[i]? = some u → ws[i]? = some v → S u v) :
    us.length = ws.length ∧ ∀ (i : Nat) (u v : Val), us[i]? = some u → ws[i]? = some v → S u v := by
  refine ⟨h.1.trans h'.1, fun i u w hu hw => ?_⟩
  have hi := (List.getElem?_eq_some_iff.mp hu).1
  have hv : vs[i]? = some (vs[i]'(by omega)) := List.getElem?_eq_getElem (by omega)
  exact hS _ _ _ (h.2 i u _ hu hv) (h'.2 i _ w hv hw)

mutual
theorem same_trans {bw : Bool} : (T : Ty) → (u v w : Val) → Same bw T u v → Same bw T v w → Same bw T u w
  | .prim k, u, v, w, h, h' => by
    cases u <;> cases v <;> simp only [Same] at h
    cases w <;> simp only [Same] at h' ⊢
    exact primEq_trans h h'
  | .enum _ _ _, u, v, w, h, h' => by
    cases u <;> cases v <;> simp only [Same] at h
    cases w <;> simp only [Same] at h' ⊢
    exact h.trans h'
  | .str _ _, u, v, w, h, h' => by
    cases u <;> cases v <;> simp only [Same] at h
    cases w <;> simp only [Same] at h' ⊢
    exact h.trans h'
  | .seq c _, u, v, w, h, h' => by
    cases u <;> cases v <;> simp only [Same] at h
    cases w <;> simp only [Same] at h' ⊢
    split at h
    · rename_i e; rw [if_pos e] at h' ⊢; exact h.trans h'
    · rename_i e; rw [if_neg e] at h' ⊢
      exact sameElems_trans (same_trans c) h h'
  | .arr _ c _, u, v, w, h, h' => by
    cases u <;> cases v <;> simp only [Same] at h
    cases w <;> simp only [Same] at h' ⊢
    split at h
    · rename_i e; rw [if_pos e] at h' ⊢; exact h.trans h'
    · rename_i e; rw [if_neg e] at h' ⊢
      exact sameElems_trans (same_trans c) h h'
  | .map k t _, u, v, w, h, h' => by
    cases u <;> cases v <;> simp only [Same] at h
    cases w <;> simp only [Same] at h' ⊢
    split at h
    · rename_i e; rw [if_pos e] at h' ⊢; exact h.trans h'
    · rename_i e; rw [if_neg e] at h' ⊢
      refine sameElems_trans ?_ h h'
      rintro _ _ _ ⟨a, b, x, y, rfl, rfl, h1, h2⟩ ⟨_, _, x', y', e, rfl, h3, h4⟩
      cases e
      exact ⟨_, _, _, _, rfl, rfl, same_trans k _ _ _ h1 h3, same_trans t _ _ _ h2 h4⟩
  | .pair s t, u, v, w, h, h' => by
    rw [same_pair] at h h' ⊢
    obtain ⟨a, b, x, y, rfl, rfl, h1, h2⟩ := h
    obtain ⟨_, _, x', y', e, rfl, h3, h4⟩ := h'
    cases e
    exact ⟨_, _, _, _, rfl, rfl, same_trans s _ _ _ h1 h3, same_trans t _ _ _ h2 h4⟩
  | .alias _ t, u, v, w, h, h' => by rw [Same] at h h' ⊢; exact same_trans t u v w h h'
  | .struct _ ms, u, v, w, h, h' => by
    cases u <;> cases v <;> simp only [Same] at h
    cases w <;> simp only [Same] at h' ⊢
    exact sameAll_trans ms _ _ _ h h'
  | .union _ _ ms _, u, v, w, h, h' => by
    cases u <;> cases v <;> simp only [Same] at h <;> cases w <;> simp only [Same] at h' ⊢
    · obtain ⟨rfl, rfl, h⟩ := h
      obtain ⟨rfl, rfl, h'⟩ := h'
      exact ⟨rfl, rfl, sameCase_trans ms _ _ _ _ h h'⟩
    · exact h.trans h'
theorem sameAll_trans {bw : Bool} : (ms : Mems) → (us vs ws : List Val) → SameAll bw ms us vs → SameAll bw ms vs ws → SameAll bw ms us ws
  | .nil, us, vs, ws, h, h' => by
    cases us <;> cases vs <;> simp only [SameAll] at h
    cases ws <;> simp only [SameAll] at h' ⊢
  | .cons _ t r, us, vs, ws, h, h' => by
    cases us <;> cases vs <;> simp only [SameAll] at h
    cases ws <;> simp only [SameAll] at h' ⊢
    exact ⟨same_trans t _ _ _ h.1 h'.1, sameAll_trans r _ _ _ h.2 h'.2⟩
theorem sameCase_trans {bw : Bool} : (ms : Mems) → (n : String) → (u v w : Val) → SameCase bw ms n u v → SameCase bw ms n v w →
    SameCase bw ms n u w
  | .nil, _, _, _, _, h, _ => by simp only [SameCase] at h
  | .cons x t r, n, u, v, w, h, h' => by
    rw [SameCase] at h h' ⊢
    split at h
    · rename_i e; rw [if_pos e] at h' ⊢; exact same_trans t _ _ _ h h'
    · rename_i e; rw [if_neg e] at h' ⊢; exact sameCase_trans r _ _ _ _ h h'
end

/-- `u` is a value of the type. -/
def HasTy (T : Ty) (u : Val) : Prop := ∃ cs, decode T cs = some u

theorem hasTy_struct {n : String} {t : Ty} {r : Mems} {us : List Val} (h : ∃ cs, decodeAll (.cons n t r) cs = some us) :
    ∃ u us', us = u :: us' ∧ HasTy t u ∧ ∃ cs, decodeAll r cs = some us' := by
  obtain ⟨cs, h⟩ := h
  rw [decodeAll] at h
  cases e1 : decode t (cs.take t.memSize) with
  | none => rw [e1] at h; cases h
  | some u =>
    rw [e1] at h
    cases e2 : decodeAll r (cs.drop t.memSize) with
    | none => rw [e2] at h; cases h
    | some us' => rw [e2] at h; cases h; exact ⟨_, _, rfl, ⟨_, e1⟩, _, e2⟩

theorem hasTy_cases {T : Ty} (hw : T.WF) {u : Val} (h : HasTy T u) : match T with
    | .prim _ => ∃ bs, u = .bytes bs
    | .enum _ _ _ => ∃ bs, u = .bytes bs
    | .str _ _ => ∃ us, u = .str us
    | .seq c _ => ∃ us, u = .coll us ∧ ∀ u ∈ us, HasTy c u
    | .arr _ c _ => ∃ us, u = .list us ∧ ∀ u ∈ us, HasTy c u
    | .map k w _ => ∃ us, u = .coll us ∧ ∀ u ∈ us, ∃ a b, u = .list [a, b] ∧ HasTy k a ∧ HasTy w b
    | .pair k w => ∃ a b, u = .list [a, b] ∧ HasTy k a ∧ HasTy w b
    | .alias _ t => HasTy t u
    | .struct _ ms => ∃ us, u = .list us ∧ ∃ cs, decodeAll ms cs = some us
    | .union _ _ ms _ => (∃ d, u = .unNone d) ∨ ∃ d n t w, u = .un d n w ∧ ms.find? n = some t ∧ t.WF ∧ HasTy t w := by
  obtain ⟨cs, h⟩ := h
  cases T with
  | prim k => rw [decode] at h; obtain ⟨b, rfl, _⟩ := decBytes_iff.mp h; exact ⟨b, rfl⟩
  | enum n w vs => rw [decode] at h; obtain ⟨b, rfl, _⟩ := decBytes_iff.mp h; exact ⟨b, rfl⟩
  | str k b => rw [decode] at h; obtain ⟨us, _, rfl, _⟩ := decStr_iff.mp h; exact ⟨us, rfl⟩
  | seq c b =>
    rw [decode] at h
    obtain ⟨_, _, _, us, rfl, _, _, _, hus, _⟩ := decColl_iff.mp h
    exact ⟨_, rfl, fun u hu => decN_mem hus u (List.mem_of_mem_take hu)⟩
  | arr n c d =>
    rw [decode] at h
    split at h
    · cases e1 : decN (decode c) c.memSize d cs with
      | none => rw [e1] at h; cases h
      | some us => rw [e1] at h; cases h; exact ⟨_, rfl, fun u hu => decN_mem e1 u hu⟩
    · cases h
  | map k w b =>
    rw [decode] at h
    obtain ⟨_, _, _, us, rfl, _, _, _, hus, _⟩ := decColl_iff.mp h
    refine ⟨_, rfl, fun u hu => ?_⟩
    obtain ⟨cs, hcs⟩ := decN_mem hus u (List.mem_of_mem_take hu)
    obtain ⟨a, b, e, h1, h2⟩ := decPair_iff.mp hcs
    exact ⟨a, b, e, ⟨_, h1⟩, ⟨_, h2⟩⟩
  | pair x y =>
    rw [decode] at h
    obtain ⟨a, b, e, h1, h2⟩ := decPair_iff.mp h
    exact ⟨a, b, e, ⟨_, h1⟩, ⟨_, h2⟩⟩
  | «alias» n t => rw [decode] at h; exact ⟨_, h⟩
  | struct n ms =>
    rw [decode] at h
    cases e1 : decodeAll ms cs with
    | none => rw [e1] at h; cases h
    | some us => rw [e1] at h; cases h; exact ⟨_, rfl, _, e1⟩
  | union n d ms i =>
    rw [Ty.WF] at hw
    obtain ⟨bs, rest, _, _, _, ⟨_, rfl⟩ | ⟨nm, t, w, _, ht, hd, rfl⟩⟩ := decode_union_inv hw.1 h
    · exact .inl ⟨_, rfl⟩
    · exact .inr ⟨_, _, t, _, rfl, ht, WF_mem hw.2.2 ht, _, hd⟩

theorem elems_eq {S : Val → Val → Prop} {us vs : List Val} (h : ∀ u ∈ us, ∀ v ∈ vs, (S u v ↔ u = v)) :
    (us.length = vs.length ∧ ∀ (i : Nat) (u v : Val), us[i]? = some u → vs[i]? = some v → S u v) ↔ us = vs := by
  constructor
  · rintro ⟨h1, h2⟩
    refine List.ext_getElem h1 fun i hi hi' => ?_
    exact (h _ (List.getElem_mem hi) _ (List.getElem_mem hi')).mp (h2 i _ _ (List.getElem?_eq_getElem hi) (List.getElem?_eq_getElem hi'))
  · rintro rfl
    refine ⟨rfl, fun i u v hu hv => ?_⟩
    rw [hu] at hv; cases hv
    exact (h u (List.mem_of_getElem? hu) u (List.mem_of_getElem? hu)).mpr rfl

mutual
/-- Without floating point numbers equality is equality of values. -/
theorem same_eq {bw : Bool} : (T : Ty) → NoFloats T → T.WF → (u v : Val) → HasTy T u → HasTy T v → (Same bw T u v ↔ u = v)
  | .prim k, hf, hw, u, v, hu, hv => by
    obtain ⟨x, rfl⟩ := hasTy_cases hw hu
    obtain ⟨y, rfl⟩ := hasTy_cases hw hv
    rw [NoFloats] at hf
    rw [Same, primEq_eq hf]; simp
  | .enum _ _ _, hf, hw, u, v, hu, hv => by
    obtain ⟨x, rfl⟩ := hasTy_cases hw hu
    obtain ⟨y, rfl⟩ := hasTy_cases hw hv
    rw [Same]; simp
  | .str _ _, hf, hw, u, v, hu, hv => by
    obtain ⟨x, rfl⟩ := hasTy_cases hw hu
    obtain ⟨y, rfl⟩ := hasTy_cases hw hv
    rw [Same]; simp
  | .seq c _, hf, hw, u, v, hu, hv => by
    obtain ⟨x, rfl, hx⟩ := hasTy_cases hw hu
    obtain ⟨y, rfl, hy⟩ := hasTy_cases hw hv
    rw [NoFloats] at hf
    rw [Ty.WF] at hw
    rw [Same, elems_eq fun u hu v hv => same_eq c hf hw u v (hx u hu) (hy v hv)]
    simp
  | .arr _ c _, hf, hw, u, v, hu, hv => by
    obtain ⟨x, rfl, hx⟩ := hasTy_cases hw hu
    obtain ⟨y, rfl, hy⟩ := hasTy_cases hw hv
    rw [NoFloats] at hf
    rw [Ty.WF] at hw
    rw [Same, elems_eq fun u hu v hv => same_eq c hf hw u v (hx u hu) (hy v hv)]
    simp
  | .map k w _, hf, hw, u, v, hu, hv => by
    obtain ⟨x, rfl, hx⟩ := hasTy_cases hw hu
    obtain ⟨y, rfl, hy⟩ := hasTy_cases hw hv
    rw [NoFloats] at hf
    rw [Ty.WF] at hw
    rw [Same, elems_eq fun u hu v hv => ?_]
    · simp
    · obtain ⟨a, b, rfl, ha, hb⟩ := hx u hu
      obtain ⟨c, d, rfl, hc, hd⟩ := hy v hv
      constructor
      · rintro ⟨_, _, _, _, e, f, h1, h2⟩
        cases e; cases f
        rw [(same_eq k hf.1 hw.1 _ _ ha hc).mp h1, (same_eq w hf.2 hw.2 _ _ hb hd).mp h2]
      · intro h; cases h
        exact ⟨_, _, _, _, rfl, rfl, (same_eq k hf.1 hw.1 _ _ ha hc).mpr rfl, (same_eq w hf.2 hw.2 _ _ hb hd).mpr rfl⟩
  | .pair k w, hf, hw, u, v, hu, hv => by
    obtain ⟨a, b, rfl, ha, hb⟩ := hasTy_cases hw hu
    obtain ⟨c, d, rfl, hc, hd⟩ := hasTy_cases hw hv
    rw [NoFloats] at hf
    rw [Ty.WF] at hw
    rw [Same, same_eq k hf.1 hw.1 _ _ ha hc, same_eq w hf.2 hw.2 _ _ hb hd]; simp
  | .alias _ t, hf, hw, u, v, hu, hv => by
    have h1 := hasTy_cases hw hu
    have h2 := hasTy_cases hw hv
    rw [NoFloats] at hf
    rw [Ty.WF] at hw
    rw [Same]; exact same_eq t hf hw u v h1 h2
  | .struct _ ms, hf, hw, u, v, hu, hv => by
    obtain ⟨x, rfl, hx⟩ := hasTy_cases hw hu
    obtain ⟨y, rfl, hy⟩ := hasTy_cases hw hv
    rw [NoFloats] at hf
    rw [Ty.WF] at hw
    rw [Same, sameAll_eq ms hf hw x y hx hy]; simp
  | .union n d ms i, hf, hw, u, v, hu, hv => by
    rw [NoFloats] at hf
    rcases hasTy_cases hw hu with ⟨x, rfl⟩ | ⟨x, n, t, p, rfl, h1, h2, h3⟩ <;>
      rcases hasTy_cases hw hv with ⟨y, rfl⟩ | ⟨y, m, t', q, rfl, h1', h2', h3'⟩ <;> rw [Same] <;> simp
    · rintro rfl rfl
      rw [h1] at h1'; cases h1'
      exact sameCase_eq' ms hf (by rw [Ty.WF] at hw; exact hw.2.2) n t h1 p q h3 h3'
theorem sameAll_eq {bw : Bool} : (ms : Mems) → NoFloatsAll ms → ms.WF → (us vs : List Val) → (∃ cs, decodeAll ms cs = some us) →
    (∃ cs, decodeAll ms cs = some vs) → (SameAll bw ms us vs ↔ us = vs)
  | .nil, _, _, us, vs, hu, hv => by
    obtain ⟨cs, hu⟩ := hu
    obtain ⟨cs', hv⟩ := hv
    rw [decodeAll] at hu hv
    split at hu <;> cases hu
    split at hv <;> cases hv
    simp [SameAll]
  | .cons _ t r, hf, hw, us, vs, hu, hv => by
    obtain ⟨u, us, rfl, h1, h2⟩ := hasTy_struct hu
    obtain ⟨v, vs, rfl, h3, h4⟩ := hasTy_struct hv
    rw [NoFloatsAll] at hf
    rw [Mems.WF] at hw
    rw [SameAll, same_eq t hf.1 hw.1 u v h1 h3, sameAll_eq r hf.2 hw.2 us vs h2 h4]; simp
theorem sameCase_eq' {bw : Bool} : (ms : Mems) → NoFloatsAll ms → ms.WF → (n : String) → (t : Ty) → ms.find? n = some t →
    (u v : Val) → HasTy t u → HasTy t v → (SameCase bw ms n u v ↔ u = v)
  | .nil, _, _, _, _, h, _, _, _, _ => by cases h
  | .cons x s r, hf, hw, n, t, h, u, v, hu, hv => by
    rw [NoFloatsAll] at hf
    rw [Mems.WF] at hw
    rw [Mems.find?] at h
    rw [SameCase]
    split at h
    · rename_i e; cases h; rw [if_pos e]; exact same_eq s hf.1 hw.1 u v hu hv
    · rename_i e; rw [if_neg e]; exact sameCase_eq' r hf.2 hw.2 n t h u v hu hv
end

theorem elems_iff {S S' : Val → Val → Prop} {us vs : List Val} (h : ∀ u ∈ us, ∀ v ∈ vs, (S u v ↔ S' u v)) :
    (us.length = vs.length ∧ ∀ (i : Nat) (u v : Val), us[i]? = some u → vs[i]? = some v → S u v) ↔
    (us.length = vs.length ∧ ∀ (i : Nat) (u v : Val), us[i]? = some u → vs[i]? = some v → S' u v) := by
  refine and_congr_right fun _ => forall_congr' fun i => forall_congr' fun u => forall_congr' fun v => ?_
  refine imp_congr_right fun hu => imp_congr_right fun hv => h u (List.mem_of_getElem? hu) v (List.mem_of_getElem? hv)

theorem not_constructed_noFloats {c : Ty} (h : c.isConstructed = false) (hn : ¬ ∃ k, c = .prim k ∧ k.isFloat = true) : NoFloats c := by
  obtain ⟨k, rfl⟩ := prim_of_not_constructed h
  rw [NoFloats]
  cases hk : k.isFloat with
  | false => rfl
  | true => exact absurd ⟨k, rfl, hk⟩ hn

mutual
/-- Where no collection has floating point elements, comparing elements as bytes makes no difference. -/
theorem same_bw : (T : Ty) → NoFloatElems T → T.WF → (u v : Val) → HasTy T u → HasTy T v → (Same true T u v ↔ Same false T u v)
  | .prim k, _, _, u, v, _, _ => by cases u <;> cases v <;> simp only [Same]
  | .enum _ _ _, _, _, u, v, _, _ => by cases u <;> cases v <;> simp only [Same]
  | .str _ _, _, _, u, v, _, _ => by cases u <;> cases v <;> simp only [Same]
  | .seq c _, hf, hw, u, v, hu, hv => by
    obtain ⟨x, rfl, hx⟩ := hasTy_cases hw hu
    obtain ⟨y, rfl, hy⟩ := hasTy_cases hw hv
    rw [NoFloatElems] at hf
    rw [Ty.WF] at hw
    rw [Same, Same]
    cases hc : c.isConstructed with
    | true =>
      simp only [Bool.not_true, Bool.and_false, Bool.false_eq_true, if_false]
      exact elems_iff fun u hu v hv => same_bw c hf.2 hw u v (hx u hu) (hy v hv)
    | false =>
      simp only [Bool.not_false, Bool.and_true, Bool.false_eq_true, if_false, if_true, Bool.and_self]
      exact (elems_eq fun u hu v hv => same_eq c (not_constructed_noFloats hc hf.1) hw u v (hx u hu) (hy v hv)).symm
  | .arr _ c _, hf, hw, u, v, hu, hv => by
    obtain ⟨x, rfl, hx⟩ := hasTy_cases hw hu
    obtain ⟨y, rfl, hy⟩ := hasTy_cases hw hv
    rw [NoFloatElems] at hf
    rw [Ty.WF] at hw
    rw [Same, Same]
    cases hc : c.isConstructed with
    | true =>
      simp only [Bool.not_true, Bool.and_false, Bool.false_eq_true, if_false]
      exact elems_iff fun u hu v hv => same_bw c hf.2 hw u v (hx u hu) (hy v hv)
    | false =>
      simp only [Bool.not_false, Bool.and_true, Bool.false_eq_true, if_false, if_true, Bool.and_self]
      exact (elems_eq fun u hu v hv => same_eq c (not_constructed_noFloats hc hf.1) hw u v (hx u hu) (hy v hv)).symm
  | .map k w b, hf, hw, u, v, hu, hv => by
    obtain ⟨x, rfl, hx⟩ := hasTy_cases hw hu
    obtain ⟨y, rfl, hy⟩ := hasTy_cases hw hv
    rw [NoFloatElems] at hf
    have hw0 := hw
    rw [Ty.WF] at hw
    by_cases hc : k.isConstructed = false ∧ w.isConstructed = false
    · have hn := hf.1 hc.1 hc.2
      rw [same_eq (.map k w b) (by rw [NoFloats]; exact hn) hw0 _ _ hu hv, same_eq (.map k w b) (by rw [NoFloats]; exact hn) hw0 _ _ hu hv]
    · rw [Same, Same, if_neg (by simpa using hc), if_neg (by simp)]
      refine elems_iff fun u hu v hv => ?_
      obtain ⟨a, b, rfl, ha, hb⟩ := hx u hu
      obtain ⟨c, d, rfl, hc, hd⟩ := hy v hv
      constructor
      · rintro ⟨_, _, _, _, e, f, h1, h2⟩
        cases e; cases f
        exact ⟨_, _, _, _, rfl, rfl, (same_bw k hf.2.1 hw.1 _ _ ha hc).mp h1, (same_bw w hf.2.2 hw.2 _ _ hb hd).mp h2⟩
      · rintro ⟨_, _, _, _, e, f, h1, h2⟩
        cases e; cases f
        exact ⟨_, _, _, _, rfl, rfl, (same_bw k hf.2.1 hw.1 _ _ ha hc).mpr h1, (same_bw w hf.2.2 hw.2 _ _ hb hd).mpr h2⟩
  | .pair k w, hf, hw, u, v, hu, hv => by
    obtain ⟨a, b, rfl, ha, hb⟩ := hasTy_cases hw hu
    obtain ⟨c, d, rfl, hc, hd⟩ := hasTy_cases hw hv
    rw [NoFloatElems] at hf
    rw [Ty.WF] at hw
    rw [Same, Same, same_bw k hf.1 hw.1 _ _ ha hc, same_bw w hf.2 hw.2 _ _ hb hd]
  | .alias _ t, hf, hw, u, v, hu, hv => by
    have h1 := hasTy_cases hw hu
    have h2 := hasTy_cases hw hv
    rw [NoFloatElems] at hf
    rw [Ty.WF] at hw
    rw [Same, Same]; exact same_bw t hf hw u v h1 h2
  | .struct _ ms, hf, hw, u, v, hu, hv => by
    obtain ⟨x, rfl, hx⟩ := hasTy_cases hw hu
    obtain ⟨y, rfl, hy⟩ := hasTy_cases hw hv
    rw [NoFloatElems] at hf
    rw [Ty.WF] at hw
    rw [Same, Same]; exact sameAll_bw ms hf hw x y hx hy
  | .union n d ms i, hf, hw, u, v, hu, hv => by
    rw [NoFloatElems] at hf
    rcases hasTy_cases hw hu with ⟨x, rfl⟩ | ⟨x, n, t, p, rfl, h1, h2, h3⟩ <;>
      rcases hasTy_cases hw hv with ⟨y, rfl⟩ | ⟨y, m, t', q, rfl, h1', h2', h3'⟩ <;> rw [Same, Same] <;> try simp
    · rintro rfl rfl
      rw [h1] at h1'; cases h1'
      exact sameCase_bw ms hf (by rw [Ty.WF] at hw; exact hw.2.2) n t h1 p q h3 h3'
theorem sameAll_bw : (ms : Mems) → NoFloatElemsAll ms → ms.WF → (us vs : List Val) → (∃ cs, decodeAll ms cs = some us) →
    (∃ cs, decodeAll ms cs = some vs) → (SameAll true ms us vs ↔ SameAll false ms us vs)
  | .nil, _, _, us, vs, hu, hv => by cases us <;> cases vs <;> simp only [SameAll]
  | .cons _ t r, hf, hw, us, vs, hu, hv => by
    obtain ⟨u, us, rfl, h1, h2⟩ := hasTy_struct hu
    obtain ⟨v, vs, rfl, h3, h4⟩ := hasTy_struct hv
    rw [NoFloatElemsAll] at hf
    rw [Mems.WF] at hw
    rw [SameAll, SameAll, same_bw t hf.1 hw.1 u v h1 h3, sameAll_bw r hf.2 hw.2 us vs h2 h4]
theorem sameCase_bw : (ms : Mems) → NoFloatElemsAll ms → ms.WF → (n : String) → (t : Ty) → ms.find? n = some t →
    (u v : Val) → HasTy t u → HasTy t v → (SameCase true ms n u v ↔ SameCase false ms n u v)
  | .nil, _, _, _, _, h, _, _, _, _ => by cases h
  | .cons x s r, hf, hw, n, t, h, u, v, hu, hv => by
    rw [NoFloatElemsAll] at hf
    rw [Mems.WF] at hw
    rw [Mems.find?] at h
    rw [SameCase, SameCase]
    split at h
    · rename_i e; cases h; rw [if_pos e, if_pos e]; exact same_bw s hf.1 hw.1 u v hu hv
    · rename_i e; rw [if_neg e, if_neg e]; exact sameCase_bw r hf.2 hw.2 n t h u v hu hv
end

mutual
/-- Everything without a `nan` equals itself. -/
theorem same_refl {bw : Bool} : (T : Ty) → T.WF → (u : Val) → HasTy T u → NoNan T u → Same bw T u u
  | .prim k, hw, u, hu, hn => by
    obtain ⟨x, rfl⟩ := hasTy_cases hw hu
    rw [NoNan] at hn
    rw [Same]; exact primEq_refl.mpr hn
  | .enum _ _ _, hw, u, hu, hn => by
    obtain ⟨x, rfl⟩ := hasTy_cases hw hu
    rw [Same]
  | .str _ _, hw, u, hu, hn => by
    obtain ⟨x, rfl⟩ := hasTy_cases hw hu
    rw [Same]
  | .seq c _, hw, u, hu, hn => by
    obtain ⟨x, rfl, hx⟩ := hasTy_cases hw hu
    rw [NoNan] at hn
    rw [Ty.WF] at hw
    rw [Same]
    split
    · rfl
    · refine ⟨rfl, fun i u v hu hv => ?_⟩
      rw [hu] at hv; cases hv
      exact same_refl c hw u (hx u (List.mem_of_getElem? hu)) (hn u (List.mem_of_getElem? hu))
  | .arr _ c _, hw, u, hu, hn => by
    obtain ⟨x, rfl, hx⟩ := hasTy_cases hw hu
    rw [NoNan] at hn
    rw [Ty.WF] at hw
    rw [Same]
    split
    · rfl
    · refine ⟨rfl, fun i u v hu hv => ?_⟩
      rw [hu] at hv; cases hv
      exact same_refl c hw u (hx u (List.mem_of_getElem? hu)) (hn u (List.mem_of_getElem? hu))
  | .map k w _, hw, u, hu, hn => by
    obtain ⟨x, rfl, hx⟩ := hasTy_cases hw hu
    rw [NoNan] at hn
    rw [Ty.WF] at hw
    rw [Same]
    split
    · rfl
    · refine ⟨rfl, fun i u v hu hv => ?_⟩
      rw [hu] at hv; cases hv
      obtain ⟨a, b, rfl, ha, hb⟩ := hx u (List.mem_of_getElem? hu)
      obtain ⟨na, nb⟩ := hn _ (List.mem_of_getElem? hu) a b rfl
      exact ⟨_, _, _, _, rfl, rfl, same_refl k hw.1 a ha na, same_refl w hw.2 b hb nb⟩
  | .pair k w, hw, u, hu, hn => by
    obtain ⟨a, b, rfl, ha, hb⟩ := hasTy_cases hw hu
    rw [NoNan] at hn
    rw [Ty.WF] at hw
    rw [Same]; exact ⟨same_refl k hw.1 a ha hn.1, same_refl w hw.2 b hb hn.2⟩
  | .alias _ t, hw, u, hu, hn => by
    have h1 := hasTy_cases hw hu
    rw [NoNan] at hn
    rw [Ty.WF] at hw
    rw [Same]; exact same_refl t hw u h1 hn
  | .struct _ ms, hw, u, hu, hn => by
    obtain ⟨x, rfl, hx⟩ := hasTy_cases hw hu
    rw [NoNan] at hn
    rw [Ty.WF] at hw
    rw [Same]; exact sameAll_refl ms hw x hx hn
  | .union n d ms i, hw, u, hu, hn => by
    rcases hasTy_cases hw hu with ⟨x, rfl⟩ | ⟨x, n, t, p, rfl, h1, h2, h3⟩ <;> rw [Same]
    rw [NoNan] at hn
    exact ⟨rfl, rfl, sameCase_refl ms (by rw [Ty.WF] at hw; exact hw.2.2) n t h1 p h3 hn⟩
theorem sameAll_refl {bw : Bool} : (ms : Mems) → ms.WF → (us : List Val) → (∃ cs, decodeAll ms cs = some us) → NoNanAll ms us →
    SameAll bw ms us us
  | .nil, _, us, hu, _ => by
    obtain ⟨cs, hu⟩ := hu
    rw [decodeAll] at hu
    split at hu <;> cases hu
    simp [SameAll]
  | .cons _ t r, hw, us, hu, hn => by
    obtain ⟨u, us, rfl, h1, h2⟩ := hasTy_struct hu
    rw [NoNanAll] at hn
    rw [Mems.WF] at hw
    rw [SameAll]; exact ⟨same_refl t hw.1 u h1 hn.1, sameAll_refl r hw.2 us h2 hn.2⟩
theorem sameCase_refl {bw : Bool} : (ms : Mems) → ms.WF → (n : String) → (t : Ty) → ms.find? n = some t →
    (u : Val) → HasTy t u → NoNanCase ms n u → SameCase bw ms n u u
  | .nil, _, _, _, h, _, _, _ => by cases h
  | .cons x s r, hw, n, t, h, u, hu, hn => by
    rw [Mems.WF] at hw
    rw [Mems.find?] at h
    rw [NoNanCase] at hn
    rw [SameCase]
    split at h
    · rename_i e; cases h; rw [if_pos e] at hn ⊢; exact same_refl s hw.1 u hu hn
    · rename_i e; rw [if_neg e] at hn ⊢; exact sameCase_refl r hw.2 n t h u hu hn
end

end Verif.Inst
