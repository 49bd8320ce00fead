import Verif.Lemmas.InstKill
/-! # Copies that are refused, and moves -/

namespace Verif.Inst

/-! ## Refused copies -/

/-- `f` fails an assertion whatever the target holds. -/
def Refuses (size : Nat) (f : Nat → Mem → M Mem) : Prop :=
  ∀ (pre old post : List Cell) (lk : Nat), old.length = size → f pre.length ⟨pre ++ old ++ post, lk⟩ = .error .refused

theorem refuses_first {s1 s2 : Nat} {f g : Nat → Mem → M Mem} (h : Refuses s1 f) :
    Refuses (s1 + s2) (fun a m => (f a m).bind (g (a + s1))) := by
  intro pre old post lk hl
  show (f pre.length _).bind _ = _
  rw [split_at pre old post s1, h pre (old.take s1) (old.drop s1 ++ post) lk (by simp; omega)]
  rfl

theorem refuses_second {α : Type} {s1 s2 : Nat} {d : List Cell → Option α} {t : List Cell → Prop} {c : Prop} {v : α}
    {f g : Nat → Mem → M Mem} (hf : Makes s1 d t c f v) (h : Refuses s2 g) :
    Refuses (s1 + s2) (fun a m => (f a m).bind (g (a + s1))) := by
  intro pre old post lk hl
  obtain ⟨n1, e1, hr1, hl1, _⟩ := hf pre (old.take s1) (old.drop s1 ++ post) lk (by simp; omega)
  show (f pre.length _).bind _ = _
  rw [split_at pre old post s1, hr1]
  show g (pre.length + s1) _ = _
  rw [show pre.length + s1 = (pre ++ n1).length by simp [hl1], ← List.append_assoc]
  exact h (pre ++ n1) (old.drop s1) post _ (by simp; omega)

theorem refuses_loop {s : Nat} {dec : List Cell → Option Val} {td : List Cell → Prop} {cl : Prop}
    {g : Nat → Nat → Mem → M Mem} {v : Nat → Val} (a : Nat) : ∀ (n j : Nat),
    (∀ i, j ≤ i → i < j + n → Makes s dec td cl (g i) (v i) ∨ Refuses s (g i)) →
    (∃ i, j ≤ i ∧ i < j + n ∧ Refuses s (g i)) →
    ∀ (pre old post : List Cell) (lk : Nat), pre.length = a + j * s → old.length = n * s →
    loop (fun i m => g i (a + i * s) m) j n ⟨pre ++ old ++ post, lk⟩ = .error .refused
  | 0, j, _, ⟨i, h1, h2, _⟩, pre, old, post, lk, hp, hl => by omega
  | n + 1, j, h, ⟨i, h1, h2, h3⟩, pre, old, post, lk, hp, hl => by
    rw [Nat.succ_mul] at hl
    rw [loop, ← hp, split_at pre old post s]
    by_cases hr : Refuses s (g j)
    · show (g j pre.length _).bind _ = _
      rw [hr pre (old.take s) (old.drop s ++ post) lk (by simp; omega)]; rfl
    · have hm := (h j (Nat.le_refl _) (by omega)).resolve_right hr
      obtain ⟨n1, e1, hr1, hl1, _⟩ := hm pre (old.take s) (old.drop s ++ post) lk (by simp; omega)
      show (g j pre.length _).bind _ = _
      rw [hr1]
      show loop _ _ _ _ = _
      have hij : i ≠ j := by rintro rfl; exact hr h3
      rw [← List.append_assoc]
      exact refuses_loop a n (j + 1) (fun i h1 h2 => h i (by omega) (by omega)) ⟨i, by omega, by omega, h3⟩ (pre ++ n1)
        (old.drop s) post (lk + e1) (by simp [hl1, hp, Nat.succ_mul, Nat.add_assoc]) (by simp; omega)

/-- The statement proved by induction: with a union without selected member outside collections. -/
def CopyRefused (T : Ty) : Prop :=
  T.WF → T.Copyable → ∀ (src : List Cell) (v : Val), decode T src = some v → ¬ v.Selected →
    ∀ spre spost : List Cell, Refuses T.memSize (copy T (spre ++ src ++ spost) spre.length)

theorem not_selectedAll : {vs : List Val} → ¬ Val.SelectedAll vs → ∃ (i : Nat) (v : Val), vs[i]? = some v ∧ ¬ v.Selected
  | [], h => by simp [Val.SelectedAll] at h
  | v :: vs, h => by
    rw [Val.SelectedAll] at h
    by_cases hv : v.Selected
    · obtain ⟨i, w, h1, h2⟩ := not_selectedAll (vs := vs) (fun hh => h ⟨hv, hh⟩)
      exact ⟨i + 1, w, by simpa using h1, h2⟩
    · exact ⟨0, v, rfl, hv⟩

theorem copyAll_refused : {ms : Mems} → ms.Forall CopyRefused → ms.WF → ms.Copyable → ∀ (src : List Cell) (vs : List Val),
    decodeAll ms src = some vs → ¬ Val.SelectedAll vs → ∀ spre spost : List Cell,
    Refuses ms.sumSize (copyAll ms (spre ++ src ++ spost) spre.length)
  | .nil, _, _, _, src, vs, hd, hsel, spre, spost => by
    rw [decodeAll] at hd
    split at hd
    · cases hd; simp [Val.SelectedAll] at hsel
    · cases hd
  | .cons x t r, h, hw, hc, src, vs, hd, hsel, spre, spost => by
    rw [Mems.WF] at hw
    rw [Mems.Copyable] at hc
    rw [decodeAll] at hd
    cases e1 : decode t (src.take t.memSize) with
    | none => rw [e1] at hd; cases hd
    | some v =>
      rw [e1] at hd
      cases e2 : decodeAll r (src.drop t.memSize) with
      | none => rw [e2] at hd; cases hd
      | some ws =>
        rw [e2] at hd; cases hd
        rw [Val.SelectedAll] at hsel
        have hlen : (src.take t.memSize).length = t.memSize := decode_length _ _ _ e1
        have key : Refuses (t.memSize + r.sumSize) (fun a m => (copy t (spre ++ src ++ spost) spre.length a m).bind
            (copyAll r (spre ++ src ++ spost) (spre.length + t.memSize) (a + t.memSize))) := by
          by_cases hv : v.Selected
          · have m1 := copy_ok t hw.1 hc.1 _ v e1 hv spre (src.drop t.memSize ++ spost)
            rw [← split_at] at m1
            have m2 := copyAll_refused h.2 hw.2 hc.2 _ ws e2 (fun hh => hsel ⟨hv, hh⟩) (spre ++ src.take t.memSize) spost
            rw [List.append_assoc (spre ++ src.take t.memSize), ← split_at, List.length_append, hlen] at m2
            exact refuses_second m1 m2
          · have m1 := h.1 hw.1 hc.1 _ v e1 hv spre (src.drop t.memSize ++ spost)
            rw [← split_at] at m1
            exact refuses_first m1
        intro pre old post lk hl
        rw [Mems.sumSize] at hl
        rw [copyAll]
        exact key pre old post lk hl

theorem copy_refused (T : Ty) : CopyRefused T := by
  induction T using Ty.ind with
  | prim k =>
    intro _ _ src v hd hs
    rw [decode] at hd; obtain ⟨bs, rfl, hb, rfl⟩ := decBytes_iff.mp hd; simp [Val.Selected] at hs
  | enum n w vs =>
    intro _ _ src v hd hs
    rw [decode] at hd; obtain ⟨bs, rfl, hb, rfl⟩ := decBytes_iff.mp hd; simp [Val.Selected] at hs
  | str k b =>
    intro _ _ src v hd hs
    rw [decode] at hd; obtain ⟨us, hp, rfl, hb, rfl⟩ := decStr_iff.mp hd; simp [Val.Selected] at hs
  | seq c b ih =>
    intro hw hc src v hd hs
    rw [decode] at hd
    obtain ⟨size, cap, blk, vs, rfl, h1, h2, h3, h4, rfl⟩ := decColl_iff.mp hd
    simp [Val.Selected] at hs
  | map k v b ihk ihv =>
    intro hw hc src x hd hs
    rw [decode] at hd
    obtain ⟨size, cap, blk, vs, rfl, h1, h2, h3, h4, rfl⟩ := decColl_iff.mp hd
    simp [Val.Selected] at hs
  | arr n c d ih =>
    intro hw hc src v hd hsel spre spost
    rw [Ty.WF] at hw
    rw [Ty.Copyable] at hc
    rw [decode] at hd
    split at hd
    · rename_i hlen
      cases h4 : decN (decode c) c.memSize d src with
      | none => rw [h4] at hd; cases hd
      | some vs =>
        rw [h4] at hd; cases hd
        rw [Val.Selected] at hsel
        have hvl := decN_length h4
        obtain ⟨j, w, hj, hns⟩ := not_selectedAll hsel
        have hjd : j < d := by
          have := (List.getElem?_eq_some_iff.mp hj).1
          omega
        cases hf : c.isConstructed with
        | true =>
          have each : ∀ i w, vs[i]? = some w → i < d → ¬ w.Selected → Refuses c.memSize
              (copy c (spre ++ src ++ spost) (spre.length + i * c.memSize)) := by
            intro i w hi hid hw'
            obtain ⟨x, sl, y, w', e1, e2, e3, e4, e5⟩ := decN_slot hlen h4 (i := i) hid
            rw [hi] at e5; cases e5
            have := ih hw hc sl w e4 hw' (spre ++ x) (y ++ spost)
            have es : spre ++ x ++ sl ++ (y ++ spost) = spre ++ src ++ spost := by rw [e1]; simp
            rw [es, List.length_append, e2] at this
            exact this
          intro pre old post lk hl
          rw [copy, if_pos hf]
          refine refuses_loop (dec := decode c) (cl := c.Tight) (td := tidy c)
            (g := fun i => copy c (spre ++ src ++ spost) (spre.length + i * c.memSize))
            (v := fun i => id (vs[i]?.getD (.list []))) pre.length d 0 ?_ ⟨j, by omega, by omega, each j w hj hjd hns⟩
            pre old post lk (by simp) hl
          intro i _ hi
          obtain ⟨x, sl, y, w', e1, e2, e3, e4, e5⟩ := decN_slot hlen h4 (i := i) (by omega)
          by_cases hss : w'.Selected
          · left
            have := copy_ok c hw hc sl w' e4 hss (spre ++ x) (y ++ spost)
            rw [e5, ← e2]
            have es : spre ++ x ++ sl ++ (y ++ spost) = spre ++ src ++ spost := by rw [e1]; simp
            rw [es, List.length_append] at this
            exact this
          · right; exact each i w' e5 (by omega) hss
        | false =>
          obtain ⟨k, rfl⟩ := prim_of_not_constructed hf
          obtain ⟨x, sl, y, w', e1, e2, e3, e4, e5⟩ := decN_slot hlen h4 (i := j) hjd
          rw [hj] at e5; cases e5
          rw [decode] at e4
          obtain ⟨bs, rfl, _, rfl⟩ := decBytes_iff.mp e4
          simp [Val.Selected] at hns
    · cases hd
  | pair x y ihx ihy =>
    intro hw hc src v hd hsel spre spost
    rw [Ty.WF] at hw
    rw [Ty.Copyable] at hc
    rw [decode] at hd
    obtain ⟨u1, u2, rfl, f1, f2⟩ := decPair_iff.mp hd
    simp only [Val.Selected, Val.SelectedAll, and_true] at hsel
    have hlen : (src.take x.memSize).length = x.memSize := decode_length _ _ _ f1
    intro pre old post lk hl
    rw [Ty.memSize] at hl
    rw [copy]
    show (fun a m => (copy x (spre ++ src ++ spost) spre.length a m).bind
      (copy y (spre ++ src ++ spost) (spre.length + x.memSize) (a + x.memSize))) pre.length _ = _
    by_cases hv : u1.Selected
    · have m1 := copy_ok x hw.1 hc.1 _ u1 f1 hv spre (src.drop x.memSize ++ spost)
      have m2 := ihy hw.2 hc.2 _ u2 f2 (fun hh => hsel ⟨hv, hh⟩) (spre ++ src.take x.memSize) spost
      rw [← split_at] at m1
      rw [List.append_assoc (spre ++ src.take x.memSize), ← split_at, List.length_append, hlen] at m2
      exact refuses_second m1 m2 pre old post lk hl
    · have m1 := ihx hw.1 hc.1 _ u1 f1 hv spre (src.drop x.memSize ++ spost)
      rw [← split_at] at m1
      exact refuses_first m1 pre old post lk hl
  | als n t ih =>
    intro hw hc src v hd hsel spre spost pre old post lk hl
    rw [Ty.WF] at hw
    rw [Ty.Copyable] at hc
    rw [decode] at hd
    rw [copy]
    exact ih hw hc src v hd hsel spre spost pre old post lk hl
  | struct n ms ih =>
    intro hw hc src v hd hsel spre spost pre old post lk hl
    rw [Ty.WF] at hw
    rw [Ty.Copyable] at hc
    rw [decode] at hd
    cases h4 : decodeAll ms src with
    | none => rw [h4] at hd; cases hd
    | some vs =>
      rw [h4] at hd; cases hd
      rw [Val.Selected] at hsel
      rw [copy]
      exact copyAll_refused ih hw hc src vs h4 hsel spre spost pre old post lk hl
  | union n d ms i _ ih =>
    intro hw hc src v hd hsel spre spost pre old post lk hl
    rw [Ty.WF] at hw
    obtain ⟨hdo, hok, hwm⟩ := hw
    rw [Ty.Copyable] at hc
    obtain ⟨bs, rest, hbl, hrl, rfl, hcase⟩ := decode_union_inv hdo hd
    rw [Ty.memSize] at hl
    have ho : pre ++ old ++ post = pre ++ old.take d.memSize ++ (old.drop d.memSize ++ post) := split_at _ _ _ _
    have hput := put_at pre (old.take d.memSize) (old.drop d.memSize ++ post) (rawCells bs) lk (by simp [hbl]; omega)
    have hesrc : spre ++ (rawCells bs ++ rest) ++ spost = spre ++ rawCells bs ++ (rest ++ spost) := by simp
    have hlab := readLabel_at hdo spre (rest ++ spost) bs hbl
    rw [copy, hesrc, disc_copy hdo bs hbl, ho, hput]
    simp only [Except.bind]
    rw [hlab]
    simp only []
    rcases hcase with ⟨hx, rfl⟩ | ⟨x, t, w, hx, ht, hw', rfl⟩
    · rw [show omGet i.labels (labelOf d.memSize bs) = none from hx]
    rw [Val.Selected] at hsel
    rw [show omGet i.labels (labelOf d.memSize bs) = some x from hx]
    simp only []
    have hwt := (Mems.WF.forall hwm).find ht
    have hms := Mems.maxSize_find ht
    have m1 := ih.find ht hwt (Mems.Copyable.find hc ht) _ w hw' hsel (spre ++ rawCells bs) (rest.drop t.memSize ++ spost)
    rw [← split_at] at m1
    rw [copyCase_eq ht, show pre.length + d.memSize = (pre ++ rawCells bs).length by simp [hbl],
      show spre.length + d.memSize = (spre ++ rawCells bs).length by simp [hbl],
      ← List.append_assoc (pre ++ rawCells bs), ← List.append_assoc (spre ++ rawCells bs),
      split_at (pre ++ rawCells bs) (old.drop d.memSize) post t.memSize]
    exact m1 _ _ _ _ (by simp; omega)

/-! ## Moves into fresh memory -/

theorem moveCase_eq {b : Bool} : {ms : Mems} → {n : String} → {t : Ty} → ms.find? n = some t → moveCase b ms n = move b t
  | .nil, _, _, h => by simp [Mems.find?] at h
  | .cons x u r, n, t, h => by
    funext sm sa ta m
    rw [Mems.find?] at h
    rw [moveCase]
    split at h
    · cases h; rw [if_pos (by assumption)]
    · rw [if_neg (by assumption), moveCase_eq h]

/-- The statement proved by induction. -/
def Moves (T : Ty) : Prop :=
  T.WF → T.Copyable → ∀ (src : List Cell) (v : Val), decode T src = some v →
    ∀ spre spost : List Cell, Makes T.memSize (decode T) (tidy T) T.Tight (move false T (spre ++ src ++ spost) spre.length) v

theorem moveAll_ok : {ms : Mems} → ms.Forall Moves → ms.WF → ms.Copyable → ∀ (src : List Cell) (vs : List Val),
    decodeAll ms src = some vs → ∀ spre spost : List Cell,
    Makes ms.sumSize (decodeAll ms) (tidyAll ms) ms.Tight (moveAll false ms (spre ++ src ++ spost) spre.length) vs
  | .nil, _, _, _, src, vs, hd, spre, spost => by
    intro pre old post lk hl
    simp [Mems.sumSize] at hl; subst hl
    refine ⟨[], 0, by simp [moveAll], rfl, ?_, fun _ _ => ⟨rfl, trivial⟩⟩
    rw [decodeAll] at hd ⊢
    split at hd
    · cases hd; rfl
    · cases hd
  | .cons x t r, h, hw, hc, src, vs, hd, spre, spost => by
    rw [Mems.WF] at hw
    rw [Mems.Copyable] at hc
    rw [decodeAll] at hd
    cases e1 : decode t (src.take t.memSize) with
    | none => rw [e1] at hd; cases hd
    | some v =>
      rw [e1] at hd
      cases e2 : decodeAll r (src.drop t.memSize) with
      | none => rw [e2] at hd; cases hd
      | some ws =>
        rw [e2] at hd; cases hd
        have hlen : (src.take t.memSize).length = t.memSize := decode_length _ _ _ e1
        have m1 := h.1 hw.1 hc.1 _ v e1 spre (src.drop t.memSize ++ spost)
        rw [← split_at] at m1
        have m2 := moveAll_ok h.2 hw.2 hc.2 _ ws e2 (spre ++ src.take t.memSize) spost
        rw [List.append_assoc (spre ++ src.take t.memSize), ← split_at, List.length_append, hlen] at m2
        refine makes_weaken (makes_seq m1 m2) ?_ ?_ ?_ ?_
        · intro a m; rw [moveAll]
        · intro cs _ hh
          rw [decodeAll]
          cases h1 : decode t (cs.take t.memSize) with
          | none => simp [h1] at hh
          | some v =>
            cases h2 : decodeAll r (cs.drop t.memSize) with
            | none => simp [h2] at hh
            | some ws => simp [h1, h2] at hh ⊢; exact hh
        · intro hh; rw [Mems.Tight] at hh; exact hh
        · intro cs _ _ hh; rw [tidyAll]; exact hh

theorem disc_move {b : Bool} {d : Ty} (h : discOk d) (bs : List Byte) (hb : bs.length = d.memSize) (spre spost : List Cell)
    (ta : Nat) (m : Mem) : move b d (spre ++ rawCells bs ++ spost) spre.length ta m = put m ta (rawCells bs) := by
  rw [← move_rget]
  rw [← Ty.rget_memSize] at hb
  rcases discOk_cases h with ⟨k, hk, _⟩ | ⟨n, vs, hk⟩ <;> rw [hk] at hb ⊢ <;>
    rw [move, peekRaw_at _ _ _ _ (by rw [hb]; rfl)] <;> rfl

theorem move_ok (T : Ty) : Moves T := by
  induction T using Ty.ind with
  | prim k =>
    intro _ _ src v hd spre spost
    have := copy_ok (.prim k) (by rw [Ty.WF]; trivial) (by rw [Ty.Copyable]; trivial) src v hd
      (by rw [decode] at hd; obtain ⟨bs, rfl, hb, rfl⟩ := decBytes_iff.mp hd; simp [Val.Selected]) spre spost
    refine makes_weaken this ?_ (fun _ _ h => h) id (fun _ _ _ h => h)
    intro a m; rw [move, copy]
  | enum n w vs =>
    intro _ _ src v hd spre spost
    have := copy_ok (.enum n w vs) (by rw [Ty.WF]; trivial) (by rw [Ty.Copyable]; trivial) src v hd
      (by rw [decode] at hd; obtain ⟨bs, rfl, hb, rfl⟩ := decBytes_iff.mp hd; simp [Val.Selected]) spre spost
    refine makes_weaken this ?_ (fun _ _ h => h) id (fun _ _ _ h => h)
    intro a m; rw [move, copy]
  | str k b =>
    intro _ _ src v hd spre spost
    rw [decode] at hd
    obtain ⟨us, hp, rfl, hb, rfl⟩ := decStr_iff.mp hd
    refine makes_weaken (s := strSize) (makes_str (td := fun _ => True) (cl := True) k b us (decide (us.length > SK.sso k))
      (fun _ _ => rfl) hb (fun _ => trivial)) ?_ ?_ (fun _ => trivial) ?_
    · intro a m; rw [move, peekStr_at]; simp only [Except.bind]
    · intro cs _ hh; rw [decode]; exact hh
    · intro cs _ _ _; rw [tidy]; trivial
  | seq c b ih =>
    intro hw hc src v hd spre spost
    have := copy_ok (.seq c b) hw hc src v hd (by
      rw [decode] at hd
      obtain ⟨size, cap, blk, vs, rfl, h1, h2, h3, h4, rfl⟩ := decColl_iff.mp hd
      simp [Val.Selected]) spre spost
    refine makes_weaken this ?_ (fun _ _ h => h) id (fun _ _ _ h => h)
    intro a m; rw [move]; rfl
  | map k v b ihk ihv =>
    intro hw hc src x hd spre spost
    have := copy_ok (.map k v b) hw hc src x hd (by
      rw [decode] at hd
      obtain ⟨size, cap, blk, vs, rfl, h1, h2, h3, h4, rfl⟩ := decColl_iff.mp hd
      simp [Val.Selected]) spre spost
    refine makes_weaken this ?_ (fun _ _ h => h) id (fun _ _ _ h => h)
    intro a m; rw [move]; rfl
  | arr n c d ih =>
    intro hw hc src v hd spre spost
    rw [Ty.WF] at hw
    rw [Ty.Copyable] at hc
    rw [decode] at hd
    split at hd
    · rename_i hlen
      cases h4 : decN (decode c) c.memSize d src with
      | none => rw [h4] at hd; cases hd
      | some vs =>
        rw [h4] at hd; cases hd
        have hvl := decN_length h4
        cases hf : c.isConstructed with
        | true =>
          refine makes_weaken (s := d * c.memSize) (makes_array (dec := decode c) (cl := c.Tight) (td := tidy c) d
            (g := fun i => move false c (spre ++ src ++ spost) (spre.length + i * c.memSize))
            (v := fun i => id (vs[i]?.getD (.list []))) ?_) ?_ ?_ ?_ ?_
          · intro i hi
            obtain ⟨x, sl, y, w, e1, e2, e3, e4, e5⟩ := decN_slot hlen h4 (i := i) (by omega)
            have := ih hw hc sl w e4 (spre ++ x) (y ++ spost)
            rw [e5, ← e2]
            have es : spre ++ x ++ sl ++ (y ++ spost) = spre ++ src ++ spost := by rw [e1]; simp
            rw [es, List.length_append] at this
            exact this
          · intro a m; rw [move, if_pos hf]
          · intro cs hl hh
            rw [decode, if_pos hl, hh, map_range_take _ _ _ (by omega), List.take_of_length_le (by omega), List.map_id]
            rfl
          · intro hh; rw [Ty.Tight] at hh; exact hh
          · intro cs _ _ hh; rw [tidy]; exact hh
        | false =>
          obtain ⟨k, rfl⟩ := prim_of_not_constructed hf
          obtain ⟨bs, hb, rfl⟩ := decN_prim_raw hlen h4
          refine makes_put (rawCells bs) ?_ (by rw [rawCells_length, hb]; rfl) ?_ ?_
          · intro a m
            rw [move, if_neg (by simp [hf]), peekRaw_at _ _ _ _ (by rw [hb]; rfl)]; rfl
          · rw [decode, if_pos hlen, h4]; rfl
          · intro _; rw [tidy]; exact allN_prim _ _ _ _
    · cases hd
  | pair x y ihx ihy =>
    intro hw hc src v hd spre spost
    rw [Ty.WF] at hw
    rw [Ty.Copyable] at hc
    rw [decode] at hd
    obtain ⟨u1, u2, rfl, f1, f2⟩ := decPair_iff.mp hd
    have m1 := ihx hw.1 hc.1 _ u1 f1 spre (src.drop x.memSize ++ spost)
    have m2 := ihy hw.2 hc.2 _ u2 f2 (spre ++ src.take x.memSize) spost
    have hlen : (src.take x.memSize).length = x.memSize := decode_length _ _ _ f1
    rw [← split_at] at m1
    rw [List.append_assoc (spre ++ src.take x.memSize), ← split_at, List.length_append, hlen] at m2
    refine makes_weaken (makes_pair m1 m2) ?_ ?_ ?_ ?_
    · intro a m; rw [move]; rfl
    · intro cs _ hh; rw [decode]; exact hh
    · intro hh; rw [Ty.Tight] at hh; exact hh
    · intro cs _ _ hh; rw [tidy]; exact hh
  | als n t ih =>
    intro hw hc src v hd spre spost
    rw [Ty.WF] at hw
    rw [Ty.Copyable] at hc
    rw [decode] at hd
    refine makes_weaken (s := t.memSize) (ih hw hc src v hd spre spost) ?_ ?_ ?_ ?_
    · intro a m; rw [move]
    · intro cs _ hh; rw [decode]; exact hh
    · intro hh; rw [Ty.Tight] at hh; exact hh
    · intro cs _ _ hh; rw [tidy]; exact hh
  | struct n ms ih =>
    intro hw hc src v hd spre spost
    rw [Ty.WF] at hw
    rw [Ty.Copyable] at hc
    rw [decode] at hd
    cases h4 : decodeAll ms src with
    | none => rw [h4] at hd; cases hd
    | some vs =>
      rw [h4] at hd; cases hd
      refine makes_weaken (s := ms.sumSize) (moveAll_ok ih hw hc src vs h4 spre spost) ?_ ?_ ?_ ?_
      · intro a m; rw [move]
      · intro cs _ hh; rw [decode, hh]; rfl
      · intro hh; rw [Ty.Tight] at hh; exact hh
      · intro cs _ _ hh; rw [tidy]; exact hh
  | union n d ms i _ ih =>
    intro hw hc src v hd spre spost
    rw [Ty.WF] at hw
    obtain ⟨hdo, hok, hwm⟩ := hw
    rw [Ty.Copyable] at hc
    obtain ⟨bs, rest, hbl, hrl, rfl, hcase⟩ := decode_union_inv hdo hd
    intro pre old post lk hl
    rw [Ty.memSize] at hl
    have ho : pre ++ old ++ post = pre ++ old.take d.memSize ++ (old.drop d.memSize ++ post) := split_at _ _ _ _
    have hput := put_at pre (old.take d.memSize) (old.drop d.memSize ++ post) (rawCells bs) lk (by simp [hbl]; omega)
    have hesrc : spre ++ (rawCells bs ++ rest) ++ spost = spre ++ rawCells bs ++ (rest ++ spost) := by simp
    have hlab := readLabel_at hdo pre (old.drop d.memSize ++ post) bs hbl
    rcases hcase with ⟨hx, rfl⟩ | ⟨x, t, w, hx, ht, hw', rfl⟩
    · refine ⟨rawCells bs ++ old.drop d.memSize, owned (old.take d.memSize), ?_, by simp [Ty.memSize]; omega, ?_, ?_⟩
      · rw [move, hesrc, disc_move hdo bs hbl, ho, hput]
        simp only [Except.bind]
        rw [hlab]
        simp only []
        rw [show omGet i.labels (labelOf d.memSize bs) = none from hx]
        simp
      · rw [decode_union_none hdo hbl (by simp; omega) hx]
      · intro h0 _
        refine ⟨owned_zero_of_take h0, ?_⟩
        rw [tidy_union_none hdo hbl hx]
        exact owned_zero_of_drop h0
    have hwt := (Mems.WF.forall hwm).find ht
    have m1 := ih.find ht hwt (Mems.Copyable.find hc ht) _ w hw' (spre ++ rawCells bs) (rest.drop t.memSize ++ spost)
    rw [← split_at] at m1
    obtain ⟨n2, e2, hr2, hl2, hd2, ht2⟩ := makes_case m1 (Mems.maxSize_find ht) (pre ++ rawCells bs)
      (old.drop d.memSize) post (lk + owned (old.take d.memSize)) (by simp; omega)
    refine ⟨rawCells bs ++ n2, owned (old.take d.memSize) + e2, ?_, by simp [Ty.memSize]; omega, ?_, ?_⟩
    · rw [move, hesrc, disc_move hdo bs hbl, ho, hput]
      simp only [Except.bind]
      rw [hlab]
      simp only []
      rw [show omGet i.labels (labelOf d.memSize bs) = some x from hx]
      simp only []
      rw [moveCase_eq ht, show pre.length + d.memSize = (pre ++ rawCells bs).length by simp [hbl],
        show spre.length + d.memSize = (spre ++ rawCells bs).length by simp [hbl],
        ← List.append_assoc (pre ++ rawCells bs), ← List.append_assoc (spre ++ rawCells bs), hr2]
      simp [Nat.add_assoc]
    · rw [decode_union_some hdo hbl hl2 hx ht, show decode t (n2.take t.memSize) = some w from hd2]
      rfl
    · intro h0 hti
      rw [Ty.Tight] at hti
      obtain ⟨z2, w2⟩ := ht2 (owned_zero_of_drop h0) (Mems.Tight.find hti ht)
      refine ⟨by have := owned_zero_of_take (n := d.memSize) h0; omega, ?_⟩
      rw [tidy_union_some hdo hbl hx ht]
      exact w2

end Verif.Inst
