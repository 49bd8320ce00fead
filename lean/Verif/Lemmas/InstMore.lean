import Verif.Lemmas.InstCopy
/-! # `copy_instance`, `move_instance`, `destroy_instance` -/

namespace Verif.Inst

/-! ## Plain types convert to themselves -/

theorem isUnion_rget_alias {t : Ty} {n : String} : (Ty.alias n t).rget.isUnion = t.rget.isUnion := by rw [Ty.rget]

theorem convertibleAll_plain : {ms : Mems} → (ms.Forall fun t => ∀ S : Ty, t.Plain → S.rget = t.rget →
    (S = t ∨ t.rget.isUnion = false) → Convertible t S) → ms.Plain → ConvertibleAll ms ms ∧ ConvertibleSelf ms
  | .nil, _, _ => by simp [ConvertibleAll, ConvertibleSelf]
  | .cons _ t r, h, hp => by
    rw [Mems.Plain] at hp
    rw [ConvertibleAll, ConvertibleSelf]
    have h1 := h.1 t hp.1 rfl (.inl rfl)
    have h2 := convertibleAll_plain h.2 hp.2
    exact ⟨⟨h1, h2.1⟩, h1, h2.2⟩

theorem blockOk_self (c : Ty) : blockOk c c := by
  cases c <;> simp [blockOk, scalarKind, unwrap]
  exact .inl rfl

theorem convertible_plain (T : Ty) : ∀ S : Ty, T.Plain → S.rget = T.rget → (S = T ∨ T.rget.isUnion = false) →
    Convertible T S := by
  induction T using Ty.ind with
  | prim k => intro S _ h _; rw [Convertible, ← scalarKind_rget, h]; simp [Ty.rget, scalarKind, unwrap]
  | enum n w vs =>
    intro S hp h _
    rw [Ty.Plain] at hp; subst hp
    rw [Convertible, ← scalarKind_rget, h]; simp [Ty.rget, scalarKind, unwrap]
  | str k b => intro S _ h _; rw [Convertible, ← unwrap_rget, h]; exact ⟨b, by simp [Ty.rget, unwrap]⟩
  | seq c b ih =>
    intro S hp h _
    rw [Ty.Plain] at hp
    rw [Convertible, ← unwrap_rget, h]
    exact ⟨c, b, by simp [Ty.rget, unwrap], ih c hp rfl (.inl rfl), blockOk_self c⟩
  | arr n c d ih =>
    intro S hp h _
    rw [Ty.Plain] at hp
    rw [Convertible, ← unwrap_rget, h]
    exact ⟨n, c, d, by simp [Ty.rget, unwrap], Nat.le_refl _, ih c hp rfl (.inl rfl), blockOk_self c⟩
  | map k v b ihk ihv =>
    intro S hp h _
    rw [Ty.Plain] at hp
    rw [Convertible, ← unwrap_rget, h]
    exact ⟨b, by simp [Ty.rget, unwrap], ihk k hp.1 rfl (.inl rfl), ihv v hp.2 rfl (.inl rfl)⟩
  | pair x y ihx ihy =>
    intro S hp h _
    rw [Ty.Plain] at hp
    rw [Convertible, ← unwrap_rget, h]
    exact ⟨x, y, by simp [Ty.rget, unwrap], rfl, ihx x hp.1 rfl (.inl rfl), ihy y hp.2 rfl (.inl rfl)⟩
  | als n t ih =>
    intro S hp h _
    rw [Ty.Plain] at hp
    rw [Convertible]
    exact ih S hp.2 h (.inr hp.1)
  | struct n ms ih =>
    intro S hp h _
    rw [Ty.Plain] at hp
    rw [Convertible, h]
    exact (convertibleAll_plain ih hp).1
  | union n d ms i _ ih =>
    intro S hp h hu
    rw [Ty.Plain] at hp
    have : S = .union n d ms i := by
      rcases hu with hu | hu
      · exact hu
      · simp [Ty.rget, Ty.isUnion] at hu
    subst this
    rw [Convertible]
    exact ⟨n, ms, i, rfl, fun l x hx => ⟨x, hx, rfl⟩, (convertibleAll_plain ih hp).2⟩

theorem plain_self {T : Ty} (h : T.Plain) : Convertible T T := convertible_plain T T h rfl (.inl rfl)

/-! ## `copy_instance` -/

/-- The statement proved by induction. -/
def Copies (T : Ty) : Prop :=
  T.WF → T.Copyable → ∀ (src : List Cell) (v : Val), decode T src = some v → v.Selected →
    ∀ spre spost : List Cell, Makes T.memSize (decode T) (tidy T) T.Tight (copy T (spre ++ src ++ spost) spre.length) v

theorem selectedAll_get : {vs : List Val} → Val.SelectedAll vs → ∀ {i : Nat} {v : Val}, vs[i]? = some v → v.Selected
  | [], _, i, v, h => by simp at h
  | x :: xs, hs, 0, v, h => by simp at h; subst h; rw [Val.SelectedAll] at hs; exact hs.1
  | x :: xs, hs, i + 1, v, h => by
    rw [Val.SelectedAll] at hs
    exact selectedAll_get hs.2 (by simpa using h)

theorem copyCase_eq : {ms : Mems} → {n : String} → {t : Ty} → ms.find? n = some t → copyCase ms n = copy t
  | .nil, _, _, h => by simp [Mems.find?] at h
  | .cons x u r, n, t, h => by
    funext sm sa ta m
    rw [Mems.find?] at h
    rw [copyCase]
    split at h
    · cases h; rw [if_pos (by assumption)]
    · rw [if_neg (by assumption), copyCase_eq h]

theorem Mems.Copyable.find : {ms : Mems} → ms.Copyable → {n : String} → {t : Ty} → ms.find? n = some t → t.Copyable
  | .nil, _, _, _, h => by simp [Mems.find?] at h
  | .cons x u r, hc, n, t, h => by
    rw [Verif.Mems.Copyable] at hc
    rw [Mems.find?] at h
    split at h
    · cases h; exact hc.1
    · exact Mems.Copyable.find hc.2 h

theorem copyAll_ok : {ms : Mems} → ms.Forall Copies → ms.WF → ms.Copyable → ∀ (src : List Cell) (vs : List Val),
    decodeAll ms src = some vs → Val.SelectedAll vs → ∀ spre spost : List Cell,
    Makes ms.sumSize (decodeAll ms) (tidyAll ms) ms.Tight (copyAll ms (spre ++ src ++ spost) spre.length) vs
  | .nil, _, _, _, src, vs, hd, _, spre, spost => by
    intro pre old post lk hl
    simp [Mems.sumSize] at hl; subst hl
    refine ⟨[], 0, by simp [copyAll], rfl, ?_, fun _ _ => ⟨rfl, trivial⟩⟩
    rw [decodeAll] at hd ⊢
    split at hd
    · cases hd; rfl
    · cases hd
  | .cons x t r, h, hw, hc, src, vs, hd, hsel, spre, spost => by
    rw [Mems.WF] at hw
    rw [Mems.Copyable] at hc
    rw [decodeAll] at hd
    cases e1 : decode t (src.take t.memSize) with
    | none => rw [e1] at hd; cases hd
    | some v =>
      rw [e1] at hd
      cases e2 : decodeAll r (src.drop t.memSize) with
      | none => rw [e2] at hd; cases hd
      | some ws =>
        rw [e2] at hd; cases hd
        rw [Val.SelectedAll] at hsel
        have hlen : (src.take t.memSize).length = t.memSize := decode_length _ _ _ e1
        have m1 := h.1 hw.1 hc.1 _ v e1 hsel.1 spre (src.drop t.memSize ++ spost)
        rw [← split_at] at m1
        have m2 := copyAll_ok h.2 hw.2 hc.2 _ ws e2 hsel.2 (spre ++ src.take t.memSize) spost
        rw [List.append_assoc (spre ++ src.take t.memSize), ← split_at, List.length_append, hlen] at m2
        refine makes_weaken (makes_seq m1 m2) ?_ ?_ ?_ ?_
        · intro a m; rw [copyAll]
        · intro cs _ hh
          rw [decodeAll]
          cases h1 : decode t (cs.take t.memSize) with
          | none => simp [h1] at hh
          | some v =>
            cases h2 : decodeAll r (cs.drop t.memSize) with
            | none => simp [h2] at hh
            | some ws => simp [h1, h2] at hh ⊢; exact hh
        · intro hh; rw [Mems.Tight] at hh; exact hh
        · intro cs _ _ hh; rw [tidyAll]; exact hh

theorem disc_copy {d : Ty} (h : discOk d) (bs : List Byte) (hb : bs.length = d.memSize) (spre spost : List Cell)
    (ta : Nat) (m : Mem) : copy d (spre ++ rawCells bs ++ spost) spre.length ta m = put m ta (rawCells bs) := by
  rw [← copy_rget]
  rw [← Ty.rget_memSize] at hb
  rcases discOk_cases h with ⟨k, hk, _⟩ | ⟨n, vs, hk⟩ <;> rw [hk] at hb ⊢ <;>
    rw [copy, peekRaw_at _ _ _ _ (by rw [hb]; rfl)] <;> rfl

theorem prim_of_not_constructed {c : Ty} (h : c.isConstructed = false) : ∃ k, c = .prim k := by
  cases c <;> simp [Ty.isConstructed] at h
  exact ⟨_, rfl⟩

theorem allN_prim (k : PK) (s : Nat) : (n : Nat) → (x : List Cell) → allN (tidy (.prim k)) s n x
  | 0, _ => trivial
  | n + 1, x => ⟨by rw [tidy]; trivial, allN_prim k s n _⟩

/-- Scalars in a row are raw bytes. -/
theorem decN_prim_raw {k : PK} {n : Nat} {x : List Cell} {vs : List Val} (hl : x.length = n * k.size)
    (h : decN (decode (.prim k)) k.size n x = some vs) : ∃ bs : List Byte, bs.length = n * k.size ∧ x = rawCells bs := by
  obtain ⟨bs, hb⟩ := decN_raw (fun cs v hd => by
    rw [decode] at hd; obtain ⟨b, -, -, e⟩ := decBytes_iff.mp hd; exact ⟨b, e⟩) hl h
  exact ⟨bs, by rw [← hl, hb]; simp, hb⟩

/-- A copy or a clone of a sequence. -/
theorem seq_clone {c : Ty} (hw : c.WF) (hp : c.Plain) {b size cap : Nat} {blk : List Cell} {vs : List Val}
    (h1 : size ≤ cap) (h2 : b > 0 → cap ≤ b) (h3 : blk.length = cap * c.memSize)
    (h4 : decN (decode c) c.memSize cap blk = some vs) :
    Makes seqSize (decode (.seq c b)) (tidy (.seq c b)) (Ty.seq c b).Tight
      (cloneColl false c c.memSize c.memSize ⟨c, size, cap, blk⟩ 0 (!c.isConstructed) (construct c) (copyFrom c c blk))
      (.coll (vs.take size)) := by
  have hcc := plain_self hp
  refine makes_weaken (s := seqSize) (makes_clone (light := c.Light) (cl := c.Tight) (td := tidy c) (f := id) false c
      ⟨c, size, cap, blk⟩ b 0 (!c.isConstructed) (vs := vs)
      (construct_fresh c hw) h3 h1 h4 ?_ (elem := copyFrom c c blk) ?_ ?_) (fun _ _ => rfl) ?_ ?_ ?_
  · intro hb; rw [if_pos rfl]; exact h2 hb
  · intro _ i w hi
    obtain ⟨x, sl, y, w', e1, e2, e3, e4, e5⟩ := decN_slot h3 h4 (i := i)
      (by rw [← decN_length h4]; exact (List.getElem?_eq_some_iff.mp hi).1)
    rw [hi] at e5; cases e5
    have := copyFrom_ok c hw c sl w hcc e4 x y
    rw [← e1, e2, conv_self c c _ _ rfl hcc e4] at this
    exact this
  · intro hf
    simp only [Bool.not_eq_true'] at hf
    obtain ⟨k, rfl⟩ := prim_of_not_constructed hf
    refine ⟨rfl, fun cs v hcs => ⟨hcs, ?_⟩, fun x => by rw [tidy]; trivial⟩
    rw [decode] at hcs; obtain ⟨b, -, -, e⟩ := decBytes_iff.mp hcs; exact ⟨b, e⟩
  · intro cs _ hh; rw [decode]; simpa [clipV] using hh
  · intro hh; rw [Ty.Tight] at hh; exact hh
  · intro cs _ _ hh; rw [tidy]; exact hh

theorem map_clone {k v : Ty} (hw : k.WF ∧ v.WF) (hp : k.Plain ∧ v.Plain) {b size cap : Nat} {blk : List Cell}
    {vs : List Val} (h1 : size ≤ cap) (h2 : b > 0 → cap ≤ b) (h3 : blk.length = cap * (k.memSize + v.memSize))
    (h4 : decN (decPair (decode k) (decode v) k.memSize) (k.memSize + v.memSize) cap blk = some vs) :
    Makes seqSize (decode (.map k v b)) (tidy (.map k v b)) (Ty.map k v b).Tight
      (cloneColl true (.pair k v) (k.memSize + v.memSize) (k.memSize + v.memSize) ⟨.pair k v, size, cap, blk⟩ 0
          (!k.isConstructed && !v.isConstructed)
          (fun a m => (construct k a m).bind (construct v (a + k.memSize)))
          (copyPair (copyFrom k k blk) (copyFrom v v blk) k.memSize))
      (.coll (vs.take size)) := by
  have hck := plain_self hp.1
  have hcv := plain_self hp.2
  have hcons := makes_weaken (makes_pair (construct_fresh k hw.1) (construct_fresh v hw.2))
    (t' := fun cs => (tidy k (cs.take k.memSize) ∧ tidy v (cs.drop k.memSize)) ∧ (k.Light ∧ v.Light → owned cs = 0))
    (c' := True) (fun _ _ => rfl) (fun _ _ h => h) (fun _ => ⟨trivial, trivial⟩) (fun cs _ _ h =>
      ⟨⟨h.1.1, h.2.1⟩, fun hl => by rw [owned_split k.memSize, h.1.2 hl.1, h.2.2 hl.2]⟩)
  refine makes_weaken (s := seqSize) (makes_clone (light := k.Light ∧ v.Light) (cl := k.Tight ∧ v.Tight)
    (td := fun s => tidy k (s.take k.memSize) ∧ tidy v (s.drop k.memSize)) (f := id) true (.pair k v)
    ⟨.pair k v, size, cap, blk⟩ b 0 (!k.isConstructed && !v.isConstructed) (vs := vs)
    hcons h3 h1 h4 ?_
    (elem := copyPair (copyFrom k k blk) (copyFrom v v blk) k.memSize) ?_ ?_) (fun _ _ => rfl) ?_ ?_ ?_
  · intro hb; rw [if_pos rfl]; exact h2 hb
  · intro _ i w hi
    obtain ⟨x, sl, y, w', e1, e2, e3, e4, e5⟩ := decN_slot h3 h4 (i := i)
      (by rw [← decN_length h4]; exact (List.getElem?_eq_some_iff.mp hi).1)
    rw [hi] at e5; cases e5
    obtain ⟨u1, u2, rfl, f1, f2⟩ := decPair_iff.mp e4
    have m1 := copyFrom_ok k hw.1 k _ u1 hck f1 x (sl.drop k.memSize ++ y)
    have m2 := copyFrom_ok v hw.2 v _ u2 hcv f2 (x ++ sl.take k.memSize) y
    rw [conv_self k k _ _ rfl hck f1] at m1
    rw [conv_self v v _ _ rfl hcv f2] at m2
    have hlen : (sl.take k.memSize).length = k.memSize := decode_length _ _ _ f1
    rw [← split_at, ← e1] at m1
    rw [List.append_assoc (x ++ sl.take k.memSize), ← split_at, ← e1, List.length_append, hlen] at m2
    rw [e2] at m1 m2
    exact makes_pair m1 m2
  · intro hf
    simp only [Bool.and_eq_true, Bool.not_eq_true'] at hf
    obtain ⟨k', rfl⟩ := prim_of_not_constructed hf.1
    obtain ⟨v', rfl⟩ := prim_of_not_constructed hf.2
    refine ⟨rfl, fun cs w hcs => ⟨hcs, ?_⟩, fun x => by simp [tidy]⟩
    obtain ⟨u1, u2, rfl, f1, f2⟩ := decPair_iff.mp hcs
    rw [decode] at f1 f2
    obtain ⟨b1, -, -, g1⟩ := decBytes_iff.mp f1
    obtain ⟨b2, -, -, g2⟩ := decBytes_iff.mp f2
    refine ⟨b1 ++ b2, ?_⟩
    rw [← List.take_append_drop (Ty.prim k').memSize cs, g1, g2]; simp [rawCells]
  · intro cs _ hh; rw [decode]; simpa [clipV] using hh
  · intro hh; rw [Ty.Tight] at hh; exact hh
  · intro cs _ _ hh; rw [tidy]; exact hh

/-- `copy_instance` makes an instance with the same value and touches nothing else. -/
theorem copy_ok (T : Ty) : Copies T := by
  induction T using Ty.ind with
  | prim k =>
    intro _ _ src v hd _ spre spost
    rw [decode] at hd
    obtain ⟨bs, rfl, hb, rfl⟩ := decBytes_iff.mp hd
    refine makes_weaken (s := k.size) (makes_raw (td := fun _ => True) (cl := True) bs (fun _ _ => rfl) hb (fun _ => trivial)) ?_ ?_
      (fun _ => trivial) ?_
    · intro a m; rw [copy, peekRaw_at _ _ _ _ hb]; rfl
    · intro cs _ hh; rw [decode]; exact hh
    · intro cs _ _ _; rw [tidy]; trivial
  | enum n w vs =>
    intro _ _ src v hd _ spre spost
    rw [decode] at hd
    obtain ⟨bs, rfl, hb, rfl⟩ := decBytes_iff.mp hd
    refine makes_weaken (s := w.size) (makes_raw (td := fun _ => True) (cl := True) bs (fun _ _ => rfl) hb (fun _ => trivial)) ?_ ?_
      (fun _ => trivial) ?_
    · intro a m; rw [copy, peekRaw_at _ _ _ _ hb]; rfl
    · intro cs _ hh; rw [decode]; exact hh
    · intro cs _ _ _; rw [tidy]; trivial
  | str k b =>
    intro _ _ src v hd _ spre spost
    rw [decode] at hd
    obtain ⟨us, hp, rfl, hb, rfl⟩ := decStr_iff.mp hd
    refine makes_weaken (s := strSize) (makes_str (td := fun _ => True) (cl := True) k b us (decide (us.length > SK.sso k))
      (fun _ _ => rfl) hb (fun _ => trivial)) ?_ ?_ (fun _ => trivial) ?_
    · intro a m; rw [copy, peekStr_at]; simp only [Except.bind]; rw [clip_id hb]
    · intro cs _ hh; rw [decode]; exact hh
    · intro cs _ _ _; rw [tidy]; trivial
  | seq c b ih =>
    intro hw hc src v hd _ spre spost
    rw [Ty.WF] at hw
    rw [Ty.Copyable] at hc
    rw [decode] at hd
    obtain ⟨size, cap, blk, vs, rfl, h1, h2, h3, h4, rfl⟩ := decColl_iff.mp hd
    refine makes_weaken (s := seqSize) (seq_clone hw hc h1 h2 h3 h4) ?_ (fun _ _ h => h) id (fun _ _ _ h => h)
    intro a m
    rw [copy, peekColl_at]
    simp only [Except.bind]
    rw [if_pos trivial]
  | arr n c d ih =>
    intro hw hc src v hd hsel spre spost
    rw [Ty.WF] at hw
    rw [Ty.Copyable] at hc
    rw [decode] at hd
    split at hd
    · rename_i hlen
      cases h4 : decN (decode c) c.memSize d src with
      | none => rw [h4] at hd; cases hd
      | some vs =>
        rw [h4] at hd; cases hd
        rw [Val.Selected] at hsel
        have hvl := decN_length h4
        cases hf : c.isConstructed with
        | true =>
          refine makes_weaken (s := d * c.memSize) (makes_array (dec := decode c) (cl := c.Tight) (td := tidy c) d
            (g := fun i => copy c (spre ++ src ++ spost) (spre.length + i * c.memSize))
            (v := fun i => id (vs[i]?.getD (.list []))) ?_) ?_ ?_ ?_ ?_
          · intro i hi
            obtain ⟨x, sl, y, w, e1, e2, e3, e4, e5⟩ := decN_slot hlen h4 (i := i) (by omega)
            have := ih hw hc sl w e4 (selectedAll_get hsel e5) (spre ++ x) (y ++ spost)
            rw [e5, ← e2]
            have es : spre ++ x ++ sl ++ (y ++ spost) = spre ++ src ++ spost := by rw [e1]; simp
            rw [es, List.length_append] at this
            exact this
          · intro a m; rw [copy, if_pos hf]
          · intro cs hl hh
            rw [decode, if_pos hl, hh, map_range_take _ _ _ (by omega), List.take_of_length_le (by omega), List.map_id]
            rfl
          · intro hh; rw [Ty.Tight] at hh; exact hh
          · intro cs _ _ hh; rw [tidy]; exact hh
        | false =>
          obtain ⟨k, rfl⟩ := prim_of_not_constructed hf
          obtain ⟨bs, hb, rfl⟩ := decN_prim_raw hlen h4
          refine makes_put (rawCells bs) ?_ (by rw [rawCells_length, hb]; rfl) ?_ ?_
          · intro a m
            rw [copy, if_neg (by simp [hf]), peekRaw_at _ _ _ _ (by rw [hb]; rfl)]; rfl
          · rw [decode, if_pos hlen, h4]; rfl
          · intro _; rw [tidy]; exact allN_prim _ _ _ _
    · cases hd
  | map k v b ihk ihv =>
    intro hw hc src x hd _ spre spost
    rw [Ty.WF] at hw
    rw [Ty.Copyable] at hc
    rw [decode] at hd
    obtain ⟨size, cap, blk, vs, rfl, h1, h2, h3, h4, rfl⟩ := decColl_iff.mp hd
    refine makes_weaken (s := seqSize) (map_clone hw hc h1 h2 h3 h4) ?_ (fun _ _ h => h) id (fun _ _ _ h => h)
    intro a m
    rw [copy, peekColl_at]
    simp only [Except.bind]
    rw [if_pos trivial]
  | pair x y ihx ihy =>
    intro hw hc src v hd hsel spre spost
    rw [Ty.WF] at hw
    rw [Ty.Copyable] at hc
    rw [decode] at hd
    obtain ⟨u1, u2, rfl, f1, f2⟩ := decPair_iff.mp hd
    simp only [Val.Selected, Val.SelectedAll] at hsel
    have m1 := ihx hw.1 hc.1 _ u1 f1 hsel.1 spre (src.drop x.memSize ++ spost)
    have m2 := ihy hw.2 hc.2 _ u2 f2 hsel.2.1 (spre ++ src.take x.memSize) spost
    have hlen : (src.take x.memSize).length = x.memSize := decode_length _ _ _ f1
    rw [← split_at] at m1
    rw [List.append_assoc (spre ++ src.take x.memSize), ← split_at, List.length_append, hlen] at m2
    refine makes_weaken (makes_pair m1 m2) ?_ ?_ ?_ ?_
    · intro a m; rw [copy]; rfl
    · intro cs _ hh; rw [decode]; exact hh
    · intro hh; rw [Ty.Tight] at hh; exact hh
    · intro cs _ _ hh; rw [tidy]; exact hh
  | als n t ih =>
    intro hw hc src v hd hsel spre spost
    rw [Ty.WF] at hw
    rw [Ty.Copyable] at hc
    rw [decode] at hd
    refine makes_weaken (s := t.memSize) (ih hw hc src v hd hsel spre spost) ?_ ?_ ?_ ?_
    · intro a m; rw [copy]
    · intro cs _ hh; rw [decode]; exact hh
    · intro hh; rw [Ty.Tight] at hh; exact hh
    · intro cs _ _ hh; rw [tidy]; exact hh
  | struct n ms ih =>
    intro hw hc src v hd hsel spre spost
    rw [Ty.WF] at hw
    rw [Ty.Copyable] at hc
    rw [decode] at hd
    cases h4 : decodeAll ms src with
    | none => rw [h4] at hd; cases hd
    | some vs =>
      rw [h4] at hd; cases hd
      rw [Val.Selected] at hsel
      refine makes_weaken (s := ms.sumSize) (copyAll_ok ih hw hc src vs h4 hsel spre spost) ?_ ?_ ?_ ?_
      · intro a m; rw [copy]
      · intro cs _ hh; rw [decode, hh]; rfl
      · intro hh; rw [Ty.Tight] at hh; exact hh
      · intro cs _ _ hh; rw [tidy]; exact hh
  | union n d ms i _ ih =>
    intro hw hc src v hd hsel spre spost
    rw [Ty.WF] at hw
    obtain ⟨hdo, hok, hwm⟩ := hw
    rw [Ty.Copyable] at hc
    obtain ⟨bs, rest, hbl, hrl, rfl, hcase⟩ := decode_union_inv hdo hd
    rcases hcase with ⟨_, rfl⟩ | ⟨x, t, w, hx, ht, hw', rfl⟩
    · rw [Val.Selected] at hsel; cases hsel
    rw [Val.Selected] at hsel
    intro pre old post lk hl
    rw [Ty.memSize] at hl
    have ho : pre ++ old ++ post = pre ++ old.take d.memSize ++ (old.drop d.memSize ++ post) := split_at _ _ _ _
    have hput := put_at pre (old.take d.memSize) (old.drop d.memSize ++ post) (rawCells bs) lk (by simp [hbl]; omega)
    have hesrc : spre ++ (rawCells bs ++ rest) ++ spost = spre ++ rawCells bs ++ (rest ++ spost) := by simp
    have hlab := readLabel_at hdo spre (rest ++ spost) bs hbl
    have hwt := (Mems.WF.forall hwm).find ht
    have m1 := ih.find ht hwt (Mems.Copyable.find hc ht) _ w hw' hsel (spre ++ rawCells bs) (rest.drop t.memSize ++ spost)
    rw [← split_at] at m1
    obtain ⟨n2, e2, hr2, hl2, hd2, ht2⟩ := makes_case m1 (Mems.maxSize_find ht) (pre ++ rawCells bs)
      (old.drop d.memSize) post (lk + owned (old.take d.memSize)) (by simp; omega)
    refine ⟨rawCells bs ++ n2, owned (old.take d.memSize) + e2, ?_, by simp [Ty.memSize]; omega, ?_, ?_⟩
    · rw [copy, hesrc, disc_copy hdo bs hbl, ho, hput]
      simp only [Except.bind]
      rw [hlab]
      simp only []
      rw [show omGet i.labels (labelOf d.memSize bs) = some x from hx]
      simp only []
      rw [copyCase_eq ht, show pre.length + d.memSize = (pre ++ rawCells bs).length by simp [hbl],
        show spre.length + d.memSize = (spre ++ rawCells bs).length by simp [hbl],
        ← List.append_assoc (pre ++ rawCells bs), ← List.append_assoc (spre ++ rawCells bs), hr2]
      simp [Nat.add_assoc]
    · rw [decode_union_some hdo hbl hl2 hx ht, show decode t (n2.take t.memSize) = some w from hd2]
      rfl
    · intro h0 hti
      rw [Ty.Tight] at hti
      obtain ⟨z2, w2⟩ := ht2 (owned_zero_of_drop h0) (Mems.Tight.find hti ht)
      refine ⟨by have := owned_zero_of_take (n := d.memSize) h0; omega, ?_⟩
      rw [tidy_union_some hdo hbl hx ht]
      exact w2

end Verif.Inst
