import Verif.Spec.Iterate
import Verif.Lemmas.WalkWrite
import Verif.Lemmas.Api
import Verif.Props.Api
/-! # Loops that write -/

namespace Verif.Inst

variable {σ : Type}

/-- A reply does on values what it says. -/
theorem reply_edits {T : Ty} (hw : T.WF) {cl : Prop} (hc : cl → T.Tight) {f : List Cell → σ → List (List Step × RefOp) × σ × Option Throw}
    {g : Val → σ → List (List Step × RefOp) × σ × Option Throw} (hf : ∀ cs v s, decode T cs = some v → f cs s = g v s)
    (ha : ∀ v s, ∀ x ∈ (g v s).1, ∀ u, typeAt x.1 T = some u → x.2.Ok u) :
    EditsW (decode T) (tidy T) cl (reply T f) (fun v s w s' t => editAll T (g v s).1 v = .ok w ∧ (g v s).2 = (s', t)) := by
  refine editsW_iff.mpr fun pre old post lk v hv s w s' t hR => ?_
  obtain ⟨h1, h2⟩ := hR
  obtain ⟨new, d, e1, e2⟩ := (writes_edits hw hc _ (ha v s) pre old post lk v hv).2 w h1
  refine ⟨new, d, ?_, e2⟩
  simp only [reply, sliceW_at _ _ _ _ (decode_length _ _ _ hv), hf old v s hv, e1, Except.map, h2]

theorem str_stepW {k : SK} {b i : Nat} {cl : Prop} {f : Nat → WWalk σ} {R : Val → σ → Val → σ → Option Throw → Prop}
    (hf : EditsW (decode (.prim (charOf k))) (tidy (.prim (charOf k))) cl f R) :
    EditsW (decode (.str k b)) (tidy (.str k b)) cl (inStrW k i f)
      (fun v s w s' t => ∃ u x, (elems (.str k b) v)[i]? = some u ∧ R u s x s' t ∧ w = setElem (.str k b) v i x) := by
  refine editsW_iff.mpr fun pre old post lk v hv s w s' t hR => ?_
  rw [decode] at hv
  obtain ⟨us, h, rfl, hb, rfl⟩ := decStr_iff.mp hv
  have hpeek := peekStr_at k us h pre post
  obtain ⟨u', x, h1, h2, rfl⟩ := hR
  simp only [elems, List.getElem?_map] at h1
  cases hu : us[i]? with
  | none => rw [hu] at h1; cases h1
  | some u =>
    rw [hu] at h1
    simp only [Option.map_some, Option.some.injEq] at h1
    subst h1
    obtain ⟨new, d, g1, g2, g3, g4⟩ := editsW_iff.mp hf [] (rawCells (leBytes (charOf k).size u)) [] 0 _ (by
      rw [decode]; exact decBytes_iff.mpr ⟨_, rfl, leBytes_length _ _, rfl⟩) s x s' t h2
    simp only [List.length_nil, List.nil_append, List.append_nil] at g1
    rw [decode] at g3
    obtain ⟨bs, rfl, hbs, rfl⟩ := decBytes_iff.mp g3
    refine ⟨objCells (.str k (us.set i (leNat bs)) h) strSize, d, ?_, ?_, ?_, ?_⟩
    · unfold inStrW
      simp only [char_eq]
      rw [hpeek]
      simp only [Except.bind, hu]
      rw [g1]
      have := peekRaw_at [] [] bs _ hbs
      simp only [List.length_nil, List.nil_append, List.append_nil] at this
      simp only [this, Except.map, modify_obj, Cell.setChar, Nat.zero_add]
    · simp [objCells_length, strSize]
    · rw [decode]
      exact decStr_iff.mpr ⟨_, h, rfl, by simpa using hb, rfl⟩
    · intro hc ht
      rw [tidy]
      have := g4 hc (by rw [tidy]; trivial)
      exact ⟨by simpa using this.1, trivial⟩

theorem mems_get : (ms : Mems) → (i : Nat) → ms.get? i = ms.toList[i]?
  | .nil, i => by cases i <;> rfl
  | .cons x t r, 0 => rfl
  | .cons x t r, i + 1 => by rw [Mems.get?, mems_get r i]; rfl

theorem mems_get_isSome : {ms : Mems} → {i : Nat} → i < ms.length → (ms.get? i).isSome
  | .nil, _, h => absurd h (Nat.not_lt_zero _)
  | .cons _ _ _, 0, _ => rfl
  | .cons _ _ r, i + 1, h => mems_get_isSome (ms := r) (Nat.lt_of_succ_lt_succ h)

/-- Working on a part changes that part of the value. -/
theorem atPart_edits {cl : Prop} {i : Nat} {F : Option String → Ty → Nat → WWalk σ}
    {R : Option String → Ty → Val → σ → Val → σ → Option Throw → Prop} :
    (T : Ty) → (∀ n t, partTy T i = some (n, t) → EditsW (decode t) (tidy t) cl (F n t) (R n t)) →
    EditsW (decode T) (tidy T) cl (atPart T i F)
      (fun v s w s' th => ∃ n t u x, partTy T i = some (n, t) ∧ (elems T v)[i]? = some u ∧ R n t u s x s' th ∧ w = setElem T v i x)
  | .arr nm c d, h => by
    have h := h none c.rget rfl
    rw [decode_rget, tidy_rget] at h
    refine editsW_iff.mpr fun pre old post lk v hv s w s' th hR => ?_
    obtain ⟨n, t, u, x, e1, e2, e3, rfl⟩ := hR
    cases e1
    obtain ⟨vs, rfl, hl⟩ := (decode_list hv).2 _ _ _ rfl
    have hi : i < d := by
      rw [← hl]
      exact (List.getElem?_eq_some_iff.mp e2).1
    exact editsW_iff.mp (editsW_focus (focus_array (n := nm) hi) h) pre old post lk _ hv s _ s' th ⟨u, x, e2, e3, rfl⟩
  | .seq c b, h => by
    have h := h none c.rget rfl
    rw [decode_rget, tidy_rget] at h
    have hd : decode (.seq c b) = decColl false c c.memSize b (decode c) := by funext cs; rw [decode]
    have ht : tidy (.seq c b) = tidyColl c.Light (tidy c) c.memSize := by funext cs; rw [tidy]
    have k := editsW_block (im := false) (c := c) (b := b) (L := c.Light) (decode_length c) h i
    rw [← hd, ← ht] at k
    refine editsW_mono k ?_
    rintro cs v s w s' th hv ⟨n, t, u, x, e1, e2, e3, rfl⟩
    cases e1
    rw [hd] at hv
    obtain ⟨_, _, _, _, rfl, _⟩ := decColl_iff.mp hv
    exact ⟨_, u, x, rfl, e2, e3, rfl⟩
  | .map k v b, h => by
    have h := h none (.pair k v) rfl
    have hdp : decode (.pair k v) = decPair (decode k) (decode v) k.memSize := by funext cs; rw [decode]
    have hm : (Ty.pair k v).memSize = k.memSize + v.memSize := by rw [Ty.memSize]
    have htp : tidy (.pair k v) = fun s => tidy k (s.take k.memSize) ∧ tidy v (s.drop k.memSize) := by funext cs; rw [tidy]
    have hd : decode (.map k v b) = decColl true (.pair k v) (k.memSize + v.memSize) b (decode (.pair k v)) := by
      funext cs; rw [decode, hdp]
    have ht : tidy (.map k v b) = tidyColl (k.Light ∧ v.Light) (tidy (.pair k v)) (k.memSize + v.memSize) := by
      funext cs; rw [tidy, htp]
    have q := editsW_block (im := true) (c := .pair k v) (b := b) (L := k.Light ∧ v.Light) (s := k.memSize + v.memSize) (by rw [← hm]; exact decode_length _) h i
    rw [← hd, ← ht] at q
    refine editsW_iff.mpr fun pre old post lk v' hv s w s' th hR => ?_
    obtain ⟨n, t, u, x, e1, e2, e3, rfl⟩ := hR
    cases e1
    have hv0 := hv
    rw [hd] at hv
    obtain ⟨size, cap, blk, vs, rfl, h1, h2, h3, h4, rfl⟩ := decColl_iff.mp hv
    obtain ⟨new, dd, k1, k2⟩ := editsW_iff.mp q pre _ post lk _ hv0 s _ s' th ⟨_, u, x, rfl, e2, e3, rfl⟩
    refine ⟨new, dd, ?_, k2⟩
    rw [← k1]
    have hi : i < size := by
      have := (List.getElem?_eq_some_iff.mp e2).1
      rw [elems, List.length_take] at this
      · omega
    simp only [atPart, inBlockW, elemW]
    rw [peekColl_at]
    simp only [Except.bind, hi, if_true]
  | .str k b, h => by
    have h := h none (.prim (charOf k)) rfl
    refine editsW_mono (show EditsW _ _ cl (atPart (.str k b) i F) _ from ?_) (R := fun v s w s' t => ∃ u x, (elems (.str k b) v)[i]? = some u ∧
      R none (.prim (charOf k)) u s x s' t ∧ w = setElem (.str k b) v i x) ?_
    · rw [← char_eq] at h ⊢
      have := str_stepW (b := b) (i := i) (by rw [← char_eq]; exact h)
      exact this
    · rintro cs v s w s' th hv ⟨n, t, u, x, e1, e2, e3, rfl⟩
      cases e1
      exact ⟨u, x, e2, e3, rfl⟩
  | .struct nm ms, h => by
    refine editsW_iff.mpr fun pre old post lk v hv s w s' th hR => ?_
    obtain ⟨n, t, u, x, e1, e2, e3, rfl⟩ := hR
    have hp := e1
    rw [partTy] at e1
    obtain ⟨⟨n', t'⟩, g1, g2⟩ := Option.map_eq_some_iff.mp e1
    cases g2
    rw [← mems_get] at g1
    obtain ⟨off, hoff⟩ := locateAt_get ms i g1
    have h := h _ _ hp
    rw [decode_rget, tidy_rget] at h
    obtain ⟨vs, rfl⟩ := (decode_list hv).1 rfl
    obtain ⟨new, d, k1, k2⟩ := editsW_iff.mp (editsW_focus (focus_struct (n := nm) hoff) h) pre old post lk _ hv s _ s' th ⟨u, x, e2, e3, rfl⟩
    refine ⟨new, d, ?_, k2⟩
    rw [← k1]
    simp only [atPart, g1, hoff]
  | .prim _, _ => editsW_iff.mpr fun _ _ _ _ _ _ _ _ _ _ ⟨_, _, _, _, e, _⟩ => by cases e
  | .enum _ _ _, _ => editsW_iff.mpr fun _ _ _ _ _ _ _ _ _ _ ⟨_, _, _, _, e, _⟩ => by cases e
  | .alias _ _, _ => editsW_iff.mpr fun _ _ _ _ _ _ _ _ _ _ ⟨_, _, _, _, e, _⟩ => by cases e
  | .pair _ _, _ => editsW_iff.mpr fun _ _ _ _ _ _ _ _ _ _ ⟨_, _, _, _, e, _⟩ => by cases e
  | .union _ _ _ _, _ => editsW_iff.mpr fun _ _ _ _ _ _ _ _ _ _ ⟨_, _, _, _, e, _⟩ => by cases e

theorem mems_wf : {ms : Mems} → ms.WF → {i : Nat} → {x : String × Ty} → ms.toList[i]? = some x → x.2.WF
  | .nil, _, i, _, h => by cases i <;> cases h
  | .cons _ _ _, hw, 0, _, h => by cases h; rw [Mems.WF] at hw; exact hw.1
  | .cons _ _ r, hw, i + 1, _, h => by rw [Mems.WF] at hw; exact mems_wf (ms := r) hw.2 (i := i) h

theorem mems_tight : {ms : Mems} → ms.Tight → {i : Nat} → {x : String × Ty} → ms.toList[i]? = some x → x.2.Tight
  | .nil, _, i, _, h => by cases i <;> cases h
  | .cons _ _ _, hw, 0, _, h => by cases h; rw [Mems.Tight] at hw; exact hw.1
  | .cons _ _ r, hw, i + 1, _, h => by rw [Mems.Tight] at hw; exact mems_tight (ms := r) hw.2 (i := i) h

theorem decodeAll_count : {ms : Mems} → {cs : List Cell} → {vs : List Val} → decodeAll ms cs = some vs → vs.length = ms.length
  | .nil, cs, vs, e => by rw [decodeAll] at e; split at e <;> simp_all [Mems.length]
  | .cons x t r, cs, vs, e => by
    obtain ⟨u, ws, rfl, h1, h2⟩ := decodeAll_cons.mp e
    simp only [List.length_cons, Mems.length, decodeAll_count h2]

theorem partTy_wf {T : Ty} (hw : T.WF) {i : Nat} {n : Option String} {t : Ty} (h : partTy T i = some (n, t)) : t.WF := by
  cases T with
  | prim _ => cases h
  | enum _ _ _ => cases h
  | «alias» _ _ => cases h
  | pair _ _ => cases h
  | union _ _ _ _ => cases h
  | str k b => cases h; trivial
  | arr nm c d => cases h; rw [Ty.WF] at hw; exact WF_rget c hw
  | seq c b => cases h; rw [Ty.WF] at hw; exact WF_rget c hw
  | map k v b => cases h; rw [Ty.WF] at hw; show (Ty.pair k v).WF; rw [Ty.WF]; exact hw
  | struct nm ms =>
    rw [partTy] at h
    obtain ⟨⟨n', t'⟩, g1, g2⟩ := Option.map_eq_some_iff.mp h
    cases g2
    rw [Ty.WF] at hw
    exact WF_rget t' (mems_wf hw g1)

theorem partTy_tight {T : Ty} (hw : T.Tight) {i : Nat} {n : Option String} {t : Ty} (h : partTy T i = some (n, t)) : t.Tight := by
  cases T with
  | prim _ => cases h
  | enum _ _ _ => cases h
  | «alias» _ _ => cases h
  | pair _ _ => cases h
  | union _ _ _ _ => cases h
  | str k b => cases h; trivial
  | arr nm c d => cases h; rw [Ty.Tight] at hw; exact Tight_rget c hw
  | seq c b => cases h; rw [Ty.Tight] at hw; exact Tight_rget c hw.2
  | map k v b => cases h; rw [Ty.Tight] at hw; show (Ty.pair k v).Tight; rw [Ty.Tight]; exact hw.2
  | struct nm ms =>
    rw [partTy] at h
    obtain ⟨⟨n', t'⟩, g1, g2⟩ := Option.map_eq_some_iff.mp h
    cases g2
    rw [Ty.Tight] at hw
    exact Tight_rget t' (mems_tight hw g1)

/-- A round does on values what `roundV` says. -/
theorem round_edits {b : Body σ} {vb : VBody σ} {T : Ty} (hf : b.Follows vb T) (ha : vb.Able T)
    (hw : T.WF) {cl : Prop} (hc : cl → T.Tight) (i : Nat) :
    EditsW (decode T) (tidy T) cl (fun a => round b T a i) (fun v s w s' t => roundV vb T i v s = some (w, s', t)) := by
  have h1 := atPart_edits (cl := cl) (i := i) (F := fun n t => reply t fun cs s => let r := b.elem n t cs s; (r.1, r.2, none))
    (R := fun n t v s w s' th => editAll t (vb.elem n t v s).1 v = .ok w ∧ ((vb.elem n t v s).2, (none : Option Throw)) = (s', th)) T
    (fun n t h => reply_edits (g := fun v s => ((vb.elem n t v s).1, (vb.elem n t v s).2, none)) (partTy_wf hw h) (fun c => partTy_tight (hc c) h)
      (fun cs v s hd => by simp only [hf.1 n t cs v s hd]) (fun v s => ha.1 i n t h v s))
  by_cases hp : ∃ n t, partTy T i = some (n, t)
  · obtain ⟨n, t, hp⟩ := hp
    have h2 := reply_edits (T := T) (cl := cl) hw hc (f := b.rest) (g := vb.rest) (fun cs v s hd => hf.2 cs v s hd) (fun v s => ha.2 v s)
    refine editsW_mono (editsW_then h1 h2) ?_
    intro cs v s w s' th hv h
    unfold roundV at h
    rw [hp] at h
    cases he : (elems T v)[i]? with
    | none => rw [he] at h; cases h
    | some e =>
      rw [he] at h
      simp only at h
      cases g1 : editAll t (vb.elem n t e s).1 e with
      | undef => rw [g1] at h; cases h
      | refused => rw [g1] at h; cases h
      | ok e' =>
        rw [g1] at h
        simp only at h
        cases g2 : editAll T (vb.rest (setElem T v i e') (vb.elem n t e s).2).1 (setElem T v i e') with
        | undef => rw [g2] at h; cases h
        | refused => rw [g2] at h; cases h
        | ok w' =>
          rw [g2] at h
          simp only [Option.some.injEq, Prod.mk.injEq] at h
          obtain ⟨rfl, h3⟩ := h
          exact .inl ⟨setElem T v i e', _, ⟨n, t, e, e', hp, he, ⟨g1, rfl⟩, rfl⟩, g2, h3⟩
  · refine editsW_iff.mpr fun pre old post lk v hv s w s' th hR => ?_
    unfold roundV at hR
    cases hq : partTy T i with
    | none => rw [hq] at hR; cases hR
    | some x => exact absurd ⟨x.1, x.2, hq⟩ hp

theorem rounds_edits {b : Body σ} {vb : VBody σ} {T : Ty} (hf : b.Follows vb T) (ha : vb.Able T)
    (hw : T.WF) {cl : Prop} (hc : cl → T.Tight) : ∀ (k i : Nat),
    EditsW (decode T) (tidy T) cl (fun a => WWalk.times (round b T a) i k) (fun v s w s' t => roundsV vb T i k v s = some (w, s', t))
  | 0, i => by
    refine editsW_iff.mpr fun pre old post lk v hv s w s' t hR => ?_
    simp only [roundsV, Option.some.injEq, Prod.mk.injEq] at hR
    obtain ⟨rfl, rfl, rfl⟩ := hR
    exact ⟨old, 0, rfl, rfl, hv, fun _ h => ⟨rfl, h⟩⟩
  | k + 1, i => by
    refine editsW_mono (editsW_then (round_edits hf ha hw hc i) (rounds_edits hf ha hw hc k (i + 1))) ?_
    intro cs v s w s' t hv h
    rw [roundsV] at h
    cases hr : roundV vb T i v s with
    | none => rw [hr] at h; cases h
    | some x =>
      obtain ⟨w1, s1, t1⟩ := x
      rw [hr] at h
      cases t1 with
      | none => exact .inl ⟨w1, s1, hr, h⟩
      | some t1 =>
        simp only [Option.some.injEq, Prod.mk.injEq] at h
        obtain ⟨rfl, rfl, rfl⟩ := h
        exact .inr ⟨_, rfl, hr⟩

/-- `size()` is the number of parts. -/
theorem size_parts {T : Ty} (h : ∃ c, elemTy T = some c ∨ T.isStruct = true) {pre old post : List Cell} {v : Val} (hv : decode T old = some v) :
    RRef.size ⟨T, pre ++ old ++ post, pre.length⟩ = .ok (elems T v).length := by
  obtain ⟨c, h | h⟩ := h
  · exact (instAt_ok (r := ⟨T, pre ++ old ++ post, pre.length⟩) ⟨pre, old, post, rfl, rfl, hv⟩ h).1
  · cases T <;> simp [Ty.isStruct] at h
    rename_i nm ms
    rw [decode] at hv
    cases e : decodeAll ms old with
    | none => rw [e] at hv; cases hv
    | some vs =>
      rw [e] at hv
      cases hv
      have := decodeAll_count e
      simp only [RRef.size, elems, this]

/-- The loop does on values what `loopV` says. -/
theorem loop_edits {b : Body σ} {vb : VBody σ} {T : Ty} (hf : b.Follows vb T) (ha : vb.Able T)
    (hw : T.WF) {cl : Prop} (hc : cl → T.Tight) (h : ∃ c, elemTy T = some c ∨ T.isStruct = true) :
    EditsW (decode T) (tidy T) cl (loopParts b T) (fun v s w s' t => loopV vb T v s = some (w, s', t)) := by
  refine editsW_iff.mpr fun pre old post lk v hv s w s' t hR => ?_
  obtain ⟨new, d, k1, k2⟩ := editsW_iff.mp (rounds_edits hf ha hw hc (elems T v).length 0) pre old post lk v hv s w s' t hR
  refine ⟨new, d, ?_, k2⟩
  rw [← k1]
  simp only [loopParts, size_parts h hv, Except.bind]

end Verif.Inst
