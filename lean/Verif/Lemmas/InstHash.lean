import Verif.Lemmas.Eq
import Verif.Spec.InstHash
/-! # Hashes of instances -/

namespace Verif.Inst

/-- The hash depends on nothing but the value and `std::hash`. -/
def Hashes (σ : SK → List Nat → BitVec 64) (dec : List Cell → Option Val) (f : HashEnv → List Cell → Nat → M (BitVec 64)) : Prop :=
  ∀ u, ∃ h, ∀ env : HashEnv, env.str = σ → ∀ pre x post, dec x = some u → f env (pre ++ x ++ post) pre.length = .ok h

theorem bytes_at (env : HashEnv) (pre post : List Cell) (bs : List Byte) (n : Nat) (h : bs.length = n) :
    env.bytes (pre ++ rawCells bs ++ post) pre.length n = .ok bs := by
  unfold HashEnv.bytes
  rw [peek_at _ _ _ _ (by simp [h])]
  simp only [Except.map, Except.ok.injEq]
  subst h
  apply List.ext_getElem
  · simp
  · intro i h1 h2
    simp [rawCells, h2]

theorem hashes_raw {σ : SK → List Nat → BitVec 64} {dec : List Cell → Option Val} {n : Nat}
    (hr : ∀ cs v, dec cs = some v → ∃ bs, bs.length = n ∧ cs = rawCells bs)
    (hi : ∀ x y u, dec x = some u → dec y = some u → x = y) : Hashes σ dec (fun env cs a => env.raw cs a n) := by
  intro u
  by_cases h : ∃ x, dec x = some u
  · obtain ⟨x, hx⟩ := h
    obtain ⟨bs, hl, rfl⟩ := hr _ _ hx
    refine ⟨memHash bs, fun env _ pre y post hy => ?_⟩
    rw [← hi _ _ _ hx hy]
    simp only [HashEnv.raw, bytes_at _ _ _ _ _ hl, Except.map]
  · exact ⟨0, fun env _ pre y post hy => absurd ⟨y, hy⟩ h⟩

theorem combineFrom_ok {F : HashEnv → List Cell → Nat → Nat → M (BitVec 64)} {good : HashEnv → List Cell → Nat → Prop} : (n i : Nat) →
    (∀ j, i ≤ j → j < i + n → ∃ h, ∀ env m a, good env m a → F env m a j = .ok h) → (h0 : BitVec 64) →
    ∃ h, ∀ env m a, good env m a → combineFrom (F env m a) i n h0 = .ok h
  | 0, i, _, h0 => ⟨h0, fun _ _ _ _ => rfl⟩
  | n + 1, i, hF, h0 => by
    obtain ⟨h1, e1⟩ := hF i (by omega) (by omega)
    obtain ⟨h2, e2⟩ := combineFrom_ok n (i + 1) (fun j hj hj' => hF j (by omega) (by omega)) (hashCombine h0 h1)
    exact ⟨h2, fun env m a hg => by rw [combineFrom, e1 env m a hg]; exact e2 env m a hg⟩

theorem hashes_pair {σ : SK → List Nat → BitVec 64} {d1 d2 : List Cell → Option Val} {f1 f2 : HashEnv → List Cell → Nat → M (BitVec 64)}
    {s : Nat} (h1 : Hashes σ d1 f1) (h2 : Hashes σ d2 f2) (hs : ∀ x u, d1 x = some u → x.length = s) :
    Hashes σ (decPair d1 d2 s) (fun env cs a => hashPair (f1 env) (f2 env) s cs a) := by
  intro u
  by_cases h : ∃ a b, u = .list [a, b]
  · obtain ⟨a, b, rfl⟩ := h
    obtain ⟨x1, e1⟩ := h1 a
    obtain ⟨x2, e2⟩ := h2 b
    refine ⟨hashCombine x1 x2, fun env he pre x post hx => ?_⟩
    obtain ⟨a', b', e, ha, hb⟩ := decPair_iff.mp hx
    cases e
    have la := hs _ _ ha
    have k1 := e1 env he pre (x.take s) (x.drop s ++ post) ha
    have k2 := e2 env he (pre ++ x.take s) (x.drop s) post hb
    have c1 : pre ++ x.take s ++ (x.drop s ++ post) = pre ++ x ++ post := by
      rw [List.append_assoc, ← List.append_assoc (x.take s), List.take_append_drop, List.append_assoc]
    rw [c1] at k1
    rw [List.append_assoc _ (x.drop s), c1, List.length_append, la] at k2
    simp only [hashPair, k1, Except.bind, k2, Except.map]
  · refine ⟨0, fun env he pre x post hx => ?_⟩
    obtain ⟨a', b', e, _⟩ := decPair_iff.mp hx
    exact absurd ⟨_, _, e⟩ h

theorem hashAll_ok {σ : SK → List Nat → BitVec 64} : (ms : Mems) →
    (ms.Forall fun T => Hashable T → T.WF → Hashes σ (decode T) (fun env => instHash env T)) → HashableAll ms → ms.WF →
    (us : List Val) → ∃ (h : BitVec 64) (r : BitVec 64 → BitVec 64), ∀ env : HashEnv, env.str = σ → ∀ pre x post, decodeAll ms x = some us →
      instHashAll env ms (pre ++ x ++ post) pre.length = .ok h ∧
      ∀ h0, instHashRest env ms (pre ++ x ++ post) pre.length h0 = .ok (r h0)
  | .nil, _, _, _, us => ⟨0, id, fun env _ pre x post _ => ⟨by rw [instHashAll], fun h0 => by rw [instHashRest]; rfl⟩⟩
  | .cons n t r, hf, hh, hw, us => by
    rw [HashableAll] at hh
    rw [Mems.WF] at hw
    by_cases h : ∃ u vs, us = u :: vs
    · obtain ⟨u, vs, rfl⟩ := h
      obtain ⟨x1, e1⟩ := hf.1 hh.1 hw.1 u
      obtain ⟨x2, g, e2⟩ := hashAll_ok r hf.2 hh.2 hw.2 vs
      refine ⟨g x1, fun h0 => g (hashCombine h0 x1), fun env he pre x post hx => ?_⟩
      rw [decodeAll] at hx
      cases k1 : decode t (x.take t.memSize) with
      | none => rw [k1] at hx; cases hx
      | some u' =>
        rw [k1] at hx
        cases k2 : decodeAll r (x.drop t.memSize) with
        | none => rw [k2] at hx; cases hx
        | some us' =>
          rw [k2] at hx
          cases hx
          have la := decode_length _ _ _ k1
          have m1 := e1 env he pre (x.take t.memSize) (x.drop t.memSize ++ post) k1
          have m2 := (e2 env he (pre ++ x.take t.memSize) (x.drop t.memSize) post k2).2
          have c1 : pre ++ x.take t.memSize ++ (x.drop t.memSize ++ post) = pre ++ x ++ post := by
            rw [List.append_assoc, ← List.append_assoc (x.take _), List.take_append_drop, List.append_assoc]
          rw [c1] at m1
          simp only [] at m1
          rw [List.append_assoc _ (x.drop _), c1, List.length_append, la] at m2
          constructor
          · rw [instHashAll, m1]; exact m2 x1
          · intro h0
            rw [instHashRest, m1]; exact m2 _
    · refine ⟨0, id, fun env he pre x post hx => ?_⟩
      obtain ⟨u, us', e, _⟩ := hasTy_struct ⟨x, hx⟩
      exact absurd ⟨_, _, e⟩ h

/-- What `hash` computes depends on the value only. -/
theorem hash_ok {σ : SK → List Nat → BitVec 64} (T : Ty) : Hashable T → T.WF → Hashes σ (decode T) (fun env => instHash env T) := by
  induction T using Ty.ind with
  | prim k =>
    intro _ _
    rw [show (fun env => instHash env (.prim k)) = fun env cs a => env.raw cs a k.size from by funext env cs a; rw [instHash]]
    refine hashes_raw ?_ decode_prim_inj
    intro cs v h
    rw [decode] at h; obtain ⟨b, _, hl, e⟩ := decBytes_iff.mp h; exact ⟨b, hl, e⟩
  | enum n w vs =>
    intro _ _
    rw [show (fun env => instHash env (.enum n w vs)) = fun env cs a => env.raw cs a w.size from by funext env cs a; rw [instHash]]
    refine hashes_raw ?_ ?_
    · intro cs v h
      rw [decode] at h; obtain ⟨b, _, hl, e⟩ := decBytes_iff.mp h; exact ⟨b, hl, e⟩
    · intro x y u h1 h2
      rw [decode] at h1 h2
      obtain ⟨b, rfl, _, rfl⟩ := decBytes_iff.mp h1
      obtain ⟨c, e, _, rfl⟩ := decBytes_iff.mp h2
      cases e; rfl
  | str k b =>
    intro _ _ u
    by_cases h : ∃ us, u = .str us
    · obtain ⟨us, rfl⟩ := h
      refine ⟨σ k us, fun env he pre x post hx => ?_⟩
      rw [decode] at hx
      obtain ⟨us', hp, e, _, rfl⟩ := decStr_iff.mp hx
      cases e
      simp only [instHash, peekStr_at, Except.map, he]
    · refine ⟨0, fun env he pre x post hx => ?_⟩
      rw [decode] at hx
      obtain ⟨us', hp, e, _, rfl⟩ := decStr_iff.mp hx
      exact absurd ⟨_, e⟩ h
  | seq c b _ =>
    intro hh _ u
    rw [Hashable] at hh
    exact ⟨0, fun env he pre x post hx => by simp only [instHash, hh]; rfl⟩
  | arr n c d ih =>
    intro hh hw u
    rw [Hashable] at hh
    rw [Ty.WF] at hw
    by_cases h : ∃ us, u = .list us
    · obtain ⟨us, rfl⟩ := h
      have inv : ∀ x, decode (.arr n c d) x = some (.list us) → x.length = d * c.memSize ∧ decN (decode c) c.memSize d x = some us := by
        intro x hx
        rw [decode] at hx
        split at hx
        · rename_i hl
          cases e1 : decN (decode c) c.memSize d x with
          | none => rw [e1] at hx; cases hx
          | some us => rw [e1] at hx; cases hx; exact ⟨hl, rfl⟩
        · cases hx
      by_cases hd : d > 0
      · cases hc : c.isConstructed with
        | false =>
          obtain ⟨k, rfl⟩ := prim_of_not_constructed hc
          obtain ⟨h, e⟩ := hashes_raw (σ := σ) (dec := decode (.arr n (.prim k) d)) (n := d * (Ty.prim k).memSize) (by
            intro cs v hv
            have hl := decode_length _ _ _ hv
            rw [Ty.memSize] at hl
            rw [decode, if_pos hl] at hv
            cases e1 : decN (decode (.prim k)) (Ty.prim k).memSize d cs with
            | none => rw [e1] at hv; cases hv
            | some us =>
              obtain ⟨bs, h1, h2⟩ := decN_prim_raw hl e1
              exact ⟨bs, h1, h2⟩) (by
            intro x y u h1 h2
            have l1 := decode_length _ _ _ h1
            have l2 := decode_length _ _ _ h2
            rw [Ty.memSize] at l1 l2
            rw [decode, if_pos l1] at h1
            rw [decode, if_pos l2] at h2
            cases e1 : decN (decode (.prim k)) (Ty.prim k).memSize d x with
            | none => rw [e1] at h1; cases h1
            | some us =>
              cases e2 : decN (decode (.prim k)) (Ty.prim k).memSize d y with
              | none => rw [e2] at h2; cases h2
              | some vs =>
                rw [e1] at h1; rw [e2] at h2
                cases h1; cases h2
                exact (decN_bytes_inj decode_prim_inj l1 l2 e1 e2).mpr rfl) (.list us)
          refine ⟨h, fun env he pre x post hx => ?_⟩
          simp only [instHash, if_pos hd, hc, Bool.false_eq_true, if_false]
          exact e env he pre x post hx
        | true =>
          -- every element
          have el : ∀ j, j < d → ∃ h, ∀ env : HashEnv, env.str = σ → ∀ pre x post, decode (.arr n c d) x = some (.list us) →
              instHash env c (pre ++ x ++ post) (pre.length + j * c.memSize) = .ok h := by
            intro j hj
            by_cases hv : ∃ v, us[j]? = some v
            · obtain ⟨v, hv⟩ := hv
              obtain ⟨h, e⟩ := ih hh hw v
              refine ⟨h, fun env he pre x post hx => ?_⟩
              obtain ⟨hl, hn⟩ := inv x hx
              obtain ⟨a, b, z, v', e1, e2, e3, e4, e5⟩ := decN_slot hl hn hj
              rw [hv] at e5; cases e5
              have := e env he (pre ++ a) b (z ++ post) e4
              rw [List.length_append, e2] at this
              rw [← this, e1]; simp only [List.append_assoc]
            · refine ⟨0, fun env he pre x post hx => ?_⟩
              obtain ⟨hl, hn⟩ := inv x hx
              obtain ⟨a, b, z, v', e1, e2, e3, e4, e5⟩ := decN_slot hl hn hj
              exact absurd ⟨_, e5⟩ hv
          obtain ⟨h0, e0⟩ := el 0 hd
          obtain ⟨h, e⟩ := combineFrom_ok (F := fun env m a j => instHash env c m (a + j * c.memSize))
            (good := fun env m a => env.str = σ ∧ ∃ pre x post, decode (.arr n c d) x = some (.list us) ∧ m = pre ++ x ++ post ∧ a = pre.length)
            (d - 1) 1 (by
              intro j hj hj'
              obtain ⟨h, e⟩ := el j (by omega)
              refine ⟨h, ?_⟩
              rintro env _ _ ⟨he, pre, x, post, hx, rfl, rfl⟩
              exact e env he pre x post hx) h0
          refine ⟨h, fun env he pre x post hx => ?_⟩
          simp only [instHash, if_pos hd, hc, if_true]
          have k0 := e0 env he pre x post hx
          rw [Nat.zero_mul, Nat.add_zero] at k0
          rw [k0]
          exact e env _ _ ⟨he, pre, x, post, hx, rfl, rfl⟩
      · exact ⟨0, fun env he pre x post hx => by simp only [instHash, if_neg hd]⟩
    · refine ⟨0, fun env he pre x post hx => ?_⟩
      obtain ⟨us, e, _⟩ := hasTy_cases (T := .arr n c d) (by rw [Ty.WF]; exact hw) ⟨x, hx⟩
      exact absurd ⟨_, e⟩ h
  | map k w b ihk ihw =>
    intro hh hw u
    rw [Hashable] at hh
    rw [Ty.WF] at hw
    by_cases h : ∃ us, u = .coll us
    · obtain ⟨us, rfl⟩ := h
      have hp := hashes_pair (ihk hh.1 hw.1) (ihw hh.2 hw.2) (fun x u h => decode_length k x u h)
      -- a block whose first slots hold the elements
      have el : ∀ j, j < us.length → ∃ h, ∀ env m (a : Nat), (env.str = σ ∧ ∃ cap vs, us = vs.take us.length ∧ us.length ≤ cap ∧
          m.length = cap * (k.memSize + w.memSize) ∧
          decN (decPair (decode k) (decode w) k.memSize) (k.memSize + w.memSize) cap m = some vs) →
          hashPair (instHash env k) (instHash env w) k.memSize m (j * (k.memSize + w.memSize)) = .ok h := by
        intro j hj
        obtain ⟨h, e⟩ := hp us[j]
        refine ⟨h, ?_⟩
        rintro env m _ ⟨he, cap, vs, h1, h2, h3, h4⟩
        obtain ⟨a, c, z, v', e1, e2, e3, e4, e5⟩ := decN_slot h3 h4 (i := j) (by omega)
        have : vs[j]? = some us[j] := by
          rw [← List.getElem?_take_of_lt hj, ← h1]
          exact List.getElem?_eq_getElem hj
        rw [this] at e5; cases e5
        have := e env he a c z e4
        rw [e2, ← e1] at this
        exact this
      by_cases hd : us.length > 0
      · obtain ⟨h0, e0⟩ := el 0 hd
        obtain ⟨h, e⟩ := combineFrom_ok (F := fun env m a j => hashPair (instHash env k) (instHash env w) k.memSize m (j * (k.memSize + w.memSize)))
          (us.length - 1) 1 (fun j hj hj' => el j (by omega)) h0
        refine ⟨h, fun env he pre x post hx => ?_⟩
        rw [decode] at hx
        obtain ⟨size, cap, blk, vs, e', g1, g2, g3, g4, rfl⟩ := decColl_iff.mp hx
        have hs : size = us.length := by
          have := decN_length g4
          have := congrArg (fun v => match v with | Val.coll l => l.length | _ => 0) e'
          simp at this; omega
        subst hs
        have hus : us = vs.take us.length := by injection e'
        have good : env.str = σ ∧ ∃ cap vs, us = vs.take us.length ∧ us.length ≤ cap ∧
          blk.length = cap * (k.memSize + w.memSize) ∧
          decN (decPair (decode k) (decode w) k.memSize) (k.memSize + w.memSize) cap blk = some vs := ⟨he, cap, vs, hus, g1, g3, g4⟩
        simp only [instHash, peekColl_at, Except.bind, if_true, if_pos hd]
        have k0 := e0 env blk 0 good
        rw [Nat.zero_mul] at k0
        rw [k0]
        exact e env blk 0 good
      · refine ⟨0, fun env he pre x post hx => ?_⟩
        rw [decode] at hx
        obtain ⟨size, cap, blk, vs, e', g1, g2, g3, g4, rfl⟩ := decColl_iff.mp hx
        have hs : size = us.length := by
          have := decN_length g4
          have := congrArg (fun v => match v with | Val.coll l => l.length | _ => 0) e'
          simp at this; omega
        simp only [instHash, peekColl_at, Except.bind, if_true, hs, if_neg hd]
    · refine ⟨0, fun env he pre x post hx => ?_⟩
      obtain ⟨us, e, _⟩ := hasTy_cases (T := .map k w b) (by rw [Ty.WF]; exact hw) ⟨x, hx⟩
      exact absurd ⟨_, e⟩ h
  | pair s t ihs iht =>
    intro hh hw
    rw [Hashable] at hh
    rw [Ty.WF] at hw
    rw [show decode (.pair s t) = decPair (decode s) (decode t) s.memSize from by funext cs; rw [decode],
      show (fun env => instHash env (.pair s t)) = fun env cs a => hashPair (instHash env s) (instHash env t) s.memSize cs a
        from by funext env cs a; rw [instHash]]
    exact hashes_pair (ihs hh.1 hw.1) (iht hh.2 hw.2) (fun x u h => decode_length s x u h)
  | als n t ih =>
    intro hh hw
    rw [Hashable] at hh
    rw [Ty.WF] at hw
    rw [show decode (.alias n t) = decode t from by funext cs; rw [decode],
      show (fun env => instHash env (.alias n t)) = fun env => instHash env t from by funext env x a; rw [instHash]]
    exact ih hh hw
  | struct n ms ih =>
    intro hh hw u
    rw [Hashable] at hh
    rw [Ty.WF] at hw
    by_cases h : ∃ us, u = .list us
    · obtain ⟨us, rfl⟩ := h
      obtain ⟨h, _, e⟩ := hashAll_ok ms ih hh hw us
      refine ⟨h, fun env he pre x post hx => ?_⟩
      rw [decode] at hx
      cases e1 : decodeAll ms x with
      | none => rw [e1] at hx; cases hx
      | some us' =>
        rw [e1] at hx; cases hx
        simp only [instHash]
        exact (e env he pre x post e1).1
    · refine ⟨0, fun env he pre x post hx => ?_⟩
      obtain ⟨us, e, _⟩ := hasTy_cases (T := .struct n ms) (by rw [Ty.WF]; exact hw) ⟨x, hx⟩
      exact absurd ⟨_, e⟩ h
  | union n d ms i ihd _ =>
    intro hh hw u
    rw [Hashable] at hh
    rw [Ty.WF] at hw
    have hr : ∀ d : Ty, ∀ env, instHash env d = instHash env d.rget := by
      intro d env
      induction d using Ty.ind with
      | als n t ih => funext a b; rw [instHash, ih, Ty.rget]
      | _ => rfl
    have hd : ∀ env pre (bs : List Byte) post, bs.length = d.memSize → instHash env d (pre ++ rawCells bs ++ post) pre.length = .ok (memHash bs) := by
      intro env pre bs post hb
      have h1 := hw.1
      rw [hr]
      rw [← Ty.rget_memSize] at hb
      unfold discOk at h1
      split at h1
      · rename_i k hk
        rw [hk] at hb ⊢
        rw [Ty.memSize] at hb
        rw [instHash, HashEnv.raw, bytes_at _ _ _ _ _ hb]; rfl
      · rename_i n w vs hk
        rw [hk] at hb ⊢
        rw [Ty.memSize] at hb
        rw [instHash, HashEnv.raw, bytes_at _ _ _ _ _ hb]; rfl
      · cases h1
    by_cases h : ∃ bs : List Byte, u = .unNone (.bytes bs) ∨ ∃ m w, u = .un (.bytes bs) m w
    · obtain ⟨bs, hu⟩ := h
      refine ⟨memHash bs, fun env he pre x post hx => ?_⟩
      obtain ⟨bs', rest, l1, l2, rfl, h1⟩ := decode_union_inv hw.1 hx
      have : bs' = bs := by
        rcases hu with rfl | ⟨_, _, rfl⟩ <;> rcases h1 with ⟨_, e⟩ | ⟨_, _, _, _, _, _, e⟩ <;> cases e <;> rfl
      subst this
      have k := hd env pre bs' (rest ++ post) l1
      simp only [← List.append_assoc] at k ⊢
      simp only [instHash]
      rw [k]
      simp only [Except.bind]
      have := hh bs' l1
      unfold UInfo.case at this
      rw [this]
    · refine ⟨0, fun env he pre x post hx => ?_⟩
      obtain ⟨bs', rest, l1, l2, rfl, h1⟩ := decode_union_inv hw.1 hx
      rcases h1 with ⟨_, e⟩ | ⟨_, _, _, _, _, _, e⟩
      · exact absurd ⟨_, .inl e⟩ h
      · exact absurd ⟨_, .inr ⟨_, _, e⟩⟩ h

end Verif.Inst
