import Verif.Lemmas.InstHash
import Verif.Spec.HashVal
/-! # Hashes of values -/

namespace Verif.Inst

/-- `f` computes `g` of the value. -/
def HashesTo (dec : List Cell → Option Val) (f : List Cell → Nat → M (BitVec 64)) (g : Val → BitVec 64) : Prop :=
  ∀ u pre x post, dec x = some u → f (pre ++ x ++ post) pre.length = .ok (g u)

theorem combineFrom_list {f : Nat → M (BitVec 64)} {hs : List (BitVec 64)} : (n i : Nat) → (h0 : BitVec 64) →
    i + n = hs.length → (∀ j (hj : j < hs.length), i ≤ j → f j = .ok hs[j]) →
    combineFrom f i n h0 = .ok ((hs.drop i).foldl hashCombine h0)
  | 0, i, h0, hl, _ => by rw [combineFrom, List.drop_of_length_le (by omega)]; rfl
  | n + 1, i, h0, hl, hf => by
    have hi : i < hs.length := by omega
    rw [combineFrom, hf i hi (Nat.le_refl _), List.drop_eq_getElem_cons hi]
    exact combineFrom_list n (i + 1) _ (by omega) fun j hj hij => hf j hj (by omega)

/-- The first one and the others. -/
theorem combineFrom_parts {f : Nat → M (BitVec 64)} {hs : List (BitVec 64)} (h0 : hs.length > 0)
    (hf : ∀ j (hj : j < hs.length), f j = .ok hs[j]) :
    ((f 0).bind fun h => combineFrom f 1 (hs.length - 1) h) = .ok (partsHash hs) := by
  rw [hf 0 h0]
  show combineFrom f 1 (hs.length - 1) _ = _
  rw [combineFrom_list (hs := hs) _ _ _ (by omega) fun j hj _ => hf j hj]
  match hs, h0 with
  | h :: r, _ => rfl

/-- Numbers in a row. -/
theorem decN_prim_bytes {k : PK} : {n : Nat} → {x : List Cell} → {us : List Val} → x.length = n * k.size →
    decN (decode (.prim k)) k.size n x = some us → x = rawCells (us.flatMap Val.rawBytes)
  | 0, x, us, hl, h => by
    rw [Nat.zero_mul] at hl
    simp only [decN, Option.some.injEq] at h
    subst h
    rw [List.length_eq_zero_iff.mp hl]; rfl
  | n + 1, x, us, hl, h => by
    rw [Nat.succ_mul] at hl
    rw [decN] at h
    cases e1 : decode (.prim k) (x.take k.size) with
    | none => rw [e1] at h; cases h
    | some v =>
      rw [e1] at h
      cases e2 : decN (decode (.prim k)) k.size n (x.drop k.size) with
      | none => simp only [Option.bind, e2, Option.map] at h; cases h
      | some vs =>
        simp only [Option.bind, e2, Option.map, Option.some.injEq] at h
        subst h
        have h2 := decN_prim_bytes (by rw [List.length_drop]; omega) e2
        rw [decode] at e1
        obtain ⟨bs, rfl, _, e⟩ := decBytes_iff.mp e1
        rw [List.flatMap_cons]
        conv => lhs; rw [← List.take_append_drop k.size x, e, h2]
        simp [rawCells, Val.rawBytes]

theorem hashesTo_pair {d1 d2 : List Cell → Option Val} {f1 f2 : List Cell → Nat → M (BitVec 64)} {g1 g2 : Val → BitVec 64}
    {s : Nat} (h1 : HashesTo d1 f1 g1) (h2 : HashesTo d2 f2 g2) (hs : ∀ x u, d1 x = some u → x.length = s) :
    HashesTo (decPair d1 d2 s) (fun cs a => hashPair f1 f2 s cs a)
      (fun u => match u with | .list [a, b] => partsHash [g1 a, g2 b] | _ => 0) := by
  intro u pre x post hx
  obtain ⟨a, b, rfl, ha, hb⟩ := decPair_iff.mp hx
  have la := hs _ _ ha
  have k1 := h1 a pre (x.take s) (x.drop s ++ post) ha
  have k2 := h2 b (pre ++ x.take s) (x.drop s) post hb
  have c1 : pre ++ x.take s ++ (x.drop s ++ post) = pre ++ x ++ post := by
    rw [List.append_assoc, ← List.append_assoc (x.take s), List.take_append_drop, List.append_assoc]
  rw [c1] at k1
  rw [List.append_assoc _ (x.drop s), c1, List.length_append, la] at k2
  simp only [hashPair, k1, Except.bind, k2, Except.map]
  rfl

theorem hashVals_ok {env : HashEnv} : (ms : Mems) →
    (ms.Forall fun T => Hashable T → T.WF → HashesTo (decode T) (instHash env T) (hashVal env.str T)) → HashableAll ms →
    ms.WF → (us : List Val) → ∀ pre x post, decodeAll ms x = some us →
      instHashAll env ms (pre ++ x ++ post) pre.length = .ok (partsHash (hashVals env.str ms us)) ∧
      ∀ h0, instHashRest env ms (pre ++ x ++ post) pre.length h0 = .ok ((hashVals env.str ms us).foldl hashCombine h0)
  | .nil, _, _, _, us => fun pre x post _ => ⟨by rw [instHashAll, hashVals]; rfl; simp, fun h0 => by
      rw [instHashRest, hashVals]; rfl; simp⟩
  | .cons n t r, hf, hh, hw, us => by
    rw [HashableAll] at hh
    rw [Mems.WF] at hw
    intro pre x post hx
    rw [decodeAll] at hx
    cases k1 : decode t (x.take t.memSize) with
    | none => rw [k1] at hx; cases hx
    | some u' =>
      rw [k1] at hx
      cases k2 : decodeAll r (x.drop t.memSize) with
      | none => simp only [Option.bind, k2, Option.map] at hx; cases hx
      | some us' =>
        simp only [Option.bind, k2, Option.map, Option.some.injEq] at hx
        subst hx
        have la := decode_length _ _ _ k1
        have m1 := hf.1 hh.1 hw.1 u' pre (x.take t.memSize) (x.drop t.memSize ++ post) k1
        have m2 := (hashVals_ok r hf.2 hh.2 hw.2 us' (pre ++ x.take t.memSize) (x.drop t.memSize) post k2).2
        have c1 : pre ++ x.take t.memSize ++ (x.drop t.memSize ++ post) = pre ++ x ++ post := by
          rw [List.append_assoc, ← List.append_assoc (x.take _), List.take_append_drop, List.append_assoc]
        rw [c1] at m1
        rw [List.append_assoc _ (x.drop _), c1, List.length_append, la] at m2
        rw [hashVals]
        constructor
        · rw [instHashAll, m1]; exact m2 _
        · intro h0
          rw [instHashRest, m1]; exact m2 _

/-- Elements in a row. -/
theorem decN_hashes {dec : List Cell → Option Val} {f : List Cell → Nat → M (BitVec 64)} {g : Val → BitVec 64}
    (hf : HashesTo dec f g) {s n : Nat} {x : List Cell} {us : List Val} (hl : x.length = n * s) (h : decN dec s n x = some us)
    (pre post : List Cell) (j : Nat) (hj : j < n) :
    ∃ v, us[j]? = some v ∧ f (pre ++ x ++ post) (pre.length + j * s) = .ok (g v) := by
  obtain ⟨a, b, z, v, e1, e2, e3, e4, e5⟩ := decN_slot hl h hj
  refine ⟨v, e5, ?_⟩
  have := hf v (pre ++ a) b (z ++ post) e4
  rw [List.length_append, e2] at this
  rw [← this, e1]; simp only [List.append_assoc]

/-- `hash` computes the hash of the value. -/
theorem hashVal_ok {env : HashEnv} (T : Ty) : Hashable T → T.WF → HashesTo (decode T) (instHash env T) (hashVal env.str T) := by
  induction T using Ty.ind with
  | prim k =>
    intro _ _ u pre x post h
    rw [decode] at h; obtain ⟨b, rfl, hl, rfl⟩ := decBytes_iff.mp h
    rw [instHash, HashEnv.raw, bytes_at _ _ _ _ _ hl, hashVal]; rfl
  | enum n w vs =>
    intro _ _ u pre x post h
    rw [decode] at h; obtain ⟨b, rfl, hl, rfl⟩ := decBytes_iff.mp h
    rw [instHash, HashEnv.raw, bytes_at _ _ _ _ _ hl, hashVal]; rfl
  | str k b =>
    intro _ _ u pre x post hx
    rw [decode] at hx
    obtain ⟨us', hp, rfl, _, rfl⟩ := decStr_iff.mp hx
    simp only [instHash, peekStr_at, Except.map, hashVal, Val.units]
  | seq c b _ =>
    intro hh _ u pre x post hx
    rw [Hashable] at hh
    simp only [instHash, hh, hashVal]; rfl
  | arr n c d ih =>
    intro hh hw u pre x post hx
    rw [Hashable] at hh
    rw [Ty.WF] at hw
    rw [decode] at hx
    split at hx
    case isFalse => cases hx
    rename_i hl
    cases e1 : decN (decode c) c.memSize d x with
    | none => rw [e1] at hx; cases hx
    | some us =>
      rw [e1] at hx
      simp only [Option.map, Option.some.injEq] at hx
      subst hx
      have hlen := decN_length e1
      simp only [instHash, hashVal, Val.parts]
      by_cases hd : d > 0
      · have hne : us ≠ [] := by rintro rfl; simp at hlen; omega
        rw [if_pos hd]
        cases hc : c.isConstructed with
        | false =>
          obtain ⟨k, rfl⟩ := prim_of_not_constructed hc
          simp only [Bool.false_eq_true, if_false, hne, ne_eq, not_false_eq_true, and_self, if_true]
          have hb := decN_prim_bytes (by rw [hl]; rfl) e1
          have hl' : (us.flatMap Val.rawBytes).length = d * (Ty.prim k).memSize := by
            rw [← hl]; conv => rhs; rw [hb]
            simp [rawCells]
          rw [hb, HashEnv.raw, bytes_at _ _ _ _ _ hl']; rfl
        | true =>
          simp only [if_true, Bool.true_eq_false, false_and, if_false]
          have := combineFrom_parts (f := fun i => instHash env c (pre ++ x ++ post) (pre.length + i * c.memSize))
            (hs := us.map (hashVal env.str c)) (by rw [List.length_map]; omega) (by
              intro j hj
              rw [List.length_map] at hj
              obtain ⟨v, h1, h2⟩ := decN_hashes (ih hh hw) hl e1 pre post j (by omega)
              rw [h2, List.getElem_map]
              rw [List.getElem?_eq_getElem hj] at h1
              cases h1; rfl)
          simp only [List.length_map, Nat.zero_mul, Nat.add_zero, hlen] at this
          exact this
      · rw [if_neg hd]
        have : us = [] := List.length_eq_zero_iff.mp (by omega)
        subst this
        simp [partsHash]
  | map k w b ihk ihw =>
    intro hh hw u pre x post hx
    rw [Hashable] at hh
    rw [Ty.WF] at hw
    have hp := hashesTo_pair (ihk hh.1 hw.1) (ihw hh.2 hw.2) (fun x u h => decode_length k x u h)
    rw [decode] at hx
    obtain ⟨size, cap, blk, vs, rfl, g1, g2, g3, g4, rfl⟩ := decColl_iff.mp hx
    have hlen := decN_length g4
    simp only [instHash, peekColl_at, Except.bind, if_true, hashVal, Val.parts]
    by_cases hd : size > 0
    · rw [if_pos hd]
      have := combineFrom_parts
        (f := fun i => hashPair (instHash env k) (instHash env w) k.memSize blk (i * (k.memSize + w.memSize)))
        (hs := (vs.take size).map fun e => match e with
          | .list [x, y] => partsHash [hashVal env.str k x, hashVal env.str w y]
          | _ => 0) (by rw [List.length_map, List.length_take]; omega) (by
          intro j hj
          rw [List.length_map, List.length_take] at hj
          obtain ⟨v, h1, h2⟩ := decN_hashes hp g3 g4 [] [] j (by omega)
          simp only [List.nil_append, List.append_nil, List.length_nil, Nat.zero_add] at h2
          rw [h2, List.getElem_map, List.getElem_take]
          rw [List.getElem?_eq_getElem (by omega)] at h1
          cases h1; rfl)
      simp only [List.length_map, List.length_take, Nat.zero_mul, show min size vs.length = size by omega] at this
      exact this
    · rw [if_neg hd]
      have : size = 0 := by omega
      subst this
      simp [partsHash]
  | pair s t ihs iht =>
    intro hh hw u pre x post hx
    rw [Hashable] at hh
    rw [Ty.WF] at hw
    rw [decode] at hx
    have := hashesTo_pair (ihs hh.1 hw.1) (iht hh.2 hw.2) (fun x u h => decode_length s x u h) u pre x post hx
    obtain ⟨a, b, rfl, _, _⟩ := decPair_iff.mp hx
    rw [instHash, hashVal]
    exact this
  | als n t ih =>
    intro hh hw u pre x post hx
    rw [Hashable] at hh
    rw [Ty.WF] at hw
    rw [decode] at hx
    rw [instHash, hashVal]
    exact ih hh hw u pre x post hx
  | struct n ms ih =>
    intro hh hw u pre x post hx
    rw [Hashable] at hh
    rw [Ty.WF] at hw
    rw [decode] at hx
    cases e1 : decodeAll ms x with
    | none => rw [e1] at hx; cases hx
    | some us =>
      rw [e1] at hx
      simp only [Option.map, Option.some.injEq] at hx
      subst hx
      rw [instHash, hashVal]
      exact (hashVals_ok ms ih hh hw us pre x post e1).1
  | union n d ms i ihd _ =>
    intro hh hw u pre x post hx
    rw [Hashable] at hh
    rw [Ty.WF] at hw
    have hr : ∀ d : Ty, instHash env d = instHash env d.rget := by
      intro d
      induction d using Ty.ind with
      | als n t ih => funext a b; rw [instHash, ih, Ty.rget]
      | _ => rfl
    obtain ⟨bs, rest, l1, l2, rfl, h1⟩ := decode_union_inv hw.1 hx
    have hd : instHash env d (pre ++ rawCells bs ++ (rest ++ post)) pre.length = .ok (memHash bs) := by
      have h1 := hw.1
      rw [hr]
      have hb := l1
      rw [← Ty.rget_memSize] at hb
      unfold discOk at h1
      split at h1
      · rename_i k hk
        rw [hk] at hb ⊢
        rw [Ty.memSize] at hb
        rw [instHash, HashEnv.raw, bytes_at _ _ _ _ _ hb]; rfl
      · rename_i n w vs hk
        rw [hk] at hb ⊢
        rw [Ty.memSize] at hb
        rw [instHash, HashEnv.raw, bytes_at _ _ _ _ _ hb]; rfl
      · cases h1
    simp only [← List.append_assoc] at hd ⊢
    simp only [instHash]
    rw [hd]
    simp only [Except.bind]
    have := hh bs l1
    unfold UInfo.case at this
    rw [this]
    rcases h1 with ⟨_, rfl⟩ | ⟨_, _, _, _, _, _, rfl⟩ <;> rw [hashVal] <;> rfl

end Verif.Inst
