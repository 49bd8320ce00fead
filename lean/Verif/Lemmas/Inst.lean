import Verif.Lemmas.Compat
import Verif.Spec.Inst
import Mathlib.Tactic.NormNum
/-! # Lemmas on instances: memory, scalars, loops, construction -/

namespace Verif

/-- Every member type satisfies `P`. -/
def Mems.Forall (P : Ty → Prop) : Mems → Prop
  | .nil => True
  | .cons _ t r => P t ∧ r.Forall P

mutual
/-- Induction on types, with the members of aggregations at once. -/
theorem Ty.ind {P : Ty → Prop} (prim : ∀ k, P (.prim k)) (enum : ∀ n w vs, P (.enum n w vs))
    (str : ∀ k b, P (.str k b)) (seq : ∀ c b, P c → P (.seq c b)) (arr : ∀ n c d, P c → P (.arr n c d))
    (map : ∀ k v b, P k → P v → P (.map k v b)) (pair : ∀ x y, P x → P y → P (.pair x y))
    (als : ∀ n t, P t → P (.alias n t)) (struct : ∀ n ms, ms.Forall P → P (.struct n ms))
    (union : ∀ n d ms i, P d → ms.Forall P → P (.union n d ms i)) : (t : Ty) → P t
  | .prim k => prim k
  | .enum n w vs => enum n w vs
  | .str k b => str k b
  | .seq c b => seq c b (Ty.ind prim enum str seq arr map pair als struct union c)
  | .arr n c d => arr n c d (Ty.ind prim enum str seq arr map pair als struct union c)
  | .map k v b => map k v b (Ty.ind prim enum str seq arr map pair als struct union k)
      (Ty.ind prim enum str seq arr map pair als struct union v)
  | .pair x y => pair x y (Ty.ind prim enum str seq arr map pair als struct union x)
      (Ty.ind prim enum str seq arr map pair als struct union y)
  | .alias n t => als n t (Ty.ind prim enum str seq arr map pair als struct union t)
  | .struct n ms => struct n ms (Mems.ind prim enum str seq arr map pair als struct union ms)
  | .union n d ms i => union n d ms i (Ty.ind prim enum str seq arr map pair als struct union d)
      (Mems.ind prim enum str seq arr map pair als struct union ms)
theorem Mems.ind {P : Ty → Prop} (prim : ∀ k, P (.prim k)) (enum : ∀ n w vs, P (.enum n w vs))
    (str : ∀ k b, P (.str k b)) (seq : ∀ c b, P c → P (.seq c b)) (arr : ∀ n c d, P c → P (.arr n c d))
    (map : ∀ k v b, P k → P v → P (.map k v b)) (pair : ∀ x y, P x → P y → P (.pair x y))
    (als : ∀ n t, P t → P (.alias n t)) (struct : ∀ n ms, ms.Forall P → P (.struct n ms))
    (union : ∀ n d ms i, P d → ms.Forall P → P (.union n d ms i)) : (ms : Mems) → ms.Forall P
  | .nil => trivial
  | .cons _ t r => ⟨Ty.ind prim enum str seq arr map pair als struct union t,
      Mems.ind prim enum str seq arr map pair als struct union r⟩
end

theorem Mems.Forall.find {P : Ty → Prop} : {ms : Mems} → ms.Forall P → {n : String} → {t : Ty} →
    ms.find? n = some t → P t
  | .nil, _, _, _, h => by simp [Mems.find?] at h
  | .cons x u r, hf, n, t, h => by
    rw [Mems.find?] at h
    split at h
    · cases h; exact hf.1
    · exact Mems.Forall.find hf.2 h

theorem Mems.maxSize_find : {ms : Mems} → {n : String} → {t : Ty} → ms.find? n = some t →
    t.memSize ≤ ms.maxSize
  | .nil, _, _, h => by simp [Mems.find?] at h
  | .cons x u r, n, t, h => by
    rw [Mems.find?] at h
    rw [Mems.maxSize]
    split at h
    · cases h; omega
    · have := Mems.maxSize_find h; omega

namespace Inst

/-! ## Memory -/

@[simp] theorem owned_nil : owned [] = 0 := rfl
@[simp] theorem owned_append (x y : List Cell) : owned (x ++ y) = owned x + owned y := by simp [owned]
@[simp] theorem owned_rawCells (bs : List Byte) : owned (rawCells bs) = 0 := by
  simp [owned, rawCells, List.countP_eq_zero, Cell.owning]
@[simp] theorem rawCells_length (bs : List Byte) : (rawCells bs).length = bs.length := by simp [rawCells]

theorem owned_split (n : Nat) (x : List Cell) : owned x = owned (x.take n) + owned (x.drop n) := by
  rw [← owned_append, List.take_append_drop]

theorem owned_zero_of_take {x : List Cell} {n : Nat} (h : owned x = 0) : owned (x.take n) = 0 := by
  have := owned_split n x; omega
theorem owned_zero_of_drop {x : List Cell} {n : Nat} (h : owned x = 0) : owned (x.drop n) = 0 := by
  have := owned_split n x; omega

@[simp] theorem owned_replicate_raw (n : Nat) (b : Byte) : owned (List.replicate n (.raw b)) = 0 := by
  simp [owned, List.countP_replicate, Cell.owning]
@[simp] theorem owned_replicate_junk (n : Nat) : owned (List.replicate n .junk) = 0 := by
  simp [owned, List.countP_replicate, Cell.owning]

theorem put_at (pre old post new : List Cell) (lk : Nat) (h : new.length = old.length) :
    put ⟨pre ++ old ++ post, lk⟩ pre.length new = .ok ⟨pre ++ new ++ post, lk + owned old⟩ := by
  unfold put
  have h1 : pre.length + new.length ≤ (pre ++ old ++ post).length := by simp; omega
  rw [if_pos h1]
  simp [h, List.drop_append]

theorem clear_at (pre old post : List Cell) (lk n : Nat) (h : old.length = n) :
    clear ⟨pre ++ old ++ post, lk⟩ pre.length n = .ok ⟨pre ++ List.replicate n .junk ++ post, lk⟩ := by
  unfold clear
  have h1 : pre.length + n ≤ (pre ++ old ++ post).length := by simp; omega
  rw [if_pos h1]
  simp [← h, List.drop_append]

theorem peek_at (pre s post : List Cell) (n : Nat) (h : s.length = n) :
    peek (pre ++ s ++ post) pre.length n = .ok s := by
  unfold peek
  have h1 : pre.length + n ≤ (pre ++ s ++ post).length := by simp; omega
  rw [if_pos h1]
  simp [← h]

theorem bytesOf_rawBytes : (cs : List Cell) → (bs : List Byte) → bytesOf cs = some bs → rawBytes cs = .ok bs
  | [], bs, h => by simp [bytesOf] at h; subst h; rfl
  | .raw b :: r, bs, h => by
    rw [bytesOf] at h
    cases hr : bytesOf r with
    | none => rw [hr] at h; cases h
    | some x =>
      rw [hr] at h; cases h
      rw [rawBytes, bytesOf_rawBytes r x hr]; rfl
  | .junk :: r, bs, h => by simp [bytesOf] at h
  | .str _ _ _ :: r, bs, h => by simp [bytesOf] at h
  | .coll _ _ _ _ _ :: r, bs, h => by simp [bytesOf] at h
  | .tail :: r, bs, h => by simp [bytesOf] at h

theorem bytesOf_eq : (cs : List Cell) → (bs : List Byte) → bytesOf cs = some bs → cs = rawCells bs
  | [], bs, h => by simp [bytesOf] at h; subst h; rfl
  | .raw b :: r, bs, h => by
    rw [bytesOf] at h
    cases hr : bytesOf r with
    | none => rw [hr] at h; cases h
    | some x =>
      rw [hr] at h; cases h
      rw [bytesOf_eq r x hr]; rfl
  | .junk :: r, bs, h => by simp [bytesOf] at h
  | .str _ _ _ :: r, bs, h => by simp [bytesOf] at h
  | .coll _ _ _ _ _ :: r, bs, h => by simp [bytesOf] at h
  | .tail :: r, bs, h => by simp [bytesOf] at h

@[simp] theorem bytesOf_rawCells : (bs : List Byte) → bytesOf (rawCells bs) = some bs
  | [] => rfl
  | b :: r => by
    show (bytesOf (rawCells r)).map (b :: ·) = _
    rw [bytesOf_rawCells r]; rfl

@[simp] theorem rawBytes_rawCells (bs : List Byte) : rawBytes (rawCells bs) = .ok bs :=
  bytesOf_rawBytes _ _ (bytesOf_rawCells bs)

theorem decBytes_iff {n : Nat} {cs : List Cell} {v : Val} :
    decBytes n cs = some v ↔ ∃ bs, v = .bytes bs ∧ bs.length = n ∧ cs = rawCells bs := by
  unfold decBytes
  constructor
  · intro h
    split at h
    · rename_i hl
      cases hb : bytesOf cs with
      | none => rw [hb] at h; cases h
      | some bs =>
        rw [hb] at h; cases h
        have := bytesOf_eq _ _ hb
        exact ⟨bs, rfl, by rw [← hl, this]; simp, this⟩
    · cases h
  · rintro ⟨bs, rfl, hl, rfl⟩
    simp [hl]

theorem peekRaw_at (pre post : List Cell) (bs : List Byte) (n : Nat) (h : bs.length = n) :
    peekRaw (pre ++ rawCells bs ++ post) pre.length n = .ok bs := by
  unfold peekRaw
  rw [peek_at _ _ _ _ (by simp [h])]
  exact rawBytes_rawCells bs

/-! ## Scalars and labels -/

theorem leBytes_length : (n x : Nat) → (leBytes n x).length = n
  | 0, _ => rfl
  | n + 1, x => by rw [leBytes, List.length_cons, leBytes_length n]

theorem leNat_leBytes : (n x : Nat) → leNat (leBytes n x) = x % 256 ^ n
  | 0, x => by simp [leBytes, leNat, Nat.mod_one]
  | n + 1, x => by
    rw [leBytes, leNat, leNat_leBytes n]
    rw [BitVec.toNat_ofNat, show (2 : Nat) ^ 8 = 256 from rfl, Nat.pow_succ, Nat.mul_comm (256 ^ n) 256,
      Nat.mod_mul]

theorem leNat_lt : (bs : List Byte) → leNat bs < 256 ^ bs.length
  | [] => by simp [leNat]
  | b :: r => by
    have h1 := leNat_lt r
    have h2 := b.isLt
    rw [leNat, List.length_cons, Nat.pow_succ]
    omega

theorem leBytes_leNat : (bs : List Byte) → leBytes bs.length (leNat bs) = bs
  | [] => rfl
  | b :: r => by
    rw [List.length_cons, leBytes, leNat]
    have h2 := b.isLt
    have e1 : (b.toNat + 256 * leNat r) / 256 = leNat r := by omega
    have e2 : BitVec.ofNat 8 (b.toNat + 256 * leNat r) = b := by
      apply BitVec.eq_of_toNat_eq
      rw [BitVec.toNat_ofNat]; omega
    rw [e1, e2, leBytes_leNat r]

theorem shrinkLabel_narrow (v : Int) (s : Nat) (hs : s = 1 ∨ s = 2 ∨ s = 4) :
    shrinkLabel v s = v % 2 ^ (8 * s) := by
  have key : ∀ k : Nat, k < 8 → (BitVec.allOnes 64 >>> ((8 - k) * 8)).toNat = 2 ^ (8 * k) - 1 := by decide
  have hk : s < 8 := by omega
  have hpow : (2 : Nat) ^ (8 * s) ≤ 2 ^ 32 := Nat.pow_le_pow_right (by omega) (by omega)
  have hpos : 0 < (2 : Nat) ^ (8 * s) := Nat.two_pow_pos _
  have hnat : (BitVec.ofInt 64 v &&& (BitVec.allOnes 64 >>> ((8 - s) * 8))).toNat
      = (v % 2 ^ (8 * s)).toNat := by
    rw [BitVec.toNat_and, key s hk, Nat.and_two_pow_sub_one_eq_mod, BitVec.toNat_ofInt]
    rcases hs with rfl | rfl | rfl <;> norm_num <;> omega
  unfold shrinkLabel
  have hlt : (v % 2 ^ (8 * s)).toNat < 2 ^ (8 * s) := by
    have h1 := Int.emod_lt_of_pos v (show (0 : Int) < 2 ^ (8 * s) by exact_mod_cast hpos)
    have h2 := Int.emod_nonneg v (show (2 : Int) ^ (8 * s) ≠ 0 by
      exact_mod_cast (Nat.pos_iff_ne_zero.mp hpos))
    have : ((v % 2 ^ (8 * s)).toNat : Int) < ((2 ^ (8 * s) : Nat) : Int) := by
      rw [Int.toNat_of_nonneg h2]; push_cast; exact h1
    exact_mod_cast this
  rw [BitVec.toInt_eq_toNat_of_lt (by rw [hnat]; omega), hnat]
  exact Int.toNat_of_nonneg (Int.emod_nonneg v (by exact_mod_cast (Nat.pos_iff_ne_zero.mp hpos)))

theorem shrinkLabel_wide (v : Int) : shrinkLabel v 8 =
    if v % 18446744073709551616 < 9223372036854775808 then v % 18446744073709551616
    else v % 18446744073709551616 - 18446744073709551616 := by
  unfold shrinkLabel
  have : BitVec.allOnes 64 >>> ((8 - 8) * 8) = BitVec.allOnes 64 := by decide
  rw [this, BitVec.and_allOnes, BitVec.toInt_ofInt, Int.bmod_def]
  norm_num

theorem discOk_size {d : Ty} (h : discOk d) : d.memSize = 1 ∨ d.memSize = 2 ∨ d.memSize = 4 ∨ d.memSize = 8 := by
  rw [← Ty.rget_memSize]
  unfold discOk at h
  split at h
  · rename_i k hk; rw [hk]; cases k <;> simp_all [PK.isFloat, Ty.memSize, PK.size]
  · rename_i hk; rw [hk, h]; simp [Ty.memSize, EW.size]
  · cases h

theorem labelBytes_ok {d : Ty} (h : discOk d) (l : Int) :
    labelBytes d l = .ok (leBytes d.memSize (l % 2 ^ (8 * d.memSize)).toNat) := by
  rw [← Ty.rget_memSize]
  unfold discOk at h
  unfold labelBytes
  split at h
  · rename_i k hk; rw [hk]; cases k <;> simp_all [PK.isFloat, Ty.memSize, PK.size]
  · rename_i hk; rw [hk, h]; simp [Ty.memSize, EW.size]
  · cases h

theorem labelOf_bytes {s : Nat} (hs : s = 1 ∨ s = 2 ∨ s = 4 ∨ s = 8) {l : Int} (hl : shrinkLabel l s = l) :
    labelOf s (leBytes s (l % 2 ^ (8 * s)).toNat) = l := by
  unfold labelOf
  rw [leNat_leBytes]
  rcases hs with rfl | rfl | rfl | rfl
  · rw [shrinkLabel_narrow _ _ (by simp)] at hl; norm_num at *; omega
  · rw [shrinkLabel_narrow _ _ (by simp)] at hl; norm_num at *; omega
  · rw [shrinkLabel_narrow _ _ (by simp)] at hl; norm_num at *; omega
  · rw [shrinkLabel_wide] at hl
    norm_num at *
    split <;> omega

theorem labelOf_shrink {s : Nat} (hs : s = 1 ∨ s = 2 ∨ s = 4 ∨ s = 8) {bs : List Byte} (hb : bs.length = s) :
    shrinkLabel (labelOf s bs) s = labelOf s bs := by
  have hlt := leNat_lt bs
  rw [hb] at hlt
  unfold labelOf
  rcases hs with rfl | rfl | rfl | rfl
  · rw [shrinkLabel_narrow _ _ (by simp)]; norm_num at *; omega
  · rw [shrinkLabel_narrow _ _ (by simp)]; norm_num at *; omega
  · rw [shrinkLabel_narrow _ _ (by simp)]; norm_num at *; omega
  · rw [shrinkLabel_wide]
    norm_num at *
    split <;> omega

theorem readLabel_at {d : Ty} (h : discOk d) (pre post : List Cell) (bs : List Byte) (hb : bs.length = d.memSize) :
    readLabel d (pre ++ rawCells bs ++ post) pre.length = .ok (labelOf d.memSize bs) := by
  have hlt := leNat_lt bs
  rw [hb] at hlt
  have hp := peekRaw_at pre post bs _ hb
  rw [← Ty.rget_memSize] at hlt hp ⊢
  unfold discOk at h
  unfold readLabel
  split at h
  · rename_i k hk
    rw [hk] at hlt hp ⊢
    cases k <;> simp_all [PK.isFloat, Ty.memSize, PK.size, Except.map] <;>
      simp only [labelOf, intVal, signedK, PK.size, shrinkLabel_narrow _ _ (Or.inl rfl),
        shrinkLabel_narrow _ 2 (by simp), shrinkLabel_narrow _ 4 (by simp), shrinkLabel_wide] <;>
      norm_num at * <;> (try split) <;> (try split) <;> omega
  · rename_i hk
    rw [hk, h] at hlt hp ⊢
    simp_all [Ty.memSize, EW.size, Except.map]
    simp only [labelOf, intVal, signedK, PK.size, shrinkLabel_narrow _ 4 (by simp)]
    norm_num at *; omega
  · cases h

end Inst
end Verif
