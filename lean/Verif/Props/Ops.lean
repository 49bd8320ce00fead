import Verif.Model.Ops
/-!
# C38, C39: operators on integer data
-/

namespace Verif.Ops

/-! ## Specification -/

/-- The machine operation of a `w`-bit integer type, on bit vectors. Shift counts are read as
naturals. -/
def machine (op : Op) (sgn : Bool) {w : Nat} (a b : BitVec w) : BitVec w :=
  match op with
  | .add => a + b
  | .sub => a - b
  | .mul => a * b
  | .div => if sgn then a.sdiv b else a.udiv b
  | .mod => if sgn then a.srem b else a.umod b
  | .shl => a <<< b.toNat
  | .shr => if sgn then a.sshiftRight b.toNat else a >>> b.toNat
  | .and => a &&& b
  | .xor => a ^^^ b
  | .or => a ||| b

/-- The mathematical integer a datum of integer type represents. -/
def represents (k : PK) (v : BitVec (bits k)) : Int :=
  match k with
  | .i8 | .i16 | .i32 | .i64 | .c8 | .wc => BitVec.toInt v
  | _ => BitVec.toNat v

/-- A number does not fit the 32- or 64-bit signed type of `k`. -/
def Overflows (k : PK) (z : Int) : Prop :=
  match k with
  | .i32 => z < -(2 ^ 31) ∨ 2 ^ 31 ≤ z
  | .i64 => z < -(2 ^ 63) ∨ 2 ^ 63 ≤ z
  | _ => False

/-- Number of bits a shift count must stay below: C++ shifts narrow types as `int`. -/
def shiftLimit : PK → Nat
  | .i64 | .u64 => 64
  | _ => 32

/-- Where C++17 leaves the operation undefined: overflow of 32/64-bit signed results, overflow of
`int` by a product of two `uint16_t`, zero divisors, shift counts out of range, left shifts of
negative numbers or (as `int`/signed) beyond the unsigned range. -/
def Undef (op : Op) (k : PK) (a b : BitVec (bits k)) : Prop :=
  let x := represents k a
  let y := represents k b
  match op with
  | .add => Overflows k (x + y)
  | .sub => Overflows k (x - y)
  | .mul => Overflows k (x * y) ∨ (k = .u16 ∧ 2 ^ 31 ≤ x * y)
  | .div | .mod => y = 0 ∨ (y = -1 ∧ Overflows k (-x))
  | .shr => y < 0 ∨ shiftLimit k ≤ y
  | .shl => y < 0 ∨ shiftLimit k ≤ y ∨
      ((k ≠ .u32 ∧ k ≠ .u64) ∧ (x < 0 ∨ 2 ^ shiftLimit k ≤ x * 2 ^ y.toNat))
  | _ => False

/-! ## Lemmas -/

theorem represents_eq (k : PK) (v : BitVec (bits k)) : represents k v = val k v := by
  cases k <;> rfl

theorem conv_val (k : PK) (v : BitVec (bits k)) : conv k (val k v) = v := by
  unfold conv val
  split
  · exact BitVec.ofInt_toInt
  · simp

theorem bits_le (k : PK) : bits k ≤ pbits k := by unfold pbits; split <;> omega

theorem ofInt_emod' (w p : Nat) (h : w ≤ p) (z : Int) :
    BitVec.ofInt w (z % 2 ^ p) = BitVec.ofInt w z := by
  apply BitVec.eq_of_toNat_eq
  simp only [BitVec.toNat_ofInt]
  have : ((2 ^ w : Nat) : Int) ∣ 2 ^ p := by
    have : (2 ^ p : Int) = ((2 ^ p : Nat) : Int) := by simp
    rw [this]
    exact Int.natCast_dvd_natCast.mpr (Nat.pow_dvd_pow 2 h)
  rw [Int.emod_emod_of_dvd _ this]

theorem conv_pmod (k : PK) (z : Int) : conv k (z % 2 ^ pbits k) = conv k z :=
  ofInt_emod' _ _ (bits_le k) z

theorem conv_inPromoted {k : PK} {z r : Int} (h : inPromoted k z = .ok r) : conv k r = conv k z := by
  unfold inPromoted at h
  split at h
  · split at h
    · cases h; rfl
    · cases h
  · cases h
    exact conv_pmod k z

theorem inPromoted_cases (k : PK) (z : Int) :
    (∃ r, inPromoted k z = .ok r) ∨ inPromoted k z = .undefined := by
  unfold inPromoted
  split
  · split
    · exact .inl ⟨_, rfl⟩
    · exact .inr rfl
  · exact .inl ⟨_, rfl⟩

theorem setWidth_pvec (k : PK) (a : BitVec (bits k)) : (pvec k a).setWidth (bits k) = a := by
  apply BitVec.eq_of_toNat_eq
  have h := congrArg BitVec.toNat (conv_val k a)
  unfold conv at h
  rw [BitVec.toNat_ofInt] at h
  rw [BitVec.toNat_setWidth, pvec, BitVec.toNat_ofInt]
  have hd : ((2 ^ bits k : Nat) : Int) ∣ ((2 ^ pbits k : Nat) : Int) :=
    Int.natCast_dvd_natCast.mpr (Nat.pow_dvd_pow 2 (bits_le k))
  have h0 : (0 : Int) ≤ val k a % ((2 ^ pbits k : Nat) : Int) :=
    Int.emod_nonneg _ (by have := Nat.two_pow_pos (pbits k); omega)
  rw [← h]
  have e := Int.emod_emod_of_dvd (val k a) hd
  apply Int.ofNat.inj
  simp only [Int.ofNat_eq_natCast, Int.natCast_emod]
  rw [Int.toNat_of_nonneg h0, e, Int.toNat_of_nonneg (Int.emod_nonneg _ (by have := Nat.two_pow_pos (bits k); omega))]

theorem conv_pval (k : PK) (v : BitVec (pbits k)) : conv k (pval k v) = v.setWidth (bits k) := by
  have hd : ((2 ^ bits k : Nat) : Int) ∣ ((2 ^ pbits k : Nat) : Int) :=
    Int.natCast_dvd_natCast.mpr (Nat.pow_dvd_pow 2 (bits_le k))
  apply BitVec.eq_of_toNat_eq
  unfold conv pval
  rw [BitVec.toNat_ofInt, BitVec.toNat_setWidth]
  have key : ∀ z : Int, z % ((2 ^ pbits k : Nat) : Int) = (v.toNat : Int) →
      (z % ((2 ^ bits k : Nat) : Int)).toNat = v.toNat % 2 ^ bits k := by
    intro z hz
    rw [← Int.emod_emod_of_dvd z hd, hz]
    omega
  split
  · apply key
    rw [BitVec.toInt_eq_toNat_bmod, Int.bmod_emod]
    have := v.isLt
    exact Int.emod_eq_of_lt (by omega) (by exact_mod_cast this)
  · apply key
    exact Int.emod_eq_of_lt (by omega) (by exact_mod_cast v.isLt)

theorem val_lt (k : PK) (a : BitVec (bits k)) :
    -(2 ^ (bits k - 1)) ≤ val k a ∧ val k a < 2 ^ bits k ∧ (signed k = true → val k a < 2 ^ (bits k - 1)) ∧
    (signed k = false → 0 ≤ val k a) := by
  unfold val
  have h1 := a.isLt
  have h2 := @BitVec.toInt_lt (bits k) a
  have h3 := @BitVec.le_toInt (bits k) a
  cases k <;> simp only [signed, bits, PK.size] at * <;> simp at * <;> omega

theorem inPromoted_undef (k : PK) (hk : isInt k = true) (z : Int)
    (hz : bits k < 32 → k = .u16 ∨ (-(2 ^ 31) ≤ z ∧ z < 2 ^ 31))
    (h16 : k = .u16 → -(2 ^ 31) ≤ z) :
    inPromoted k z = .undefined ↔ (Overflows k z ∨ (k = .u16 ∧ 2 ^ 31 ≤ z)) := by
  unfold inPromoted Overflows psigned pbits bits
  cases k <;> simp [isInt, PK.size, signed, bits] at * <;> omega

theorem val_toNat (k : PK) (b : BitVec (bits k)) (h : 0 ≤ val k b) : (val k b).toNat = b.toNat := by
  unfold val at *
  split at h
  · rename_i hs
    simp only [hs, if_true]
    rw [BitVec.toInt_eq_toNat_cond] at *
    have := b.isLt
    split <;> omega
  · rename_i hs
    simp [hs]

theorem ofInt_natCast_mul_pow (w : Nat) (z : Int) (n : Nat) :
    BitVec.ofInt w (z * 2 ^ n) = BitVec.ofInt w z <<< n := by
  rw [BitVec.ofInt_mul, BitVec.shiftLeft_eq_mul_twoPow]
  congr 1
  apply BitVec.eq_of_toNat_eq
  have : (2 ^ n : Int) = ((2 ^ n : Nat) : Int) := by simp
  rw [this, BitVec.ofInt_natCast, BitVec.toNat_ofNat, BitVec.toNat_twoPow]

/-- Whenever the operator yields a value, it is that of the machine operation. -/
theorem eval_ok (op : Op) (k : PK) (a b : BitVec (bits k)) (z : Int)
    (h : eval op k a b = .ok z) : conv k z = machine op (signed k) a b := by
  have ha := conv_val k a
  have hb := conv_val k b
  unfold eval at h
  unfold machine
  cases op <;> simp only at h ⊢
  case mul =>
    rw [conv_inPromoted h]
    conv => rhs; rw [← ha, ← hb]
    exact BitVec.ofInt_mul ..
  case add =>
    rw [conv_inPromoted h]
    conv => rhs; rw [← ha, ← hb]
    exact BitVec.ofInt_add ..
  case sub =>
    rw [conv_inPromoted h]
    conv => rhs; rw [← ha, ← hb]
    unfold conv
    rw [Int.sub_eq_add_neg, BitVec.ofInt_add, BitVec.ofInt_neg, BitVec.sub_eq_add_neg]
  case div =>
    split at h
    · cases h
    · rw [conv_inPromoted h]
      unfold conv val
      split
      · apply BitVec.eq_of_toInt_eq
        rw [BitVec.toInt_ofInt, BitVec.toInt_sdiv]
      · apply BitVec.eq_of_toNat_eq
        rw [← Int.ofNat_tdiv, BitVec.ofInt_natCast, BitVec.toNat_ofNat]
        rw [BitVec.udiv_eq, BitVec.toNat_udiv]
        exact Nat.mod_eq_of_lt (Nat.lt_of_le_of_lt (Nat.div_le_self ..) a.isLt)
  case mod =>
    split at h
    · cases h
    · split at h
      · cases h
        unfold conv val
        split
        · apply BitVec.eq_of_toInt_eq
          rw [BitVec.toInt_ofInt, BitVec.toInt_srem, ← BitVec.toInt_srem, ← BitVec.toInt_ofInt,
            BitVec.ofInt_toInt]
        · apply BitVec.eq_of_toNat_eq
          rw [← Int.ofNat_tmod, BitVec.ofInt_natCast, BitVec.toNat_ofNat]
          rw [BitVec.umod_eq, BitVec.toNat_umod]
          exact Nat.mod_eq_of_lt (Nat.lt_of_le_of_lt (Nat.mod_le ..) a.isLt)
      · cases h
  case shl =>
    have base : ∀ n : Nat, conv k (val k a * 2 ^ n) = a <<< n := by
      intro n
      conv => rhs; rw [← ha]
      exact ofInt_natCast_mul_pow _ _ _
    split at h
    · cases h
    · rename_i hy
      have hy0 : 0 ≤ val k b := by omega
      rw [val_toNat k b hy0] at h
      split at h
      · split at h
        · cases h
        · split at h
          · cases h; exact base _
          · cases h
      · cases h
        rw [conv_pmod]
        exact base _
  case shr =>
    split at h
    · cases h
    · rename_i hy
      have hy0 : 0 ≤ val k b := by omega
      rw [val_toNat k b hy0] at h
      cases h
      unfold conv val
      split
      · apply BitVec.eq_of_toInt_eq
        have e : (2 ^ b.toNat : Int) = ((2 ^ b.toNat : Nat) : Int) := by simp
        rw [e, ← Int.shiftRight_eq_div_pow, ← BitVec.toInt_sshiftRight, BitVec.ofInt_toInt]
      · apply BitVec.eq_of_toNat_eq
        have e : (2 ^ b.toNat : Int) = ((2 ^ b.toNat : Nat) : Int) := by simp
        rw [e, ← Int.natCast_ediv, BitVec.ofInt_natCast, BitVec.toNat_ofNat, BitVec.toNat_ushiftRight,
          Nat.shiftRight_eq_div_pow]
        exact Nat.mod_eq_of_lt (Nat.lt_of_le_of_lt (Nat.div_le_self ..) a.isLt)
  case and =>
    cases h
    rw [conv_pval, BitVec.setWidth_and, setWidth_pvec, setWidth_pvec]
  case xor =>
    cases h
    rw [conv_pval, BitVec.setWidth_xor, setWidth_pvec, setWidth_pvec]
  case or =>
    cases h
    rw [conv_pval, BitVec.setWidth_or, setWidth_pvec, setWidth_pvec]

/-- Concrete ranges of the integer kinds. -/
def InRange (k : PK) (z : Int) : Prop :=
    match k with
    | .i8 => -(2 ^ 7) ≤ z ∧ z < 2 ^ 7
    | .u8 => 0 ≤ z ∧ z < 2 ^ 8
    | .i16 => -(2 ^ 15) ≤ z ∧ z < 2 ^ 15
    | .u16 => 0 ≤ z ∧ z < 2 ^ 16
    | .i32 => -(2 ^ 31) ≤ z ∧ z < 2 ^ 31
    | .u32 => 0 ≤ z ∧ z < 2 ^ 32
    | .i64 => -(2 ^ 63) ≤ z ∧ z < 2 ^ 63
    | .u64 => 0 ≤ z ∧ z < 2 ^ 64
    | _ => False

theorem range_cases (k : PK) (hk : isInt k = true) (a : BitVec (bits k)) : InRange k (val k a) := by
  have h := val_lt k a
  cases k <;> simp [isInt] at hk <;> simp [signed, bits, PK.size] at h <;> simp [InRange] <;> omega

theorem tdiv_bound (x y M : Int) (hy0 : y ≠ 0) (hy : y ≠ -1) (hx : -M ≤ x ∧ x < M) :
    -M ≤ x.tdiv y ∧ x.tdiv y < M := by
  by_cases h1 : y = 1
  · subst h1; simpa using hx
  · have h2 : 2 ≤ y.natAbs := by omega
    have h3 : (x.tdiv y).natAbs = x.natAbs / y.natAbs := Int.natAbs_tdiv x y
    have h4 : x.natAbs / y.natAbs ≤ x.natAbs / 2 := Nat.div_le_div_left h2 (by omega)
    generalize x.tdiv y = q at *
    generalize x.natAbs / y.natAbs = r at *
    omega

theorem tdiv_nonneg_bound (x y M : Int) (hx : 0 ≤ x ∧ x < M) (hy : 0 ≤ y) :
    0 ≤ x.tdiv y ∧ x.tdiv y < M := by
  have h3 : (x.tdiv y).natAbs = x.natAbs / y.natAbs := Int.natAbs_tdiv x y
  have h4 : x.natAbs / y.natAbs ≤ x.natAbs := Nat.div_le_self ..
  have h5 := Int.tdiv_nonneg hx.1 hy
  generalize x.tdiv y = q at *
  generalize x.natAbs / y.natAbs = r at *
  omega

theorem mul_bound (x y : Int) (M : Nat) (hx : x.natAbs ≤ M) (hy : y.natAbs ≤ M) :
    (x * y).natAbs ≤ M * M := by
  rw [Int.natAbs_mul]
  exact Nat.mul_le_mul hx hy

theorem div_undef (k : PK) (hk : isInt k = true) (a b : BitVec (bits k)) (h0 : val k b ≠ 0) :
    inPromoted k ((val k a).tdiv (val k b)) = .undefined ↔
      (val k b = -1 ∧ Overflows k (-(val k a))) := by
  have A := range_cases k hk a
  have B := range_cases k hk b
  have um : (val k a).tdiv (-1) = -(val k a) := by rw [Int.tdiv_neg]; simp
  by_cases h1 : val k b = -1
  · rw [h1, um]
    rw [inPromoted_undef k hk]
    · cases k <;> simp [isInt] at hk <;> simp only [InRange] at A B <;> simp [Overflows]
      omega
    · intro hb
      cases k <;> simp [isInt] at hk <;> simp only [InRange] at A B <;> simp [bits, PK.size] at hb ⊢ <;> omega
    · intro hb
      subst hb
      simp only [InRange] at A
      omega
  · simp only [h1, false_and, iff_false]
    have T := fun M => tdiv_bound (val k a) (val k b) M h0 h1
    have U := fun M => tdiv_nonneg_bound (val k a) (val k b) M
    unfold inPromoted psigned pbits
    cases k <;> simp [isInt] at hk <;> simp only [InRange] at A B <;> simp [bits, PK.size, signed]
    · have := T _ A; omega
    · have := U _ A B.1; omega
    · have := T _ A; omega
    · have := U _ A B.1; omega
    · have := T _ A; omega
    · have := T _ A; omega

theorem eval_undef (op : Op) (k : PK) (hk : isInt k = true) (a b : BitVec (bits k)) :
    eval op k a b = .undefined ↔ Undef op k a b := by
  have A := range_cases k hk a
  have B := range_cases k hk b
  unfold eval Undef
  rw [represents_eq, represents_eq]
  cases op <;> simp only
  case mul =>
    have M := mul_bound (val k a) (val k b)
    rw [inPromoted_undef k hk]
    · intro hb
      cases k <;> simp [isInt] at hk <;> simp only [InRange] at A B <;>
        simp [bits, PK.size] at hb ⊢
      · have := M (2 ^ 7) (by omega) (by omega); omega
      · have := M (2 ^ 8) (by omega) (by omega); omega
      · have := M (2 ^ 15) (by omega) (by omega); omega
    · intro hb
      subst hb
      have := Int.mul_nonneg A.1 B.1
      omega
  case add =>
    rw [inPromoted_undef k hk]
    · cases k <;> simp [isInt] at hk <;> simp only [InRange] at A B <;> simp [Overflows]
      omega
    · intro hb
      cases k <;> simp [isInt] at hk <;> simp only [InRange] at A B <;>
        simp [bits, PK.size] at hb ⊢ <;> omega
    · intro hb
      subst hb
      simp only [InRange] at A B
      omega
  case sub =>
    rw [inPromoted_undef k hk]
    · cases k <;> simp [isInt] at hk <;> simp only [InRange] at A B <;> simp [Overflows]
      omega
    · intro hb
      cases k <;> simp [isInt] at hk <;> simp only [InRange] at A B <;>
        simp [bits, PK.size] at hb ⊢ <;> omega
    · intro hb
      subst hb
      simp only [InRange] at A B
      omega
  case div =>
    split
    · simp [*]
    · rename_i h0
      rw [div_undef k hk a b h0]
      simp [h0]
  case mod =>
    split
    · simp [*]
    · rename_i h0
      have D := div_undef k hk a b h0
      rcases inPromoted_cases k ((val k a).tdiv (val k b)) with ⟨r, hr⟩ | hr
      · rw [hr] at D ⊢
        simp [h0] at D ⊢
        exact D
      · rw [hr] at D ⊢
        simp at D ⊢
        exact .inr D
  case shl =>
    have e : (pbits k : Int) = shiftLimit k := by
      cases k <;> simp [isInt] at hk <;> rfl
    have e2 : pbits k = shiftLimit k := by exact_mod_cast e
    have ps : psigned k = true ↔ (k ≠ .u32 ∧ k ≠ .u64) := by
      cases k <;> simp [isInt] at hk <;> simp [psigned, bits, PK.size, signed]
    rw [e, e2]
    split
    · rename_i h
      simp only [true_iff]
      rcases h with h | h
      · exact .inl h
      · exact .inr (.inl h)
    · rename_i h
      split
      · rename_i hp
        have hp' := ps.mp hp
        split
        · rename_i hx
          simp only [true_iff]
          exact .inr (.inr ⟨hp', .inl hx⟩)
        · rename_i hx
          split
          · rename_i hlt
            constructor
            · intro hh; cases hh
            · intro hh; rcases hh with hh | hh | ⟨_, hh | hh⟩ <;> omega
          · rename_i hlt
            simp only [true_iff]
            refine .inr (.inr ⟨hp', .inr ?_⟩)
            omega
      · rename_i hp
        constructor
        · intro hh; cases hh
        · intro hh
          rcases hh with hh | hh | ⟨hh, _⟩
          · omega
          · omega
          · exact absurd (ps.mpr hh) hp
  case shr =>
    have e : (pbits k : Int) = shiftLimit k := by
      cases k <;> simp [isInt] at hk <;> rfl
    rw [e]
    split
    · rename_i h; simp only [true_iff]; omega
    · rename_i h
      constructor
      · intro hh; cases hh
      · intro hh; omega
  all_goals
    constructor
    · intro hh; cases hh
    · intro hh; cases hh

theorem eval_cases (op : Op) (k : PK) (a b : BitVec (bits k)) :
    (∃ z, eval op k a b = .ok z) ∨ eval op k a b = .undefined := by
  unfold eval
  cases op <;> simp only
  case mul => exact inPromoted_cases ..
  case add => exact inPromoted_cases ..
  case sub => exact inPromoted_cases ..
  case div =>
    split
    · exact .inr rfl
    · exact inPromoted_cases ..
  case mod =>
    split
    · exact .inr rfl
    · rcases inPromoted_cases k ((val k a).tdiv (val k b)) with ⟨r, hr⟩ | hr
      · rw [hr]; exact .inl ⟨_, rfl⟩
      · rw [hr]; exact .inr rfl
  case shl =>
    split
    · exact .inr rfl
    · split
      · split
        · exact .inr rfl
        · split
          · exact .inl ⟨_, rfl⟩
          · exact .inr rfl
      · exact .inl ⟨_, rfl⟩
  case shr =>
    split
    · exact .inr rfl
    · exact .inl ⟨_, rfl⟩
  all_goals exact .inl ⟨_, rfl⟩

/-! ## Theorems -/

theorem isInt_not_float {k : PK} (h : isInt k = true) : k.isFloat = false := by
  cases k <;> simp [isInt] at h <;> rfl

/-- **C38 (binary operators).** For two data of one integer type, every binary operator yields a datum
of that type holding the result of the machine operation (the mathematical result modulo `2^width`,
truncating division, arithmetic right shift on signed types), except exactly where C++ leaves the
operation undefined. -/
theorem C38_binary_operator (op : Op) (k : PK) (hk : isInt k = true) (a b : BitVec (bits k)) :
    (¬ Undef op k a b → binop op ⟨k, a⟩ ⟨k, b⟩ = .ok ⟨k, machine op (signed k) a b⟩) ∧
    (Undef op k a b → binop op ⟨k, a⟩ ⟨k, b⟩ = .undefined) := by
  have hu := eval_undef op k hk a b
  have hb : binop op ⟨k, a⟩ ⟨k, b⟩ = (match eval op k a b with
      | .ok z => .ok ⟨k, conv k z⟩
      | .refused => .refused
      | .undefined => .undefined
      | .float => .float) := by
    simp [binop, isInt_not_float hk, hk]
    rfl
  rcases eval_cases op k a b with ⟨z, hz⟩ | hz
  · constructor
    · intro _
      rw [hb, hz]
      simp only
      rw [eval_ok op k a b z hz]
    · intro h
      rw [hz] at hu
      exact absurd (hu.mpr h) (by simp)
  · constructor
    · intro h
      exact absurd (hu.mp hz) h
    · intro _
      rw [hb, hz]

/-- **C38 (no wrap-around, no surprise).** When the mathematical sum, difference or product fits the
type, it is the result, for every integer type except products of two `uint16_t` (see
`C38_not_uint16_product`). -/
theorem C38_exact_when_representable (k : PK) (hk : isInt k = true) (h16 : k ≠ .u16)
    (a b r : BitVec (bits k)) :
    (represents k r = represents k a + represents k b → binop .add ⟨k, a⟩ ⟨k, b⟩ = .ok ⟨k, r⟩) ∧
    (represents k r = represents k a - represents k b → binop .sub ⟨k, a⟩ ⟨k, b⟩ = .ok ⟨k, r⟩) ∧
    (represents k r = represents k a * represents k b → binop .mul ⟨k, a⟩ ⟨k, b⟩ = .ok ⟨k, r⟩) := by
  have R := range_cases k hk r
  have nov : ∀ z, represents k r = z → ¬ Overflows k z := by
    intro z hz
    rw [represents_eq] at hz
    subst hz
    cases k <;> simp [isInt] at hk <;> simp only [InRange] at R <;> simp [Overflows] <;> omega
  refine ⟨fun h => ?_, fun h => ?_, fun h => ?_⟩
  · rw [(C38_binary_operator .add k hk a b).1 (nov _ h)]
    simp only [represents_eq] at h
    rw [← conv_val k r, h, conv, BitVec.ofInt_add]
    show Out.ok (Num.mk k (a + b)) = .ok ⟨k, conv k (val k a) + conv k (val k b)⟩
    rw [conv_val, conv_val]
  · rw [(C38_binary_operator .sub k hk a b).1 (nov _ h)]
    simp only [represents_eq] at h
    rw [← conv_val k r, h, conv, Int.sub_eq_add_neg, BitVec.ofInt_add, BitVec.ofInt_neg,
      ← BitVec.sub_eq_add_neg]
    show Out.ok (Num.mk k (a - b)) = .ok ⟨k, conv k (val k a) - conv k (val k b)⟩
    rw [conv_val, conv_val]
  · have hu : ¬ Undef .mul k a b := by
      intro hu
      rcases hu with hu | ⟨hu, _⟩
      · exact nov _ h hu
      · exact h16 hu
    rw [(C38_binary_operator .mul k hk a b).1 hu]
    simp only [represents_eq] at h
    rw [← conv_val k r, h, conv, BitVec.ofInt_mul]
    show Out.ok (Num.mk k (a * b)) = .ok ⟨k, conv k (val k a) * conv k (val k b)⟩
    rw [conv_val, conv_val]

/-- **C38 (negative result).** Unsigned 16-bit data promise arithmetic modulo `2^16`, but their product
is computed as `int`: 65535 * 65535 overflows it and is undefined. -/
theorem C38_not_uint16_product :
    binop .mul ⟨.u16, 65535#16⟩ ⟨.u16, 65535#16⟩ = .undefined := by decide

/-- **C38 (unsigned 32 and 64 bits).** `+ - * & ^ |` on unsigned 32- and 64-bit data (and the
bitwise operators on every integer type) are total and never undefined. -/
theorem C38_unsigned_total (op : Op) (k : PK) (a b : BitVec (bits k)) :
    ((k = .u32 ∨ k = .u64) ∧ op ∈ [Op.add, .sub, .mul] ∨ isInt k = true ∧ op ∈ [Op.and, .xor, .or]) →
    binop op ⟨k, a⟩ ⟨k, b⟩ = .ok ⟨k, machine op (signed k) a b⟩ := by
  intro h
  have hk : isInt k = true := by
    rcases h with ⟨h | h, _⟩ | ⟨h, _⟩
    · subst h; rfl
    · subst h; rfl
    · exact h
  refine (C38_binary_operator op k hk a b).1 ?_
  intro hu
  rcases h with ⟨hk', h⟩ | ⟨_, h⟩
  · simp at h
    rcases hk' with hk' | hk' <;> subst hk' <;> rcases h with h | h | h <;> subst h <;>
      simp [Undef, Overflows] at hu
  · simp at h
    rcases h with h | h | h <;> subst h <;> exact hu

/-- C38: with a floating point number on the left, remainder, shifts and the operations on bits are refused, whatever is on the right; the
other four are the operations of the hardware, which are not modelled. -/
theorem C38_floats (op : Op) (x y : Num) (hx : x.k.isFloat = true) :
    (op ∈ [Op.mod, .shl, .shr, .and, .xor, .or] → binop op x y = .refused ∧ assignOp op x y = .refused) ∧
    (op ∈ [Op.mul, .div, .add, .sub] → binop op x y = .float ∧ assignOp op x y = .float) := by
  unfold assignOp binop
  rw [if_pos hx]
  cases op <;> simp [Op.takesFloat]

/-- C38: 1.5 % 2.5 is refused. -/
example : binop .mod ⟨.f32, 0x3FC00000#32⟩ ⟨.f32, 0x40200000#32⟩ = .refused :=
  ((C38_floats .mod ⟨.f32, 0x3FC00000#32⟩ ⟨.f32, 0x40200000#32⟩ rfl).1 (by decide)).1

/-- **C38 (types).** An operand of another type is refused, and so are operands that are not numbers. -/
theorem C38_mismatch_refused (op : Op) (x y : Num) (hx : x.k.isFloat = false)
    (h : x.k ≠ y.k ∨ isInt x.k = false) : binop op x y = .refused := by
  unfold binop
  rw [hx]
  simp only [Bool.false_eq_true, if_false]
  split
  · rename_i hi
    have : y.k ≠ x.k := by
      rcases h with h | h
      · exact fun e => h e.symm
      · rw [h] at hi; cases hi
    simp [this]
  · rfl

/-- **C38 (comparisons).** Comparisons of two data of one integer, character or boolean type are
those of the represented values. -/
theorem C38_comparisons (k : PK) (hk : k.isFloat = false) (a b : BitVec (bits k)) :
    cmp .lt ⟨k, a⟩ ⟨k, b⟩ = .ok (decide (represents k a < represents k b)) ∧
    cmp .le ⟨k, a⟩ ⟨k, b⟩ = .ok (decide (represents k a ≤ represents k b)) ∧
    cmp .gt ⟨k, a⟩ ⟨k, b⟩ = .ok (decide (represents k b < represents k a)) ∧
    cmp .ge ⟨k, a⟩ ⟨k, b⟩ = .ok (decide (represents k b ≤ represents k a)) ∧
    cmp .land ⟨k, a⟩ ⟨k, b⟩ = .ok (decide (represents k a ≠ 0 ∧ represents k b ≠ 0)) ∧
    cmp .lor ⟨k, a⟩ ⟨k, b⟩ = .ok (decide (represents k a ≠ 0 ∨ represents k b ≠ 0)) ∧
    lnot ⟨k, a⟩ = .ok (decide (represents k a = 0)) := by
  simp only [represents_eq]
  refine ⟨?_, ?_, ?_, ?_, ?_, ?_, ?_⟩ <;> simp [cmp, lnot, hk]

/-- **C38 (trichotomy).** Exactly one of `<`, equal bits, `>` holds. -/
theorem C38_trichotomy (k : PK) (hk : k.isFloat = false) (a b : BitVec (bits k)) :
    (cmp .lt ⟨k, a⟩ ⟨k, b⟩ = .ok true ∧ a ≠ b ∧ cmp .gt ⟨k, a⟩ ⟨k, b⟩ = .ok false) ∨
    (cmp .lt ⟨k, a⟩ ⟨k, b⟩ = .ok false ∧ a = b ∧ cmp .gt ⟨k, a⟩ ⟨k, b⟩ = .ok false) ∨
    (cmp .lt ⟨k, a⟩ ⟨k, b⟩ = .ok false ∧ a ≠ b ∧ cmp .gt ⟨k, a⟩ ⟨k, b⟩ = .ok true) := by
  have hab : a = b ↔ val k a = val k b := by
    constructor
    · intro h; rw [h]
    · intro h; rw [← conv_val k a, h, conv_val]
  have C := C38_comparisons k hk a b
  simp only [represents_eq] at C
  rw [C.1, C.2.2.1, ne_eq, hab]
  rcases Int.lt_trichotomy (val k a) (val k b) with h | h | h
  · left; simp; omega
  · right; left; simp; omega
  · right; right; simp; omega

/-- **C38 (compound assignment).** `x op= y` leaves in `x` what `x op y` yields, whether `y` is a datum
or a C++ value of the same integer type. -/
theorem C38_compound_assignment (op : Op) (k : PK) (hk : isInt k = true) (a b : BitVec (bits k)) :
    assignOp op ⟨k, a⟩ ⟨k, b⟩ = binop op ⟨k, a⟩ ⟨k, b⟩ ∧
    assignOpVal op ⟨k, a⟩ k b = binop op ⟨k, a⟩ ⟨k, b⟩ := by
  refine ⟨rfl, ?_⟩
  cases k <;> simp [isInt] at hk <;> simp [assignOpVal, binop, isInt, PK.isFloat]

/-- **C38 (unary operators).** `-` on signed data is the machine negation except for the smallest
32/64-bit number (undefined); `~` on signed data inverts all bits; both are refused on unsigned data. -/
theorem C38_unary (k : PK) (a : BitVec (bits k)) :
    (k ∈ [PK.i8, .i16, .i32, .i64] →
      (¬ Overflows k (-(represents k a)) → neg ⟨k, a⟩ = .ok ⟨k, -a⟩) ∧
      (Overflows k (-(represents k a)) → neg ⟨k, a⟩ = .undefined) ∧ not ⟨k, a⟩ = .ok ⟨k, ~~~ a⟩) ∧
    (k ∈ [PK.u8, .u16, .u32, .u64] → neg ⟨k, a⟩ = .refused ∧ not ⟨k, a⟩ = .refused) := by
  have hn : ∀ k (a : BitVec (bits k)), isInt k = true → signed k = true →
      (¬ Overflows k (-(val k a)) → ∃ z, inPromoted k (-(val k a)) = .ok z ∧ conv k z = -a) ∧
      (Overflows k (-(val k a)) → inPromoted k (-(val k a)) = .undefined) := by
    intro k a hk hs
    have A := range_cases k hk a
    have U := inPromoted_undef k hk (-(val k a))
      (by intro hb; cases k <;> simp [isInt] at hk <;> simp only [InRange] at A <;> simp [bits, PK.size] at hb ⊢ <;>
            omega)
      (by intro hb; subst hb; simp only [InRange] at A; omega)
    constructor
    · intro h
      rcases inPromoted_cases k (-(val k a)) with ⟨r, hr⟩ | hr
      · refine ⟨r, hr, ?_⟩
        rw [conv_inPromoted hr, conv, BitVec.ofInt_neg]
        show -(conv k (val k a)) = -a
        rw [conv_val]
      · rcases U.mp hr with h' | ⟨h', _⟩
        · exact absurd h' h
        · subst h'; simp [signed] at hs
    · intro h
      exact U.mpr (.inl h)
  have ht : ∀ k (a : BitVec (bits k)), conv k (pval k (~~~ (pvec k a))) = ~~~ a := by
    intro k a
    rw [conv_pval, BitVec.setWidth_not (bits_le k), setWidth_pvec]
  rw [represents_eq]
  constructor
  · intro hk
    simp only [List.mem_cons, List.not_mem_nil, or_false] at hk
    rcases hk with hk | hk | hk | hk <;> subst hk <;>
    · refine ⟨fun h => ?_, fun h => ?_, ?_⟩
      · obtain ⟨z, hz, hc⟩ := (hn _ a rfl rfl).1 h
        simp [neg, PK.isFloat, hz, hc]
      · simp [neg, PK.isFloat, (hn _ a rfl rfl).2 h]
      · simp only [not, ht]
  · intro hk
    simp only [List.mem_cons, List.not_mem_nil, or_false] at hk
    rcases hk with hk | hk | hk | hk <;> subst hk <;> exact ⟨rfl, rfl⟩

/-- Hypotheses are met: wrap-around of unsigned 8-bit data, a signed division rounding to zero, an
arithmetic shift, an undefined overflow. -/
example : binop .add ⟨.u8, 250#8⟩ ⟨.u8, 10#8⟩ = .ok ⟨.u8, 4#8⟩ ∧
    binop .div ⟨.i32, -7#32⟩ ⟨.i32, 2#32⟩ = .ok ⟨.i32, -3#32⟩ ∧
    binop .shr ⟨.i16, -5#16⟩ ⟨.i16, 1#16⟩ = .ok ⟨.i16, -3#16⟩ ∧
    binop .add ⟨.i32, 2147483647#32⟩ ⟨.i32, 1#32⟩ = .undefined ∧
    cmp .lt ⟨.i8, -1#8⟩ ⟨.i8, 1#8⟩ = .ok true ∧ cmp .lt ⟨.u8, 255#8⟩ ⟨.u8, 1#8⟩ = .ok false := by
  decide

/-! ## C39 -/

theorem post_spec (d : Int) (k : PK) (hk : isInt k = true) (a : BitVec (bits k))
    (hd : d = 1 ∨ d = -1) (h : ¬ Overflows k (represents k a + d)) :
    post d ⟨k, a⟩ = .ok (⟨k, a + BitVec.ofInt _ d⟩, ⟨k, a + BitVec.ofInt _ d⟩) := by
  rw [represents_eq] at h
  have A := range_cases k hk a
  have U := inPromoted_undef k hk (val k a + d)
    (by intro hb; cases k <;> simp [isInt] at hk <;> simp only [InRange] at A <;> simp [bits, PK.size] at hb ⊢ <;>
          omega)
    (by intro hb; subst hb; simp only [InRange] at A; omega)
  rcases inPromoted_cases k (val k a + d) with ⟨r, hr⟩ | hr
  · have hc := conv_inPromoted hr
    rw [conv, conv, BitVec.ofInt_add] at hc
    have ha : BitVec.ofInt (bits k) (val k a) = a := conv_val k a
    rw [ha] at hc
    simp only [post, hk, if_true, stepVar, hr, conv, hc]
  · rcases U.mp hr with h' | ⟨h', h''⟩
    · exact absurd h' h
    · subst h'
      simp only [InRange] at A
      omega

/-- **C39 (prefix).** `++x` changes `x` by one and yields the new value; `--x` likewise downwards.
Undefined only where the next number does not fit a 32/64-bit signed type. -/
theorem C39_prefix (k : PK) (hk : isInt k = true) (a : BitVec (bits k)) :
    (¬ Overflows k (represents k a + 1) → pre 1 ⟨k, a⟩ = .ok (⟨k, a + 1⟩, ⟨k, a + 1⟩)) ∧
    (¬ Overflows k (represents k a - 1) → pre (-1) ⟨k, a⟩ = .ok (⟨k, a - 1⟩, ⟨k, a - 1⟩)) := by
  constructor
  · intro h
    rw [pre, post_spec 1 k hk a (.inl rfl) h]
    have : BitVec.ofInt (bits k) 1 = 1 := rfl
    rw [this]
  · intro h
    rw [pre, post_spec (-1) k hk a (.inr rfl) h]
    have : BitVec.ofInt (bits k) (-1) = -1 := by rw [BitVec.ofInt_neg]; rfl
    rw [this, ← BitVec.sub_eq_add_neg]

/-- **C39 (postfix, partial).** `x++` and `x--` change `x` by one. Missing: the value they yield, see
`C39_not_postfix_yields_previous`. -/
theorem C39_postfix_effect_partial (k : PK) (hk : isInt k = true) (a : BitVec (bits k)) :
    (¬ Overflows k (represents k a + 1) → ∃ r, post 1 ⟨k, a⟩ = .ok (⟨k, a + 1⟩, r)) ∧
    (¬ Overflows k (represents k a - 1) → ∃ r, post (-1) ⟨k, a⟩ = .ok (⟨k, a - 1⟩, r)) := by
  constructor
  · intro h
    rw [post_spec 1 k hk a (.inl rfl) h]
    exact ⟨_, rfl⟩
  · intro h
    rw [post_spec (-1) k hk a (.inr rfl) h]
    have : BitVec.ofInt (bits k) (-1) = -1 := by rw [BitVec.ofInt_neg]; rfl
    rw [this, ← BitVec.sub_eq_add_neg]
    exact ⟨_, rfl⟩

/-- **C39 (negative result).** The value `x++` yields is never the previous value of `x`: for every
integer type and every value for which the operation is defined, it is the new one. -/
theorem C39_not_postfix_yields_previous (k : PK) (hk : isInt k = true) (a : BitVec (bits k))
    (h : ¬ Overflows k (represents k a + 1)) :
    ∃ r, post 1 ⟨k, a⟩ = .ok (⟨k, a + 1⟩, ⟨k, r⟩) ∧ r = a + 1 ∧ r ≠ a := by
  refine ⟨a + 1, post_spec 1 k hk a (.inl rfl) h, rfl, ?_⟩
  intro e
  have e' : (1 : BitVec (bits k)) = 0 := by
    have := congrArg (fun z => z - a) e
    simpa [BitVec.add_comm a, BitVec.add_sub_cancel] using this
  cases k <;> simp [isInt] at hk <;> exact absurd e' (by decide)

example : pre 1 ⟨.i8, 127#8⟩ = .ok (⟨.i8, -128#8⟩, ⟨.i8, -128#8⟩) ∧
    post 1 ⟨.u32, 5#32⟩ = .ok (⟨.u32, 6#32⟩, ⟨.u32, 6#32⟩) ∧
    post 1 ⟨.i32, 2147483647#32⟩ = .undefined := by decide

end Verif.Ops
