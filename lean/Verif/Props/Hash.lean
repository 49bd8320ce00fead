import Verif.Model.Hash
/-!
# Hash of flat memory (C07, and the collision used for C08)
-/

namespace Verif

/-- `x ^ (x >> k)` loses no information (`k > 0`). -/
theorem xorshift_inj {k : Nat} (hk : 0 < k) {x y : BitVec 64}
    (h : x ^^^ (x >>> k) = y ^^^ (y >>> k)) : x = y := by
  have key : ∀ n i, 64 - i ≤ n → x.getLsbD i = y.getLsbD i := by
    intro n
    induction n with
    | zero =>
      intro i hi
      rw [BitVec.getLsbD_of_ge x i (by omega), BitVec.getLsbD_of_ge y i (by omega)]
    | succ n ih =>
      intro i hi
      have hb := congrArg (fun z => BitVec.getLsbD z i) h
      simp only [BitVec.getLsbD_xor, BitVec.getLsbD_ushiftRight] at hb
      rw [ih (k + i) (by omega)] at hb
      revert hb
      cases x.getLsbD i <;> cases y.getLsbD i <;> cases y.getLsbD (k + i) <;> simp
  exact BitVec.eq_of_getLsbD_eq (fun i _ => key 64 i (by omega))

theorem mul_inj_of_inverse {m m' : BitVec 64} (hm : m * m' = 1#64) {x y : BitVec 64}
    (h : x * m = y * m) : x = y := by
  have := congrArg (· * m') h
  simp only [BitVec.mul_assoc, hm, BitVec.mul_one] at this
  exact this

theorem mix_inj {x y : BitVec 64} (h : mix x = mix y) : x = y := by
  unfold mix at h
  have h1 := xorshift_inj (by decide) h
  have h2 := mul_inj_of_inverse (m := mixM) (m' := 0xa1bcefb14d101987#64) (by decide) h1
  exact xorshift_inj (by decide) h2

theorem hashM_inj {x y : BitVec 64} (h : x * hashM = y * hashM) : x = y :=
  mul_inj_of_inverse (m' := 0x28fc23783fb0706d#64) (by decide) h

theorem xor_left_cancel {x y z : BitVec 64} (h : x ^^^ y = x ^^^ z) : y = z := by
  have := congrArg (x ^^^ ·) h
  simpa [← BitVec.xor_assoc] using this

theorem hashRound_inj {h x y : BitVec 64} (e : hashRound h x = hashRound h y) : x = y :=
  mix_inj (xor_left_cancel (hashM_inj e))

theorem leWord_bit_ge (bs : List (BitVec 8)) : ∀ i, 8 * bs.length ≤ i → (leWord bs).getLsbD i = false := by
  induction bs with
  | nil => intro i _; simp [leWord]
  | cons b bs ih =>
    intro i hi
    simp only [List.length_cons] at hi
    simp only [leWord, BitVec.getLsbD_xor, BitVec.getLsbD_setWidth, BitVec.getLsbD_shiftLeft]
    rw [BitVec.getLsbD_of_ge b i (by omega), ih (i - 8) (by omega)]
    simp

theorem leWord_inj : ∀ (x y : List (BitVec 8)), x.length = y.length → x.length ≤ 8 →
    leWord x = leWord y → x = y := by
  intro x
  induction x with
  | nil => intro y hl _ _; cases y with
    | nil => rfl
    | cons => simp at hl
  | cons b bs ih =>
    intro y hl hle h
    cases y with
    | nil => simp at hl
    | cons c cs =>
      simp only [List.length_cons] at hl hle
      have hbit : ∀ i, ((leWord (b :: bs)).getLsbD i) = ((leWord (c :: cs)).getLsbD i) := by
        intro i; rw [h]
      simp only [leWord, BitVec.getLsbD_xor, BitVec.getLsbD_setWidth, BitVec.getLsbD_shiftLeft] at hbit
      have hbc : b = c := by
        apply BitVec.eq_of_getLsbD_eq
        intro i hi
        have := hbit i
        simpa [hi, show i < 64 by omega] using this
      have hrest : leWord bs = leWord cs := by
        apply BitVec.eq_of_getLsbD_eq
        intro i hi
        by_cases h56 : i < 56
        · have := hbit (i + 8)
          rw [BitVec.getLsbD_of_ge b (i + 8) (by omega), BitVec.getLsbD_of_ge c (i + 8) (by omega)] at this
          simpa [show i + 8 < 64 by omega, show ¬ (i + 8 < 8) by omega] using this
        · rw [leWord_bit_ge bs i (by omega), leWord_bit_ge cs i (by omega)]
      rw [hbc, ih cs (by omega) (by omega) hrest]

theorem hashLoop_short {h : BitVec 64} {x : List (BitVec 8)} (h0 : x ≠ []) (h8 : x.length ≤ 8) :
    hashLoop h x = hashRound h (leWord x) := by
  rw [hashLoop]
  split
  · rename_i hge
    have hlen : x.length = 8 := by omega
    rw [List.drop_eq_nil_of_le (by omega), hashLoop, List.take_of_length_le (by omega)]
    simp
  · rfl

theorem hashLoop_16 {h : BitVec 64} {x : List (BitVec 8)} (h8 : x.length = 16) :
    hashLoop h x = hashRound (hashRound h (leWord (x.take 8))) (leWord (x.drop 8)) := by
  rw [hashLoop, if_pos (by omega)]
  rw [hashLoop_short _ (by simp; omega)]
  intro h0
  have := congrArg List.length h0
  simp at this; omega

/-- C07: on instances of one type of at most eight bytes (every primitive except `long double`, every
enumeration, and arrays of these up to eight bytes), the hash is injective: two instances have the
same hash only if all their bytes are equal. -/
theorem C07_hash_injective_8 {x y : List (BitVec 8)} (hlen : x.length = y.length)
    (h8 : x.length ≤ 8) (h : memHash x = memHash y) : x = y := by
  by_cases h0 : x = []
  · subst h0
    exact (List.length_eq_zero_iff.mp hlen.symm).symm
  · have hy : y ≠ [] := by
      intro hy; subst hy; simp at hlen; exact h0 hlen
    unfold memHash hash64 at h
    have h1 := mix_inj h
    rw [hashLoop_short h0 h8, hashLoop_short hy (by omega), hlen] at h1
    exact leWord_inj x y hlen h8 (hashRound_inj h1)

example : memHash [1#8, 0#8, 0#8, 0#8] ≠ memHash [2#8, 0#8, 0#8, 0#8] := by
  intro h; have := C07_hash_injective_8 (x := [1#8, 0#8, 0#8, 0#8]) (y := [2#8, 0#8, 0#8, 0#8]) rfl
    (by decide) h
  revert this; decide

/-- C07 cannot be extended past eight bytes: two distinct 16-byte instances with the same hash. The
first is `1.0L`, the second another `long double` (or: two distinct `uint64_t[2]`). -/
def hashTwinA : List (BitVec 8) :=
  [0, 0, 0, 0, 0, 0, 0, 0x80, 0xff, 0x3f, 0, 0, 0, 0, 0, 0]

@[inherit_doc hashTwinA]
def hashTwinB : List (BitVec 8) :=
  [0xfe, 0x26, 0x4c, 0x3f, 0x39, 0x1f, 0xde, 0x9d, 0x01, 0, 0, 0, 0, 0, 0, 0]

theorem C07_fails_above_8 : hashTwinA.length = hashTwinB.length ∧ hashTwinA ≠ hashTwinB ∧
    memHash hashTwinA = memHash hashTwinB := by
  refine ⟨rfl, by decide, ?_⟩
  unfold memHash hash64
  rw [hashLoop_16 rfl, hashLoop_16 rfl]
  decide

end Verif
