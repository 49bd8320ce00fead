import Verif.Lemmas.IdlRegister
import Verif.Props.Ops
/-!
# Entering a constant
-/

namespace Verif.Idl.Syn
open Text Gen

theorem unquote_quoted (s : Bytes) : unquote (34 :: (s ++ [34])) = s := by
  have e1 : (34 :: (s ++ [34])).reverse = 34 :: (s.reverse ++ [34]) := by simp
  have e2 : (34 :: (s ++ [34])).idxOf? 34 = some 0 := by simp [List.idxOf?_cons]
  unfold unquote
  rw [e2, e1]
  simp

theorem bounded_id {b : Nat} {s : Bytes} (h : b = 0 ∨ s.length ≤ b) : bounded b s = s := by
  unfold bounded
  split
  · rfl
  · rename_i h0
    rcases h with h | h
    · exact absurd h h0
    · exact List.take_of_length_le h

/-- The value of a literal without sign. -/
def natItem (k : PK) (n : Nat) : Item := .const k (Ops.val k (Ops.conv k (n : Int)))

theorem literal_signed {k : PK} (hk : Ops.isInt k = true) (hs : Ops.signed k = true) {n : Nat} (h : n < 2 ^ 63) :
    literalValue (.prim k) (.text (dec n)) = .ok (natItem k n) := by
  cases k <;> first | exact absurd hk (by decide) | exact absurd hs (by decide) | skip
  all_goals
    simp only [literalValue, Ops.isInt, if_true, Ops.signed, strtoll_dec, natItem]
    rw [if_neg (by omega)]

theorem literal_unsigned {k : PK} (hk : Ops.isInt k = true) (hs : Ops.signed k = false) {n : Nat} (h : n < 2 ^ 64) :
    literalValue (.prim k) (.text (dec n)) = .ok (natItem k n) := by
  cases k <;> first | exact absurd hk (by decide) | exact absurd hs (by decide) | skip
  all_goals
    simp only [literalValue, Ops.isInt, if_true, Ops.signed, Bool.false_eq_true, if_false, strtoull_dec h, natItem]

theorem val_i8 (z : Int) : Ops.val .i8 (Ops.conv .i8 z) = z.bmod 256 := BitVec.toInt_ofInt (n := 8) z
theorem val_i16 (z : Int) : Ops.val .i16 (Ops.conv .i16 z) = z.bmod 65536 := BitVec.toInt_ofInt (n := 16) z
theorem val_i32 (z : Int) : Ops.val .i32 (Ops.conv .i32 z) = z.bmod 4294967296 := BitVec.toInt_ofInt (n := 32) z
theorem val_i64 (z : Int) : Ops.val .i64 (Ops.conv .i64 z) = z.bmod 18446744073709551616 := BitVec.toInt_ofInt (n := 64) z
theorem val_u (k : PK) (h : Ops.signed k = false) {n : Nat} (hn : n < 2 ^ Ops.bits k) : Ops.val k (Ops.conv k (n : Int)) = n := by
  rw [Ops.val, if_neg (by simp [h]), Ops.conv, BitVec.ofInt_natCast, BitVec.toNat_ofNat, Nat.mod_eq_of_lt hn]

theorem neg_const {k : PK} (hk : k = .i8 ∨ k = .i16 ∨ k = .i32 ∨ k = .i64) (n : Nat)
    (h : -(2 ^ (Ops.pbits k - 1)) ≤ -(Ops.val k (Ops.conv k n)) ∧ -(Ops.val k (Ops.conv k n)) < 2 ^ (Ops.pbits k - 1)) :
    negItem (natItem k n) = .ok (.const k (Ops.val k (Ops.conv k (-(Ops.val k (Ops.conv k n)))))) := by
  have e : Ops.inPromoted k (-(Ops.val k (Ops.conv k n))) = .ok (-(Ops.val k (Ops.conv k n))) := by
    rw [Ops.inPromoted, if_pos (by rcases hk with rfl | rfl | rfl | rfl <;> rfl), if_pos h]
  have e2 := Ops.conv_val k (Ops.conv k n)
  rcases hk with rfl | rfl | rfl | rfl
  all_goals
    simp only [negItem, natItem, toNum, e2, Ops.neg, PK.isFloat, Bool.false_eq_true, if_false, e, ofNum]

theorem solve_const {root : Mod Item} {p : Loc} {f : Nat} {i : Item} (h : WritableConst i) :
    solveExpr root p f i.type (exprOf i) = .ok i := by
  cases i with
  | ty t => exact absurd h id
  | text b s =>
    show literalValue (.str .s8 b) (.text (34 :: (s ++ [34]))) = _
    rw [literalValue, unquote_quoted, bounded_id h.2.1]
  | const k v =>
    have e : (Item.const k v).type = .prim k := rfl
    rw [e]
    have hneg : v < 0 → exprOf (.const k v) = .un .minus (.lit (.text (dec (-v).toNat))) := fun h => by rw [exprOf, if_pos h]
    have hpos : 0 ≤ v → exprOf (.const k v) = .lit (.text (dec v.toNat)) := fun h => by rw [exprOf, if_neg (by omega)]
    have unsigned : ∀ {k : PK} {v : Int}, Ops.isInt k = true → Ops.signed k = false → 0 ≤ v → v < 2 ^ Ops.bits k →
        solveExpr root p f (.prim k) (exprOf (.const k v)) = .ok (.const k v) := by
      intro k v h1 h2 h3 h4
      obtain ⟨n, rfl⟩ := Int.eq_ofNat_of_zero_le h3
      have h5 : n < 2 ^ Ops.bits k := by exact_mod_cast h4
      have h6 : n < 2 ^ 64 := Nat.lt_of_lt_of_le h5 (Nat.pow_le_pow_right (by decide) (by
        cases k <;> first | exact absurd h1 (by decide) | exact (by decide)))
      rw [exprOf, if_neg (by omega)]
      show literalValue (.prim k) (.text (dec n)) = _
      rw [literal_unsigned h1 h2 h6, natItem, val_u k h2 h5]
    have signed : ∀ {k : PK} {v : Int}, (k = .i8 ∨ k = .i16 ∨ k = .i32 ∨ k = .i64) → -2 ^ 63 < v → v < 2 ^ 63 →
        (0 ≤ v → Ops.val k (Ops.conv k v) = v) →
        (v < 0 → (-(2 ^ (Ops.pbits k - 1)) ≤ -(Ops.val k (Ops.conv k (-v))) ∧ -(Ops.val k (Ops.conv k (-v))) < 2 ^ (Ops.pbits k - 1)) ∧
          Ops.val k (Ops.conv k (-(Ops.val k (Ops.conv k (-v))))) = v) →
        solveExpr root p f (.prim k) (exprOf (.const k v)) = .ok (.const k v) := by
      intro k v hk h1 h2 h3 h4
      have hi : Ops.isInt k = true ∧ Ops.signed k = true := by rcases hk with rfl | rfl | rfl | rfl <;> exact ⟨rfl, rfl⟩
      by_cases hv : v < 0
      · have e : ((-v).toNat : Int) = -v := by omega
        obtain ⟨h5, h6⟩ := h4 hv
        rw [exprOf, if_pos hv]
        have e2 : solveExpr root p f (.prim k) (.lit (.text (dec (-v).toNat))) = .ok (natItem k (-v).toNat) :=
          literal_signed hi.1 hi.2 (by omega)
        rw [solveExpr, e2]
        simp only [Except.bind, if_true]
        rw [← e] at h5 h6
        rw [neg_const hk _ h5, h6]
      · have e : ((v).toNat : Int) = v := by omega
        rw [exprOf, if_neg hv]
        show literalValue (.prim k) (.text (dec v.toNat)) = _
        rw [literal_signed hi.1 hi.2 (by omega), natItem, e, h3 (by omega)]
    cases k with
    | bool =>
      have h : v = 0 := h
      subst h
      show literalValue (.prim .bool) (.text (dec 0)) = _
      decide +kernel
    | u8 => exact unsigned rfl rfl h.1 h.2
    | u16 => exact unsigned rfl rfl h.1 h.2
    | u32 => exact unsigned rfl rfl h.1 h.2
    | u64 => exact unsigned rfl rfl h.1 h.2
    | i8 =>
      obtain ⟨h1, h2⟩ : -2 ^ 7 ≤ v ∧ v < 2 ^ 7 := h
      have e : (2 : Int) ^ (Ops.pbits .i8 - 1) = 2147483648 := by decide
      refine signed (.inl rfl) (by omega) (by omega) (fun h0 => ?_) fun h0 => ?_
      · rw [val_i8, Int.bmod_def]; split <;> omega
      · simp only [val_i8, Int.bmod_def, e]
        omega
    | i16 =>
      obtain ⟨h1, h2⟩ : -2 ^ 15 ≤ v ∧ v < 2 ^ 15 := h
      have e : (2 : Int) ^ (Ops.pbits .i16 - 1) = 2147483648 := by decide
      refine signed (.inr (.inl rfl)) (by omega) (by omega) (fun h0 => ?_) fun h0 => ?_
      · rw [val_i16, Int.bmod_def]; split <;> omega
      · simp only [val_i16, Int.bmod_def, e]
        omega
    | i32 =>
      obtain ⟨h1, h2⟩ : -2 ^ 31 < v ∧ v < 2 ^ 31 := h
      have e : (2 : Int) ^ (Ops.pbits .i32 - 1) = 2147483648 := by decide
      refine signed (.inr (.inr (.inl rfl))) (by omega) (by omega) (fun h0 => ?_) fun h0 => ?_
      · rw [val_i32, Int.bmod_def]; split <;> omega
      · simp only [val_i32, Int.bmod_def, e]
        omega
    | i64 =>
      obtain ⟨h1, h2⟩ : -2 ^ 63 < v ∧ v < 2 ^ 63 := h
      have e : (2 : Int) ^ (Ops.pbits .i64 - 1) = 9223372036854775808 := by decide
      refine signed (.inr (.inr (.inr rfl))) (by omega) (by omega) (fun h0 => ?_) fun h0 => ?_
      · rw [val_i64, Int.bmod_def]; split <;> omega
      · simp only [val_i64, Int.bmod_def, e]
        omega
    | _ => exact absurd h id

theorem plain_of {i : Item} (h : WritableConst i) : PlainConst i := by
  cases i with
  | ty t => exact absurd h id
  | text b s => exact h.2.2
  | const k v => cases k <;> first | exact .inl rfl | exact .inr rfl | exact absurd h id

theorem kind_of {i : Item} (h : WritableConst i) : constKind i.type = .ok i.type ∧ logged i = .ok () := by
  cases i with
  | ty t => exact absurd h id
  | text b s => exact ⟨rfl, rfl⟩
  | const k v => cases k <;> first | exact ⟨rfl, rfl⟩ | exact absurd h id

theorem const_ev (c : Ctx) {root m : Mod Item} (hpr : Proper root) {p : Loc} (hm : root.at p = some m) {n : String} {i : Item}
    (h : Declarable ⟨c.char, c.wide16⟩ root p (.const n i)) :
    Ev fun f => buildConst c root p f (specOf i.type) (bytes n) (exprOf i) = (enter p (.const n i) root, none) := by
  obtain ⟨hn, hw⟩ := h
  have hco := ident_colon hn.1.1
  have hs := hasSymbol_false (free_symbol hm hn.2)
  have hi : (root.at p).isSome := by rw [hm]; rfl
  have he : Ev fun f => evalType c root p f (specOf i.type) = .ok i.type := by
    have := evalType_inside c hpr hi i.type (by
      cases i with
      | ty t => exact absurd hw id
      | text b s => exact ⟨hw.1, by simp, by simp⟩
      | const k v =>
        cases k <;> first | exact absurd hw id | exact ⟨by simp, by simp, by simp⟩)
    cases i with
    | ty t => exact absurd hw id
    | text b s => exact this
    | const k v => exact this
  refine he.mono fun f h1 => ?_
  unfold buildConst
  rw [h1]
  simp only [orStop, (kind_of hw).1, (kind_of hw).2, solve_const hw, nm_bytes]
  rw [register_put hm hco (hs.1 .const), enter_at hm]
  cases m with
  | mk cc ii => rfl

end Verif.Idl.Syn
