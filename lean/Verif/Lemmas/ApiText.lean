import Verif.Spec.Api
import Verif.Lemmas.Inst
/-! # Decimal numerals -/

namespace Verif.Inst

theorem digitChar_toNat {n : Nat} (h : n < 10) : (Nat.digitChar n).toNat = 48 + n := by
  have : n = 0 ∨ n = 1 ∨ n = 2 ∨ n = 3 ∨ n = 4 ∨ n = 5 ∨ n = 6 ∨ n = 7 ∨ n = 8 ∨ n = 9 := by omega
  rcases this with rfl | rfl | rfl | rfl | rfl | rfl | rfl | rfl | rfl | rfl <;> rfl

theorem dec_digits (n : Nat) : Text.dec n = (Nat.toDigits 10 n).map Char.toNat := by
  induction n using Nat.strongRecOn with
  | _ n ih =>
    rw [Text.dec, Nat.toDigits_eq_if (by omega)]
    split
    · rename_i h
      simp [digitChar_toNat h]
    · rename_i h
      rw [ih (n / 10) (by omega), List.map_append]
      simp [digitChar_toNat (n := n % 10) (by omega)]

theorem dec_eq (n : Nat) : Text.dec n = ascii (toString n) := by
  rw [dec_digits, ascii]
  show _ = (String.ofList (Nat.toDigits 10 n)).toList.map Char.toNat
  rw [String.toList_ofList]

theorem ascii_append (s t : String) : ascii (s ++ t) = ascii s ++ ascii t := by simp [ascii]

theorem intText_eq (z : Int) : intText z = ascii (toString z) := by
  cases z with
  | ofNat n =>
    have : ¬ (Int.ofNat n < 0) := by simp
    rw [intText, if_neg this]
    exact dec_eq n
  | negSucc n =>
    rw [intText, if_pos (Int.negSucc_lt_zero n)]
    show 45 :: Text.dec (n + 1) = ascii ("-" ++ toString (n + 1))
    rw [ascii_append, dec_eq]; rfl

theorem bytes_eq (s : String) : Text.bytes s = ascii s := rfl

end Verif.Inst
