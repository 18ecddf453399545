import Verif.Model.Fixed8
import Verif.Proofs.Float
import Mathlib.Data.Nat.Log

/-! The product of a Decimal and 10^8 under the default context. -/

namespace Neo.Fixed8
open Py

/-- The product before the check of its exponent. -/
def Dec.rounded (d : Dec) (n : Int) : Dec :=
  ⟨rne (((d.coeff * n : Int) : ℚ) / 10 ^ (decDigits (d.coeff * n).natAbs - 28)), d.exp + (decDigits (d.coeff * n).natAbs - 28 : Nat)⟩

theorem decDigits_le_iff (c k : Nat) : decDigits c ≤ k ↔ c < 10 ^ k := by
  unfold decDigits
  by_cases h : c = 0
  · subst h
    simp
  · rw [if_neg h, Nat.succ_le_iff]
    exact Nat.log_lt_iff_lt_pow (by norm_num) h

/-- The exponent of the first digit, through the magnitude. -/
theorem adjusted_lt_iff (r : Dec) (h : r.coeff ≠ 0) (E : Nat) : (E : Int) < r.adjusted ↔ 10 ^ (E + 1) ≤ |r.val| := by
  have h10 : (0 : ℚ) < 10 ^ r.exp := zpow_pos (by norm_num) _
  unfold Dec.adjusted Dec.val
  rw [abs_mul, abs_of_pos h10]
  by_cases hk : 0 ≤ (E : Int) + 1 - r.exp
  · obtain ⟨k, hk⟩ := Int.eq_ofNat_of_zero_le hk
    have h1 : (E : Int) < decDigits r.coeff.natAbs + r.exp - 1 ↔ ¬ decDigits r.coeff.natAbs ≤ k := by omega
    have h2 : (10 : ℚ) ^ (E + 1) = ((10 ^ k : Nat) : ℚ) * 10 ^ r.exp := by
      push_cast
      rw [← zpow_natCast, ← zpow_natCast, ← zpow_add₀ (by norm_num)]
      congr 1
      push_cast
      omega
    rw [h1, decDigits_le_iff, h2, mul_le_mul_iff_left₀ h10, not_lt, ← Int.cast_abs, Int.abs_eq_natAbs]
    norm_cast
  · have hd : 1 ≤ decDigits r.coeff.natAbs := by
      unfold decDigits
      rw [if_neg (by omega)]
      omega
    refine ⟨fun _ => ?_, fun _ => by omega⟩
    have h1 : (1 : ℚ) ≤ |(r.coeff : ℚ)| := by
      rw [← Int.cast_abs]
      exact_mod_cast Int.one_le_abs h
    have h2 : (10 : ℚ) ^ (E + 1) ≤ 10 ^ r.exp := by
      rw [← zpow_natCast]
      refine zpow_le_zpow_right₀ (by norm_num) (by push_cast; omega)
    calc (10 : ℚ) ^ (E + 1) ≤ 1 * 10 ^ r.exp := by rwa [one_mul]
      _ ≤ _ := mul_le_mul_of_nonneg_right h1 h10.le

theorem mulInt_eq (d : Dec) (n : Int) : d.mulInt n =
    if 10 ^ 1000000 ≤ |(d.rounded n).val| then .error .decimalOverflow else .ok (d.rounded n) := by
  have e : d.mulInt n = if (d.rounded n).coeff ≠ 0 ∧ 999999 < (d.rounded n).adjusted then .error .decimalOverflow else .ok (d.rounded n) := rfl
  rw [e]
  generalize d.rounded n = r
  by_cases h0 : r.coeff = 0
  · rw [if_neg (fun h => h.1 h0), if_neg]
    rw [Dec.val, h0, Int.cast_zero, zero_mul, abs_zero, not_le]
    exact pow_pos (by norm_num) _
  · have h := adjusted_lt_iff r h0 999999
    have h' : (999999 : Int) < r.adjusted ↔ (10 : ℚ) ^ 1000000 ≤ |r.val| := h
    by_cases hc : (999999 : Int) < r.adjusted
    · rw [if_pos ⟨h0, hc⟩, if_pos (h'.1 hc)]
    · rw [if_neg (fun h => hc h.2), if_neg (fun h => hc (h'.2 h))]

end Neo.Fixed8
