import Verif.Props.Fixed8

/-!
# FromDecimal of Decimals of any length

Property C186. `decimal` rounds the product with 10^8 to 28 significant digits.
-/

namespace Neo.Props
open Py Neo.Fixed8

private theorem D_eq : (D : ℚ) = 100000000 := by norm_num [D]

private theorem coeff_val (d : Dec) : ((d.coeff * D : Int) : ℚ) * 10 ^ d.exp = d.val * 100000000 := by
  rw [Dec.val, Int.cast_mul, D_eq]
  ring

/-- Digits of the product: what the precision cuts off. -/
private theorem cut_le (c : Nat) (t : Nat) (h : c < 10 ^ (28 + t)) : decDigits c - 28 ≤ t := by
  have := (decDigits_le_iff c (28 + t)).2 h
  omega

private theorem cut_bound (c : Nat) : c < 10 ^ (28 + (decDigits c - 28)) :=
  lt_of_lt_of_le ((decDigits_le_iff c _).1 le_rfl) (Nat.pow_le_pow_right (by norm_num) (by omega))

private theorem cut_lower (c : Nat) (h : 0 < decDigits c - 28) : 10 ^ (27 + (decDigits c - 28)) ≤ c := by
  by_contra hc
  have := (decDigits_le_iff c _).2 (not_le.1 hc)
  omega

private theorem rounded_coeff_le (d : Dec) : |(d.rounded D).coeff| ≤ 10 ^ 28 := by
  have hb := cut_bound (d.coeff * D).natAbs
  rw [Dec.rounded]
  simp only
  generalize decDigits (d.coeff * D).natAbs - 28 = k at hb ⊢
  generalize d.coeff * D = c at hb ⊢
  have h10 : (0 : ℚ) < 10 ^ k := by positivity
  have hq : |(c : ℚ) / 10 ^ k| ≤ ((10 ^ 28 : Int) : ℚ) := by
    rw [abs_div, abs_of_pos h10, div_le_iff₀ h10, ← Int.cast_abs, Int.abs_eq_natAbs]
    rw [Int.cast_pow, Int.cast_ofNat, ← pow_add]
    exact_mod_cast hb.le
  have h1 := rne_close ((c : ℚ) / 10 ^ k)
  have h2 := abs_sub_abs_le_abs_sub (rne ((c : ℚ) / 10 ^ k) : ℚ) (c / 10 ^ k)
  have h3 : ((|rne ((c : ℚ) / 10 ^ k)| : Int) : ℚ) < ((10 ^ 28 + 1 : Int) : ℚ) := by
    rw [Int.cast_abs]
    push_cast at hq ⊢
    linarith
  have h4 := Int.cast_lt.1 h3
  exact Int.lt_add_one_iff.1 h4

/-- C186, exactly which amounts survive: those of 28 significant digits below the largest exponent of the context. -/
theorem C186_exact_iff_partial (d : Dec) (v : Int) (hv : d.val = (v : ℚ) / 100000000) :
    fromDecimal (.decimal d) = .ok v ↔ (∃ (m : Int) (j : Nat), |m| < 10 ^ 28 ∧ v = m * 10 ^ j) ∧ |(v : ℚ)| < 10 ^ 1000000 := by
  have hc := coeff_val d
  rw [hv, div_mul_cancel₀ _ (by norm_num)] at hc
  rw [fromDecimal_eq]
  have hexact : (10 : Int) ^ (decDigits (d.coeff * D).natAbs - 28) ∣ d.coeff * D → (d.rounded D).val = v := by
    intro h
    rw [rounded_val d h, hv, div_mul_cancel₀ _ (by norm_num)]
  have hint : (d.rounded D).val = v → (d.rounded D).toInt = v := by
    intro h
    rw [Dec.toInt, h]
    simp
  constructor
  · intro h
    by_cases hov : (10 : ℚ) ^ 1000000 ≤ |(d.rounded D).val|
    · rw [if_pos hov] at h; cases h
    rw [if_neg hov] at h
    have ht : (d.rounded D).toInt = v := Except.ok.inj h
    have hle := rounded_coeff_le d
    have hcases : (d.rounded D).val = v := by
      by_cases he : 0 ≤ (d.rounded D).exp
      · obtain ⟨t, he⟩ := Int.eq_ofNat_of_zero_le he
        have : (d.rounded D).val = (((d.rounded D).coeff * 10 ^ t : Int) : ℚ) := by
          rw [Dec.val, he]
          push_cast
          rw [zpow_natCast]
        rw [Dec.toInt, this, Int.ceil_intCast, Int.floor_intCast, ite_self] at ht
        rw [this, ht]
      · refine hexact ?_
        have he' : (d.rounded D).exp = d.exp + (decDigits (d.coeff * D).natAbs - 28 : Nat) := rfl
        rw [he'] at he
        generalize decDigits (d.coeff * D).natAbs - 28 = k at he ⊢
        obtain ⟨t, ht⟩ : ∃ t : Nat, d.exp = -((k + t : Nat) : Int) := ⟨(-d.exp - k).toNat, by omega⟩
        rw [ht, zpow_neg, zpow_natCast, ← div_eq_mul_inv, div_eq_iff (by positivity)] at hc
        have : d.coeff * D = v * 10 ^ (k + t) := by exact_mod_cast hc
        rw [this, pow_add, ← mul_assoc]
        exact ⟨v * 10 ^ t, by ring⟩
    rw [hcases] at hov
    refine ⟨?_, not_le.1 hov⟩
    clear hov h ht hexact hint hc
    rw [Dec.val] at hcases
    by_cases he : 0 ≤ (d.rounded D).exp
    · obtain ⟨t, he⟩ := Int.eq_ofNat_of_zero_le he
      rw [he] at hcases
      have e : (v : ℚ) = (((d.rounded D).coeff * 10 ^ t : Int) : ℚ) := by
        rw [← hcases]
        push_cast
        rw [zpow_natCast]
      have e : v = (d.rounded D).coeff * 10 ^ t := by exact_mod_cast e
      generalize (d.rounded D).coeff = R at e hle
      rcases lt_or_eq_of_le hle with h | h
      · exact ⟨R, t, h, e⟩
      · rcases (abs_eq (by norm_num)).1 h with h | h
        · exact ⟨1, 28 + t, by norm_num, by rw [e, h, pow_add, one_mul]⟩
        · exact ⟨-1, 28 + t, by norm_num, by rw [e, h, pow_add]; ring⟩
    · refine ⟨v, 0, ?_, by rw [pow_zero, mul_one]⟩
      obtain ⟨t, ht⟩ : ∃ t : Nat, (d.rounded D).exp = -((t + 1 : Nat) : Int) := ⟨(-(d.rounded D).exp - 1).toNat, by omega⟩
      rw [ht, zpow_neg, zpow_natCast, ← div_eq_mul_inv, div_eq_iff (by positivity)] at hcases
      have e : (d.rounded D).coeff = v * 10 ^ (t + 1) := by exact_mod_cast hcases
      rw [e, abs_mul, abs_of_pos (by positivity : (0 : Int) < 10 ^ (t + 1)), pow_succ] at hle
      have h1 : (1 : Int) ≤ 10 ^ t := one_le_pow₀ (by norm_num)
      have h2 := abs_nonneg v
      have h3 : |v| * 10 ≤ 10 ^ 28 := by nlinarith
      norm_num at h3 ⊢
      omega
  · rintro ⟨⟨m, j, hm, rfl⟩, hlt⟩
    have hval : (d.rounded D).val = ((m * 10 ^ j : Int) : ℚ) := by
      refine hexact ?_
      clear hlt hexact hint
      by_cases hje : 0 ≤ (j : Int) - d.exp
      · obtain ⟨t, ht⟩ := Int.eq_ofNat_of_zero_le hje
        have e : ((d.coeff * D : Int) : ℚ) = ((m * 10 ^ t : Int) : ℚ) := by
          have h0 : (10 : ℚ) ^ d.exp ≠ 0 := zpow_ne_zero _ (by norm_num)
          refine mul_right_cancel₀ h0 ?_
          rw [hc]
          push_cast
          rw [mul_assoc, ← zpow_natCast, ← zpow_natCast, ← zpow_add₀ (by norm_num)]
          congr 2
          omega
        have e : d.coeff * D = m * 10 ^ t := by exact_mod_cast e
        rw [e]
        refine Dvd.dvd.mul_left (pow_dvd_pow _ (cut_le _ _ ?_)) _
        rw [Int.natAbs_mul, Int.natAbs_pow, pow_add]
        have : m.natAbs < 10 ^ 28 := by rw [Int.abs_eq_natAbs] at hm; exact_mod_cast hm
        exact Nat.mul_lt_mul_of_pos_right this (by positivity)
      · obtain ⟨t, ht⟩ : ∃ t : Nat, d.exp = (j : Int) + t := ⟨(d.exp - j).toNat, by omega⟩
        have e : ((d.coeff * D * 10 ^ t : Int) : ℚ) = ((m : Int) : ℚ) := by
          have h0 : (10 : ℚ) ^ j ≠ 0 := by positivity
          refine mul_right_cancel₀ h0 ?_
          rw [ht, zpow_add₀ (by norm_num), zpow_natCast, zpow_natCast] at hc
          push_cast at hc ⊢
          rw [← hc]
          ring
        have e : d.coeff * D * 10 ^ t = m := by exact_mod_cast e
        have : decDigits (d.coeff * D).natAbs - 28 ≤ 0 := by
          refine cut_le _ 0 ?_
          rw [← e] at hm
          generalize d.coeff * D = c at hm ⊢
          rw [abs_mul, abs_of_pos (by positivity : (0 : Int) < 10 ^ t)] at hm
          have h1 : (1 : Int) ≤ 10 ^ t := one_le_pow₀ (by norm_num)
          have h2 : |c| < 10 ^ 28 := by nlinarith [abs_nonneg c]
          rw [Int.abs_eq_natAbs] at h2
          exact_mod_cast h2
        rw [Nat.le_zero.1 this, pow_zero]
        exact one_dvd _
    rw [if_neg (by rw [hval]; exact not_le.2 hlt), hint hval]

/-- An amount of 31 digits that ends in three zeros, with two trailing zeros more in the Decimal. -/
example : (Dec.mk 123456789012345678901234567800000 (-10)).val = ((1234567890123456789012345678000 : Int) : ℚ) / 100000000 ∧
    ∃ (m : Int) (j : Nat), |m| < 10 ^ 28 ∧ (1234567890123456789012345678000 : Int) = m * 10 ^ j := by
  refine ⟨by rw [Dec.val]; norm_num, 1234567890123456789012345678, 3, by norm_num, by norm_num⟩

/-- C186 fails: the last satoshi of an amount of 29 digits is lost. -/
theorem C186_violated : fromDecimal (.decimal ⟨10 ^ 28 + 1, -8⟩) = .ok (10 ^ 28) ∧
    (Dec.mk (10 ^ 28 + 1) (-8)).val = ((10 ^ 28 + 1 : Int) : ℚ) / 100000000 := by
  refine ⟨?_, by rw [Dec.val]; norm_num⟩
  decide +kernel

/-- C186, how close: less than a satoshi plus half a unit of the 28th digit; only `decimal.Overflow` is ever raised, and only
from about 10^1000000 satoshis on. -/
theorem C186_close_partial (d : Dec) :
    (∀ v, fromDecimal (.decimal d) = .ok v → |(v : ℚ) - d.val * 100000000| < 1 + |d.val * 100000000| * (5 / 10 ^ 28)) ∧
    (∀ e, fromDecimal (.decimal d) = .error e → e = .decimalOverflow ∧ 10 ^ 1000000 ≤ |d.val * 100000000| * (1 + 5 / 10 ^ 28)) := by
  have hr : |(d.rounded D).val - d.val * 100000000| ≤ |d.val * 100000000| * (5 / 10 ^ 28) := by
    have hc := coeff_val d
    have hcut := cut_lower (d.coeff * D).natAbs
    have he : (10 : ℚ) ^ d.exp > 0 := zpow_pos (by norm_num) _
    by_cases hk : decDigits (d.coeff * D).natAbs - 28 = 0
    · rw [rounded_val d (by rw [hk, pow_zero]; exact one_dvd _), sub_self, abs_zero]
      positivity
    · have hcut := hcut (by omega)
      rw [← hc]
      simp only [Dec.rounded, Dec.val]
      generalize decDigits (d.coeff * D).natAbs - 28 = k at hcut ⊢
      clear hk hc
      generalize d.coeff * D = c at hcut ⊢
      have h10 : (0 : ℚ) < 10 ^ k := by positivity
      have h1 := rne_close ((c : ℚ) / 10 ^ k)
      rw [zpow_add₀ (by norm_num), zpow_natCast, mul_comm ((10 : ℚ) ^ d.exp), ← mul_assoc, ← sub_mul, abs_mul, abs_mul, abs_of_pos he,
        mul_right_comm]
      refine mul_le_mul_of_nonneg_right ?_ he.le
      have h2 : (rne ((c : ℚ) / 10 ^ k) : ℚ) * 10 ^ k - c = ((rne ((c : ℚ) / 10 ^ k) : ℚ) - c / 10 ^ k) * 10 ^ k := by
        field_simp
      rw [h2, abs_mul, abs_of_pos h10]
      have h3 : (10 : ℚ) ^ 27 * 10 ^ k ≤ |(c : ℚ)| := by
        rw [← Int.cast_abs, Int.abs_eq_natAbs, ← pow_add]
        exact_mod_cast hcut
      have h4 : |(rne ((c : ℚ) / 10 ^ k) : ℚ) - c / 10 ^ k| * 10 ^ k ≤ 1 / 2 * 10 ^ k := mul_le_mul_of_nonneg_right h1 h10.le
      refine h4.trans ?_
      generalize (10 : ℚ) ^ k = u at h3 h10 ⊢
      norm_num at h3 ⊢
      linarith
  rw [fromDecimal_eq]
  by_cases hov : (10 : ℚ) ^ 1000000 ≤ |(d.rounded D).val|
  · rw [if_pos hov]
    refine ⟨fun v h => (by cases h), fun e h => ?_⟩
    cases h
    refine ⟨rfl, hov.trans ?_⟩
    clear hov
    generalize d.val * 100000000 = x at hr ⊢
    have := abs_sub_abs_le_abs_sub (d.rounded D).val x
    rw [mul_add, mul_one]
    linarith
  · rw [if_neg hov]
    clear hov
    refine ⟨fun v h => ?_, fun e h => by cases h⟩
    have hv : (d.rounded D).toInt = v := Except.ok.inj h
    have ht : |(v : ℚ) - (d.rounded D).val| < 1 := by
      rw [← hv, Dec.toInt, abs_lt]
      generalize (d.rounded D).val = x
      by_cases hx : x < 0
      · rw [if_pos hx]
        constructor <;> linarith [Int.le_ceil x, Int.ceil_lt_add_one x]
      · rw [if_neg hx]
        constructor <;> linarith [Int.floor_le x, Int.lt_floor_add_one x]
    have := abs_sub_le (v : ℚ) (d.rounded D).val (d.val * 100000000)
    linarith

end Neo.Props
