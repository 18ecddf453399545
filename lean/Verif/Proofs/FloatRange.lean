import Verif.Proofs.Float

/-! Where binary64 overflows: exactly from 2^1024 - 2^970 on, half a unit above the largest float. -/

namespace Py

/-- The smallest magnitude that overflows. -/
def floatLimit : ℚ := 2 ^ 1024 - 2 ^ 970

private theorem pow_facts : (2 : ℚ) ^ (971 : ℤ) = 2 * 2 ^ 970 ∧ (2 : ℚ) ^ 1024 = 2 ^ 54 * 2 ^ 970 ∧ (2 : ℚ) ^ (1023 : ℤ) = 2 ^ 53 * 2 ^ 970 ∧
    (2 : ℚ) ^ (1024 : ℤ) = 2 ^ 54 * 2 ^ 970 ∧ (0 : ℚ) < 2 ^ 970 := by
  have h (n : Nat) : (2 : ℚ) ^ (n : ℤ) = 2 ^ n := zpow_natCast 2 n
  refine ⟨?_, ?_, ?_, ?_, by positivity⟩
  · rw [show (971 : ℤ) = ((971 : Nat) : ℤ) from rfl, h, ← pow_succ']
  · rw [← pow_add]
  · rw [show (1023 : ℤ) = ((1023 : Nat) : ℤ) from rfl, h, ← pow_add]
  · rw [show (1024 : ℤ) = ((1024 : Nat) : ℤ) from rfl, h, ← pow_add]

theorem floatLimit_eq : floatLimit = (2 ^ 54 - 1) * 2 ^ 970 := by
  obtain ⟨-, h, -⟩ := pow_facts
  rw [floatLimit, h]
  generalize (2 : ℚ) ^ 970 = u
  ring

theorem floatLimit_pos : 0 < floatLimit := by
  obtain ⟨-, -, -, -, h⟩ := pow_facts
  rw [floatLimit_eq]
  exact mul_pos (by norm_num) h

private theorem round_limit : roundQ floatLimit = 2 ^ 1024 := by
  obtain ⟨h1, h2, h3, h4, hu⟩ := pow_facts
  have hl : ulpExp floatLimit = 971 := by
    unfold ulpExp
    rw [abs_of_pos floatLimit_pos]
    have e1 : (1023 : ℤ) ≤ Int.log 2 floatLimit := by
      rw [← Int.zpow_le_iff_le_log (by norm_num) floatLimit_pos, floatLimit_eq]
      push_cast
      rw [h3]
      generalize (2 : ℚ) ^ 970 = u at hu
      nlinarith
    have e2 : Int.log 2 floatLimit < (1024 : ℤ) := by
      rw [← Int.lt_zpow_iff_log_lt (by norm_num) floatLimit_pos, floatLimit_eq]
      push_cast
      rw [h4]
      generalize (2 : ℚ) ^ 970 = u at hu
      nlinarith
    rw [max_eq_left] <;> omega
  unfold roundQ
  rw [hl, h1, h2, floatLimit_eq]
  generalize (2 : ℚ) ^ 970 = u at hu
  have : (2 ^ 54 - 1) * u / (2 * u) = 2 ^ 53 - 1 / 2 := by field_simp
  rw [this]
  have hr : rne (2 ^ 53 - 1 / 2 : ℚ) = 2 ^ 53 := by
    have hf : ⌊(2 ^ 53 - 1 / 2 : ℚ)⌋ = 2 ^ 53 - 1 := by rw [Int.floor_eq_iff]; norm_num
    unfold rne
    rw [hf]
    norm_num
  rw [hr]
  push_cast
  ring

/-- No float lies between the limit and 2^1024. -/
theorem representable_limit {x : ℚ} (hx : Representable x) (h : floatLimit ≤ x) : 2 ^ 1024 ≤ x := by
  rw [← round_limit, ← roundQ_exact hx]
  exact roundQ_mono h

/-- Numbers of a smaller magnitude than the limit. -/
theorem lt_floatLimit {a : ℚ} (h : a < 2 ^ 1023) : a < floatLimit := by
  refine lt_trans h ?_
  have h1 : (2 : ℚ) ^ 1023 = 2 ^ 53 * 2 ^ 970 := by rw [← pow_add]
  obtain ⟨-, -, -, -, hu⟩ := pow_facts
  rw [floatLimit_eq, h1]
  generalize (2 : ℚ) ^ 970 = u at hu
  nlinarith

theorem floatLimit_lt : floatLimit < 2 ^ 1024 := by
  rw [floatLimit]
  exact sub_lt_self _ (by positivity)

theorem floatLimit_int : floatLimit = ((2 ^ 1024 - 2 ^ 970 : Int) : ℚ) := by
  rw [floatLimit, Int.cast_sub, Int.cast_pow, Int.cast_pow, Int.cast_ofNat]

theorem abs_lt_limit (n : Int) : |(n : ℚ)| < floatLimit ↔ |n| < 2 ^ 1024 - 2 ^ 970 := by
  rw [floatLimit_int, ← Int.cast_abs, Int.cast_lt]

/-- The result is finite below the limit and infinite from it on. -/
theorem ofRat_fin_iff (q : ℚ) : (|q| < floatLimit → PyFloat.ofRat q = .fin (roundQ q)) ∧
    (floatLimit ≤ |q| → PyFloat.ofRat q = .inf (decide (q < 0))) := by
  obtain ⟨h1, h2, h3, h4, hu⟩ := pow_facts
  constructor
  · intro h
    unfold PyFloat.ofRat
    rw [if_neg]
    rw [not_le, roundQ_abs]
    generalize |q| = a at h
    have rM : Representable ((2 ^ 53 - 1) * 2 ^ (971 : ℤ)) := ⟨9007199254740991, 971, by norm_num, by norm_num, by norm_num⟩
    have rT : Representable ((2 : ℚ) ^ (1024 : ℤ)) := ⟨1, 1024, by norm_num, by norm_num, by rw [Int.cast_one, one_mul]⟩
    rw [floatLimit_eq] at h
    by_cases ha : a ≤ (2 ^ 53 - 1) * 2 ^ (971 : ℤ)
    · have := roundQ_le rM ha
      rw [h1] at this
      rw [h2]
      clear h1 h2 h3 h4 rM rT
      generalize (2 : ℚ) ^ 970 = u at *
      linarith
    · have n1 := roundQ_nearest a _ rM
      have n2 : roundQ a ≤ 2 ^ (1024 : ℤ) := roundQ_le rT (by
        rw [h4]
        clear h1 h2 h3 h4 rM rT n1 ha
        generalize (2 : ℚ) ^ 970 = u at *
        linarith)
      rw [h4] at n2
      rw [h1] at n1 ha
      rw [h2]
      refine lt_of_le_of_ne n2 fun he => ?_
      rw [he] at n1
      clear h1 h2 h3 h4 rM rT n2 he
      generalize (2 : ℚ) ^ 970 = u at *
      rw [abs_sub_comm ((2 ^ 53 - 1) * (2 * u)), abs_of_nonneg (by linarith), abs_of_nonneg (by linarith)] at n1
      nlinarith
  · intro h
    unfold PyFloat.ofRat
    rw [if_pos]
    rw [roundQ_abs, ← round_limit]
    exact roundQ_mono h

end Py
