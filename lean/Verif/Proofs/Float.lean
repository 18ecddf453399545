import Verif.Py.Float
import Mathlib.Tactic.Linarith
import Mathlib.Tactic.Positivity
import Mathlib.Tactic.FieldSimp
import Mathlib.Tactic.Ring
import Mathlib.Tactic.NormNum

/-!
# Rounding to binary64: the facts used in the proofs

`roundQ_nearest` and `roundQ_representable` say that the model's rounding is what IEEE-754 asks for: the result is a
float and no float is nearer.
-/

namespace Py

/-- A number on the binary64 grid (53-bit significand, exponent at least -1074). -/
def Representable (x : ℚ) : Prop := ∃ (m : ℤ) (e : ℤ), |m| < 2 ^ 53 ∧ -1074 ≤ e ∧ x = m * 2 ^ e

theorem rne_cases (q : ℚ) : (rne q = ⌊q⌋ ∧ q - ⌊q⌋ ≤ 1 / 2) ∨ (rne q = ⌊q⌋ + 1 ∧ 1 / 2 ≤ q - ⌊q⌋) := by
  unfold rne
  split
  · left; exact ⟨rfl, by linarith⟩
  · split
    · right; exact ⟨rfl, by linarith⟩
    · split
      · left; exact ⟨rfl, by linarith⟩
      · right; exact ⟨rfl, by linarith⟩

theorem rne_close (q : ℚ) : |(rne q : ℚ) - q| ≤ 1 / 2 := by
  have h1 := Int.floor_le q
  have h2 := Int.lt_floor_add_one q
  rw [abs_le]
  rcases rne_cases q with ⟨h, h'⟩ | ⟨h, h'⟩
  · rw [h]; constructor <;> linarith
  · rw [h]; push_cast; constructor <;> linarith

theorem rne_intCast (n : ℤ) : rne (n : ℚ) = n := by
  unfold rne
  simp

theorem rne_nearest (q : ℚ) (n : ℤ) : |(rne q : ℚ) - q| ≤ |(n : ℚ) - q| := by
  have h1 := Int.floor_le q
  have h2 := Int.lt_floor_add_one q
  have hn : n ≤ ⌊q⌋ ∨ ⌊q⌋ + 1 ≤ n := by omega
  have hd : q - ⌊q⌋ ≤ |(n : ℚ) - q| ∨ ⌊q⌋ + 1 - q ≤ |(n : ℚ) - q| := by
    rcases hn with h | h
    · left
      have : (n : ℚ) ≤ ⌊q⌋ := by exact_mod_cast h
      rw [abs_sub_comm]
      exact le_trans (by linarith) (le_abs_self _)
    · right
      have : (⌊q⌋ : ℚ) + 1 ≤ n := by exact_mod_cast h
      exact le_trans (by linarith) (le_abs_self _)
  rcases rne_cases q with ⟨h, h'⟩ | ⟨h, h'⟩
  · rw [h, abs_sub_comm, abs_of_nonneg (by linarith)]
    rcases hd with h3 | h3 <;> linarith
  · rw [h]; push_cast
    rw [abs_of_nonneg (by linarith)]
    rcases hd with h3 | h3 <;> linarith

theorem two_zpow_pos (e : ℤ) : (0 : ℚ) < 2 ^ e := zpow_pos (by norm_num) e

/-- The rounding error is at most half a unit in the last place. -/
theorem roundQ_close (q : ℚ) : |roundQ q - q| ≤ 2 ^ ulpExp q / 2 := by
  have hp := two_zpow_pos (ulpExp q)
  have h := rne_close (q / 2 ^ ulpExp q)
  unfold roundQ
  have : (rne (q / 2 ^ ulpExp q) : ℚ) * 2 ^ ulpExp q - q = (rne (q / 2 ^ ulpExp q) - q / 2 ^ ulpExp q) * 2 ^ ulpExp q := by
    field_simp
  rw [this, abs_mul, abs_of_pos hp]
  calc _ ≤ 1 / 2 * 2 ^ ulpExp q := mul_le_mul_of_nonneg_right h hp.le
    _ = _ := by ring

theorem roundQ_nearest_grid (q : ℚ) (n : ℤ) : |roundQ q - q| ≤ |n * 2 ^ ulpExp q - q| := by
  have hp := two_zpow_pos (ulpExp q)
  have h := rne_nearest (q / 2 ^ ulpExp q) n
  have e : ∀ m : ℤ, (m : ℚ) * 2 ^ ulpExp q - q = (m - q / 2 ^ ulpExp q) * 2 ^ ulpExp q := by
    intro m; field_simp
  unfold roundQ
  rw [e, e, abs_mul, abs_mul, abs_of_pos hp]
  exact mul_le_mul_of_nonneg_right h hp.le

theorem log_le_abs {q : ℚ} (hq : q ≠ 0) : (2 : ℚ) ^ Int.log 2 |q| ≤ |q| := by
  have := Int.zpow_log_le_self (b := 2) (r := |q|) (by norm_num) (abs_pos.mpr hq)
  exact_mod_cast this

theorem abs_lt_log {q : ℚ} : |q| < (2 : ℚ) ^ (Int.log 2 |q| + 1) := by
  have := Int.lt_zpow_succ_log_self (R := ℚ) (b := 2) (by norm_num) |q|
  exact_mod_cast this

/-- A representable number of magnitude at least 2^k is a multiple of 2^(k-52). -/
theorem representable_multiple {x : ℚ} (hx : Representable x) (k : ℤ) (hk : (2 : ℚ) ^ k ≤ |x|) (u : ℤ)
    (hu : u ≤ max (k - 52) (-1074)) : ∃ n : ℤ, x = n * 2 ^ u := by
  obtain ⟨m, e, hm, he, rfl⟩ := hx
  have hue : u ≤ e := by
    by_contra hcon
    have hm' : (|(m : ℚ)|) < 2 ^ (53 : ℤ) := by
      have : ((|m| : ℤ) : ℚ) < ((2 ^ 53 : ℤ) : ℚ) := Int.cast_lt.mpr hm
      rw [Int.cast_abs] at this
      refine lt_of_lt_of_eq this ?_
      norm_num
    have h1 : |(m : ℚ) * 2 ^ e| < 2 ^ (53 : ℤ) * 2 ^ e := by
      rw [abs_mul, abs_of_pos (two_zpow_pos e)]
      exact mul_lt_mul_of_pos_right hm' (two_zpow_pos e)
    rw [← zpow_add₀ (by norm_num)] at h1
    have h2 : (2 : ℚ) ^ k < 2 ^ (53 + e) := lt_of_le_of_lt hk h1
    rw [zpow_lt_zpow_iff_right₀ (by norm_num)] at h2
    omega
  refine ⟨m * 2 ^ (e - u).toNat, ?_⟩
  push_cast
  rw [mul_assoc, ← zpow_natCast, ← zpow_add₀ (by norm_num)]
  congr 2
  omega

/-- No representable number is nearer than the rounded one. -/
theorem roundQ_nearest (q x : ℚ) (hx : Representable x) : |roundQ q - q| ≤ |x - q| := by
  by_cases hq : q = 0
  · subst hq
    have : roundQ 0 = 0 := by
      have := rne_intCast 0
      unfold roundQ
      simp at this
      simp [this]
    rw [this]
    simp
  by_cases hk : (2 : ℚ) ^ Int.log 2 |q| ≤ |x|
  · obtain ⟨n, hn⟩ := representable_multiple hx _ hk (ulpExp q) (le_refl _)
    rw [hn]
    exact roundQ_nearest_grid q n
  · have hk := not_le.mp hk
    by_cases hu : Int.log 2 |q| - 52 ≤ -1074
    · have hue : ulpExp q = -1074 := max_eq_right hu
      obtain ⟨m, e, hm, he, rfl⟩ := hx
      have : (m : ℚ) * 2 ^ e = ((m * 2 ^ (e + 1074).toNat : ℤ) : ℚ) * 2 ^ ulpExp q := by
        rw [hue]
        push_cast
        rw [mul_assoc, ← zpow_natCast, ← zpow_add₀ (by norm_num)]
        congr 2
        omega
      rw [this]
      exact roundQ_nearest_grid q _
    · have hue : ulpExp q = Int.log 2 |q| - 52 := max_eq_left (by omega)
      have hpow : ((2 : ℚ) ^ Int.log 2 |q|) = ((2 ^ 52 : ℤ) : ℚ) * 2 ^ ulpExp q := by
        rw [hue, zpow_sub₀ (by norm_num)]
        push_cast
        field_simp
      have hle := log_le_abs hq
      have hxq : |q| - |x| ≤ |x - q| := by
        rw [abs_sub_comm]
        exact abs_sub_abs_le_abs_sub q x
      rcases lt_or_gt_of_ne hq with hneg | hpos
      · refine le_trans (roundQ_nearest_grid q (-2 ^ 52)) ?_
        rw [show (((-2 ^ 52 : ℤ)) : ℚ) * 2 ^ ulpExp q = -(2 : ℚ) ^ Int.log 2 |q| by rw [hpow]; push_cast; ring]
        have e : |(-(2 : ℚ) ^ Int.log 2 |q| - q)| = |q| - 2 ^ Int.log 2 |q| := by
          rw [abs_of_neg hneg] at hle ⊢
          rw [abs_of_nonneg (by linarith)]; ring
        rw [e]
        linarith
      · refine le_trans (roundQ_nearest_grid q (2 ^ 52)) ?_
        rw [← hpow]
        have e : |((2 : ℚ) ^ Int.log 2 |q| - q)| = |q| - 2 ^ Int.log 2 |q| := by
          rw [abs_of_pos hpos] at hle ⊢
          rw [abs_of_nonpos (by linarith)]; ring
        rw [e]
        linarith

theorem roundQ_exact {x : ℚ} (hx : Representable x) : roundQ x = x := by
  have := roundQ_nearest x x hx
  simp at this
  linarith

/-- The rounded number is on the grid. -/
theorem roundQ_representable (q : ℚ) : Representable (roundQ q) := by
  have hp := two_zpow_pos (ulpExp q)
  have hle : |rne (q / 2 ^ ulpExp q)| ≤ 2 ^ 53 := by
    have hq : |q| ≤ 2 ^ (53 : ℤ) * 2 ^ ulpExp q := by
      have h1 := abs_lt_log (q := q)
      have h2 : (2 : ℚ) ^ (Int.log 2 |q| + 1) ≤ 2 ^ (53 + ulpExp q) := by
        rw [zpow_le_zpow_iff_right₀ (by norm_num)]
        unfold ulpExp
        omega
      rw [zpow_add₀ (by norm_num) (53 : ℤ)] at h2
      linarith
    have h3 : |q / 2 ^ ulpExp q| ≤ 2 ^ 53 := by
      rw [abs_div, abs_of_pos hp, div_le_iff₀ hp]
      exact_mod_cast hq
    have h4 := rne_nearest (q / 2 ^ ulpExp q)
    by_contra hcon
    have hcon := not_le.mp hcon
    rw [abs_le] at h3
    have h53 : (2 : ℚ) ^ 53 = ((2 ^ 53 : ℤ) : ℚ) := by norm_num
    rcases lt_abs.mp hcon with h | h
    · have h5 := h4 (2 ^ 53)
      have h6 : ((2 ^ 53 : ℤ) : ℚ) + 1 ≤ rne (q / 2 ^ ulpExp q) := by exact_mod_cast h
      rw [abs_of_nonneg (by push_cast at h6; linarith), abs_of_nonneg (by push_cast; linarith)] at h5
      linarith
    · have h5 := h4 (-2 ^ 53)
      have h6 : ((2 ^ 53 : ℤ) : ℚ) + 1 ≤ -(rne (q / 2 ^ ulpExp q) : ℚ) := by exact_mod_cast h
      rw [abs_of_nonpos (by push_cast at h6; linarith), abs_of_nonpos (by push_cast; linarith)] at h5
      push_cast at h5 h6
      linarith
  have hu : -1074 ≤ ulpExp q := le_max_right _ _
  rcases hle.lt_or_eq with h | h
  · exact ⟨_, _, h, hu, rfl⟩
  · rcases abs_eq (by norm_num) |>.mp h with h | h
    · refine ⟨2 ^ 52, ulpExp q + 1, by norm_num, by omega, ?_⟩
      unfold roundQ; rw [h, zpow_add₀ (by norm_num)]; push_cast; ring
    · refine ⟨-2 ^ 52, ulpExp q + 1, by norm_num, by omega, ?_⟩
      unfold roundQ; rw [h, zpow_add₀ (by norm_num)]; push_cast; ring

/-- Integers up to 2^53 are floats. -/
theorem representable_int {n : ℤ} (h : |n| ≤ 2 ^ 53) : Representable n := by
  rcases h.lt_or_eq with h | h
  · exact ⟨n, 0, h, by norm_num, by simp⟩
  · rcases abs_eq (by norm_num) |>.mp h with h | h
    · exact ⟨2 ^ 52, 1, by norm_num, by norm_num, by rw [h]; norm_num⟩
    · exact ⟨-2 ^ 52, 1, by norm_num, by norm_num, by rw [h]; norm_num⟩

theorem roundQ_int {n : ℤ} (h : |n| ≤ 2 ^ 53) : roundQ n = n := roundQ_exact (representable_int h)

/-- Rounding never jumps over a representable number. -/
theorem le_roundQ {x q : ℚ} (hx : Representable x) (h : x ≤ q) : x ≤ roundQ q := by
  have := roundQ_nearest q x hx
  rw [abs_sub_comm x q, abs_of_nonneg (by linarith : 0 ≤ q - x)] at this
  have := (abs_le.mp this).1
  linarith

theorem roundQ_le {x q : ℚ} (hx : Representable x) (h : q ≤ x) : roundQ q ≤ x := by
  have := roundQ_nearest q x hx
  rw [abs_of_nonneg (by linarith : 0 ≤ x - q)] at this
  have := (abs_le.mp this).2
  linarith

/-- Rounding is monotone. -/
theorem roundQ_mono {q r : ℚ} (h : q ≤ r) : roundQ q ≤ roundQ r := by
  by_contra hcon
  have hcon := not_le.mp hcon
  have h1 := roundQ_nearest q (roundQ r) (roundQ_representable r)
  have h2 := roundQ_nearest r (roundQ q) (roundQ_representable q)
  by_cases hqr : q = r
  · subst hqr; exact lt_irrefl _ hcon
  have hlt : q < r := lt_of_le_of_ne h hqr
  rw [← sq_le_sq] at h1 h2
  nlinarith

/-- Bound on the unit in the last place. -/
theorem ulpExp_le {q : ℚ} {k : ℤ} (hq : q ≠ 0) (h : |q| < 2 ^ k) (hk : -1021 ≤ k) : ulpExp q ≤ k - 53 := by
  unfold ulpExp
  have := lt_of_le_of_lt (log_le_abs hq) h
  rw [zpow_lt_zpow_iff_right₀ (by norm_num)] at this
  omega

theorem roundQ_zero : roundQ 0 = 0 := by
  have := roundQ_int (n := 0) (by norm_num)
  exact_mod_cast this

theorem roundQ_error {q : ℚ} {k : ℤ} (h : |q| < 2 ^ k) (hk : -1021 ≤ k) : |roundQ q - q| ≤ 2 ^ (k - 54) := by
  by_cases hq : q = 0
  · subst hq
    rw [roundQ_zero]
    simpa using (two_zpow_pos (k - 54)).le
  refine le_trans (roundQ_close q) ?_
  rw [show k - 54 = (k - 53) - 1 by ring, zpow_sub₀ (by norm_num) (k - 53) 1, zpow_one]
  have : (2 : ℚ) ^ ulpExp q ≤ 2 ^ (k - 53) := by
    rw [zpow_le_zpow_iff_right₀ (by norm_num)]
    exact ulpExp_le hq h hk
  linarith

/-- Relative error bound. -/
theorem roundQ_rel (q : ℚ) : |roundQ q - q| ≤ max (|q| / 2 ^ 53) (1 / 2 ^ 1000) := by
  by_cases hq : q = 0
  · subst hq
    rw [roundQ_zero]
    simp
  refine le_trans (roundQ_close q) ?_
  by_cases hu : Int.log 2 |q| - 52 ≤ -1074
  · have hue : ulpExp q = -1074 := max_eq_right hu
    rw [hue]
    refine le_trans ?_ (le_max_right _ _)
    have : (2 : ℚ) ^ (-1074 : ℤ) ≤ 2 ^ (-1000 : ℤ) := by
      rw [zpow_le_zpow_iff_right₀ (by norm_num)]; norm_num
    have h2 : (1 : ℚ) / 2 ^ 1000 = 2 ^ (-1000 : ℤ) := by
      rw [zpow_neg, one_div]; norm_cast
    rw [h2]
    have := two_zpow_pos (-1074)
    linarith
  · have hue : ulpExp q = Int.log 2 |q| - 52 := max_eq_left (by omega)
    refine le_trans ?_ (le_max_left _ _)
    rw [hue, zpow_sub₀ (by norm_num), div_div, div_le_div_iff₀ (by positivity) (by positivity)]
    have := log_le_abs hq
    have h2 : (2 : ℚ) ^ (52 : ℤ) * 2 = 2 ^ 53 := by norm_num
    rw [h2]
    exact mul_le_mul_of_nonneg_right this (by positivity)

theorem rne_neg (q : ℚ) : rne (-q) = -rne q := by
  by_cases hi : ∃ n : ℤ, q = n
  · obtain ⟨n, rfl⟩ := hi
    rw [rne_intCast, ← Int.cast_neg, rne_intCast]
  · have h1 := Int.floor_le q
    have h2 := Int.lt_floor_add_one q
    have h3 : (⌊q⌋ : ℚ) ≠ q := fun h => hi ⟨_, h.symm⟩
    have h4 : (⌊q⌋ : ℚ) < q := lt_of_le_of_ne h1 h3
    have hf : ⌊-q⌋ = -⌊q⌋ - 1 := by
      rw [Int.floor_eq_iff]
      push_cast
      constructor <;> linarith
    unfold rne
    rw [hf]
    push_cast
    by_cases c1 : q - ⌊q⌋ < 1 / 2
    · rw [if_pos c1, if_neg (by linarith), if_pos (by linarith)]; ring
    · by_cases c2 : 1 / 2 < q - ⌊q⌋
      · rw [if_neg c1, if_pos c2, if_pos (by linarith)]; ring
      · rw [if_neg c1, if_neg c2, if_neg (by linarith), if_neg (by linarith)]
        by_cases c3 : ⌊q⌋ % 2 = 0
        · rw [if_pos c3, if_neg (by omega)]; ring
        · rw [if_neg c3, if_pos (by omega)]; ring

theorem roundQ_neg (q : ℚ) : roundQ (-q) = -roundQ q := by
  have : ulpExp (-q) = ulpExp q := by unfold ulpExp; rw [abs_neg]
  unfold roundQ
  rw [this, neg_div, rne_neg]
  push_cast
  ring

theorem roundQ_nonneg {q : ℚ} (h : 0 ≤ q) : 0 ≤ roundQ q := by
  have := roundQ_mono h
  rwa [roundQ_zero] at this

theorem roundQ_abs (q : ℚ) : |roundQ q| = roundQ |q| := by
  rcases le_total 0 q with h | h
  · rw [abs_of_nonneg h, abs_of_nonneg (roundQ_nonneg h)]
  · rw [abs_of_nonpos h, roundQ_neg, abs_of_nonpos]
    have := roundQ_nonneg (q := -q) (by linarith)
    rw [roundQ_neg] at this
    linarith

/-- Numbers of magnitude below 2^1023 become finite floats. -/
theorem ofRat_fin {q : ℚ} (h : |q| ≤ 2 ^ 1000) : PyFloat.ofRat q = .fin (roundQ q) := by
  unfold PyFloat.ofRat
  rw [if_neg]
  rw [not_le, roundQ_abs]
  have hr : Representable ((2 : ℚ) ^ 1000) := ⟨1, 1000, by norm_num, by norm_num, by
    rw [Int.cast_one, one_mul]; exact (zpow_natCast 2 1000).symm⟩
  have h1 : roundQ |q| ≤ 2 ^ 1000 := roundQ_le hr h
  have h2 : (2 : ℚ) ^ 1000 < 2 ^ 1024 := by
    rw [pow_lt_pow_iff_right₀ (by norm_num)]; norm_num
  exact lt_of_le_of_lt h1 h2

end Py
