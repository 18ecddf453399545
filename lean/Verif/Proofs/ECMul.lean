import Verif.Proofs.ECGroup
import Verif.Proofs.FloatRange

/-! What the scalar multiplication loop computes. -/

namespace Neo.EC
open Py Spec.EC

/-- The multiple of the shifter which the float part of the loop accumulates. -/
def loopCoeff (k : Int) : Nat :=
  if _h : k = 0 then 0
  else (if k % 2 ^ 1075 ≠ 0 then 1 else 0) + 2 * loopCoeff (halveUnits k)
termination_by k.natAbs
decreasing_by
  unfold halveUnits
  split
  · omega
  · split <;> omega

variable {c : Curve} [hp : Fact c.p.Prime]

theorem denotes_mulLoop (h : Proper c) (k : Int) : ∀ (acc sh : Pt) (A S : (weierstrass c).Point), Denotes c acc A →
    Denotes c sh S → Denotes c (mulLoop c k acc sh) (A + loopCoeff k • S) := by
  induction k using loopCoeff.induct with
  | case1 =>
    intro acc sh A S hA hS
    rw [mulLoop, dif_pos rfl, loopCoeff, dif_pos rfl, zero_nsmul, add_zero]
    exact hA
  | case2 k hk ih =>
    intro acc sh A S hA hS
    rw [mulLoop, dif_neg hk, loopCoeff, dif_neg hk]
    have h2 := denotes_add h hS hS
    by_cases hb : k % 2 ^ 1075 ≠ 0
    · rw [if_pos hb, if_pos hb]
      have := ih _ _ _ _ (denotes_add h hA hS) h2
      rw [add_nsmul, one_nsmul, mul_comm 2, mul_nsmul', two_nsmul, ← add_assoc]
      exact this
    · rw [if_neg hb, if_neg hb]
      have := ih _ _ _ _ hA h2
      rw [zero_add, mul_comm 2, mul_nsmul', two_nsmul]
      exact this

/-- The multiple computed by `mul` for a scalar whose half is the float q. -/
def mulCoeff (n : Int) : Nat :=
  if n = 0 then 0 else (n % 2).toNat + 2 * loopCoeff ⌊roundQ ((n : ℚ) / ((2 : Int) : ℚ)) * 2 ^ 1074⌋

private theorem half_limit (n : Int) : |(n : ℚ) / ((2 : Int) : ℚ)| < floatLimit ↔ |n| < 2 ^ 1025 - 2 ^ 971 := by
  have h : ((2 ^ 1025 - 2 ^ 971 : Int) : ℚ) = floatLimit * 2 := by
    rw [floatLimit, Int.cast_sub, Int.cast_pow, Int.cast_pow, Int.cast_ofNat, show (2 : ℚ) ^ 1025 = 2 ^ 1024 * 2 from pow_succ 2 1024,
      show (2 : ℚ) ^ 971 = 2 ^ 970 * 2 from pow_succ 2 970, sub_mul]
  rw [abs_div, show |((2 : Int) : ℚ)| = 2 by norm_num, div_lt_iff₀ (by norm_num), ← h, ← Int.cast_abs, Int.cast_lt]

/-- `n / 2` is a float up to the largest one. -/
theorem intTrueDiv_two {n : Int} (h : |n| < 2 ^ 1025 - 2 ^ 971) :
    intTrueDiv n 2 = .ok (.fin (roundQ ((n : ℚ) / ((2 : Int) : ℚ)))) := by
  rw [intTrueDiv, if_neg (by decide), (ofRat_fin_iff _).1 ((half_limit n).2 h)]

theorem intTrueDiv_two_overflow {n : Int} (h : 2 ^ 1025 - 2 ^ 971 ≤ |n|) : intTrueDiv n 2 = .error .overflowError := by
  rw [intTrueDiv, if_neg (by decide), (ofRat_fin_iff _).2 (not_lt.1 fun hl => absurd ((half_limit n).1 hl) (not_lt.2 h))]

theorem in_range {n : Int} (h : |n| ≤ 2 ^ 1000) : |n| < 2 ^ 1025 - 2 ^ 971 := by
  refine lt_of_le_of_lt h ?_
  have h1 : (2 : Int) ^ 1025 = 2 ^ 54 * 2 ^ 971 := by rw [← pow_add]
  have h2 : (2 : Int) ^ 1000 = 2 ^ 29 * 2 ^ 971 := by rw [← pow_add]
  have h3 : (0 : Int) < 2 ^ 971 := pow_pos (by norm_num) _
  rw [h1, h2]
  generalize (2 : Int) ^ 971 = u at h3
  omega

theorem denotes_mul_wide (h : Proper c) {n : Int} (hn : |n| < 2 ^ 1025 - 2 ^ 971) {P : Pt} {A : (weierstrass c).Point} (hP : Denotes c P A) :
    ∃ R, mul c P n = .ok R ∧ Denotes c R (mulCoeff n • A) := by
  rw [mul, mulCoeff]
  by_cases h0 : n = 0
  · rw [if_pos h0, if_pos h0, zero_nsmul]
    exact ⟨zero, rfl, denotes_zero⟩
  · rw [if_neg h0, if_neg h0]
    simp only [intTrueDiv_two hn]
    refine ⟨_, rfl, ?_⟩
    have h2 := denotes_add h hP hP
    by_cases hb : n % 2 = 0
    · rw [if_neg (by omega), hb]
      have := denotes_mulLoop h ⌊roundQ ((n : ℚ) / ((2 : Int) : ℚ)) * 2 ^ 1074⌋ _ _ _ _ (denotes_zero (c := c)) h2
      rw [Int.toNat_zero, add_nsmul, zero_nsmul, mul_comm 2, mul_nsmul', two_nsmul]
      exact this
    · rw [if_pos hb, show n % 2 = 1 by omega]
      have := denotes_mulLoop h ⌊roundQ ((n : ℚ) / ((2 : Int) : ℚ)) * 2 ^ 1074⌋ _ _ _ _
        (denotes_add h (denotes_zero (c := c)) hP) h2
      rw [Int.toNat_one, add_nsmul, one_nsmul, mul_comm 2, mul_nsmul', two_nsmul]
      rw [zero_add] at this
      exact this

theorem denotes_mul (h : Proper c) {n : Int} (hn : |n| ≤ 2 ^ 1000) {P : Pt} {A : (weierstrass c).Point} (hP : Denotes c P A) :
    ∃ R, mul c P n = .ok R ∧ Denotes c R (mulCoeff n • A) := denotes_mul_wide h (in_range hn) hP

/-! ## The multiple in closed form -/

theorem loopCoeff_small : ∀ (j : Nat), j ≤ 53 → ∀ k : Int, k ≠ 0 → |k| ≤ 2 ^ j →
    ∃ T, 1 ≤ T ∧ T ≤ j + 1 ∧ loopCoeff k = 2 ^ T - 1 := by
  intro j
  have hbit : ∀ k : Int, k ≠ 0 → |k| ≤ 2 ^ 53 → k % 2 ^ 1075 ≠ 0 := by
    intro k h0 hk h
    have h1 := Int.dvd_of_emod_eq_zero h
    have h2 := Int.le_of_dvd (abs_pos.2 h0) ((dvd_abs _ _).2 h1)
    have h3 : (2 : Int) ^ 53 < 2 ^ 1075 := pow_lt_pow_right₀ (by norm_num) (by norm_num)
    exact absurd (h2.trans hk) (not_le.2 h3)
  induction j with
  | zero =>
    intro _ k h0 hk
    refine ⟨1, le_refl _, le_refl _, ?_⟩
    have hk1 : k = 1 ∨ k = -1 := by
      rw [pow_zero, abs_le] at hk
      omega
    have hb := hbit k h0 (hk.trans (pow_le_pow_right₀ (by norm_num) (Nat.zero_le _)))
    rw [loopCoeff, dif_neg h0, if_pos hb]
    have : halveUnits k = 0 := by rcases hk1 with rfl | rfl <;> decide
    rw [this, loopCoeff, dif_pos rfl]
    rfl
  | succ j ih =>
    intro hj k h0 hk
    have hb := hbit k h0 (hk.trans (pow_le_pow_right₀ (by norm_num) hj))
    rw [loopCoeff, dif_neg h0, if_pos hb]
    by_cases hz : halveUnits k = 0
    · refine ⟨1, le_refl _, by omega, ?_⟩
      rw [hz, loopCoeff, dif_pos rfl]
      rfl
    · have hh : |halveUnits k| ≤ 2 ^ j := by
        rw [pow_succ] at hk
        generalize (2 : Int) ^ j = M at hk
        rw [abs_le] at hk ⊢
        unfold halveUnits
        split
        · omega
        · split <;> omega
      obtain ⟨T, h1, h2, h3⟩ := ih (by omega) _ hz hh
      refine ⟨T + 1, by omega, by omega, ?_⟩
      rw [h3, pow_succ]
      have := Nat.one_le_two_pow (n := T)
      omega

theorem halveUnits_double (k : Int) : halveUnits (2 * k) = k := by
  unfold halveUnits
  rw [if_pos (by omega)]
  omega

theorem loopCoeff_shift (m : Int) (hm : m % 2 = 1) {T : Nat} (hT : loopCoeff m = 2 ^ T - 1) :
    ∀ s : Nat, s ≤ 1074 → loopCoeff (2 ^ s * m) = 2 ^ (s + T) - 1 := by
  intro s
  induction s with
  | zero => intro _; rw [pow_zero, one_mul, hT, zero_add]
  | succ s ih =>
    intro hs
    have h0 : (2 : Int) ^ (s + 1) * m ≠ 0 := by
      refine mul_ne_zero (pow_ne_zero _ (by norm_num)) ?_
      rintro rfl
      omega
    have hb : (2 : Int) ^ (s + 1) * m % 2 ^ 1075 ≠ 0 := by
      intro h
      have h1 := (pow_dvd_pow (2 : Int) (show s + 2 ≤ 1075 by omega)).trans (Int.dvd_of_emod_eq_zero h)
      rw [pow_succ 2 (s + 1)] at h1
      have h2 := Int.dvd_of_mul_dvd_mul_left (pow_ne_zero (s + 1) (by norm_num : (2 : Int) ≠ 0)) h1
      omega
    rw [loopCoeff, dif_neg h0, if_pos hb, pow_succ', mul_assoc, halveUnits_double, ih (by omega),
      show s + 1 + T = (s + T) + 1 by omega, pow_succ]
    have := Nat.one_le_two_pow (n := s + T)
    omega

theorem loopCoeff_shift_high (k : Int) (hk : (2 : Int) ^ 1074 ∣ k) (h0 : k ≠ 0) :
    ∀ j : Nat, loopCoeff (2 ^ j * k) = 2 ^ j * loopCoeff k := by
  intro j
  induction j with
  | zero => rw [pow_zero, one_mul, pow_zero, one_mul]
  | succ j ih =>
    have h1 : (2 : Int) ^ (j + 1) * k ≠ 0 := mul_ne_zero (pow_ne_zero _ (by norm_num)) h0
    have hb : (2 : Int) ^ (j + 1) * k % 2 ^ 1075 = 0 := by
      refine Int.emod_eq_zero_of_dvd ?_
      rw [show 1075 = 1 + 1074 from rfl, pow_add]
      exact mul_dvd_mul (pow_dvd_pow _ (by omega)) hk
    rw [loopCoeff, dif_neg h1, if_neg (not_not.2 hb), pow_succ', mul_assoc, halveUnits_double, ih, zero_add, pow_succ']
    ring

/-- The multiple computed for a small scalar `2^t * m` with m odd. -/
theorem mulCoeff_small_of (t : Nat) (m : Int) (hm : m % 2 = 1) (hn : |2 ^ t * m| < 2 ^ 53) {T : Nat} (h3 : loopCoeff m = 2 ^ T - 1) :
    mulCoeff (2 ^ t * m) = 2 ^ t * (2 ^ (1074 + T) - 1) := by
  have hm0 : m ≠ 0 := by rintro rfl; omega
  have h0 : (2 : Int) ^ t * m ≠ 0 := mul_ne_zero (pow_ne_zero _ (by norm_num)) hm0
  have hround : roundQ (((2 ^ t * m : Int) : ℚ) / ((2 : Int) : ℚ)) = ((2 ^ t * m : Int) : ℚ) / ((2 : Int) : ℚ) := by
    refine roundQ_exact ⟨2 ^ t * m, -1, hn, by norm_num, ?_⟩
    rw [Int.cast_ofNat, zpow_neg_one, div_eq_mul_inv]
  have hfl : ⌊((2 ^ t * m : Int) : ℚ) / ((2 : Int) : ℚ) * 2 ^ 1074⌋ = 2 ^ t * m * 2 ^ 1073 := by
    rw [show (2 : ℚ) ^ 1074 = 2 * 2 ^ 1073 from pow_succ' _ _]
    rw [← mul_assoc, show (((2 : Int) : ℚ)) = 2 by norm_num, div_mul_cancel₀ _ (by norm_num)]
    rw [show (2 : ℚ) ^ 1073 = ((2 ^ 1073 : Int) : ℚ) by rw [Int.cast_pow, Int.cast_ofNat], ← Int.cast_mul, Int.floor_intCast]
  rw [mulCoeff, if_neg h0, hround, hfl]
  cases t with
  | zero =>
    rw [pow_zero, one_mul, hm, mul_comm m, loopCoeff_shift m hm h3 1073 (by norm_num), pow_zero, one_mul,
      show 1074 + T = (1073 + T) + 1 by omega, pow_succ]
    have := Nat.one_le_two_pow (n := 1073 + T)
    rw [Int.toNat_one]
    omega
  | succ t =>
    rw [show (2 : Int) ^ (t + 1) * m % 2 = 0 by rw [pow_succ', mul_assoc]; omega]
    rw [show (2 : Int) ^ (t + 1) * m * 2 ^ 1073 = 2 ^ t * (2 ^ 1074 * m) by
      rw [show 1074 = 1073 + 1 from rfl, pow_succ (2 : Int) 1073, pow_succ (2 : Int) t]; ring]
    rw [loopCoeff_shift_high _ (Dvd.intro _ rfl) (mul_ne_zero (pow_ne_zero _ (by norm_num)) hm0),
      loopCoeff_shift m hm h3 1074 (le_refl _), Int.toNat_zero, pow_succ']
    ring

/-- The multiple computed for a small scalar `2^t * m` with m odd. -/
theorem mulCoeff_small (t : Nat) (m : Int) (hm : m % 2 = 1) (hn : |2 ^ t * m| < 2 ^ 53) :
    ∃ T, 1 ≤ T ∧ T ≤ 54 ∧ mulCoeff (2 ^ t * m) = 2 ^ t * (2 ^ (1074 + T) - 1) := by
  have hm0 : m ≠ 0 := by rintro rfl; omega
  have hmabs : |m| ≤ 2 ^ 53 := by
    refine le_trans ?_ hn.le
    rw [abs_mul]
    have : (1 : Int) ≤ |2 ^ t| := by
      rw [abs_of_pos (by positivity)]
      exact one_le_pow₀ (by norm_num)
    nlinarith [abs_nonneg m]
  obtain ⟨T, h1, h2, h3⟩ := loopCoeff_small 53 (le_refl _) m hm0 hmabs
  exact ⟨T, h1, h2, mulCoeff_small_of t m hm hn h3⟩

end Neo.EC
