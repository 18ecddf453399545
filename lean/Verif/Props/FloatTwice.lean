import Verif.Props.Floats

/-! # C110: exactly when an int written as a float is read back as the nearest one -/

namespace Neo.Props
open Py Spec Writer Reader

private theorem zpow_split (e : ℤ) : (2 : ℚ) ^ e = 2 * 2 ^ (e - 1) := by
  rw [zpow_sub_one₀ (by norm_num)]; ring

private theorem normal (k : ℕ) : ∀ m e : ℤ, 0 ≤ m → m < 2 ^ 24 → e = -149 + k →
    ∃ m' e' : ℤ, 0 ≤ m' ∧ m' < 2 ^ 24 ∧ -149 ≤ e' ∧ (2 ^ 23 ≤ m' ∨ e' = -149) ∧ (m : ℚ) * 2 ^ e = m' * 2 ^ e' := by
  induction k with
  | zero => intro m e h0 h1 he; exact ⟨m, e, h0, h1, by omega, Or.inr (by omega), rfl⟩
  | succ k ih =>
    intro m e h0 h1 he
    by_cases hm : 2 ^ 23 ≤ m
    · exact ⟨m, e, h0, h1, by omega, Or.inl hm, rfl⟩
    · obtain ⟨m', e', a, b, c, d, f⟩ := ih (2 * m) (e - 1) (by omega) (by norm_num at hm ⊢; omega) (by omega)
      refine ⟨m', e', a, b, c, d, ?_⟩
      rw [← f, zpow_split e]
      push_cast
      ring

private theorem normal_form {y : ℚ} (h : OnGrid 24 (-149) y) (h0 : 0 ≤ y) :
    ∃ m e : ℤ, 0 ≤ m ∧ m < 2 ^ 24 ∧ -149 ≤ e ∧ (2 ^ 23 ≤ m ∨ e = -149) ∧ y = m * 2 ^ e := by
  obtain ⟨m, e, hm, he, rfl⟩ := h
  have hp : (0 : ℚ) < 2 ^ e := two_zpow_pos e
  have hm0 : 0 ≤ m := by
    by_contra hc
    have : (m : ℚ) < 0 := by exact_mod_cast not_le.1 hc
    nlinarith
  exact normal (e + 149).toNat m e hm0 (by rwa [abs_of_nonneg hm0] at hm) (by omega)

private theorem scale_int {m e e' : ℤ} (h : e' ≤ e) : (m : ℚ) * 2 ^ e = ((m * 2 ^ (e - e').toNat : ℤ) : ℚ) * 2 ^ e' := by
  push_cast
  rw [mul_assoc, ← zpow_natCast, ← zpow_add₀ (by norm_num)]
  congr 2
  omega

/-- The next number of the format above, and the number halfway. -/
private theorem above {y z : ℚ} (hy : OnGrid 24 (-149) y) (hz : OnGrid 24 (-149) z) (h0 : 0 ≤ y) (h : y < z) :
    ∃ w, OnGrid 24 (-149) w ∧ y < w ∧ w ≤ z ∧ OnGrid 53 (-1074) ((y + w) / 2) := by
  obtain ⟨m, e, hm0, hm, he, hn, rfl⟩ := normal_form hy h0
  have hp : (0 : ℚ) < 2 ^ e := two_zpow_pos e
  refine ⟨((m + 1 : ℤ) : ℚ) * 2 ^ e, ?_, ?_, ?_, ⟨2 * m + 1, e - 1, ?_, by omega, ?_⟩⟩
  · by_cases hc : m + 1 < 2 ^ 24
    · exact ⟨m + 1, e, by rwa [abs_of_nonneg (by omega)], he, rfl⟩
    · refine ⟨2 ^ 23, e + 1, by norm_num, by omega, ?_⟩
      have : m + 1 = 2 ^ 24 := by omega
      rw [this, zpow_add_one₀ (by norm_num)]
      push_cast
      ring
  · push_cast; nlinarith
  · obtain ⟨m2, e2, a0, a1, a2, -, rfl⟩ := normal_form hz (h0.trans h.le)
    rcases le_or_gt e e2 with hle | hlt
    · rw [scale_int hle] at h ⊢
      have h' := lt_of_mul_lt_mul_right h hp.le
      have h'' : m < m2 * 2 ^ (e2 - e).toNat := by exact_mod_cast h'
      have : ((m + 1 : ℤ) : ℚ) ≤ ((m2 * 2 ^ (e2 - e).toNat : ℤ) : ℚ) := by exact_mod_cast h''
      exact mul_le_mul_of_nonneg_right this hp.le
    · exfalso
      have hm23 : 2 ^ 23 ≤ m := by rcases hn with hn | hn; exacts [hn, by omega]
      have e1 : (m2 : ℚ) < 2 ^ 24 := by exact_mod_cast a1
      have e2' : (2 : ℚ) ^ 23 ≤ m := by exact_mod_cast hm23
      have e3 : (2 : ℚ) ^ e2 ≤ 2 ^ (e - 1) := zpow_le_zpow_right₀ (by norm_num) (by omega)
      have e4 : (0 : ℚ) < 2 ^ e2 := two_zpow_pos e2
      have e5 := zpow_split e
      have e6 : (m2 : ℚ) * 2 ^ e2 ≤ 2 ^ 24 * 2 ^ (e - 1) := mul_le_mul e1.le e3 e4.le (by positivity)
      have e7 : (2 : ℚ) ^ 23 * 2 ^ e ≤ m * 2 ^ e := mul_le_mul_of_nonneg_right e2' hp.le
      rw [e5] at e7
      have e8 : (2 : ℚ) ^ 24 * 2 ^ (e - 1) = 2 ^ 23 * (2 * 2 ^ (e - 1)) := by ring
      rw [e5] at h
      linarith
  · rw [abs_of_nonneg (by omega)]; norm_num at hm ⊢; omega
  · rw [zpow_split e]; push_cast; ring

private theorem normal_form' {y : ℚ} (h : OnGrid 24 (-149) y) (h0 : 0 < y) :
    ∃ m e : ℤ, 1 ≤ m ∧ m ≤ 2 ^ 24 ∧ -149 ≤ e ∧ (2 ^ 23 < m ∨ e = -149) ∧ y = m * 2 ^ e := by
  obtain ⟨m, e, hm0, hm, he, hn, rfl⟩ := normal_form h h0.le
  have hm1 : 0 < m := by
    rcases Int.lt_or_eq_of_le hm0 with hh | hh
    · exact hh
    · rw [← hh] at h0; simp at h0
  by_cases hB : m = 2 ^ 23 ∧ e ≠ -149
  · refine ⟨2 ^ 24, e - 1, by norm_num, le_refl _, by omega, Or.inl (by norm_num), ?_⟩
    rw [hB.1, zpow_split e]
    push_cast
    ring
  · refine ⟨m, e, hm1, hm.le, he, ?_, rfl⟩
    omega

/-- The next number of the format below, and the number halfway. -/
private theorem below {y z : ℚ} (hy : OnGrid 24 (-149) y) (hz : OnGrid 24 (-149) z) (h0 : 0 < y) (h : z < y) :
    ∃ w, OnGrid 24 (-149) w ∧ w < y ∧ z ≤ w ∧ OnGrid 53 (-1074) ((y + w) / 2) := by
  obtain ⟨m, e, hm1, hm, he, hn, rfl⟩ := normal_form' hy h0
  have hp : (0 : ℚ) < 2 ^ e := two_zpow_pos e
  refine ⟨((m - 1 : ℤ) : ℚ) * 2 ^ e, ⟨m - 1, e, ?_, he, rfl⟩, ?_, ?_, ⟨2 * m - 1, e - 1, ?_, by omega, ?_⟩⟩
  · rw [abs_of_nonneg (by omega)]; omega
  · push_cast; nlinarith
  · by_cases hz0 : z < 0
    · have : (0 : ℚ) ≤ ((m - 1 : ℤ) : ℚ) := by exact_mod_cast (by omega : 0 ≤ m - 1)
      exact hz0.le.trans (mul_nonneg this hp.le)
    obtain ⟨m2, e2, a0, a1, a2, -, rfl⟩ := normal_form hz (not_lt.1 hz0)
    rcases le_or_gt e e2 with hle | hlt
    · rw [scale_int hle] at h ⊢
      have h' := lt_of_mul_lt_mul_right h hp.le
      have h'' : m2 * 2 ^ (e2 - e).toNat < m := by exact_mod_cast h'
      have : ((m2 * 2 ^ (e2 - e).toNat : ℤ) : ℚ) ≤ ((m - 1 : ℤ) : ℚ) := by exact_mod_cast (by omega : m2 * 2 ^ (e2 - e).toNat ≤ m - 1)
      exact mul_le_mul_of_nonneg_right this hp.le
    · have hm23 : 2 ^ 23 ≤ m - 1 := by rcases hn with hn | hn; exacts [by omega, by omega]
      have e1 : (m2 : ℚ) < 2 ^ 24 := by exact_mod_cast a1
      have e2' : (2 : ℚ) ^ 23 ≤ ((m - 1 : ℤ) : ℚ) := by exact_mod_cast hm23
      have e3 : (2 : ℚ) ^ e2 ≤ 2 ^ (e - 1) := zpow_le_zpow_right₀ (by norm_num) (by omega)
      have e4 : (0 : ℚ) < 2 ^ e2 := two_zpow_pos e2
      have e5 := zpow_split e
      have e6 : (m2 : ℚ) * 2 ^ e2 ≤ 2 ^ 24 * 2 ^ (e - 1) := mul_le_mul e1.le e3 e4.le (by positivity)
      have e7 : (2 : ℚ) ^ 23 * 2 ^ e ≤ ((m - 1 : ℤ) : ℚ) * 2 ^ e := mul_le_mul_of_nonneg_right e2' hp.le
      rw [e5] at e7 ⊢
      have e8 : (2 : ℚ) ^ 24 * 2 ^ (e - 1) = 2 ^ 23 * (2 * 2 ^ (e - 1)) := by ring
      linarith
  · rw [abs_of_nonneg (by omega)]; norm_num at hm ⊢; omega
  · rw [zpow_split e]; push_cast; ring

/-- Rounded to 53 bits and then to 24 bits: rounded to 24 bits, unless the 53-bit number is halfway and the number beyond it. -/
private theorem twice_iff {a x y : ℚ} (ha : 0 ≤ a) (hx : RoundsTo 53 (-1074) a x) (hy : RoundsTo 24 (-149) x y) (hy0 : 0 ≤ y) :
    RoundsTo 24 (-149) a y ↔ ¬ ∃ z, OnGrid 24 (-149) z ∧ z + y = 2 * x ∧ (y < x ∧ x < a ∨ a < x ∧ x < y) := by
  have key : ∀ z, OnGrid 24 (-149) z → z ≠ y → |z - a| ≤ |y - a| →
      x = a ∨ ∃ w, OnGrid 24 (-149) w ∧ w + y = 2 * x ∧ (y < x ∧ x < a ∨ a < x ∧ x < y) := by
    intro z hz hne hle
    rcases lt_or_gt_of_ne hne with h | h
    · -- z < y
      have hay : a < y := by
        by_contra hc
        have hc := not_lt.1 hc
        rw [abs_of_nonpos (by linarith), abs_of_nonpos (by linarith)] at hle
        linarith
      obtain ⟨w, hw, hwy, hzw, hmid⟩ := below hy.onGrid hz (lt_of_le_of_lt ha hay) h
      have ham : a ≤ (y + w) / 2 := by
        rw [abs_of_pos (by linarith : 0 < y - a), abs_le] at hle
        linarith [hle.1, hle.2]
      have hxm : (y + w) / 2 ≤ x := by
        have := hy.nearest w hw
        by_contra hc
        have hc := not_le.1 hc
        rw [abs_of_nonneg (by linarith)] at this
        rcases abs_cases (w - x) with ⟨e, _⟩ | ⟨e, _⟩ <;> rw [e] at this <;> linarith
      have hn := hx.nearest _ hmid
      rw [abs_of_nonneg (by linarith), abs_of_nonneg (by linarith)] at hn
      have hxe : x = (y + w) / 2 := by linarith
      rcases lt_or_eq_of_le ham with h' | h'
      · exact Or.inr ⟨w, hw, by linarith, Or.inr ⟨by linarith, by linarith⟩⟩
      · exact Or.inl (by linarith)
    · -- y < z
      have hay : y < a := by
        by_contra hc
        have hc := not_lt.1 hc
        rw [abs_of_nonneg (by linarith), abs_of_nonneg (by linarith)] at hle
        linarith
      obtain ⟨w, hw, hwy, hzw, hmid⟩ := above hy.onGrid hz hy0 h
      have ham : (y + w) / 2 ≤ a := by
        rw [abs_of_neg (by linarith : y - a < 0), abs_le] at hle
        linarith [hle.1, hle.2]
      have hxm : x ≤ (y + w) / 2 := by
        have := hy.nearest w hw
        by_contra hc
        have hc := not_le.1 hc
        rw [abs_of_nonpos (by linarith)] at this
        rcases abs_cases (w - x) with ⟨e, _⟩ | ⟨e, _⟩ <;> rw [e] at this <;> linarith
      have hn := hx.nearest _ hmid
      rw [abs_of_nonpos (by linarith), abs_of_nonpos (by linarith)] at hn
      have hxe : x = (y + w) / 2 := by linarith
      rcases lt_or_eq_of_le ham with h' | h'
      · exact Or.inr ⟨w, hw, by linarith, Or.inl ⟨by linarith, by linarith⟩⟩
      · exact Or.inl (by linarith)
  constructor
  · rintro hr ⟨z, hz, hm, h⟩
    have := hr.nearest z hz
    rcases h with ⟨h1, h2⟩ | ⟨h1, h2⟩
    · rw [abs_of_neg (by linarith : y - a < 0)] at this
      rcases abs_cases (z - a) with ⟨e, _⟩ | ⟨e, _⟩ <;> rw [e] at this <;> linarith
    · rw [abs_of_pos (by linarith : 0 < y - a)] at this
      rcases abs_cases (z - a) with ⟨e, _⟩ | ⟨e, _⟩ <;> rw [e] at this <;> linarith
  · intro hno
    by_cases hxa : x = a
    · rwa [hxa] at hy
    refine ⟨hy.onGrid, fun z hz => ?_, fun z hz hne he => ?_⟩
    · by_contra hc
      have hne : z ≠ y := by rintro rfl; exact hc le_rfl
      rcases key z hz hne (not_le.1 hc).le with h | h
      · exact hxa h
      · exact hno h
    · rcases key z hz hne he.le with h | h
      · exact absurd h hxa
      · exact absurd h hno

/-- C110, exactly when it holds for ints: WriteFloat of an int below 2^128 - 2^103 - 2^74 in magnitude, rounded to x with 53 bits, is read back as
the nearest binary32 number exactly if x is not halfway between the number y read back and another binary32 number with the int
beyond x as seen from y. -/
theorem C110_int_float_iff_partial (e : Endian) (n : Int) (h : |(n : ℚ)| < 2 ^ 128 - 2 ^ 103 - 2 ^ 74) :
    ∃ bs x y, bs.length = 4 ∧ Appends (writeFloat (.int n) e) 4 bs ∧ Yields (readFloat e) bs (.fin (decide (n < 0)) y) ∧
      RoundsTo 53 (-1074) |(n : ℚ)| x ∧
      (RoundsTo 24 (-149) |(n : ℚ)| y ↔
        ¬ ∃ z, OnGrid 24 (-149) z ∧ z + y = 2 * x ∧ (y < x ∧ x < |(n : ℚ)| ∨ |(n : ℚ)| < x ∧ x < y)) := by
  obtain ⟨bs, x, y, h1, h2, h3, h4, h5⟩ := C110_int_float_twice_partial e n h
  refine ⟨bs, x, y, h1, h2, h3, h4, twice_iff (abs_nonneg _) h4 h5 ?_⟩
  have hg : ∀ p q, OnGrid p q 0 := fun p q => ⟨0, q, by simp, le_refl _, by simp⟩
  have hx0 : 0 ≤ x := by
    have := h4.nearest 0 (hg _ _)
    by_contra hc
    have hc := not_le.1 hc
    rw [abs_of_nonpos (by have := abs_nonneg (n : ℚ); linarith), zero_sub, abs_neg, abs_abs] at this
    linarith
  have := h5.nearest 0 (hg _ _)
  by_contra hc
  have hc := not_le.1 hc
  rw [abs_of_nonpos (by linarith), zero_sub, abs_neg, abs_of_nonneg hx0] at this
  linarith

/-- 2^60 + 2^36 + 1 is such an int (`C110_double_rounding_violated`). -/
example : OnGrid 24 (-149) ((2 : ℚ) ^ 60 + 2 ^ 37) ∧ (2 : ℚ) ^ 60 + 2 ^ 37 + 2 ^ 60 = 2 * (2 ^ 60 + 2 ^ 36) ∧
    (2 : ℚ) ^ 60 < 2 ^ 60 + 2 ^ 36 ∧ (2 : ℚ) ^ 60 + 2 ^ 36 < |((2 ^ 60 + 2 ^ 36 + 1 : Int) : ℚ)| :=
  ⟨⟨2 ^ 23 + 1, 37, by norm_num, by norm_num, by norm_num⟩, by norm_num, by norm_num, by norm_num⟩

end Neo.Props
