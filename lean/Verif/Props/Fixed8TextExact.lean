import Verif.Props.Fixed8Text

/-! # C32: of the amounts with one text, exactly one is the amount the text denotes -/

namespace Neo.Props
open Py Spec Fixed8

private theorem length_bounds (m : ℕ) (hm : 0 < m) :
    (10 : ℚ) ^ (((decText m).length : ℤ) - 1) ≤ m ∧ (m : ℚ) < 10 ^ ((decText m).length : ℤ) := by
  obtain ⟨l0, l1, l2⟩ := decText_length m hm
  constructor
  · have e : ((decText m).length : ℤ) - 1 = (((decText m).length - 1 : ℕ) : ℤ) := by omega
    rw [e, zpow_natCast]
    exact_mod_cast l1
  · rw [zpow_natCast]
    exact_mod_cast l2

/-- The shortest decimal of the float nearest to n satoshis has at most eight places after the point. -/
private theorem places (n d : ℕ) (e : ℤ) (hn : 0 < n) (h : ShortestDecimal (roundQ ((n : ℚ) / 10 ^ 8)) d e)
    (hc : |(d : ℚ) * 10 ^ e - (n : ℚ) / 10 ^ 8| ≤ |(n : ℚ) / 10 ^ 8| / 2 ^ 51) : -8 ≤ e := by
  obtain ⟨hd, -, hround, hmin⟩ := h
  by_contra he
  have he : e ≤ -9 := by omega
  have hV : (n : ℚ) / 10 ^ 8 = (n : ℚ) * 10 ^ (-8 : ℤ) := by rw [zpow_neg, div_eq_mul_inv]; norm_cast
  have hlen := hmin n (-8) hn (by rw [hV])
  obtain ⟨n1, -⟩ := length_bounds n hn
  obtain ⟨-, d2⟩ := length_bounds d hd
  set L : ℤ := ((decText n).length : ℤ) with hL
  have hdL : (d : ℚ) < 10 ^ L := lt_of_lt_of_le d2 (zpow_le_zpow_right₀ (by norm_num) (by omega))
  have hpe : (0 : ℚ) < 10 ^ e := zpow_pos (by norm_num) e
  have hlow : (d : ℚ) * 10 ^ e < 10 ^ (L - 9) := by
    calc (d : ℚ) * 10 ^ e < 10 ^ L * 10 ^ e := mul_lt_mul_of_pos_right hdL hpe
      _ = 10 ^ (L + e) := by rw [zpow_add₀ (by norm_num)]
      _ ≤ 10 ^ (L - 9) := zpow_le_zpow_right₀ (by norm_num) (by omega)
  have hup : (10 : ℚ) ^ (L - 9) ≤ (n : ℚ) / 10 ^ 8 := by
    rw [hV, show L - 9 = (L - 1) + (-8) by ring, zpow_add₀ (by norm_num)]
    exact mul_le_mul_of_nonneg_right n1 (zpow_pos (by norm_num) _).le
  have hone : roundQ (((1 : ℕ) : ℚ) * 10 ^ (L - 9)) = roundQ ((n : ℚ) / 10 ^ 8) := by
    rw [Nat.cast_one, one_mul]
    refine le_antisymm (roundQ_mono hup) ?_
    rw [← hround]
    exact roundQ_mono hlow.le
  have h1 := hmin 1 (L - 9) (by norm_num) hone
  have hl1 : (decText 1).length = 1 := by decide +kernel
  rw [hl1] at h1
  have hd10 : (d : ℚ) < 10 := by
    refine lt_of_lt_of_le d2 ?_
    calc (10 : ℚ) ^ ((decText d).length : ℤ) ≤ 10 ^ (1 : ℤ) := zpow_le_zpow_right₀ (by norm_num) (by omega)
      _ = 10 := by norm_num
  have hd9 : (d : ℚ) ≤ 9 := by
    have : d < 10 := by exact_mod_cast hd10
    exact_mod_cast (by omega : d ≤ 9)
  have hd1 : (1 : ℚ) ≤ d := by exact_mod_cast hd
  have heL : e < L - 9 := by
    have : (10 : ℚ) ^ e < 10 ^ (L - 9) := lt_of_le_of_lt (by nlinarith) hlow
    exact (zpow_lt_zpow_iff_right₀ (by norm_num)).1 this
  have hsm : (10 : ℚ) ^ e ≤ 10 ^ (L - 9) / 10 := by
    have : (10 : ℚ) ^ e ≤ 10 ^ (L - 9 - 1) := zpow_le_zpow_right₀ (by norm_num) (by omega)
    rwa [zpow_sub_one₀ (by norm_num), ← div_eq_mul_inv] at this
  have hT : (0 : ℚ) < 10 ^ (L - 9) := zpow_pos (by norm_num) _
  have hde : (d : ℚ) * 10 ^ e ≤ 9 * (10 ^ (L - 9) / 10) := mul_le_mul hd9 hsm hpe.le (by norm_num)
  have hV0 : 0 < (n : ℚ) / 10 ^ 8 := lt_of_lt_of_le hT hup
  generalize (10 : ℚ) ^ (L - 9) = T at *
  generalize (d : ℚ) * 10 ^ e = W at *
  generalize (n : ℚ) / 10 ^ 8 = V at *
  rw [abs_of_pos hV0, abs_le] at hc
  have h51 : V / 2 ^ 51 ≤ V / 100 := div_le_div_of_nonneg_left hV0.le (by norm_num) (by norm_num)
  linarith [hc.1]

private theorem whole (d : ℕ) (e : ℤ) (he : -8 ≤ e) : ∃ w : ℕ, (d : ℚ) * 10 ^ e = (w : ℚ) / 10 ^ 8 := by
  refine ⟨d * 10 ^ (e + 8).toNat, ?_⟩
  have : (e + 8).toNat = e + 8 := by omega
  push_cast
  rw [← zpow_natCast, this, zpow_add₀ (by norm_num)]
  norm_num
  ring

/-- The text of every 64-bit amount denotes an amount, which rounds to the same float. -/
theorem text_amount (R : Dtoa) (v : Int) (h : |v| < 2 ^ 64) :
    ∃ s w, Fixed8.toStr R v = .ok s ∧ textValue? s = some (((w : Int) : ℚ) / 10 ^ 8) ∧ roundQ ((w : ℚ) / 10 ^ 8) = roundQ ((v : ℚ) / 10 ^ 8) := by
  obtain ⟨s, t, q, hs, ht, hq, -, hclose⟩ := C32_close_partial R v h
  have hstr := toStr_eq R v h
  have hx := roundQ_exact (roundQ_representable ((v : ℚ) / 10 ^ 8))
  have hval := textValue_reprFin R (roundQ ((v : ℚ) / 10 ^ 8)) hx
  rw [hs] at hstr
  have e := Except.ok.inj hstr
  rw [← e, hq] at hval
  have hqv := Option.some.inj hval
  rcases lt_trichotomy v 0 with hv | hv | hv
  · have hn : (v : ℚ) = -(v.natAbs : ℚ) := by
      have : v = -(v.natAbs : ℤ) := by omega
      exact_mod_cast this
    have hn0 : 0 < v.natAbs := by omega
    have hp := roundQ_pos_of v.natAbs hn0
    rw [hn, neg_div, roundQ_neg, if_neg (by linarith), if_pos (by linarith), neg_neg] at hqv
    have hsd := R.shortest _ hp (roundQ_exact (roundQ_representable _))
    have hpl := places v.natAbs _ _ hn0 hsd (by
      rw [hqv, hn, neg_div, abs_neg, ← neg_sub', abs_neg] at hclose
      exact hclose)
    obtain ⟨w, hw⟩ := whole (R.digits (roundQ ((v.natAbs : ℚ) / 10 ^ 8))) _ hpl
    refine ⟨s, -(w : ℤ), hs, ?_, ?_⟩
    · rw [hq, hqv, hw]; push_cast; rw [neg_div]
    · push_cast
      rw [neg_div, roundQ_neg, ← hw, hsd.2.2.1, hn, neg_div, roundQ_neg]
  · subst hv
    rw [Int.cast_zero, zero_div, roundQ_zero, if_pos rfl] at hqv
    exact ⟨s, 0, hs, by rw [hq, hqv]; simp, rfl⟩
  · have hn : (v : ℚ) = (v.natAbs : ℚ) := by
      have : v = (v.natAbs : ℤ) := by omega
      rw [← Int.cast_natCast, ← this]
    have hn0 : 0 < v.natAbs := by omega
    have hp := roundQ_pos_of v.natAbs hn0
    rw [hn, if_neg (by linarith), if_neg (by linarith)] at hqv
    have hsd := R.shortest _ hp (roundQ_exact (roundQ_representable _))
    have hpl := places v.natAbs _ _ hn0 hsd (by
      rw [hqv, hn] at hclose
      exact hclose)
    obtain ⟨w, hw⟩ := whole (R.digits (roundQ ((v.natAbs : ℚ) / 10 ^ 8))) _ hpl
    refine ⟨s, (w : ℤ), hs, ?_, ?_⟩
    · rw [hq, hqv, hw, Int.cast_natCast]
    · rw [Int.cast_natCast, ← hw, hsd.2.2.1, hn]

/-- C32: whatever the amount (of 64 bits), its text denotes an amount; among all the amounts printed alike exactly one is printed right. -/
theorem C32_one_right_partial (R : Dtoa) (v : Int) (h : |v| ≤ 2 ^ 63) :
    ∃! w : Int, Fixed8.toStr R w = Fixed8.toStr R v ∧ ∃ s, Fixed8.toStr R w = .ok s ∧ textValue? s = some ((w : ℚ) / 10 ^ 8) := by
  have h64 : |v| < 2 ^ 64 := lt_of_le_of_lt h (by norm_num)
  obtain ⟨s, w, hs, hw, hr⟩ := text_amount R v h64
  have hws : |w| < 2 ^ 64 := by
    obtain ⟨s', t', q, hs', -, hq, -, hclose⟩ := C32_close_partial R v h64
    rw [hs] at hs'
    rw [← Except.ok.inj hs', hw] at hq
    rw [← Option.some.inj hq, ← sub_div, abs_div, abs_div, abs_of_pos (show (0 : ℚ) < 10 ^ 8 by norm_num), div_right_comm,
      div_le_div_iff_of_pos_right (by norm_num)] at hclose
    have hv : |(v : ℚ)| ≤ 2 ^ 63 := by rw [← Int.cast_abs]; exact_mod_cast h
    have h1 : |(w : ℚ)| ≤ |(v : ℚ)| + |(w : ℚ) - v| := by
      have := abs_add_le (v : ℚ) (w - v)
      rwa [add_sub_cancel] at this
    have h2 : |(v : ℚ)| / 2 ^ 51 ≤ 2 ^ 63 / 2 ^ 51 := div_le_div_of_nonneg_right hv (by norm_num)
    have h3 : |(w : ℚ)| < 2 ^ 64 := by
      have : (2 : ℚ) ^ 63 / 2 ^ 51 < 2 ^ 63 := by norm_num
      have : (2 : ℚ) ^ 64 = 2 ^ 63 + 2 ^ 63 := by norm_num
      linarith
    rw [← Int.cast_abs] at h3
    exact_mod_cast h3
  have heq : Fixed8.toStr R w = Fixed8.toStr R v := by rw [toStr_eq R w hws, toStr_eq R v h64, hr]
  refine ⟨w, ⟨heq, s, heq.trans hs, hw⟩, ?_⟩
  rintro w' ⟨e1, s', e2, e3⟩
  rw [e1, hs] at e2
  rw [← Except.ok.inj e2, hw] at e3
  have := Option.some.inj e3
  rw [div_left_inj' (by norm_num)] at this
  exact_mod_cast this.symm

/-- C32 for an amount that no other amount shares its nearest float with: the text denotes the amount. -/
theorem C32_alone_partial (R : Dtoa) (v : Int) (h : |v| < 2 ^ 64)
    (halone : ∀ w : Int, roundQ ((w : ℚ) / 10 ^ 8) = roundQ ((v : ℚ) / 10 ^ 8) → w = v) :
    ∃ s, Fixed8.toStr R v = .ok s ∧ textValue? s = some ((v : ℚ) / 10 ^ 8) := by
  obtain ⟨s, w, hs, hw, hr⟩ := text_amount R v h
  rw [halone w hr] at hw
  exact ⟨s, hs, hw⟩

/-- The amounts of `C32_large_violated`, which are printed alike, are in range. -/
example : |(2 ^ 26 * 10 ^ 8 + 1 : Int)| ≤ 2 ^ 63 := by norm_num

/-- 2^26 units, the first amount `C32_exact_partial` does not cover, shares its float with no other amount. -/
example (R : Dtoa) : ∃ s, Fixed8.toStr R (2 ^ 26 * 10 ^ 8) = .ok s ∧ textValue? s = some (((2 ^ 26 * 10 ^ 8 : Int) : ℚ) / 10 ^ 8) := by
  refine C32_alone_partial R _ (by norm_num) fun w hw => ?_
  have h1 : roundQ (((2 ^ 26 * 10 ^ 8 : Int) : ℚ) / 10 ^ 8) < roundQ (((2 ^ 26 * 10 ^ 8 + 1 : Int) : ℚ) / 10 ^ 8) := by decide +kernel
  have h2 : roundQ (((2 ^ 26 * 10 ^ 8 - 1 : Int) : ℚ) / 10 ^ 8) < roundQ (((2 ^ 26 * 10 ^ 8 : Int) : ℚ) / 10 ^ 8) := by decide +kernel
  rcases lt_trichotomy w (2 ^ 26 * 10 ^ 8) with h | h | h
  · have := roundQ_mono (div_le_div_of_nonneg_right (Int.cast_le.2 (by omega : w ≤ 2 ^ 26 * 10 ^ 8 - 1)) (by norm_num : (0 : ℚ) ≤ 10 ^ 8))
    linarith
  · exact h
  · have := roundQ_mono (div_le_div_of_nonneg_right (Int.cast_le.2 (by omega : 2 ^ 26 * 10 ^ 8 + 1 ≤ w)) (by norm_num : (0 : ℚ) ≤ 10 ^ 8))
    linarith

end Neo.Props
