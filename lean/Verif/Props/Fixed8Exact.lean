import Verif.Proofs.FloatDiv
import Verif.Props.Fixed8
import Verif.Props.Fixed8Parse
import Verif.Props.Fixed8Agree

/-!
# C30, C156, C181: exactly which amounts `FromDecimal` of a float, reading back a text, and `TryParse` of a Decimal lose a satoshi of
-/

namespace Neo.Props
open Py Fixed8

theorem ulpExp_eq {q : ℚ} {e : ℤ} (h1 : (2 : ℚ) ^ (e + 52) ≤ q) (h2 : q < 2 ^ (e + 53)) (he : -1074 ≤ e) : ulpExp q = e := by
  have hq : 0 < q := lt_of_lt_of_le (two_zpow_pos _) h1
  have ha : |q| = q := abs_of_pos hq
  have l1 := log_le_abs hq.ne'
  have l2 := abs_lt_log (q := q)
  have l3 : (2 : ℚ) ^ Int.log 2 |q| < 2 ^ (e + 53) := lt_of_le_of_lt l1 (by rw [ha]; exact h2)
  have l4 : (2 : ℚ) ^ (e + 52) < 2 ^ (Int.log 2 |q| + 1) := lt_of_le_of_lt h1 (by rw [ha] at l2 ⊢; exact l2)
  rw [zpow_lt_zpow_iff_right₀ (by norm_num)] at l3 l4
  unfold ulpExp
  omega

/-- The float nearest to v/10^8, scaled so that 53 bits are before the point. -/
theorem round_amount (v k : ℕ) (h1 : 2 ^ 52 * 100000000 ≤ v * 2 ^ k) (h2 : v * 2 ^ k < 2 ^ 53 * 100000000) (hk : k ≤ 1000) :
    roundQ ((v : ℚ) / 100000000) = rne (((v * 2 ^ k : ℕ) : ℚ) / 100000000) / 2 ^ k := by
  have hp : (0 : ℚ) < 2 ^ k := by positivity
  have e : (2 : ℚ) ^ (-(k : ℤ)) = (2 ^ k)⁻¹ := by rw [zpow_neg, zpow_natCast]
  have g1 : ((2 : ℚ) ^ 52 * 100000000) ≤ v * 2 ^ k := by exact_mod_cast h1
  have g2 : (v : ℚ) * 2 ^ k < 2 ^ 53 * 100000000 := by exact_mod_cast h2
  have hu : ulpExp ((v : ℚ) / 100000000) = -(k : ℤ) := by
    apply ulpExp_eq
    · rw [zpow_add₀ (by norm_num), e, le_div_iff₀ (by norm_num), inv_mul_eq_div, div_mul_eq_mul_div, div_le_iff₀ hp]
      exact_mod_cast g1
    · rw [zpow_add₀ (by norm_num), e, div_lt_iff₀ (by norm_num), inv_mul_eq_div, div_mul_eq_mul_div, lt_div_iff₀ hp]
      exact_mod_cast g2
    · omega
  unfold roundQ
  rw [hu, e, div_inv_eq_mul, div_mul_eq_mul_div, ← div_eq_mul_inv]
  push_cast
  rfl

theorem rne_frac (N : ℕ) (h : N % 100000000 ≠ 50000000) :
    rne ((N : ℚ) / 100000000) = ((N / 100000000 : ℕ) : ℤ) + (if N % 100000000 < 50000000 then 0 else 1) := by
  have hf : ⌊(N : ℚ) / 100000000⌋ = ((N / 100000000 : ℕ) : ℤ) := by
    have := Rat.floor_intCast_div_natCast (N : Int) 100000000
    push_cast at this ⊢
    exact this
  have hd : (N : ℚ) / 100000000 - (((N / 100000000 : ℕ) : ℤ) : ℚ) = ((N % 100000000 : ℕ) : ℚ) / 100000000 := by
    have : 100000000 * ((N / 100000000 : ℕ) : ℚ) + ((N % 100000000 : ℕ) : ℚ) = N := by exact_mod_cast Nat.div_add_mod N 100000000
    rw [Int.cast_natCast]
    linarith
  unfold rne
  rw [hf, hd]
  by_cases h' : N % 100000000 < 50000000
  · have : ((N % 100000000 : ℕ) : ℚ) < 50000000 := by exact_mod_cast h'
    rw [if_pos (by linarith), if_pos h', add_zero]
  · have : (50000000 : ℚ) < ((N % 100000000 : ℕ) : ℚ) := by exact_mod_cast (by omega : 50000000 < N % 100000000)
    rw [if_neg (by linarith), if_pos (by linarith), if_neg h']

theorem from_float (v : ℕ) (h : v < 2 ^ 100) :
    fromDecimal (.float (.ofRat ((v : ℚ) / 100000000))) = .ok ⌊roundQ (roundQ ((v : ℚ) / 100000000) * 100000000)⌋ := by
  have hv : (v : ℚ) < 2 ^ 100 := by exact_mod_cast h
  have hq0 : (0 : ℚ) ≤ (v : ℚ) / 100000000 := by positivity
  have hql : (v : ℚ) / 100000000 ≤ 2 ^ 100 := by
    rw [div_le_iff₀ (by norm_num)]
    have : (0 : ℚ) ≤ 2 ^ 100 := by norm_num
    linarith
  have hfin : PyFloat.ofRat ((v : ℚ) / 100000000) = .fin (roundQ ((v : ℚ) / 100000000)) := by
    apply ofRat_fin
    rw [abs_of_nonneg hq0]
    exact hql.trans (pow_le_pow_right₀ (by norm_num) (by norm_num))
  have hx0 := roundQ_nonneg hq0
  have hxl : roundQ ((v : ℚ) / 100000000) ≤ 2 ^ 100 := by
    have : Representable ((2 : ℚ) ^ 100) := ⟨1, 100, by norm_num, by norm_num, by norm_num⟩
    exact roundQ_le this hql
  generalize roundQ ((v : ℚ) / 100000000) = x at *
  have hfin2 : PyFloat.ofRat (x * 100000000) = .fin (roundQ (x * 100000000)) := by
    apply ofRat_fin
    rw [abs_of_nonneg (by positivity)]
    have : x * 100000000 ≤ 2 ^ 148 := by
      have e : (2 : ℚ) ^ 148 = 2 ^ 100 * 2 ^ 48 := by norm_num
      have e2 : (100000000 : ℚ) ≤ 2 ^ 48 := by norm_num
      rw [e]
      exact mul_le_mul hxl e2 (by norm_num) (by positivity)
    exact this.trans (pow_le_pow_right₀ (by norm_num) (by norm_num))
  simp only [fromDecimal, hfin, PyFloat.mulPos]
  rw [show ((D.toNat : ℕ) : ℚ) = 100000000 from by rw [show D.toNat = 100000000 from rfl]; norm_num, hfin2]
  simp only [PyFloat.toInt]
  rw [if_neg (by linarith [roundQ_nonneg (q := x * 100000000) (by positivity)])]

private theorem scale_bounds {v k : ℕ} (h52 : v < 2 ^ 52) (h1 : 2 ^ 52 * 100000000 ≤ v * 2 ^ k) (h2 : v * 2 ^ k < 2 ^ 53 * 100000000) :
    27 ≤ k ∧ k ≤ 79 ∧ 0 < v := by
  have hv : 0 < v := by
    rcases Nat.eq_zero_or_pos v with h | h
    · subst h; simp at h1
    · exact h
  refine ⟨?_, ?_, hv⟩
  · by_contra hk
    have : 2 ^ k ≤ 2 ^ 26 := Nat.pow_le_pow_right (by norm_num) (by omega)
    have : v * 2 ^ k ≤ 2 ^ 52 * 2 ^ 26 := Nat.mul_le_mul h52.le this
    omega
  · by_contra hk
    have : 2 ^ 80 ≤ 2 ^ k := Nat.pow_le_pow_right (by norm_num) (by omega)
    have : 1 * 2 ^ 80 ≤ v * 2 ^ k := Nat.mul_le_mul hv this
    omega

private theorem size_eq {t s : ℕ} (hs : 0 < s) (h1 : 2 ^ (s - 1) ≤ t) (h2 : t < 2 ^ s) : Nat.size t = s := by
  have a := Nat.size_le.2 h2
  have b := Nat.lt_size.2 h1
  omega

/-- How many bits the amount less one has, from its scaled value. -/
private theorem size_pred {v k : ℕ} (hk : k ≤ 79) (hv : 0 < v) (h1 : 2 ^ 52 * 100000000 ≤ v * 2 ^ k)
    (h2 : v * 2 ^ k < 2 ^ 53 * 100000000) : Nat.size (v - 1) = if v * 2 ^ k ≤ 2 ^ 79 then 79 - k else 80 - k := by
  have hp : 0 < 2 ^ k := by positivity
  split
  · next h =>
    have e : 2 ^ 79 = 2 ^ (79 - k) * 2 ^ k := by rw [← pow_add]; congr 1; omega
    rw [e] at h
    have hu := Nat.le_of_mul_le_mul_right h hp
    rcases Nat.lt_or_ge k 79 with hk' | hk'
    · apply size_eq (by omega)
      · have e : 2 ^ 78 = 2 ^ (79 - k - 1) * 2 ^ k := by rw [← pow_add]; congr 1; omega
        have : 2 ^ (79 - k - 1) * 2 ^ k < v * 2 ^ k := by rw [← e]; omega
        have := Nat.lt_of_mul_lt_mul_right this
        omega
      · omega
    · have : 79 - k = 0 := by omega
      rw [this] at hu ⊢
      have : v - 1 = 0 := by omega
      rw [this]
      rfl
  · next h =>
    apply size_eq (by omega)
    · have e : 2 ^ 79 = 2 ^ (80 - k - 1) * 2 ^ k := by rw [← pow_add]; congr 1; omega
      have : 2 ^ (80 - k - 1) * 2 ^ k < v * 2 ^ k := by rw [← e]; omega
      have := Nat.lt_of_mul_lt_mul_right this
      omega
    · have e : 2 ^ 80 = 2 ^ (80 - k) * 2 ^ k := by rw [← pow_add]; congr 1; omega
      have : v * 2 ^ k < 2 ^ (80 - k) * 2 ^ k := by rw [← e]; omega
      have := Nat.lt_of_mul_lt_mul_right this
      omega

/-- C30, exactly when it holds for floats, for all amounts of 1 to 2^52 - 1 satoshis: let N = v * 2^k be the amount scaled to at
least 2^52 and less than 2^53 units. Making an amount from the float nearest to v/10^8 gives one satoshi less exactly if
N is at most 2^79 and the part of N below a unit is above 2^25 = 33,554,432 and below 50,000,000 satoshis; else it gives v. -/
theorem C30_float_iff_partial (v k N : ℕ) (h52 : v < 2 ^ 52) (hN : N = v * 2 ^ k) (h1 : 2 ^ 52 * 100000000 ≤ N)
    (h2 : N < 2 ^ 53 * 100000000) :
    (fromDecimal (.float (.ofRat ((v : ℚ) / 100000000))) = .ok v ↔
      ¬ (N ≤ 2 ^ 79 ∧ 2 ^ 25 < N % 100000000 ∧ N % 100000000 < 50000000)) ∧
    (fromDecimal (.float (.ofRat ((v : ℚ) / 100000000))) = .ok v ∨
      fromDecimal (.float (.ofRat ((v : ℚ) / 100000000))) = .ok ((v : Int) - 1)) := by
  subst hN
  obtain ⟨hk27, hk79, hv0⟩ := scale_bounds h52 h1 h2
  have hp : (0 : ℚ) < 2 ^ k := by positivity
  have hfl := from_float v (h52.trans (by norm_num))
  have hx := round_amount v k h1 h2 (by omega)
  have hdvd : v * 2 ^ k % 256 = 0 := by
    have : 2 ^ k = 256 * 2 ^ (k - 8) := by rw [show (256 : ℕ) = 2 ^ 8 by norm_num, ← pow_add]; congr 1; omega
    rw [this]
    exact Nat.mod_eq_zero_of_dvd ⟨v * 2 ^ (k - 8), by ring⟩
  have htie : v * 2 ^ k % 100000000 ≠ 50000000 := by omega
  have hsz := size_pred hk79 hv0 h1 h2
  rw [rne_frac _ htie] at hx
  have hNm : ((v * 2 ^ k : ℕ) : ℚ) = 100000000 * ((v * 2 ^ k / 100000000 : ℕ) : ℚ) + ((v * 2 ^ k % 100000000 : ℕ) : ℚ) := by
    exact_mod_cast (Nat.div_add_mod (v * 2 ^ k) 100000000).symm
  have hNv : ((v * 2 ^ k : ℕ) : ℚ) = v * 2 ^ k := by push_cast; rfl
  have hR1 : v * 2 ^ k % 100000000 < 100000000 := Nat.mod_lt _ (by norm_num)
  obtain ⟨r, hr, hor, hr0⟩ := C30_float_partial (v : Int) (by omega) (by exact_mod_cast h52)
  rw [Int.cast_natCast] at hr
  have hrf : r = ⌊roundQ (roundQ ((v : ℚ) / 100000000) * 100000000)⌋ := Except.ok.inj (hr.symm.trans hfl)
  have hr' : fromDecimal (.float (.ofRat ((v : ℚ) / 100000000))) = .ok v ∨
      fromDecimal (.float (.ofRat ((v : ℚ) / 100000000))) = .ok ((v : Int) - 1) := by
    rcases hor with h | h <;> rw [hr, h] <;> simp
  refine ⟨?_, hr'⟩
  have hiff : fromDecimal (.float (.ofRat ((v : ℚ) / 100000000))) = .ok (v : Int) ↔
      (v : Int) ≤ ⌊roundQ (roundQ ((v : ℚ) / 100000000) * 100000000)⌋ := by
    rw [hr, ← hrf, Except.ok.injEq]
    omega
  rw [hiff, Int.le_floor, Int.cast_natCast]
  clear hiff hr' hrf hor hr0 hr hfl
  have hv53 : |(v : ℤ)| ≤ 2 ^ 53 := by rw [abs_of_nonneg (by omega)]; norm_num at h52 ⊢; omega
  have hrep : Representable ((v : ℤ) : ℚ) := representable_int hv53
  rw [Int.cast_natCast] at hrep
  rw [hx]
  generalize hm : v * 2 ^ k / 100000000 = m at *
  generalize hRR : v * 2 ^ k % 100000000 = R at *
  rw [hNv] at hNm
  by_cases hR : R < 50000000
  · rw [if_pos hR, add_zero, Int.cast_natCast]
    have hy : (m : ℚ) / 2 ^ k * 100000000 = v - (R : ℚ) / 2 ^ k := by
      field_simp
      linarith
    rw [hy]
    have hRk : R < 2 ^ k := lt_of_lt_of_le hR (le_trans (by norm_num) (Nat.pow_le_pow_right (by norm_num) hk27 : 2 ^ 27 ≤ 2 ^ k))
    have hRkq : (R : ℚ) / 2 ^ k < 1 := by
      rw [div_lt_one hp]
      exact_mod_cast hRk
    rcases Nat.eq_zero_or_pos R with h0 | h0
    · subst h0
      rw [Nat.cast_zero, zero_div, sub_zero]
      have : (v : ℚ) ≤ roundQ v := le_roundQ hrep le_rfl
      simp only [this, true_iff]
      omega
    · have hR0 : (0 : ℚ) < (R : ℚ) / 2 ^ k := by
        have : (0 : ℚ) < R := by exact_mod_cast h0
        positivity
      have hvv : (((v - 1 : ℕ)) : ℚ) + 1 = v := by
        rw [Nat.cast_sub hv0]; simp
      have hle : roundQ ((v : ℚ) - (R : ℚ) / 2 ^ k) ≤ v := roundQ_le hrep (by linarith)
      have hs52 : Nat.size (v - 1) ≤ 52 := Nat.size_le.2 (by omega)
      have ht := roundQ_top (t := v - 1) (q := (v : ℚ) - (R : ℚ) / 2 ^ k) (by linarith) (by linarith) hs52
      rw [hvv, sub_sub_cancel, div_mul_eq_mul_div, div_le_one hp] at ht
      have : (v : ℚ) ≤ roundQ ((v : ℚ) - (R : ℚ) / 2 ^ k) ↔ roundQ ((v : ℚ) - (R : ℚ) / 2 ^ k) = v :=
        ⟨fun h => le_antisymm hle h, fun h => h.symm.le⟩
      rw [this, ht, hsz]
      have hnat : (R : ℚ) * 2 ^ (54 - (if v * 2 ^ k ≤ 2 ^ 79 then 79 - k else 80 - k)) ≤ 2 ^ k ↔
          R * 2 ^ (54 - (if v * 2 ^ k ≤ 2 ^ 79 then 79 - k else 80 - k)) ≤ 2 ^ k := by
        exact_mod_cast Iff.rfl
      rw [hnat]
      by_cases hN : v * 2 ^ k ≤ 2 ^ 79
      · rw [if_pos hN]
        have e : 2 ^ k = 2 ^ 25 * 2 ^ (54 - (79 - k)) := by rw [← pow_add]; congr 1; omega
        have hpp : 0 < 2 ^ (54 - (79 - k)) := by positivity
        rw [e, Nat.mul_le_mul_right_iff hpp]
        rw [← e]
        constructor
        · intro h h'; omega
        · intro h; by_contra hc; exact h ⟨hN, by omega, hR⟩
      · rw [if_neg hN]
        have e : 2 ^ k = 2 ^ 26 * 2 ^ (54 - (80 - k)) := by rw [← pow_add]; congr 1; omega
        have hpp : 0 < 2 ^ (54 - (80 - k)) := by positivity
        constructor
        · intro _ h'; exact hN h'.1
        · intro _
          rw [e]
          exact Nat.mul_le_mul_right _ (by omega)
  · rw [if_neg hR]
    have hRq : (R : ℚ) < 100000000 := by exact_mod_cast hR1
    have hge : (v : ℚ) ≤ (((m : ℤ) + 1 : ℤ) : ℚ) / 2 ^ k * 100000000 := by
      push_cast
      rw [div_mul_eq_mul_div, le_div_iff₀ hp]
      linarith
    have := le_roundQ hrep hge
    simp only [this, true_iff]
    omega

/-- C30, exactly when it holds for floats, for the negative amounts: the same. -/
theorem C30_float_negative_iff_partial (v k N : ℕ) (h52 : v < 2 ^ 52) (hN : N = v * 2 ^ k) (h1 : 2 ^ 52 * 100000000 ≤ N)
    (h2 : N < 2 ^ 53 * 100000000) :
    (fromDecimal (.float (.ofRat (-((v : ℚ) / 100000000)))) = .ok (-(v : Int)) ↔
      ¬ (N ≤ 2 ^ 79 ∧ 2 ^ 25 < N % 100000000 ∧ N % 100000000 < 50000000)) ∧
    (fromDecimal (.float (.ofRat (-((v : ℚ) / 100000000)))) = .ok (-(v : Int)) ∨
      fromDecimal (.float (.ofRat (-((v : ℚ) / 100000000)))) = .ok (-((v : Int) - 1))) := by
  obtain ⟨hiff, hor⟩ := C30_float_iff_partial v k N h52 hN h1 h2
  rcases hor with h | h
  · have h' := fromDecimal_neg _ _ h
    refine ⟨?_, Or.inl h'⟩
    rw [← hiff, h, h']
    exact ⟨fun _ => rfl, fun _ => rfl⟩
  · have h' := fromDecimal_neg _ _ h
    refine ⟨?_, Or.inr h'⟩
    rw [← hiff, h, h', Except.ok.injEq, Except.ok.injEq]
    omega

/-- Every positive amount below 2^53 units, all 64-bit amounts among them, has such a scale. -/
theorem C30_scale_exists (v : ℕ) (hv : 0 < v) (h : v < 2 ^ 53 * 100000000) : ∃ k, 2 ^ 52 * 100000000 ≤ v * 2 ^ k ∧ v * 2 ^ k < 2 ^ 53 * 100000000 := by
  have hex : ∃ k, 2 ^ 52 * 100000000 ≤ v * 2 ^ k := ⟨80, le_trans (by norm_num) (Nat.mul_le_mul_right _ hv)⟩
  classical
  refine ⟨Nat.find hex, Nat.find_spec hex, ?_⟩
  rcases hf : Nat.find hex with _ | j
  · rw [pow_zero, Nat.mul_one]
    exact h
  · have := Nat.find_min hex (m := j) (by omega)
    rw [pow_succ, ← Nat.mul_assoc]
    omega

/-- 29 satoshis come out as 28 (k = 74); 28 as 28. -/
example : 2 ^ 52 * 100000000 ≤ 29 * 2 ^ 74 ∧ 29 * 2 ^ 74 ≤ 2 ^ 79 ∧ 2 ^ 25 < 29 * 2 ^ 74 % 100000000 ∧ 29 * 2 ^ 74 % 100000000 < 50000000 := by
  decide +kernel
example : fromDecimal (.float (.ofRat (((28 : ℕ) : ℚ) / 100000000))) = .ok (28 : ℕ) :=
  (C30_float_iff_partial 28 74 _ (by norm_num) rfl (by norm_num) (by norm_num)).1.2 (by decide +kernel)
example : fromDecimal (.float (.ofRat (((29 : ℕ) : ℚ) / 100000000))) ≠ .ok (29 : ℕ) := fun h =>
  (C30_float_iff_partial 29 74 _ (by norm_num) rfl (by norm_num) (by norm_num)).1.1 h (by decide +kernel)

/-- C156, exactly when it holds, for all amounts other than 0 of magnitude below 2^52 satoshis: with N the magnitude scaled as
above, either text of an amount is read back as the amount exactly if not (N at most 2^79 and the part of N below a unit
between 2^25 and 50,000,000 satoshis, both exclusive). -/
theorem C156_iff_partial (P : Parsers) (hP : Faithful P) (R : Dtoa) (v : Int) (k N : ℕ) (h52 : |v| < 2 ^ 52)
    (hN : N = v.natAbs * 2 ^ k) (h1 : 2 ^ 52 * 100000000 ≤ N) (h2 : N < 2 ^ 53 * 100000000) (pos : Bool) (hpos : pos = true → 0 ≤ v) :
    ∃ s t r, Fixed8.toStr R v = .ok s ∧ Fixed8.toNeoJsonStr R v = .ok t ∧
      tryParse P (.str s) pos = .ok (some r) ∧ tryParse P (.str t) pos = .ok (some r) ∧
      (r = v ↔ ¬ (N ≤ 2 ^ 79 ∧ 2 ^ 25 < N % 100000000 ∧ N % 100000000 < 50000000)) := by
  have h64 : |v| < 2 ^ 64 := h52.trans (by norm_num)
  obtain ⟨s, t, r, hs, ht, e1, e2, hr⟩ := parse_text P hP R v h64 pos hpos
  refine ⟨s, t, r, hs, ht, e1, e2, ?_⟩
  have hof := ofRat_fin (big 64 (by norm_num) (small h64))
  rw [← hof, show (10 : ℚ) ^ 8 = 100000000 by norm_num] at hr
  have ha : v.natAbs < 2 ^ 52 := by
    rw [Int.abs_eq_natAbs] at h52
    exact_mod_cast h52
  rcases le_total 0 v with hv | hv
  · have hc : ((v.natAbs : ℕ) : ℤ) = v := Int.natAbs_of_nonneg hv
    have hq : ((v.natAbs : ℕ) : ℚ) = (v : ℚ) := by rw [← Int.cast_natCast, hc]
    obtain ⟨hiff, -⟩ := C30_float_iff_partial v.natAbs k N ha hN h1 h2
    rw [hq, hr, hc, Except.ok.injEq] at hiff
    exact hiff
  · have hc : ((v.natAbs : ℕ) : ℤ) = -v := by omega
    have hq : ((v.natAbs : ℕ) : ℚ) = -(v : ℚ) := by rw [← Int.cast_natCast, hc, Int.cast_neg]
    obtain ⟨hiff, -⟩ := C30_float_negative_iff_partial v.natAbs k N ha hN h1 h2
    rw [hq, neg_div, neg_neg, hr, hc, neg_neg, Except.ok.injEq] at hiff
    exact hiff

/-- Minus 28 satoshis. -/
example : |(-28 : Int)| < 2 ^ 52 ∧ 2 ^ 52 * 100000000 ≤ (-28 : Int).natAbs * 2 ^ 74 ∧
    (-28 : Int).natAbs * 2 ^ 74 < 2 ^ 53 * 100000000 := by decide +kernel

/-- C181 for Decimals, exactly when it holds, for all amounts other than 0 of magnitude below 2^52 satoshis: with N as above, `TryParse`
of the Decimal v/10^8, however it is written, gives v, as `FromDecimal` does, exactly if not (N at most 2^79 and the part of N below
a unit between 2^25 and 50,000,000 satoshis, both exclusive). -/
theorem C181_decimal_iff_partial (P : Parsers) (d : Dec) (v : Int) (k N : ℕ) (hd : d.val = (v : ℚ) / 100000000) (h52 : |v| < 2 ^ 52)
    (hN : N = v.natAbs * 2 ^ k) (h1 : 2 ^ 52 * 100000000 ≤ N) (h2 : N < 2 ^ 53 * 100000000) :
    tryParse P (.decimal d) false = .ok (some v) ↔ ¬ (N ≤ 2 ^ 79 ∧ 2 ^ 25 < N % 100000000 ∧ N % 100000000 < 50000000) := by
  have ha : v.natAbs < 2 ^ 52 := by
    rw [Int.abs_eq_natAbs] at h52
    exact_mod_cast h52
  have hmap : ∀ x : Except Err Int, (x.map some = (Except.ok (some v) : Except Err (Option Int))) ↔ x = Except.ok v := by
    intro x
    cases x <;> simp [Except.map]
  rw [decimal_as_float P d v hd, hmap]
  rcases le_total 0 v with hv | hv
  · have hc : ((v.natAbs : ℕ) : ℤ) = v := Int.natAbs_of_nonneg hv
    have hq : ((v.natAbs : ℕ) : ℚ) = (v : ℚ) := by rw [← Int.cast_natCast, hc]
    obtain ⟨hiff, -⟩ := C30_float_iff_partial v.natAbs k N ha hN h1 h2
    rw [hq, hc] at hiff
    exact hiff
  · have hc : ((v.natAbs : ℕ) : ℤ) = -v := by omega
    have hq : ((v.natAbs : ℕ) : ℚ) = -(v : ℚ) := by rw [← Int.cast_natCast, hc, Int.cast_neg]
    obtain ⟨hiff, -⟩ := C30_float_negative_iff_partial v.natAbs k N ha hN h1 h2
    rw [hq, neg_div, neg_neg, hc, neg_neg] at hiff
    exact hiff

/-- 0.28 written as 28E-2, which stays what it is. -/
example (P : Parsers) : tryParse P (.decimal ⟨28, -2⟩) false = .ok (some 28000000) :=
  (C181_decimal_iff_partial P ⟨28, -2⟩ 28000000 54 _ (by norm_num [Dec.val]) (by norm_num) rfl (by norm_num) (by norm_num)).2 (by decide +kernel)

end Neo.Props
