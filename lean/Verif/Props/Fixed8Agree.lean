import Verif.Props.Fixed8
import Verif.Props.Fixed8More
import Verif.Props.Fixed8Text

/-!
# C181: `TryParse` and `FromDecimal`
-/

namespace Neo.Props
open Py Neo.Fixed8

/-- C181 for floats: `TryParse(x)` is `FromDecimal(x)` for every float, nan and infinities (where both raise) included. -/
theorem C181_float_partial (P : Parsers) (f : PyFloat) : tryParse P (.float f) false = (fromDecimal (.float f)).map some := by
  have hD : D.toNat = 100000000 := rfl
  cases f with
  | nan => rfl
  | inf b => rfl
  | fin q =>
    by_cases h0 : q = 0
    · subst h0
      have h1 : parsedVal P (.float (.fin 0)) = .int 0 := by
        simp only [parsedVal, floatOf, Parsed.falsy, PyFloat.truthy, intOf, PyFloat.toInt]
        simp
      have h2 : fromDecimal (.float (.fin 0)) = .ok 0 := by
        simp only [fromDecimal, PyFloat.mulPos, PyFloat.ofRat, zero_mul, roundQ_zero]
        rw [if_neg (by simp)]
        simp [PyFloat.toInt]
      rw [tryParse, h1, h2]
      rfl
    · have h1 : parsedVal P (.float (.fin q)) = .float (.fin q) := by
        simp only [parsedVal, floatOf, Parsed.falsy, PyFloat.truthy, decide_eq_true h0, Bool.not_true, Bool.false_eq_true, if_false]
      rw [tryParse, h1]
      simp only [Bool.false_and, Bool.false_eq_true, if_false, fromDecimal]
      generalize (PyFloat.fin q).mulPos D.toNat = x
      cases x.toInt <;> rfl

/-- C181 for all ints: they agree exactly on the ints too large for a float (`TryParse` then falls back on `int`) and on those whose product
with 5^8 has at most 53 significant bits and whose product with 10^8 is within the range of floats. -/
theorem C181_int_iff_partial (P : Parsers) (n : Int) :
    tryParse P (.int n) false = (fromDecimal (.int n)).map some ↔
      2 ^ 1024 - 2 ^ 970 ≤ |n| ∨ (∃ (m : Int) (j : Nat), |m| < 2 ^ 53 ∧ n * 5 ^ 8 = m * 2 ^ j) ∧ |n| * 100000000 < 2 ^ 1024 :=
  C31_whole_iff_partial P n false (fun h => by cases h)

/-- `TryParse` of a Decimal does what `FromDecimal` does with the nearest float. -/
theorem decimal_as_float (P : Parsers) (d : Dec) (v : Int) (hd : d.val = (v : ℚ) / 100000000) :
    tryParse P (.decimal d) false = (fromDecimal (.float (.ofRat ((v : ℚ) / 100000000)))).map some := by
  rw [← C181_float_partial P]
  have hp : parsedVal P (.decimal d) = parsedVal P (.float (.ofRat ((v : ℚ) / 100000000))) := by
    obtain ⟨x, hx⟩ : ∃ x, x = PyFloat.ofRat ((v : ℚ) / 100000000) := ⟨_, rfl⟩
    simp only [parsedVal, floatOf, hd, ← hx]
    by_cases hf : (Parsed.float x).falsy = true
    · rw [if_pos hf, if_pos hf]
      have h0 : x = .fin 0 := by
        cases x with
        | nan => cases hf
        | inf b => cases hf
        | fin q =>
          simp only [Parsed.falsy, PyFloat.truthy, Bool.not_eq_true', decide_eq_false_iff_not, not_not] at hf
          rw [hf]
      have hv0 : v = 0 := by
        by_contra hne
        have hpos := roundQ_pos_of v.natAbs (by omega)
        have habs : |roundQ ((v : ℚ) / 100000000)| = roundQ ((v.natAbs : ℚ) / 10 ^ 8) := by
          rw [roundQ_abs, abs_div, Nat.cast_natAbs, Int.cast_abs]
          norm_num
        rw [h0] at hx
        unfold PyFloat.ofRat at hx
        split at hx
        · cases hx
        · have := PyFloat.fin.inj hx
          rw [← this] at habs
          rw [← habs] at hpos
          simp at hpos
      subst hv0
      have hdi : d.toInt = 0 := by rw [Dec.toInt, hd]; simp
      simp only [intOf, hdi, h0, PyFloat.toInt]
      simp
    · rw [if_neg hf, if_neg hf]
  simp only [tryParse, hp]

/-- C181 for Decimals: `TryParse` goes through a float and may lose one satoshi of an amount below 2^52 satoshis, which `FromDecimal` does not. -/
theorem C181_decimal_partial (P : Parsers) (d : Dec) (v : Int) (hd : d.val = (v : ℚ) / 100000000) (hv : |v| < 2 ^ 52) :
    ∃ r, tryParse P (.decimal d) false = .ok (some r) ∧ (r = v ∨ |r| = |v| - 1 ∧ 0 ≤ r * v) := by
  have hq := decimal_as_float P d v hd
  rcases le_total 0 v with h0 | h0
  · rw [abs_of_nonneg h0] at hv
    obtain ⟨r, h1, h2, h3⟩ := C30_float_partial v h0 hv
    refine ⟨r, by rw [hq, h1]; rfl, ?_⟩
    rcases h2 with h2 | h2
    · exact .inl h2
    · refine .inr ⟨by rw [abs_of_nonneg h3, abs_of_nonneg h0, h2], mul_nonneg h3 h0⟩
  · rw [abs_of_nonpos h0] at hv
    obtain ⟨r, h1, h2, h3⟩ := C30_float_negative_partial (-v) (by omega) hv
    refine ⟨-r, by rw [hq]; push_cast at h1; rw [neg_div, neg_neg] at h1; rw [h1]; rfl, ?_⟩
    rcases h2 with h2 | h2
    · exact .inl (by omega)
    · refine .inr ⟨by rw [abs_neg, abs_of_nonneg h3, abs_of_nonpos h0, h2], by nlinarith⟩

/-- C181 for the Decimals that are no finite numbers: both raise for NaN and the infinities; a signalling NaN gives None, where FromDecimal raises. -/
theorem C181_special_violated (P : Parsers) (s : DecSpecial) :
    (s ≠ .snan → ∃ e, tryParse P (.special s) false = .error e ∧ fromDecimal (.special s) = .error e) ∧
    tryParse P (.special .snan) false = .ok none ∧ fromDecimal (.special .snan) = .error .invalidOperation := by
  refine ⟨fun h => ?_, rfl, rfl⟩
  cases s with
  | nan => exact ⟨_, rfl, rfl⟩
  | inf b => exact ⟨_, rfl, rfl⟩
  | snan => exact absurd rfl h

/-- C181 fails: for the Decimal 0.00000029 and for the int 2^53 + 1. -/
theorem C181_violated (P : Parsers) :
    tryParse P (.decimal ⟨29, -8⟩) false = .ok (some 28) ∧ fromDecimal (.decimal ⟨29, -8⟩) = .ok 29 ∧
    tryParse P (.int (2 ^ 53 + 1)) false = .ok (some (2 ^ 53 * 100000000)) ∧ fromDecimal (.int (2 ^ 53 + 1)) = .ok ((2 ^ 53 + 1) * 100000000) := by
  refine ⟨?_, ?_, C31_whole_violated P, rfl⟩
  · have hv : (Dec.mk 29 (-8)).val = (29 : ℚ) / 100000000 := by rw [Dec.val]; norm_num
    have h1 : parsedVal P (.decimal ⟨29, -8⟩) = .float (.ofRat ((29 : ℚ) / 100000000)) := by
      simp only [parsedVal, floatOf, hv]
      rw [if_neg]
      decide +kernel
    rw [tryParse, h1]
    simp only [Bool.false_and, Bool.false_eq_true, if_false]
    have := C30_float_violated
    rw [fromDecimal] at this
    rw [this]
  · refine C85_decimal _ 29 (by norm_num) (by rw [Dec.val]; norm_num) ?_
    exact lt_of_lt_of_le (b := 10 ^ 2) (by norm_num [abs_lt]) (pow_le_pow_right₀ (by norm_num) (by norm_num))

/-- 12.5 units and 29 satoshis are such Decimals. -/
example : (Dec.mk 125 (-1)).val = ((1250000000 : Int) : ℚ) / 100000000 ∧ (Dec.mk 29 (-8)).val = ((29 : Int) : ℚ) / 100000000 := by
  constructor <;> (rw [Dec.val]; norm_num)

end Neo.Props
