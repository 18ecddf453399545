import Verif.Proofs.FloatDiv
import Verif.Props.Fixed8

/-!
# C28, C29: exactly when the float division in `/`, `Floor`, `Ceil` and `ToInt` gives the right answer
-/

namespace Neo.Props
open Py Fixed8

/-- `int(x)` of a finite float. -/
private def trunc (q : ℚ) : ℤ := if q < 0 then ⌈q⌉ else ⌊q⌋

private theorem trunc_neg (q : ℚ) : trunc (-q) = -trunc q := by
  unfold trunc
  rcases lt_trichotomy q 0 with h | h | h
  · rw [if_neg (by linarith), if_pos h, Int.floor_neg]
  · subst h; simp
  · rw [if_pos (by linarith), if_neg (by linarith), Int.ceil_neg]

private theorem trunc_nonneg {q : ℚ} (h : 0 ≤ q) : trunc q = ⌊q⌋ := if_neg (not_lt.2 h)

private theorem floor_unit {x : ℚ} {t : ℕ} (h1 : (t : ℚ) ≤ x) (h2 : x ≤ t + 1) : (⌊x⌋ = t ↔ x ≠ t + 1) ∧ (x = t + 1 → ⌊x⌋ = t + 1) := by
  have key : x = t + 1 → ⌊x⌋ = t + 1 := by
    intro e
    rw [Int.floor_eq_iff, e]
    push_cast
    constructor <;> linarith
  refine ⟨⟨fun h e => ?_, fun h => ?_⟩, key⟩
  · rw [key e] at h; omega
  · rw [Int.floor_eq_iff]
    exact ⟨by exact_mod_cast h1, by exact_mod_cast lt_of_le_of_ne h2 h⟩

private theorem quot_bounds (a b : ℕ) (hb : 0 < b) : ((a / b : ℕ) : ℚ) ≤ (a : ℚ) / b ∧ (a : ℚ) / b < ((a / b : ℕ) : ℚ) + 1 ∧
    (a : ℚ) / b - ((a / b : ℕ) : ℚ) = ((a % b : ℕ) : ℚ) / b ∧ ((a / b : ℕ) : ℚ) + 1 - (a : ℚ) / b = ((b - a % b : ℕ) : ℚ) / b := by
  have hb0 : (0 : ℚ) < b := by exact_mod_cast hb
  have e : (a : ℚ) = b * ((a / b : ℕ) : ℚ) + ((a % b : ℕ) : ℚ) := by exact_mod_cast (Nat.div_add_mod a b).symm
  have hm : a % b < b := Nat.mod_lt _ hb
  have hmq : ((a % b : ℕ) : ℚ) < b := by exact_mod_cast hm
  have hm0 : (0 : ℚ) ≤ ((a % b : ℕ) : ℚ) := by positivity
  have d : (a : ℚ) / b - ((a / b : ℕ) : ℚ) = ((a % b : ℕ) : ℚ) / b := by
    rw [sub_eq_iff_eq_add, div_add' _ _ _ hb0.ne', div_left_inj' hb0.ne']
    linarith
  refine ⟨?_, ?_, d, ?_⟩
  · rw [le_div_iff₀ hb0]; linarith
  · rw [div_lt_iff₀ hb0]; linarith
  · rw [Nat.cast_sub hm.le, sub_div, div_self hb0.ne', ← d]
    ring

private theorem sign_natAbs (a : Int) : (a : ℚ) = (a.sign : ℚ) * (a.natAbs : ℚ) := by
  rw [← Int.cast_natCast (R := ℚ) a.natAbs, ← Int.cast_mul, Int.sign_mul_natAbs]

private theorem fin_of_size {a b : ℕ} (hb : 0 < b) (h : Nat.size (a / b) ≤ 1000) {x : ℚ} (hx : |x| ≤ (a : ℚ) / b) :
    PyFloat.ofRat x = .fin (roundQ x) := by
  apply ofRat_fin
  obtain ⟨-, h2, -, -⟩ := quot_bounds a b hb
  have h3 : a / b + 1 ≤ 2 ^ Nat.size (a / b) := Nat.lt_size_self _
  have h4 : ((a / b : ℕ) : ℚ) + 1 ≤ 2 ^ Nat.size (a / b) := by exact_mod_cast h3
  have h5 : (2 : ℚ) ^ Nat.size (a / b) ≤ 2 ^ 1000 := pow_le_pow_right₀ (by norm_num) h
  exact hx.trans (h2.le.trans (h4.trans h5))

/-- The result of `/`: the truncated rounded quotient, with the sign of the exact one. -/
private theorem truediv_sign (a b : Int) (hb : b ≠ 0) (h : Nat.size (a.natAbs / b.natAbs) ≤ 1000) :
    Fixed8.truediv a b = .ok (a.sign * b.sign * ⌊roundQ ((a.natAbs : ℚ) / b.natAbs)⌋) := by
  have hb0 : (0 : ℚ) < b.natAbs := by exact_mod_cast Int.natAbs_pos.2 hb
  have hq0 : (0 : ℚ) ≤ (a.natAbs : ℚ) / b.natAbs := by positivity
  have hsb : b.sign = -1 ∨ b.sign = 1 := by
    rcases lt_or_gt_of_ne hb with h | h
    · exact .inl (Int.sign_eq_neg_one_of_neg h)
    · exact .inr (Int.sign_eq_one_of_pos h)
  have hq : (a : ℚ) / b = ((a.sign * b.sign : ℤ) : ℚ) * ((a.natAbs : ℚ) / b.natAbs) := by
    rw [sign_natAbs a, sign_natAbs b]
    rcases hsb with h | h <;> rw [h] <;> push_cast <;> field_simp
  have hsg : a.sign * b.sign = 0 ∨ a.sign * b.sign = 1 ∨ a.sign * b.sign = -1 := by
    rcases Int.sign_trichotomy a with h | h | h <;> rcases Int.sign_trichotomy b with h' | h' | h' <;> rw [h, h'] <;> decide
  have habs : |(a : ℚ) / b| ≤ (a.natAbs : ℚ) / b.natAbs := by
    rw [hq, abs_mul, abs_of_nonneg hq0]
    rcases hsg with h | h | h <;> rw [h]
    · rw [Int.cast_zero, abs_zero, zero_mul]; exact hq0
    · rw [Int.cast_one, abs_one, one_mul]
    · rw [Int.cast_neg, Int.cast_one, abs_neg, abs_one, one_mul]
  unfold Fixed8.truediv intTrueDiv
  rw [if_neg hb, fin_of_size (Int.natAbs_pos.2 hb) h habs]
  show Except.ok (trunc (roundQ ((a : ℚ) / b))) = _
  congr 1
  rw [hq]
  have hr0 := roundQ_nonneg hq0
  rcases hsg with h | h | h <;> rw [h]
  · simp [roundQ_zero, trunc]
  · rw [Int.cast_one, one_mul, one_mul, trunc_nonneg hr0]
  · rw [Int.cast_neg, Int.cast_one, neg_one_mul, neg_one_mul, roundQ_neg, trunc_neg, trunc_nonneg hr0]

private theorem tdiv_sign (a b : Int) : a.tdiv b = a.sign * b.sign * ((a.natAbs / b.natAbs : ℕ) : ℤ) := by
  have key : ∀ m n : ℕ, Int.tdiv m n = Int.sign m * Int.sign n * ((m / n : ℕ) : ℤ) := by
    intro m n
    rcases Nat.eq_zero_or_pos m with rfl | hm
    · simp
    rcases Nat.eq_zero_or_pos n with rfl | hn
    · simp
    rw [Int.sign_eq_one_of_pos (by exact_mod_cast hm), Int.sign_eq_one_of_pos (by exact_mod_cast hn), one_mul, one_mul]
    rfl
  obtain ⟨m, rfl | rfl⟩ := Int.eq_nat_or_neg a <;> obtain ⟨n, rfl | rfl⟩ := Int.eq_nat_or_neg b <;>
    simp only [Int.neg_tdiv, Int.tdiv_neg, Int.natAbs_neg, Int.natAbs_natCast, Int.sign_neg, key] <;> ring

private theorem sign_inj {a b : Int} (hb : b ≠ 0) (ha : a ≠ 0) (x y : Int) :
    a.sign * b.sign * x = a.sign * b.sign * y ↔ x = y := by
  constructor
  · intro h
    exact mul_left_cancel₀ (mul_ne_zero (mt Int.sign_eq_zero_iff_zero.1 ha) (mt Int.sign_eq_zero_iff_zero.1 hb)) h
  · rintro rfl; rfl

/-- C29, exactly when it holds, for all amounts whose quotient is below 2^1000. Let t be the quotient without its fraction and
L its number of bits. Up to L = 52 the result is t, or t + 1 if the remainder is within 1/2^(54-L) of the divisor; with L = 53
it is the nearest integer (ties to even); from L = 54 on it is right exactly if the lowest L - 53 bits of t are zero. -/
theorem C29_iff_partial (a b : Int) (hb : b ≠ 0) (t L r : Nat) (ht : t = a.natAbs / b.natAbs) (hr : r = a.natAbs % b.natAbs)
    (hL : L = Nat.size t) (hL2 : L ≤ 1000) :
    (L ≤ 52 → (Fixed8.truediv a b = .ok (a.tdiv b) ↔ b.natAbs < (b.natAbs - r) * 2 ^ (54 - L)) ∧
      (Fixed8.truediv a b = .ok (a.tdiv b) ∨ Fixed8.truediv a b = .ok (a.sign * b.sign * (t + 1)))) ∧
    (L = 53 → (Fixed8.truediv a b = .ok (a.tdiv b) ↔ 2 * r < b.natAbs ∨ (2 * r = b.natAbs ∧ t % 2 = 0))) ∧
    (53 < L → (Fixed8.truediv a b = .ok (a.tdiv b) ↔ 2 ^ (L - 53) ∣ t)) := by
  subst hL
  have hbp : 0 < b.natAbs := Int.natAbs_pos.2 hb
  have hb0 : (0 : ℚ) < b.natAbs := by exact_mod_cast hbp
  obtain ⟨h1, h2, h3, h4⟩ := quot_bounds a.natAbs b.natAbs hbp
  have hf := truediv_sign a b hb (by rw [← ht]; exact hL2)
  rw [← ht] at h1 h2 h3 h4
  rw [← hr] at h3 h4
  by_cases ha : a = 0
  · subst ha
    have ht0 : t = 0 := by rw [ht]; simp
    have hr0 : r = 0 := by rw [hr]; simp
    subst ht0 hr0
    have e : Fixed8.truediv 0 b = .ok (Int.tdiv 0 b) := by rw [hf]; simp
    refine ⟨fun _ => ⟨?_, .inl e⟩, fun h => ?_, fun h => ?_⟩
    · rw [iff_true_left e, Nat.size_zero]
      simp only [Nat.sub_zero]
      omega
    · simp at h
    · simp at h
  have hiff : Fixed8.truediv a b = .ok (a.tdiv b) ↔ ⌊roundQ ((a.natAbs : ℚ) / b.natAbs)⌋ = (t : ℤ) := by
    rw [hf, tdiv_sign, ← ht, Except.ok.injEq]
    exact sign_inj hb ha _ _
  refine ⟨fun h => ?_, fun h => ?_, fun h => ?_⟩
  · have hlt : t < 2 ^ 53 := lt_of_lt_of_le (Nat.lt_size_self t) (Nat.pow_le_pow_right (by decide) (by omega))
    obtain ⟨w1, w2⟩ := roundQ_within h1 h2 hlt
    obtain ⟨f1, f2⟩ := floor_unit w1 w2
    constructor
    · rw [hiff, f1, ne_eq, roundQ_top h1 h2 h, h4, not_le, div_mul_eq_mul_div, lt_div_iff₀ hb0, one_mul]
      exact_mod_cast Iff.rfl
    · by_cases e : roundQ ((a.natAbs : ℚ) / b.natAbs) = t + 1
      · right; rw [hf, f2 e]
      · left; rw [hiff, f1]; exact e
  · obtain ⟨g1, g2⟩ := roundQ_53 h1 h2 h
    rw [hiff, g1, Int.floor_intCast, g2, h3, div_lt_iff₀ hb0, div_eq_iff hb0.ne']
    constructor
    · rintro (h | ⟨h, h'⟩)
      · left
        have : (2 * r : ℚ) < b.natAbs := by linarith
        exact_mod_cast this
      · right
        have : (2 * r : ℚ) = b.natAbs := by linarith
        exact ⟨by exact_mod_cast this, h'⟩
    · rintro (h | ⟨h, h'⟩)
      · left
        have : (2 * r : ℚ) < b.natAbs := by exact_mod_cast h
        linarith
      · right
        have : (2 * r : ℚ) = b.natAbs := by exact_mod_cast h
        exact ⟨by linarith, h'⟩
  · obtain ⟨⟨n, g0⟩, g⟩ := roundQ_large h1 h2 h
    rw [hiff, ← g, g0, Int.floor_intCast]
    constructor
    · intro e; rw [e]; simp
    · intro e; exact_mod_cast e

/-- A quotient of 29 bits: one satoshi below 2^29 times the divisor is rounded up for the divisors 2^26 and 2^25 (a tie), not for 2^24. -/
example : Fixed8.truediv (2 ^ 29 * 67108864 - 1) 67108864 = .ok (2 ^ 29) ∧ Nat.size (2 ^ 29 - 1) = 29 ∧
    Fixed8.truediv (2 ^ 29 * 33554432 - 1) 33554432 = .ok (2 ^ 29) ∧ Fixed8.truediv (-(2 ^ 29 * 16777216 - 1)) 16777216 = .ok (-(2 ^ 29 - 1)) := by
  refine ⟨?_, ?_, ?_, ?_⟩ <;> decide +kernel

/-! ### C28 -/

private theorem satoshis (n : ℕ) (hs : Nat.size (n / 100000000) ≤ 52) (s : Int) (hsg : s = 1 ∨ s = -1) :
    intTrueDiv (s * n) D = .ok (.fin (s * roundQ ((n : ℚ) / ((100000000 : ℕ) : ℚ)))) := by
  have hx : |(((s * n : ℤ)) : ℚ) / (D : ℚ)| ≤ (n : ℚ) / ((100000000 : ℕ) : ℚ) := by
    have hD : (D : ℚ) = ((100000000 : ℕ) : ℚ) := by norm_num [D]
    rw [hD]
    rcases hsg with rfl | rfl
    · push_cast; rw [one_mul, abs_of_nonneg (by positivity)]
    · push_cast; rw [neg_one_mul, neg_div, abs_neg, abs_of_nonneg (by positivity)]
  unfold intTrueDiv
  rw [if_neg (by decide), fin_of_size (by decide) (by omega) hx]
  have hD : (D : ℚ) = ((100000000 : ℕ) : ℚ) := by norm_num [D]
  rw [hD]
  rcases hsg with rfl | rfl
  · push_cast; rw [one_mul, one_mul]
  · push_cast; rw [neg_one_mul, neg_one_mul, neg_div, roundQ_neg]

private theorem floor_iff {v : Int} {q : ℚ} (h : intTrueDiv v D = .ok (.fin q)) (m : Int) :
    Fixed8.floor v = .ok (m * 100000000) ↔ ⌊q⌋ = m := by
  unfold Fixed8.floor
  rw [h]
  simp only [PyFloat.floor, Except.ok.injEq]
  exact Int.mul_eq_mul_right_iff (by decide)

private theorem ceil_iff {v : Int} {q : ℚ} (h : intTrueDiv v D = .ok (.fin q)) (m : Int) :
    Fixed8.ceil v = .ok (m * 100000000) ↔ ⌈q⌉ = m := by
  unfold Fixed8.ceil
  rw [h]
  simp only [PyFloat.ceil, Except.ok.injEq]
  exact Int.mul_eq_mul_right_iff (by decide)

private theorem toInt_iff {v : Int} {q : ℚ} (h : intTrueDiv v D = .ok (.fin q)) (m : Int) :
    Fixed8.toInt v = .ok m ↔ trunc q = m := by
  unfold Fixed8.toInt
  rw [h]
  simp only [PyFloat.toInt, Except.ok.injEq]
  rfl

/-- The integral parts of the rounded number of units: exact or not. -/
private theorem parts (n t r : ℕ) (ht : t = n / 100000000) (hr : r = n % 100000000) (hs : Nat.size t ≤ 52) :
    (⌊roundQ ((n : ℚ) / ((100000000 : ℕ) : ℚ))⌋ = (t : ℤ) ↔ 100000000 < (100000000 - r) * 2 ^ (54 - Nat.size t)) ∧
    (⌈roundQ ((n : ℚ) / ((100000000 : ℕ) : ℚ))⌉ = (t : ℤ) + (if r = 0 then 0 else 1) ↔ r = 0 ∨ 100000000 < r * 2 ^ (54 - Nat.size t)) := by
  obtain ⟨h1, h2, h3, h4⟩ := quot_bounds n 100000000 (by decide)
  rw [← ht] at h1 h2 h3 h4
  rw [← hr] at h3 h4
  have hb0 : (0 : ℚ) < ((100000000 : ℕ) : ℚ) := by norm_num
  have hlt : t < 2 ^ 53 := lt_of_lt_of_le (Nat.lt_size_self t) (Nat.pow_le_pow_right (by decide) (by omega))
  obtain ⟨w1, w2⟩ := roundQ_within h1 h2 hlt
  obtain ⟨f1, f2⟩ := floor_unit w1 w2
  constructor
  · rw [f1, ne_eq, roundQ_top h1 h2 hs, h4, not_le, div_mul_eq_mul_div, lt_div_iff₀ hb0, one_mul]
    exact_mod_cast Iff.rfl
  · by_cases hr0 : r = 0
    · simp only [hr0, if_true, true_or, iff_true, add_zero]
      have hq : (n : ℚ) / ((100000000 : ℕ) : ℚ) = t := by
        rw [hr0, Nat.cast_zero, zero_div] at h3; linarith
      have := roundQ_int (n := (t : ℤ)) (by rw [abs_of_nonneg (by omega)]; exact_mod_cast hlt.le)
      rw [Int.cast_natCast] at this
      rw [hq, this]
      exact Int.ceil_natCast t
    · simp only [hr0, if_false, false_or]
      have hc : ⌈roundQ ((n : ℚ) / ((100000000 : ℕ) : ℚ))⌉ = (t : ℤ) + 1 ↔ roundQ ((n : ℚ) / ((100000000 : ℕ) : ℚ)) ≠ t := by
        rw [Int.ceil_eq_iff]
        push_cast
        constructor
        · rintro ⟨g, -⟩ e; rw [e] at g; linarith
        · intro g
          refine ⟨?_, w2⟩
          have := lt_of_le_of_ne w1 (Ne.symm g)
          linarith
      rw [hc]
      rcases Nat.eq_zero_or_pos t with t0 | tp
      · have hr1 : (1 : ℚ) ≤ r := by exact_mod_cast Nat.one_le_iff_ne_zero.2 hr0
        have hrep : Representable ((1 / 2 ^ 30 : ℚ)) := ⟨1, -30, by norm_num, by norm_num, by norm_num⟩
        have hle : (1 / 2 ^ 30 : ℚ) ≤ (n : ℚ) / ((100000000 : ℕ) : ℚ) := by
          rw [t0, Nat.cast_zero, sub_zero] at h3
          rw [h3, le_div_iff₀ hb0]
          refine le_trans ?_ hr1
          norm_num
        have := le_roundQ hrep hle
        rw [t0, Nat.cast_zero, Nat.size_zero]
        constructor
        · intro _
          have : 1 ≤ r := Nat.one_le_iff_ne_zero.2 hr0
          simp only [Nat.sub_zero]
          omega
        · intro _ e; rw [e] at this; norm_num at this
      · rw [ne_eq, roundQ_bottom tp h1 h2 hs, h3, not_le, div_mul_eq_mul_div, lt_div_iff₀ hb0, one_mul]
        exact_mod_cast Iff.rfl

/-- C28, exactly when it holds, for all amounts of less than 2^52 units (64-bit amounts have less than 2^37). Let t be the number of
whole units of the amount's magnitude, L the number of bits of t and r the satoshis that remain. `ToInt`, and rounding toward
zero (`Floor` of amounts that are not negative, `Ceil` of negative ones), is right exactly if r is not too near to a whole unit;
rounding away from zero exactly if r is zero or not too small. -/
theorem C28_iff_partial (n t r L : Nat) (ht : t = n / 100000000) (hr : r = n % 100000000) (hL : L = Nat.size t) (hL2 : L ≤ 52) :
    (∀ v : Int, v = n ∨ v = -n → (Fixed8.toInt v = .ok (v.tdiv 100000000) ↔ 100000000 < (100000000 - r) * 2 ^ (54 - L))) ∧
    (Fixed8.floor n = .ok (t * 100000000) ↔ 100000000 < (100000000 - r) * 2 ^ (54 - L)) ∧
    (Fixed8.ceil (-n) = .ok (-(t * 100000000)) ↔ 100000000 < (100000000 - r) * 2 ^ (54 - L)) ∧
    (Fixed8.ceil n = .ok ((t + if r = 0 then 0 else 1) * 100000000) ↔ r = 0 ∨ 100000000 < r * 2 ^ (54 - L)) ∧
    (Fixed8.floor (-n) = .ok (-((t + if r = 0 then 0 else 1) * 100000000)) ↔ r = 0 ∨ 100000000 < r * 2 ^ (54 - L)) := by
  subst hL
  obtain ⟨p1, p2⟩ := parts n t r ht hr hL2
  have s1 := satoshis n (by rw [← ht]; exact hL2) 1 (.inl rfl)
  have s2 := satoshis n (by rw [← ht]; exact hL2) (-1) (.inr rfl)
  rw [one_mul, Int.cast_one, one_mul] at s1
  rw [neg_one_mul, Int.cast_neg, Int.cast_one, neg_one_mul] at s2
  have hr0 : 0 ≤ roundQ ((n : ℚ) / ((100000000 : ℕ) : ℚ)) := roundQ_nonneg (by positivity)
  generalize roundQ ((n : ℚ) / ((100000000 : ℕ) : ℚ)) = x at p1 p2 s1 s2 hr0
  generalize (54 - Nat.size t) = g at p1 p2 ⊢
  have hnt : ((n : ℤ)).tdiv 100000000 = t := by
    rw [Int.tdiv_eq_ediv_of_nonneg (Int.natCast_nonneg n)]
    omega
  refine ⟨?_, ?_, ?_, ?_, ?_⟩
  · rintro v (rfl | rfl)
    · rw [← p1, toInt_iff s1, trunc_nonneg hr0, hnt]
    · rw [← p1, toInt_iff s2, trunc_neg, trunc_nonneg hr0, Int.neg_tdiv, hnt]
      exact neg_inj
  · rw [← p1]
    exact floor_iff s1 _
  · rw [← p1, ← Int.neg_mul, ceil_iff s2, Int.ceil_neg]
    exact neg_inj
  · rw [← p2]
    exact ceil_iff s1 _
  · rw [← p2, ← Int.neg_mul, floor_iff s2, Int.floor_neg]
    exact neg_inj

/-- Around 2^30 units (L = 31 bits from there on): seven satoshis above are lost by `Ceil`, twelve are not. -/
example : Nat.size (2 ^ 30) = 31 ∧ ¬ (100000000 < 7 * 2 ^ (54 - 31)) ∧ 100000000 < 12 * 2 ^ (54 - 31) ∧
    Fixed8.ceil (2 ^ 30 * 100000000 + 7) = .ok (2 ^ 30 * 100000000) ∧
    Fixed8.ceil (2 ^ 30 * 100000000 + 12) = .ok ((2 ^ 30 + 1) * 100000000) := by
  refine ⟨?_, ?_, ?_, ?_, ?_⟩ <;> decide +kernel

end Neo.Props
