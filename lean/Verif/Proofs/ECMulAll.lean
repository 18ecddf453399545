import Verif.Proofs.ECMul
import Mathlib.Data.Nat.Log
import Mathlib.Data.Int.Log

/-!
# The multiple computed by the scalar multiplication, for every scalar
-/

namespace Neo.EC
open Py

theorem halveUnits_neg (k : Int) : halveUnits (-k) = -halveUnits k := by
  unfold halveUnits
  split_ifs <;> omega

theorem loopCoeff_neg (k : Int) : loopCoeff (-k) = loopCoeff k := by
  induction k using loopCoeff.induct with
  | case1 => simp
  | case2 k hk ih =>
    conv_lhs => rw [loopCoeff, dif_neg (show -k ≠ 0 by omega), halveUnits_neg, ih]
    conv_rhs => rw [loopCoeff, dif_neg hk]
    have : (-k % 2 ^ 1075 ≠ 0) ↔ (k % 2 ^ 1075 ≠ 0) := by
      rw [ne_eq, ne_eq, ← Int.dvd_iff_emod_eq_zero, ← Int.dvd_iff_emod_eq_zero, Int.dvd_neg]
    simp only [this]

/-- Half, to nearest, ties to even. -/
def halfN (m : Nat) : Nat := m / 2 + (if m % 4 = 3 then 1 else 0)

/-- The number of halvings that take `m` to 0 (at most the first argument). -/
def steps : Nat → Nat → Nat
  | 0, _ => 0
  | f + 1, m => if m = 0 then 0 else 1 + steps f (halfN m)

theorem halveUnits_nat (m : Nat) : halveUnits (m : Int) = (halfN m : Nat) := by
  unfold halveUnits halfN
  split_ifs <;> omega

theorem loopCoeff_steps : ∀ (f m : Nat), m ≤ 2 ^ 53 → (∃ j, m ≤ 2 ^ j ∧ j + 1 ≤ f) → loopCoeff m = 2 ^ steps f m - 1
  | 0, _, _, ⟨_, _, h⟩ => by omega
  | f + 1, m, hm, ⟨j, h1, h2⟩ => by
    by_cases h0 : m = 0
    · subst h0
      rw [loopCoeff, dif_pos (by simp), steps, if_pos rfl]
      rfl
    have hb : (m : Int) % 2 ^ 1075 ≠ 0 := by
      intro h
      have h1 := Int.dvd_of_emod_eq_zero h
      have h2 := Int.le_of_dvd (by omega) h1
      have h3 : (2 : Int) ^ 53 < 2 ^ 1075 := pow_lt_pow_right₀ (by norm_num) (by norm_num)
      have h4 : (m : Int) ≤ 2 ^ 53 := by exact_mod_cast hm
      exact absurd (h2.trans h4) (not_le.2 h3)
    have hlt : halfN m ≤ m := by unfold halfN; split_ifs <;> omega
    rw [loopCoeff, dif_neg (by exact_mod_cast h0), if_pos hb, halveUnits_nat, steps, if_neg h0]
    have ih : loopCoeff (halfN m : Nat) = 2 ^ steps f (halfN m) - 1 := by
      by_cases hz : halfN m = 0
      · rw [hz, loopCoeff, dif_pos (by simp)]
        cases f <;> rfl
      · refine loopCoeff_steps f (halfN m) (hlt.trans hm) ?_
        cases j with
        | zero =>
          obtain rfl : m = 1 := by omega
          exact absurd rfl hz
        | succ j =>
          refine ⟨j, ?_, by omega⟩
          rw [pow_succ] at h1
          generalize 2 ^ j = M at h1
          unfold halfN
          split_ifs <;> omega
    rw [ih, pow_add, pow_one]
    have := Nat.one_le_two_pow (n := steps f (halfN m))
    omega

private theorem half_units (x : Int) : ∃ k : Int, roundQ ((x : ℚ) / ((2 : Int) : ℚ)) * 2 ^ 1074 = k := by
  rw [roundQ]
  generalize (x : ℚ) / ((2 : Int) : ℚ) = q
  have hu : -1074 ≤ ulpExp q := le_max_right _ _
  obtain ⟨u, hu⟩ : ∃ u : Nat, ulpExp q = u - 1074 := ⟨(ulpExp q + 1074).toNat, by omega⟩
  refine ⟨rne (q / 2 ^ ulpExp q) * 2 ^ u, ?_⟩
  rw [mul_assoc]
  push_cast
  congr 1
  rw [hu, zpow_sub₀ (by norm_num), zpow_natCast, show (2 : ℚ) ^ (1074 : Int) = 2 ^ (1074 : Nat) from rfl]
  exact div_mul_cancel₀ _ (pow_ne_zero _ (by norm_num))

theorem mulCoeff_neg (n : Int) : mulCoeff (-n) = mulCoeff n := by
  by_cases h : n = 0
  · subst h; rfl
  obtain ⟨k, hk⟩ := half_units n
  rw [mulCoeff, if_neg (by omega), mulCoeff, if_neg h, Int.cast_neg, neg_div, roundQ_neg, neg_mul, hk, ← Int.cast_neg,
    Int.floor_intCast, Int.floor_intCast, loopCoeff_neg, show -n % 2 = n % 2 by omega]

theorem mulLoop_neg (c : Curve) (k : Int) : ∀ acc sh, mulLoop c (-k) acc sh = mulLoop c k acc sh := by
  induction k using loopCoeff.induct with
  | case1 => simp
  | case2 k hk ih =>
    intro acc sh
    conv_lhs => rw [mulLoop, dif_neg (show -k ≠ 0 by omega), halveUnits_neg, ih]
    conv_rhs => rw [mulLoop, dif_neg hk]
    have : (-k % 2 ^ 1075 ≠ 0) ↔ (k % 2 ^ 1075 ≠ 0) := by
      rw [ne_eq, ne_eq, ← Int.dvd_iff_emod_eq_zero, ← Int.dvd_iff_emod_eq_zero, Int.dvd_neg]
    simp only [this]

/-- `P * -n` is computed exactly as `P * n`. -/
theorem mul_neg_scalar (c : Curve) (P : Pt) (n : Int) : mul c P (-n) = mul c P n := by
  by_cases h : n = 0
  · subst h; rfl
  obtain ⟨k, hk⟩ := half_units n
  have hb : (-n % 2 ≠ 0) ↔ (n % 2 ≠ 0) := by omega
  rw [mul, if_neg (show -n ≠ 0 by omega), mul, if_neg h]
  simp only [hb]
  have h2 : ¬ (2 : Int) = 0 := by decide
  rw [intTrueDiv, if_neg h2, intTrueDiv, if_neg h2, PyFloat.ofRat, PyFloat.ofRat, Int.cast_neg, neg_div, roundQ_neg, abs_neg]
  by_cases h1 : 2 ^ 1024 ≤ |roundQ ((n : ℚ) / ((2 : Int) : ℚ))|
  · rw [if_pos h1, if_pos h1]
  · rw [if_neg h1, if_neg h1]
    simp only [neg_mul]
    rw [hk, ← Int.cast_neg, Int.floor_intCast, Int.floor_intCast, mulLoop_neg]

/-- `n / 2^s` to nearest, ties to even. -/
def rneN (n s : Nat) : Nat :=
  n / 2 ^ s + (if 2 * (n % 2 ^ s) < 2 ^ s then 0 else if 2 ^ s < 2 * (n % 2 ^ s) then 1 else n / 2 ^ s % 2)

theorem rne_nat (n s : Nat) : rne ((n : ℚ) / 2 ^ s) = (rneN n s : Nat) := by
  have hp : (0 : ℚ) < 2 ^ s := pow_pos (by norm_num) _
  have hf : ⌊(n : ℚ) / 2 ^ s⌋ = ((n / 2 ^ s : Nat) : Int) := by
    have := Rat.floor_intCast_div_natCast (n : Int) (2 ^ s)
    push_cast at this ⊢
    exact this
  have hd : (n : ℚ) / 2 ^ s - ((n / 2 ^ s : Nat) : Int) = ((n % 2 ^ s : Nat) : ℚ) / 2 ^ s := by
    rw [sub_eq_iff_eq_add, eq_comm, div_add' _ _ _ hp.ne', div_left_inj' hp.ne']
    have := Nat.mod_add_div n (2 ^ s)
    rw [mul_comm (2 ^ s)] at this
    have := congrArg (Nat.cast : Nat → ℚ) this
    rw [Nat.cast_add, Nat.cast_mul, Nat.cast_pow, Nat.cast_ofNat] at this
    rw [Int.cast_natCast]
    exact this
  rw [rne, hf, hd]
  have c1 : (((n % 2 ^ s : Nat) : ℚ) / 2 ^ s < 1 / 2) ↔ 2 * (n % 2 ^ s) < 2 ^ s := by
    rw [div_lt_div_iff₀ hp (by norm_num), one_mul, mul_comm]
    exact_mod_cast Iff.rfl
  have c2 : (1 / 2 < ((n % 2 ^ s : Nat) : ℚ) / 2 ^ s) ↔ 2 ^ s < 2 * (n % 2 ^ s) := by
    rw [div_lt_div_iff₀ (by norm_num) hp, one_mul, mul_comm _ (2 : ℚ)]
    exact_mod_cast Iff.rfl
  simp only [c1, c2, rneN]
  generalize n / 2 ^ s = q
  split_ifs <;> omega

theorem log_half {n j : Nat} (h1 : 2 ^ (j + 1) ≤ n) (h2 : n < 2 ^ (j + 2)) : Int.log 2 |(n : ℚ) / ((2 : Int) : ℚ)| = j := by
  have hn : (0 : ℚ) < n := by exact_mod_cast lt_of_lt_of_le (by positivity) h1
  have hpos : (0 : ℚ) < (n : ℚ) / ((2 : Int) : ℚ) := div_pos hn (by norm_num)
  rw [abs_of_pos hpos]
  apply le_antisymm
  · rw [← Int.lt_add_one_iff, ← Int.lt_zpow_iff_log_lt (by norm_num) hpos]
    rw [div_lt_iff₀ (by norm_num)]
    have : ((2 : Nat) : ℚ) ^ ((j : Int) + 1) * ((2 : Int) : ℚ) = ((2 ^ (j + 2) : Nat) : ℚ) := by
      rw [show ((j : Int) + 1) = ((j + 1 : Nat) : Int) by norm_num, zpow_natCast]
      push_cast
      ring
    rw [this]
    exact_mod_cast h2
  · rw [← Int.zpow_le_iff_le_log (by norm_num) hpos, le_div_iff₀ (by norm_num)]
    have : ((2 : Nat) : ℚ) ^ ((j : Int)) * ((2 : Int) : ℚ) = ((2 ^ (j + 1) : Nat) : ℚ) := by
      rw [zpow_natCast]
      push_cast
      ring
    rw [this]
    exact_mod_cast h1

/-- The multiple computed for a scalar of 54 bits or more: with s the number of bits beyond 53, the scalar is rounded to
`2^s * rneN n s = 2^a * m` with m odd, and all the 1074 + T bits from bit `a` on are set. -/
theorem mulCoeff_large (n s : Nat) (h1 : 2 ^ (s + 53) ≤ n) (h2 : n < 2 ^ (s + 54)) :
    ∃ t m, rneN n (s + 1) = 2 ^ t * m ∧ m % 2 = 1 ∧ m ≤ 2 ^ 53 ∧ t ≤ 53 ∧
      mulCoeff n = n % 2 + 2 ^ (s + 1 + t) * (2 ^ (1074 + steps 54 m) - 1) := by
  have hq : 2 ^ 52 ≤ n / 2 ^ (s + 1) := by
    rw [Nat.le_div_iff_mul_le (by positivity), ← pow_add]
    exact le_trans (le_of_eq (by congr 1; omega)) h1
  have hq2 : n / 2 ^ (s + 1) < 2 ^ 53 := by
    rw [Nat.div_lt_iff_lt_mul (by positivity), ← pow_add]
    exact lt_of_lt_of_le h2 (le_of_eq (by congr 1; omega))
  have hR1 : 2 ^ 52 ≤ rneN n (s + 1) := by unfold rneN; omega
  have hR2 : rneN n (s + 1) ≤ 2 ^ 53 := by
    unfold rneN
    split_ifs <;> omega
  have hround : roundQ (((n : Int) : ℚ) / ((2 : Int) : ℚ)) * 2 ^ 1074 = ((2 ^ 1074 * (2 ^ s * rneN n (s + 1)) : Int) : ℚ) := by
    have hlog : Int.log 2 |((n : Int) : ℚ) / ((2 : Int) : ℚ)| = ((s + 52 : Nat) : Int) := by
      rw [Int.cast_natCast]
      exact log_half (j := s + 52) h1 h2
    have hu : ulpExp (((n : Int) : ℚ) / ((2 : Int) : ℚ)) = (s : Nat) := by
      rw [ulpExp, hlog]
      push_cast
      rw [add_sub_cancel_right]
      exact max_eq_left (by omega)
    rw [roundQ, hu, zpow_natCast]
    have : ((n : Int) : ℚ) / ((2 : Int) : ℚ) / 2 ^ s = (n : ℚ) / 2 ^ (s + 1) := by
      rw [Int.cast_natCast, Int.cast_ofNat, div_div, ← pow_succ']
    rw [this, rne_nat, Int.cast_natCast]
    generalize 1074 = w
    push_cast
    ring
  obtain ⟨t, m, hm, hR⟩ := Nat.exists_eq_two_pow_mul_odd (n := rneN n (s + 1)) (by omega)
  have hm2 : m % 2 = 1 := Nat.odd_iff.1 hm
  have hmR : m ≤ 2 ^ 53 := le_trans (by rw [hR]; exact Nat.le_mul_of_pos_left _ (by positivity)) hR2
  have ht : t ≤ 53 := by
    by_contra hc
    have : 2 ^ 54 ≤ 2 ^ t * m := le_trans (Nat.pow_le_pow_right (by norm_num) (by omega : 54 ≤ t))
      (Nat.le_mul_of_pos_right _ (by omega))
    rw [← hR] at this
    omega
  refine ⟨t, m, hR, hm2, hmR, ht, ?_⟩
  have h0 : (n : Int) ≠ 0 := by
    have : 0 < n := lt_of_lt_of_le (by positivity) h1
    omega
  rw [mulCoeff, if_neg h0, hround, Int.floor_intCast, hR]
  have hT := loopCoeff_steps 54 m hmR ⟨53, hmR, le_refl _⟩
  have hm0 : ((m : Nat) : Int) ≠ 0 := by omega
  rw [show ((2 ^ 1074 * (2 ^ s * ((2 ^ t * m : Nat) : Int))) : Int) = 2 ^ (s + t) * (2 ^ 1074 * (m : Int)) by
    generalize 1074 = w; push_cast; ring]
  rw [loopCoeff_shift_high _ (Dvd.intro _ rfl) (mul_ne_zero (pow_ne_zero _ (by norm_num)) hm0),
    loopCoeff_shift m (by omega) hT 1074 (le_refl _)]
  have : ((n : Int) % 2).toNat = n % 2 := by omega
  rw [this]
  generalize 2 ^ (1074 + steps 54 m) - 1 = X
  ring

end Neo.EC
