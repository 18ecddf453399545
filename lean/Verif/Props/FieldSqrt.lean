import Verif.Props.Field
import Verif.Props.PublicKey
import Verif.Proofs.FloatRange
import Mathlib.RingTheory.IntegralDomain
import Mathlib.GroupTheory.SpecificGroups.Cyclic
import Mathlib.NumberTheory.LucasLehmer

/-!
# C75, C79: exactly for which primes `FiniteField.sqrt` finds square roots
-/

namespace Neo.Props
open Py EC Spec Spec.EC

/-- A natural number of at most 53 significant bits. -/
def Bits53 (n : Nat) : Prop := ∃ m j : Nat, m < 2 ^ 53 ∧ n = m * 2 ^ j

/-- `int((p + 1) / 4)`: the whole number (p+1)/4, rounded to a double. -/
private theorem exponent {p N : Nat} (hN : p + 1 = 4 * N) (hp : (N : ℚ) < floatLimit) :
    ∃ e : Nat, floatQuot ((p : Int) + 1) 4 = .ok e ∧ (e : ℚ) = roundQ (N : ℚ) ∧ (Bits53 N ↔ e = N) ∧
      |(e : ℚ) - N| ≤ max ((N : ℚ) / 2 ^ 53) (1 / 2 ^ 1000) := by
  have hq : (((p : Int) + 1 : Int) : ℚ) / ((4 : Int) : ℚ) = N := by
    have : ((p : Int) + 1) = 4 * (N : Int) := by exact_mod_cast hN
    rw [this]; push_cast; field_simp
  have hle : |(N : ℚ)| < floatLimit := by rwa [abs_of_nonneg (Nat.cast_nonneg _)]
  have h0 : (0 : ℚ) ≤ roundQ (N : ℚ) := roundQ_nonneg (Nat.cast_nonneg _)
  -- the rounded number is whole
  have hint : ∃ n : ℤ, roundQ (N : ℚ) = n := by
    by_cases hs : N < 2 ^ 53
    · refine ⟨N, ?_⟩
      have := roundQ_int (n := (N : ℤ)) (by rw [abs_of_nonneg (Int.natCast_nonneg _)]; exact_mod_cast hs.le)
      exact_mod_cast this
    · have hsq : (2 : ℚ) ^ (53 : ℤ) ≤ |roundQ (N : ℚ)| := by
        rw [roundQ_abs, abs_of_nonneg (Nat.cast_nonneg _)]
        refine le_roundQ (x := (2 : ℚ) ^ (53 : ℤ)) ⟨1, 53, by norm_num, by norm_num, by norm_num⟩ ?_
        exact_mod_cast not_lt.1 hs
      obtain ⟨n, hn⟩ := representable_multiple (roundQ_representable (N : ℚ)) 53 hsq 0 (by norm_num)
      rw [zpow_zero, mul_one] at hn
      exact ⟨n, hn⟩
  obtain ⟨n, hn⟩ := hint
  have hn0 : 0 ≤ n := by rw [hn] at h0; exact_mod_cast h0
  obtain ⟨e, rfl⟩ := Int.eq_ofNat_of_zero_le hn0
  refine ⟨e, ?_, by rw [hn]; rfl, ?_, ?_⟩
  · unfold floatQuot intTrueDiv
    rw [if_neg (by norm_num), hq, (ofRat_fin_iff _).1 hle, hn]
    simp only [PyFloat.toInt, Int.ceil_intCast, Int.floor_intCast, ite_self]
  · clear hle hp
    constructor
    · rintro ⟨m, j, hm, hj⟩
      have hr : Representable (N : ℚ) := ⟨m, j, by rw [abs_of_nonneg (Int.natCast_nonneg _)]; exact_mod_cast hm, by omega, by
        rw [hj]; push_cast; rw [zpow_natCast]⟩
      rw [roundQ_exact hr] at hn
      exact_mod_cast hn.symm
    · rintro rfl
      by_cases hs : e < 2 ^ 53
      · exact ⟨e, 0, hs, by simp⟩
      obtain ⟨m, x, h1, _, h3⟩ := roundQ_representable (e : ℚ)
      rw [hn, Int.cast_natCast] at h3
      have hx : 0 ≤ x := by
        by_contra hneg
        have hneg : x < 0 := not_le.1 hneg
        have : |(e : ℚ)| < 2 ^ 53 := by
          rw [h3, abs_mul, abs_of_pos (two_zpow_pos x)]
          have h2 : (2 : ℚ) ^ x ≤ 1 := zpow_le_one_of_nonpos₀ (by norm_num) hneg.le
          have h4 : |(m : ℚ)| < 2 ^ 53 := by rw [← Int.cast_abs]; exact_mod_cast h1
          nlinarith [abs_nonneg (m : ℚ), two_zpow_pos x]
        rw [abs_of_nonneg (Nat.cast_nonneg _)] at this
        have : e < 2 ^ 53 := by exact_mod_cast this
        omega
      have hz : ((2 : ℚ) ^ x) = ((2 ^ x.toNat : ℤ) : ℚ) := by
        conv_lhs => rw [← Int.toNat_of_nonneg hx]
        rw [zpow_natCast]
        push_cast
        rfl
      rw [hz] at h3
      have h4 : (e : ℤ) = m * 2 ^ x.toNat := by exact_mod_cast h3
      have hm0 : 0 ≤ m := by
        by_contra hneg
        have : (0 : ℤ) < 2 ^ x.toNat := by positivity
        nlinarith [Int.natCast_nonneg e]
      obtain ⟨m', rfl⟩ := Int.eq_ofNat_of_zero_le hm0
      refine ⟨m', x.toNat, ?_, by exact_mod_cast h4⟩
      rw [abs_of_nonneg hm0] at h1
      exact_mod_cast h1
  · have := roundQ_rel (N : ℚ)
    rw [hn, abs_of_nonneg (Nat.cast_nonneg N : (0:ℚ) ≤ N)] at this
    exact_mod_cast this

private theorem fSqrt_parity {p : Nat} (hprime : p.Prime) (h2 : p ≠ 2) {v r flag : Int} (hv : ¬ (p : Int) ∣ v) (hf : flag = 0 ∨ flag = 1)
    (hr : fSqrtCandidate p v = .ok r) (hsq : (r : ZMod p) * r = v) (h0 : 0 ≤ r) (h1 : r < p) :
    ∃ r, fSqrt p v flag = .ok r ∧ r * r ≡ v [ZMOD p] ∧ r % 2 = flag ∧ 0 < r ∧ r < p := by
  have hodd := hprime.eq_two_or_odd.resolve_left h2
  have hv' : (v : ZMod p) ≠ 0 := by rwa [ne_eq, ZMod.intCast_zmod_eq_zero_iff_dvd]
  have hr0 : r ≠ 0 := by rintro rfl; apply hv'; rw [← hsq]; simp
  have hsq' : r * r ≡ v [ZMOD p] := by
    rw [← ZMod.intCast_eq_intCast_iff]; push_cast; exact hsq
  have hv0 : v ≠ 0 := by rintro rfl; exact hv (dvd_zero _)
  rw [fSqrt, if_neg hv0]
  simp only [hr]
  rw [Int.fmod_eq_emod_of_nonneg _ (by norm_num)]
  by_cases hpar : r % 2 = flag
  · rw [if_pos hpar]
    exact ⟨r, rfl, hsq', hpar, by omega, h1⟩
  · rw [if_neg hpar]
    refine ⟨_, rfl, ?_, ?_, ?_, ?_⟩
    · rw [← ZMod.intCast_eq_intCast_iff]; push_cast; rw [cast_fNeg, neg_mul_neg]; exact hsq
    all_goals unfold fNeg; omega

/-- The candidate for p ≡ 3 mod 4 is the power with the rounded exponent. -/
private theorem candidate_eq {p e : Nat} (h4 : p % 4 = 3) (he : floatQuot ((p : Int) + 1) 4 = .ok e) (v : Int) :
    fSqrtCandidate p v = .ok (fPow p v e) := by
  have hsw : Int.fmod (p : Int) 8 = ((p % 8 : Nat) : Int) := by
    rw [Int.fmod_eq_emod_of_nonneg _ (by norm_num)]; rfl
  rw [fSqrtCandidate]
  simp only [hsw]
  rw [if_pos (by omega), he]
  simp only [Int.toNat_natCast]

private theorem candidate_overflow {p N : Nat} (h4 : p % 4 = 3) (hN : p + 1 = 4 * N) (h : floatLimit ≤ N) (v : Int) :
    fSqrtCandidate p v = .error .overflowError := by
  have hq : (((p : Int) + 1 : Int) : ℚ) / ((4 : Int) : ℚ) = N := by
    have : ((p : Int) + 1) = 4 * (N : Int) := by exact_mod_cast hN
    rw [this]; push_cast; field_simp
  have he : floatQuot ((p : Int) + 1) 4 = .error .overflowError := by
    unfold floatQuot intTrueDiv
    rw [if_neg (by norm_num), hq, (ofRat_fin_iff _).2 (by rwa [abs_of_nonneg (Nat.cast_nonneg _)])]
  have hsw : Int.fmod (p : Int) 8 = ((p % 8 : Nat) : Int) := by
    rw [Int.fmod_eq_emod_of_nonneg _ (by norm_num)]; rfl
  rw [fSqrtCandidate]
  simp only [hsw]
  rw [if_pos (by omega), he]

private theorem iff_small (p : Nat) (hprime : p.Prime) (h4 : p % 4 = 3) (hp : (((p + 1) / 4 : Nat) : ℚ) < floatLimit) :
    (∀ v flag : Int, ¬ (p : Int) ∣ v → (∃ w : Int, w * w ≡ v [ZMOD p]) → (flag = 0 ∨ flag = 1) →
      ∃ r, fSqrt p v flag = .ok r ∧ r * r ≡ v [ZMOD p] ∧ r % 2 = flag ∧ 0 < r ∧ r < p) ↔
    Bits53 ((p + 1) / 4) := by
  have := Fact.mk hprime
  obtain ⟨N, hN⟩ : ∃ N, p + 1 = 4 * N := ⟨(p + 1) / 4, by omega⟩
  have hN' : (p + 1) / 4 = N := by omega
  rw [hN'] at hp
  obtain ⟨e, he, -, hiff, hclose⟩ := exponent hN hp
  clear hp
  have hpos : (0 : Int) < p := by exact_mod_cast hprime.pos
  have h2 : p ≠ 2 := by omega
  rw [hN', hiff]
  constructor
  · intro hall
    by_contra hne
    -- a square of order (p-1)/2
    obtain ⟨g, hg⟩ := IsCyclic.exists_ofOrder_eq_natCard (α := (ZMod p)ˣ)
    rw [Nat.card_eq_fintype_card, ZMod.card_units] at hg
    have hord : orderOf (g ^ 2) = 2 * N - 1 := by
      rw [orderOf_pow, hg, show p - 1 = (2 * N - 1) * 2 by omega, Nat.gcd_mul_left_left, Nat.mul_div_cancel _ (by norm_num)]
    obtain ⟨w, hw⟩ := ZMod.intCast_surjective (g : ZMod p)
    have hv0 : ((w * w : Int) : ZMod p) = ((g ^ 2 : (ZMod p)ˣ) : ZMod p) := by push_cast; rw [hw]; ring
    obtain ⟨r, hr, hsq, -⟩ := hall (w * w) 0 (by
      rw [← ZMod.intCast_zmod_eq_zero_iff_dvd, hv0]; exact Units.ne_zero _) ⟨w, rfl⟩ (Or.inl rfl)
    have hne0 : w * w ≠ 0 := by
      intro h0
      rw [h0, Int.cast_zero] at hv0
      exact Units.ne_zero _ hv0.symm
    rw [fSqrt, if_neg hne0, candidate_eq h4 he] at hr
    simp only at hr
    have hrr : (r : ZMod p) * r = ((g ^ 2 : (ZMod p)ˣ) : ZMod p) ^ e * ((g ^ 2 : (ZMod p)ˣ) : ZMod p) ^ e := by
      rw [← hv0]
      split_ifs at hr
      · rw [← Except.ok.inj hr, cast_fPow]
      · rw [← Except.ok.inj hr, cast_fNeg, cast_fPow, neg_mul_neg]
    have hsq' := (ZMod.intCast_eq_intCast_iff _ _ _).2 hsq
    rw [Int.cast_mul, hrr, hv0, ← pow_add] at hsq'
    have hu : (g ^ 2) ^ (e + e) = g ^ 2 := by
      apply Units.ext
      rw [Units.val_pow_eq_pow_val]
      exact hsq'
    have hdvd : ((2 * N - 1 : Nat) : Int) ∣ (e + e : Int) - 1 := by
      have h1 : (g ^ 2) ^ (((e + e : Nat) : Int) - 1) = 1 := by
        rw [zpow_sub, zpow_natCast, hu, zpow_one, mul_inv_cancel]
      have := orderOf_dvd_iff_zpow_eq_one.2 h1
      rw [hord] at this
      exact_mod_cast this
    have hN1 : 1 ≤ N := by omega
    have hdvd2 : ((2 * N - 1 : Nat) : Int) ∣ 2 * ((e : Int) - N) := by
      have h3 := dvd_sub hdvd (dvd_refl ((2 * N - 1 : Nat) : Int))
      have : (e + e : Int) - 1 - ((2 * N - 1 : Nat) : Int) = 2 * ((e : Int) - N) := by omega
      rwa [this] at h3
    have hcop : IsCoprime ((2 * N - 1 : Nat) : Int) 2 := ⟨1, -((N : Int) - 1), by omega⟩
    have hdvd3 := hcop.dvd_of_dvd_mul_left hdvd2
    have hlt : |(e : Int) - N| < ((2 * N - 1 : Nat) : Int) := by
      have h5 : (1 : ℚ) / 2 ^ 1000 < 1 := by
        rw [div_lt_one (by positivity)]
        exact one_lt_pow₀ (by norm_num) (by norm_num)
      have h6 : (N : ℚ) / 2 ^ 53 < N := by
        have : (0 : ℚ) < N := by exact_mod_cast hN1
        rw [div_lt_iff₀ (by norm_num)]
        nlinarith
      have h7 : (1 : ℚ) ≤ N := by exact_mod_cast hN1
      have h8 : |(e : ℚ) - N| < N := lt_of_le_of_lt hclose (max_lt h6 (by linarith))
      have h9 : |(e : Int) - N| < N := by
        have : ((|(e : Int) - N| : Int) : ℚ) < ((N : Int) : ℚ) := by push_cast; exact h8
        exact_mod_cast this
      omega
    have := Int.eq_zero_of_abs_lt_dvd hdvd3 hlt
    exact hne (by omega)
  · rintro rfl v flag hv ⟨w, hw⟩ hf
    have hw' : (w : ZMod p) * w = v := by
      have := (ZMod.intCast_eq_intCast_iff _ _ _).mpr hw
      push_cast at this; exact this
    obtain ⟨b1, b2⟩ := fmod_pos_range (v ^ e) hpos
    refine fSqrt_parity hprime h2 hv hf (candidate_eq h4 he v) ?_ b1 b2
    rw [cast_fPow, ← hw', ← pow_add, ← pow_two, ← pow_mul, show 2 * (e + e) = p + 1 by omega, pow_succ, ZMod.pow_card, pow_two]

/-- C75, exactly for which primes p ≡ 3 mod 4 it holds: `sqrt` finds the root of every nonzero square, with the parity asked for, if and only if
(p+1)/4 is a float, that is has at most 53 significant bits and is below 2^1024, so that the division by 4 loses nothing. (For p ≡ 1 mod 8 it raises:
`C75_unsupported`.) -/
theorem C75_iff_partial (p : Nat) (hprime : p.Prime) (h4 : p % 4 = 3) :
    (∀ v flag : Int, ¬ (p : Int) ∣ v → (∃ w : Int, w * w ≡ v [ZMOD p]) → (flag = 0 ∨ flag = 1) →
      ∃ r, fSqrt p v flag = .ok r ∧ r * r ≡ v [ZMOD p] ∧ r % 2 = flag ∧ 0 < r ∧ r < p) ↔
    Bits53 ((p + 1) / 4) ∧ (p + 1) / 4 < 2 ^ 1024 := by
  by_cases hp : (((p + 1) / 4 : Nat) : ℚ) < floatLimit
  · rw [iff_small p hprime h4 hp]
    refine ⟨fun h => ⟨h, ?_⟩, fun h => h.1⟩
    have := hp.trans floatLimit_lt
    exact_mod_cast this
  · have hge := not_lt.1 hp
    constructor
    · intro hall
      obtain ⟨N, hN⟩ : ∃ N, p + 1 = 4 * N := ⟨(p + 1) / 4, by omega⟩
      rw [show (p + 1) / 4 = N by omega] at hge
      have h1p : ¬ (p : Int) ∣ 1 := fun h => by
        have := Int.le_of_dvd (by norm_num) h
        have := hprime.two_le
        omega
      obtain ⟨r, hr, -⟩ := hall 1 0 h1p ⟨1, by norm_num⟩ (Or.inl rfl)
      rw [fSqrt, if_neg (by norm_num), candidate_overflow h4 hN hge] at hr
      cases hr
    · rintro ⟨⟨m, j, hm, hj⟩, hlt⟩
      exfalso
      have hr : Representable (((p + 1) / 4 : Nat) : ℚ) := ⟨m, j, by rw [abs_of_nonneg (Int.natCast_nonneg _)]; exact_mod_cast hm, by omega, by
        rw [hj]; push_cast; rw [zpow_natCast]⟩
      have := representable_limit hr hge
      have h2 : 2 ^ 1024 ≤ (p + 1) / 4 := by exact_mod_cast this
      exact absurd hlt (not_lt.2 h2)

/-- A prime above 2^52 for which it holds: 2^61 - 1, whose exponent is 2^59. -/
example : (2 ^ 61 - 1).Prime ∧ (2 ^ 61 - 1) % 4 = 3 ∧ (2 ^ 61 - 1 + 1) / 4 < 2 ^ 1024 ∧ Bits53 ((2 ^ 61 - 1 + 1) / 4) :=
  ⟨lucas_lehmer_sufficiency 61 (by norm_num) (by norm_num), by norm_num, by decide +kernel, ⟨1, 59, by norm_num, by norm_num⟩⟩

/-- C79 for all primes p ≡ 3 mod 4 for which (p+1)/4 is a float: `decompress(x, flag)` of the x of a point of the curve
with y ≠ 0 is that point or its negative, with the parity asked for. -/
theorem C79_wide_partial (c : Curve) (hprime : c.p.Prime) (h4 : c.p % 4 = 3) (hp : (c.p + 1) / 4 < 2 ^ 1024) (hb : Bits53 ((c.p + 1) / 4))
    (x y flag : Int) (hf : flag = 0 ∨ flag = 1)
    (hy : ¬ (c.p : Int) ∣ y) (he : (c.p : Int) ∣ y ^ 2 - (x ^ 3 + c.a * x + c.b)) :
    ∃ P, decompress c x flag = .ok P ∧ P.x = x ∧ OnCurve c P ∧ P.y % 2 = flag ∧ 0 < P.y ∧ P.y < c.p := by
  have := Fact.mk hprime
  have he' : (y : ZMod c.p) ^ 2 = x ^ 3 + c.a * x + c.b := by
    have := (ZMod.intCast_zmod_eq_zero_iff_dvd _ _).2 he
    push_cast at this
    exact sub_eq_zero.1 this
  have hy0 : (y : ZMod c.p) ≠ 0 := by rwa [ne_eq, ZMod.intCast_zmod_eq_zero_iff_dvd]
  have hv : ¬ (c.p : Int) ∣ rhs c x := by
    rw [← ZMod.intCast_zmod_eq_zero_iff_dvd, cast_rhs, ← he']
    exact pow_ne_zero _ hy0
  obtain ⟨r, h1, h2, h3, h4, h5⟩ := (C75_iff_partial c.p hprime h4).2 ⟨hb, hp⟩ (rhs c x) flag hv ⟨y, by
    rw [← ZMod.intCast_eq_intCast_iff, cast_rhs, ← he', pow_two, Int.cast_mul]⟩ hf
  refine ⟨⟨x, r⟩, by rw [decompress, h1], rfl, Or.inr ?_, h3, h4, h5⟩
  rw [← ZMod.intCast_zmod_eq_zero_iff_dvd]
  have := (ZMod.intCast_eq_intCast_iff _ _ _).2 h2
  rw [cast_rhs] at this
  push_cast at this ⊢
  rw [pow_two, this, sub_self]

end Neo.Props
