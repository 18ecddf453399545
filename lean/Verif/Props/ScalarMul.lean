import Verif.Props.Curve
import Verif.Proofs.ECMulAll
import Verif.Proofs.P256Cofactor

/-!
# Scalar multiplication on secp256r1, for every scalar

Properties C64 (every key), C122-C124.
-/

namespace Neo.Props
open Py Neo.EC Spec.EC

/-! ## The multiples -/

theorem steps_bounds : ∀ f m, (m ≠ 0 → 1 ≤ f → 1 ≤ steps f m) ∧ steps f m ≤ f
  | 0, m => ⟨fun _ h => by omega, le_refl _⟩
  | f + 1, m => by
    rw [steps]
    have := (steps_bounds f (halfN m)).2
    split_ifs with h <;> omega

/-- The values ε + 2^a (2^(1074+T) - 1) for ε ≤ 1, a ≤ 257, 1 ≤ T ≤ 54. -/
def IsCoeff (x : Nat) : Prop := ∃ e a T, e ≤ 1 ∧ a ≤ 257 ∧ 1 ≤ T ∧ T ≤ 54 ∧ x = e + 2 ^ a * (2 ^ (1074 + T) - 1)

private theorem bits (n : Nat) (h : 2 ^ 53 ≤ n) : 2 ^ (Nat.log2 n - 53 + 53) ≤ n ∧ n < 2 ^ (Nat.log2 n - 53 + 54) := by
  have h0 : n ≠ 0 := by rintro rfl; norm_num at h
  have h1 : 53 ≤ Nat.log2 n := (Nat.le_log2 h0).2 h
  rw [show Nat.log2 n - 53 + 53 = Nat.log2 n by omega, show Nat.log2 n - 53 + 54 = Nat.log2 n + 1 by omega]
  exact ⟨Nat.log2_self_le h0, Nat.lt_log2_self⟩

theorem odd_part {n : Int} (h0 : n ≠ 0) : ∃ (t : Nat) (m : Int), m % 2 = 1 ∧ n = 2 ^ t * m := by
  have hf : FiniteMultiplicity (2 : Int) n := Int.finiteMultiplicity_iff.2 ⟨by decide, h0⟩
  obtain ⟨m, hh, hm⟩ := hf.exists_eq_pow_mul_and_not_dvd
  exact ⟨_, m, by omega, hh⟩

private theorem coeff_nat (n : Nat) (h0 : n ≠ 0) (hn : n ≤ 2 ^ 256) : IsCoeff (mulCoeff n) := by
  by_cases h : n < 2 ^ 53
  · obtain ⟨t, m, hm, he⟩ := odd_part (n := n) (by exact_mod_cast h0)
    have hs : |2 ^ t * m| < 2 ^ 53 := by rw [← he, Nat.abs_cast]; exact_mod_cast h
    obtain ⟨T, h1, h2, h3⟩ := mulCoeff_small t m hm hs
    refine ⟨0, t, T, by omega, ?_, h1, h2, by rw [he, h3, zero_add]⟩
    by_contra hc
    have hm0 : m ≠ 0 := by rintro rfl; omega
    have : (2 : Int) ^ 53 ≤ |2 ^ t * m| := by
      rw [abs_mul, abs_of_pos (pow_pos (by norm_num) t)]
      have h5 : (2 : Int) ^ 53 ≤ 2 ^ t := pow_le_pow_right₀ (by norm_num) (by omega)
      have h6 := Int.one_le_abs hm0
      nlinarith
    exact absurd hs (not_lt.2 this)
  · obtain ⟨hb1, hb2⟩ := bits n (by omega)
    have hlog : Nat.log2 n ≤ 256 := by
      have : Nat.log2 n < 257 := (Nat.log2_lt h0).2 (lt_of_le_of_lt hn (Nat.pow_lt_pow_right (by norm_num) (by norm_num)))
      omega
    obtain ⟨t, m, -, hm, hmle, ht, he⟩ := mulCoeff_large n _ hb1 hb2
    obtain ⟨s1, s2⟩ := steps_bounds 54 m
    exact ⟨n % 2, _, _, by omega, by omega, s1 (by omega) (by norm_num), s2, he⟩

private theorem coeff_int (n : Int) (h0 : n ≠ 0) (hn : |n| ≤ 2 ^ 256) : IsCoeff (mulCoeff n) := by
  have h1 : n.natAbs ≠ 0 := by omega
  have h2 : n.natAbs ≤ 2 ^ 256 := by
    rw [Int.abs_eq_natAbs] at hn
    exact_mod_cast hn
  have := coeff_nat n.natAbs h1 h2
  rcases Int.natAbs_eq n with h | h
  · rwa [h]
  · rw [h, mulCoeff_neg]; exact this

/-! ## C64: no key is multiplied rightly -/

/-- Whether the scalar n gives a and T (the first test only saves time). -/
def gives (n a T : Nat) : Bool :=
  Nat.ble n (2 ^ (a + 53)) && (let s := Nat.log2 n - 53
    Nat.ble (s + 1) a && (let R := rneN n (s + 1); R % 2 ^ (a - (s + 1)) == 0 && R / 2 ^ (a - (s + 1)) % 2 == 1 && steps 54 (R / 2 ^ (a - (s + 1))) == T))

theorem large_gives (n : Nat) (h1 : 2 ^ 53 ≤ n) (h2 : n < 2 ^ 256) :
    ∃ a T, a < 258 ∧ T < 55 ∧ gives n a T = true ∧ mulCoeff n = n % 2 + 2 ^ a * (2 ^ (1074 + T) - 1) := by
  have h0 : n ≠ 0 := by rintro rfl; norm_num at h1
  obtain ⟨hb1, hb2⟩ := bits n h1
  have hlog : Nat.log2 n < 256 := (Nat.log2_lt h0).2 h2
  obtain ⟨t, m, hR, hm, hmle, ht, he⟩ := mulCoeff_large n _ hb1 hb2
  obtain ⟨s1, s2⟩ := steps_bounds 54 m
  refine ⟨_, _, by omega, by omega, ?_, he⟩
  rw [gives]
  have hle : n ≤ 2 ^ (Nat.log2 n - 53 + 1 + t + 53) :=
    hb2.le.trans (Nat.pow_le_pow_right (by norm_num) (by omega))
  simp only [Nat.ble_eq_true_of_le hle, Nat.ble_eq_true_of_le (show Nat.log2 n - 53 + 1 ≤ Nat.log2 n - 53 + 1 + t by omega), hm, hR, Nat.add_sub_cancel_left, Nat.mul_mod_right, Nat.mul_div_cancel_left m (pow_pos (by norm_num : 0 < 2) t)]
  simp

private def order : Nat := 0xFFFFFFFF00000000FFFFFFFFFFFFFFFFBCE6FAADA7179E84F3B9CAC2FC632551

private def clash (e a T : Nat) : Bool :=
  let x := (e + 2 ^ a * (2 ^ (1074 + T) - 1)) % order
  (x % 2 == e && gives x a T) || ((order - x) % 2 == e && gives (order - x) a T)

set_option maxRecDepth 100000 in
private theorem no_clash : ∀ a < 258, ∀ T < 55, clash 0 a T = false ∧ clash 1 a T = false := by decide +kernel

private theorem no_zero : ∀ a < 258, ∀ T < 55,
    (1 ≤ T → (0 + 2 ^ a * (2 ^ (1074 + T) - 1)) % order ≠ 0) ∧ (1 ≤ T → (1 + 2 ^ a * (2 ^ (1074 + T) - 1)) % order ≠ 0) := by
  decide +kernel

private theorem order_eq : order = p256Order := by decide +kernel

private theorem not_fixed (n : Nat) (h1 : 2 ^ 53 ≤ n) (h2 : n < p256Order) :
    ¬ mulCoeff n ≡ n [MOD p256Order] ∧ ¬ mulCoeff n + n ≡ 0 [MOD p256Order] := by
  have hN : p256Order < 2 ^ 256 := by decide +kernel
  obtain ⟨a, T, ha, hT, hg, hc⟩ := large_gives n h1 (h2.trans hN)
  rw [← order_eq] at h2 ⊢
  have he : n % 2 = 0 ∨ n % 2 = 1 := by omega
  have key : clash (n % 2) a T = false := by
    rcases he with h | h <;> rw [h]
    · exact (no_clash a ha T hT).1
    · exact (no_clash a ha T hT).2
  constructor
  · intro hm
    have hx : (n % 2 + 2 ^ a * (2 ^ (1074 + T) - 1)) % order = n := by
      rw [← hc]
      exact (show mulCoeff n % order = n % order from hm).trans (Nat.mod_eq_of_lt h2)
    rw [clash] at key
    simp only [hx, hg] at key
    simp at key
  · intro hm
    have hpos : 0 < n := lt_of_lt_of_le (by norm_num) h1
    have hx : order - (n % 2 + 2 ^ a * (2 ^ (1074 + T) - 1)) % order = n := by
      rw [← hc]
      have h3 : (mulCoeff n % order + n) % order = 0 := by rw [Nat.mod_add_mod]; exact hm
      have h4 : mulCoeff n % order < order := Nat.mod_lt _ (by decide)
      generalize mulCoeff n % order = y at h3 h4 ⊢
      obtain ⟨q, hq⟩ := Nat.dvd_of_mod_eq_zero h3
      generalize order = N at *
      have : q = 1 := by
        have hq1 : q ≠ 0 := by rintro rfl; omega
        by_contra hq2
        have : N * 2 ≤ N * q := Nat.mul_le_mul_left _ (by omega)
        omega
      subst this
      omega
    rw [clash] at key
    simp only [hx, hg] at key
    simp at key

/-- C64 fails on the curve secp256r1 for every scalar but 0: for no n with 0 < |n| < the order of the base point G is
`G * n` (so also `calcpub(n)`) the n-fold sum of G. -/
theorem C64_every_key_violated (n : Int) (h0 : n ≠ 0) (hn : |n| < p256Order) :
    letI := Fact.mk p256_prime
    ∃ R, secp256r1.calcpub n = .ok R ∧ ∀ A : (weierstrass secp256r1Curve).Point,
      Denotes secp256r1Curve secp256r1.G A → ¬ Denotes secp256r1Curve R (n • A) := by
  have := Fact.mk p256_prime
  by_cases hs : |n| < 2 ^ 53
  · exact C64_small_scalars_violated n h0 hs
  have hN : (p256Order : Int) ≤ 2 ^ 1000 := by
    have h1 : (p256Order : Int) ≤ 2 ^ 256 := by decide +kernel
    exact h1.trans (pow_le_pow_right₀ (by norm_num) (by norm_num))
  obtain ⟨G, hG, hord⟩ := p256_order
  obtain ⟨R, hR1, hR2⟩ := denotes_mul p256_proper (hn.le.trans hN) hG
  refine ⟨R, hR1, fun A hA hbad => ?_⟩
  obtain rfl : A = G := (denotes_same p256_proper hA hG).1 ⟨by simp, by simp⟩
  have heq := (denotes_same p256_proper hR2 hbad).1 ⟨by simp, by simp⟩
  rw [← natCast_zsmul, zsmul_eq_zsmul_iff_modEq, hord] at heq
  clear hR1 hR2 hN
  have h1 : 2 ^ 53 ≤ n.natAbs := by
    rw [not_lt, Int.abs_eq_natAbs] at hs
    exact_mod_cast hs
  have h2 : n.natAbs < p256Order := by
    rw [Int.abs_eq_natAbs] at hn
    exact_mod_cast hn
  obtain ⟨k1, k2⟩ := not_fixed _ h1 h2
  rcases Int.natAbs_eq n with h | h
  · rw [h] at heq
    exact k1 (Int.natCast_modEq_iff.1 heq)
  · rw [h, mulCoeff_neg] at heq
    apply k2
    apply Int.natCast_modEq_iff.1
    have := heq.add_right (n.natAbs : Int)
    rw [neg_add_cancel] at this
    exact_mod_cast this

/-! ## C122: distinct keys -/

private def coeffs : List Nat :=
  (List.range 2).flatMap fun e => (List.range 258).flatMap fun a => (List.range 55).map fun T => e + 2 ^ a * (2 ^ (1074 + T) - 1)

private theorem mem_coeffs {x : Nat} (h : IsCoeff x) : x ∈ coeffs := by
  obtain ⟨e, a, T, h1, h2, h3, h4, rfl⟩ := h
  rw [coeffs, List.mem_flatMap]
  refine ⟨e, List.mem_range.2 (by omega), List.mem_flatMap.2 ⟨a, List.mem_range.2 (by omega), List.mem_map.2 ⟨T, List.mem_range.2 (by omega), rfl⟩⟩⟩

private theorem coeffs_length : coeffs.length = 28380 := by
  rw [coeffs]
  simp only [List.length_flatMap, List.length_map, List.length_range, List.map_const', List.sum_replicate]
  rfl

/-- C122 fails, on every curve and for every point P: all the scalars n with |n| ≤ 2^256 (all 2^256 - 1 private keys of 32 bytes
among them) give at most 28381 different points `P * n`. -/
theorem C122_few_multiples_violated (c : Curve) (hp : c.p.Prime) (h : Proper c) (P : Pt) (hP : OnCurve c P) :
    letI := Fact.mk hp
    ∃ L : List (weierstrass c).Point, L.length = 28381 ∧
      ∀ n : Int, |n| ≤ 2 ^ 256 → ∃ R, mul c P n = .ok R ∧ ∃ B ∈ L, Denotes c R B := by
  have := Fact.mk hp
  obtain ⟨A, hA⟩ := exists_denotes h hP
  refine ⟨0 :: coeffs.map (· • A), by rw [List.length_cons, List.length_map, coeffs_length], fun n hn => ?_⟩
  by_cases h0 : n = 0
  · subst h0
    exact ⟨_, rfl, 0, List.mem_cons_self .., rfl⟩
  · obtain ⟨R, h1, h2⟩ := denotes_mul h (hn.trans (pow_le_pow_right₀ (by norm_num) (by norm_num))) hA
    exact ⟨R, h1, _, List.mem_cons_of_mem _ (List.mem_map.2 ⟨_, mem_coeffs (coeff_int n h0 hn), rfl⟩), h2⟩

/-- C122 fails for the keys 3 and 5, on every curve: they have the same public key. -/
theorem C122_pair_violated (c : Curve) (hp : c.p.Prime) (h : Proper c) (P : Pt) (hP : OnCurve c P) :
    ∃ R S, mul c P 3 = .ok R ∧ mul c P 5 = .ok S ∧ Same c R S := by
  have := Fact.mk hp
  obtain ⟨A, hA⟩ := exists_denotes h hP
  have h53 : (5 : Int) ≤ 2 ^ 1000 := le_trans (by norm_num) (pow_le_pow_right₀ (by norm_num) (by norm_num : 10 ≤ 1000))
  obtain ⟨R, r1, r2⟩ := denotes_mul (n := 3) h (by rw [abs_of_pos (by norm_num)]; exact le_trans (by norm_num) h53) hA
  obtain ⟨S, s1, s2⟩ := denotes_mul (n := 5) h (by rw [abs_of_pos (by norm_num)]; exact h53) hA
  refine ⟨R, S, r1, s1, (denotes_same h r2 s2).2 ?_⟩
  have e3 : (2 : Int) ^ 0 * 3 = 3 := by norm_num
  have e5 : (2 : Int) ^ 0 * 5 = 5 := by norm_num
  have c3 := mulCoeff_small_of 0 3 rfl (by norm_num) (loopCoeff_steps 54 3 (by norm_num) ⟨2, by norm_num, by norm_num⟩)
  have c5 := mulCoeff_small_of 0 5 rfl (by norm_num) (loopCoeff_steps 54 5 (by norm_num) ⟨3, by norm_num, by norm_num⟩)
  rw [e3, show steps 54 3 = steps 54 5 by decide] at c3
  rw [e5] at c5
  exact congrArg (· • A) (c3.trans c5.symm)

/-- The hypotheses are met by the base point of secp256r1. -/
example : secp256r1Curve.p.Prime ∧ Proper secp256r1Curve ∧ OnCurve secp256r1Curve secp256r1.G :=
  ⟨p256_prime, p256_proper, Or.inr (by decide +kernel)⟩

/-! ## C124: the result is a finite point -/

private theorem coeff_not_zero {x : Nat} (h : IsCoeff x) : ¬ p256Order ∣ x := by
  obtain ⟨e, a, T, h1, h2, h3, h4, rfl⟩ := h
  rw [← order_eq, Nat.dvd_iff_mod_eq_zero]
  have := no_zero a (by omega) T (by omega)
  have he : e = 0 ∨ e = 1 := by omega
  rcases he with rfl | rfl
  · exact this.1 h3
  · exact this.2 h3

private theorem order_of_finite : letI := Fact.mk p256_prime
    ∀ {A : (weierstrass secp256r1Curve).Point}, A ≠ 0 → addOrderOf A = p256Order := by
  have := Fact.mk p256_prime
  intro A hA0
  obtain ⟨G, hG, -⟩ := p256_order
  have hcard := (p256_multiples G hG).1
  have hd : addOrderOf A ∣ p256Order := by rw [← hcard]; exact addOrderOf_dvd_natCard A
  rcases (Nat.dvd_prime p256Order_prime).1 hd with h | h
  · exact absurd (AddMonoid.addOrderOf_eq_one_iff.1 h) hA0
  · exact h

private theorem finite_mul (P : Pt) (hP : OnCurve secp256r1Curve P) (h0 : P ≠ zero) (n : Int) (hn0 : n ≠ 0) (hn : |n| ≤ 2 ^ 256) :
    letI := Fact.mk p256_prime
    ∃ R, mul secp256r1Curve P n = .ok R ∧ ∃ B : (weierstrass secp256r1Curve).Point, Denotes secp256r1Curve R B ∧ B ≠ 0 := by
  have := Fact.mk p256_prime
  obtain ⟨A, hA⟩ := exists_denotes p256_proper hP
  obtain ⟨R, h1, h2⟩ := denotes_mul p256_proper (hn.trans (pow_le_pow_right₀ (by norm_num) (by norm_num))) hA
  refine ⟨R, h1, _, h2, fun hz => ?_⟩
  have hA0 : A ≠ 0 := by
    rintro rfl
    exact h0 hA
  have hord := order_of_finite hA0
  have := addOrderOf_dvd_of_nsmul_eq_zero hz
  rw [hord] at this
  exact coeff_not_zero (coeff_int n hn0 hn) this

/-- C124. On secp256r1, `P * n` is a finite point of the curve for every finite point P of the curve and every n with
0 < |n| ≤ 2^256; so is `calcpub(n)`. -/
theorem C124_finite (P : Pt) (hP : OnCurve secp256r1Curve P) (h0 : P ≠ zero) (n : Int) (hn0 : n ≠ 0) (hn : |n| ≤ 2 ^ 256) :
    (∃ R, mul secp256r1Curve P n = .ok R ∧ OnCurve secp256r1Curve R ∧ R ≠ zero ∧ isInfinity secp256r1Curve R = false) ∧
    ∃ R, secp256r1.calcpub n = .ok R ∧ OnCurve secp256r1Curve R ∧ R ≠ zero ∧ isInfinity secp256r1Curve R = false := by
  have := Fact.mk p256_prime
  have main : ∀ P, OnCurve secp256r1Curve P → P ≠ zero →
      ∃ R, mul secp256r1Curve P n = .ok R ∧ OnCurve secp256r1Curve R ∧ R ≠ zero ∧ isInfinity secp256r1Curve R = false := by
    intro P hP h0
    obtain ⟨R, h1, B, h2, h3⟩ := finite_mul P hP h0 n hn0 hn
    have hsame : ¬ Same secp256r1Curve R zero := fun hs => h3 ((denotes_same p256_proper h2 (B := 0) rfl).1 hs)
    refine ⟨R, h1, denotes_onCurve h2, fun hz => hsame (hz ▸ ⟨by simp, by simp⟩), ?_⟩
    rw [Bool.eq_false_iff]
    exact fun hi => hsame (((C62_laws secp256r1Curve p256_prime p256_proper R zero zero (denotes_onCurve h2) (Or.inl rfl) (Or.inl rfl)).2.2.2.2.2.1).1 hi)
  exact ⟨main P hP h0, main _ (Or.inr (by decide +kernel)) (by decide +kernel)⟩

/-- The hypotheses are met by the base point. -/
example : OnCurve secp256r1Curve secp256r1.G ∧ secp256r1.G ≠ zero := ⟨Or.inr (by decide +kernel), by decide +kernel⟩

/-! ## C123: negative scalars -/

/-- C123 fails for every scalar: `P * -n` is computed exactly as `P * n` (on any curve), and on secp256r1 that is never the
negative of `P * n`, for finite P and 0 < |n| ≤ 2^256. -/
theorem C123_negative_scalar_violated (P : Pt) (n : Int) :
    (∀ c, mul c P (-n) = mul c P n) ∧
    (OnCurve secp256r1Curve P → P ≠ zero → n ≠ 0 → |n| ≤ 2 ^ 256 → ∃ R S, mul secp256r1Curve P n = .ok R ∧
      mul secp256r1Curve P (-n) = .ok S ∧ ptEq secp256r1Curve S (neg secp256r1Curve R) = false) := by
  refine ⟨fun c => mul_neg_scalar c P n, fun hP h0 hn0 hn => ?_⟩
  have := Fact.mk p256_prime
  obtain ⟨R, h1, B, h2, h3⟩ := finite_mul P hP h0 n hn0 hn
  refine ⟨R, R, h1, (mul_neg_scalar _ P n).trans h1, ?_⟩
  have hR0 : R ≠ zero := by
    intro hz
    exact h3 ((denotes_same p256_proper h2 (B := 0) hz).1 ⟨by simp, by simp⟩)
  have hoR := denotes_onCurve h2
  obtain ⟨k1, k2, -⟩ := C105_finite secp256r1Curve p256_prime p256_proper R R hoR hoR hR0
  have hneg := (k1 B B h2 h2).1
  rw [Bool.eq_false_iff]
  intro hi
  have hs := ((C62_laws secp256r1Curve p256_prime p256_proper R _ zero hoR k2 (Or.inl rfl)).2.2.2.2.2.1).1 hi
  have hB := (denotes_same p256_proper h2 hneg).1 hs
  have h2B : 2 • B = 0 := by
    rw [two_nsmul]
    nth_rewrite 2 [hB]
    exact add_neg_cancel B
  have hd := addOrderOf_dvd_of_nsmul_eq_zero h2B
  rw [order_of_finite h3] at hd
  exact absurd (Nat.le_of_dvd (by norm_num) hd) (by decide +kernel)

/-- C123, what remains true: `P * 0` and `P * -0` are Infinity. -/
theorem C123_zero_partial (c : Curve) (P : Pt) : mul c P 0 = .ok zero ∧ mul c P (-0) = .ok zero := ⟨rfl, rfl⟩

end Neo.Props
