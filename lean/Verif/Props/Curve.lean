import Verif.Proofs.ECOrder

/-! Properties C62-C64: the arithmetic of curve points. -/

namespace Neo.Props
open Py Neo.EC Spec.EC

/-! ## C62: addition -/

/-- C62: `+` is the group law of the curve (Mathlib's chord-and-tangent law), for all representations of the points. -/
theorem C62_group_law (c : Curve) (hp : c.p.Prime) (h : Proper c) :
    letI := Fact.mk hp
    (∀ P Q (A B : (weierstrass c).Point), Denotes c P A → Denotes c Q B → Denotes c (add c P Q) (A + B)) ∧
    (∀ P, OnCurve c P ↔ ∃ A, Denotes c P A) ∧
    (∀ A, ∃ P, Denotes c P A) ∧
    (∀ P Q (A B : (weierstrass c).Point), Denotes c P A → Denotes c Q B → (Same c P Q ↔ A = B)) := by
  have := Fact.mk hp
  refine ⟨fun P Q A B hP hQ => denotes_add h hP hQ, fun P => ⟨fun ho => exists_denotes h ho, fun ⟨A, hA⟩ => denotes_onCurve hA⟩,
    ?_, fun P Q A B hP hQ => denotes_same h hP hQ⟩
  intro A
  match A with
  | .zero => exact ⟨zero, rfl⟩
  | .some x y hn =>
    refine ⟨⟨(x.val : Int), (y.val : Int)⟩, ?_, ?_⟩
    · rw [Int.cast_natCast, ZMod.natCast_zmod_val]
    · rw [Int.cast_natCast, ZMod.natCast_zmod_val]

/-- C62: the sum of points of the curve is on the curve; `+` is commutative and associative, and Infinity is neutral;
equality of points is congruence of the coordinates, which is what `==` decides. -/
theorem C62_laws (c : Curve) (hp : c.p.Prime) (h : Proper c) (P Q R : Pt) (hP : OnCurve c P) (hQ : OnCurve c Q)
    (hR : OnCurve c R) :
    OnCurve c (add c P Q) ∧
    Same c (add c P Q) (add c Q P) ∧
    Same c (add c (add c P Q) R) (add c P (add c Q R)) ∧
    add c P zero = P ∧ add c zero P = P ∧
    (ptEq c P Q = true ↔ Same c P Q) ∧ (isOnCurve c P = true) := by
  have := Fact.mk hp
  obtain ⟨A, hA⟩ := exists_denotes h hP
  obtain ⟨B, hB⟩ := exists_denotes h hQ
  obtain ⟨C, hC⟩ := exists_denotes h hR
  refine ⟨denotes_onCurve (denotes_add h hA hB), ?_, ?_, ?_, ?_, (same_iff P Q).symm, (onCurve_iff P).1 hP⟩
  · exact (denotes_same h (denotes_add h hA hB) (denotes_add h hB hA)).2 (add_comm A B)
  · exact (denotes_same h (denotes_add h (denotes_add h hA hB) hC) (denotes_add h hA (denotes_add h hB hC))).2
      (add_assoc A B C)
  · rw [add]
    by_cases hz : P.isZero = true
    · rw [if_pos hz]; exact ((isZero_iff P).1 hz).symm
    · rw [if_neg hz, if_pos (by decide)]
  · rw [add, if_pos (by decide)]

/-- Both curves of the library qualify, and their base points are on them. -/
example : secp256r1Curve.p.Prime ∧ Proper secp256r1Curve ∧ OnCurve secp256r1Curve secp256r1.G ∧
    secp256k1.ec.p.Prime ∧ Proper secp256k1.ec ∧ OnCurve secp256k1.ec secp256k1.G :=
  ⟨p256_prime, p256_proper, Or.inr (by decide +kernel), k256_prime, k256_proper, Or.inr (by decide +kernel)⟩

/-- A small curve: y² = x³ + x + 1 over the integers mod 23, (3, 10) + (9, 7) = (17, 20). -/
example : add ⟨23, 1, 1⟩ ⟨3, 10⟩ ⟨9, 7⟩ = ⟨17, 20⟩ ∧ add ⟨23, 1, 1⟩ ⟨3, 10⟩ ⟨3, 10⟩ = ⟨7, 12⟩ :=
  ⟨addFuel_eq (k := 20) (by decide +kernel), addFuel_eq (k := 20) (by decide +kernel)⟩

/-! ## C63: negation and subtraction -/

/-- C105 for finite points: `-P` is the group inverse (the same x, the opposite y), `P - Q` is the group difference, in
particular P - P is Infinity and Infinity - P is -P. -/
theorem C105_finite (c : Curve) (hp : c.p.Prime) (h : Proper c) (P Q : Pt) (hP : OnCurve c P) (hQ : OnCurve c Q)
    (hQ0 : Q ≠ zero) :
    letI := Fact.mk hp
    (∀ A B : (weierstrass c).Point, Denotes c P A → Denotes c Q B →
      Denotes c (neg c Q) (-B) ∧ Denotes c (sub c P Q) (A - B)) ∧
    OnCurve c (neg c Q) ∧ OnCurve c (sub c P Q) ∧ Same c (add c Q (neg c Q)) zero ∧ sub c Q Q = zero ∧
    sub c zero Q = neg c Q := by
  have := Fact.mk hp
  have hne : ∀ B : (weierstrass c).Point, Denotes c Q B → B ≠ 0 := by
    rintro B hB rfl
    exact hQ0 hB
  obtain ⟨A, hA⟩ := exists_denotes h hP
  obtain ⟨B, hB⟩ := exists_denotes h hQ
  have hself : sub c Q Q = zero := by
    have hd := denotes_sub h hB hB (hne B hB)
    rw [sub_self] at hd
    exact hd
  refine ⟨fun A B hA hB => ⟨denotes_neg h hB (hne B hB), denotes_sub h hA hB (hne B hB)⟩,
    denotes_onCurve (denotes_neg h hB (hne B hB)), denotes_onCurve (denotes_sub h hA hB (hne B hB)), ?_, hself, ?_⟩
  · have : add c Q (neg c Q) = zero := hself
    rw [this]
    exact ⟨by simp, by simp⟩
  · rw [sub, add, if_pos (by decide)]

/-- C63 fails for Infinity, whatever the curve: `-Infinity` is the pair (0, p), which is not recognised as Infinity, and
`P - Infinity` is different from P for every finite point P. -/
theorem C63_infinity_violated (c : Curve) (hp : c.p.Prime) (h : Proper c) (P : Pt) (hP : OnCurve c P) (hP0 : P ≠ zero) :
    neg c zero ≠ zero ∧ isOnCurve c (neg c zero) = false ∧ ¬ Same c (sub c P zero) P := by
  have := Fact.mk hp
  have hp0 : (c.p : Int) ≠ 0 := by exact_mod_cast hp.ne_zero
  have hnz : (neg c zero).isZero = false := by
    rw [Bool.eq_false_iff, ne_eq, isZero_iff, neg, zero, fNeg, sub_zero]
    intro hh
    exact hp0 (Pt.mk.inj hh).2
  have hnzx : (neg c zero).x = 0 := rfl
  have hnzy : ((neg c zero).y : ZMod c.p) = 0 := by
    show ((fNeg c.p 0 : Int) : ZMod c.p) = 0
    rw [cast_fNeg, Int.cast_zero, neg_zero]
  have heq : (P.y : ZMod c.p) ^ 2 = P.x ^ 3 + c.a * P.x + c.b := by
    rcases hP with hP | hP
    · exact absurd hP hP0
    · have := (ZMod.intCast_zmod_eq_zero_iff_dvd _ _).2 hP
      push_cast at this
      exact sub_eq_zero.1 this
  refine ⟨?_, ?_, ?_⟩
  · intro hh
    rw [hh] at hnz
    exact absurd hnz (by decide)
  · rw [isOnCurve, hnz, Bool.false_or, fEq_false_iff, cast_fPow, hnzy, cast_rhs, hnzx]
    intro hh
    apply h.b_ne
    simpa using hh.symm
  · intro hs
    have hPz : P.isZero = false := by
      rw [Bool.eq_false_iff, ne_eq, isZero_iff]
      exact hP0
    have hpe : ptEq c P (neg c zero) = false := by
      rw [Bool.eq_false_iff, ne_eq, ptEq_iff, hnzy, hnzx, Int.cast_zero]
      rintro ⟨h1, h2⟩
      rw [h1, h2] at heq
      apply h.b_ne
      simpa using heq.symm
    rw [sub, add, hPz, hnz, hpe, same_iff, ptEq_iff] at hs
    simp only [Bool.false_eq_true, if_false] at hs
    by_cases hx : fEq c.p P.x (neg c zero).x = true
    · rw [if_pos hx, zero] at hs
      have hx' := (fEq_iff _ _).1 hx
      rw [hnzx, Int.cast_zero] at hx'
      simp only [Int.cast_zero] at hs
      rw [hx', ← hs.2] at heq
      apply h.b_ne
      simpa using heq.symm
    · rw [if_neg hx] at hs
      rw [fEq_iff, hnzx, Int.cast_zero] at hx
      have hsl : ((fDiv c.p (fSub c.p P.y (neg c zero).y) (fSub c.p P.x (neg c zero).x) : Int) : ZMod c.p) = P.y / P.x := by
        have hr : ((fSub c.p P.x (neg c zero).x : Int) : ZMod c.p) = P.x := by rw [cast_fSub, hnzx, Int.cast_zero, sub_zero]
        have hr0 : ((fSub c.p P.x (neg c zero).x : Int) : ZMod c.p) ≠ 0 := by rw [hr]; exact hx
        have := NeZero.mk hp.ne_zero
        rw [cast_fDiv (r := fSub c.p P.x (neg c zero).x) _ (pos_of_cast_ne_zero (fmod_range (p := c.p) _).1 hr0) hr0, hr, cast_fSub, hnzy, sub_zero]
      have hxx : ((addWithSlope c (fDiv c.p (fSub c.p P.y (neg c zero).y) (fSub c.p P.x (neg c zero).x)) P (neg c zero)).x : ZMod c.p)
          = (P.y / P.x) ^ 2 - P.x := by
        rw [addWithSlope]
        simp only
        rw [cast_fSub, cast_fPow, hsl, cast_fAdd, hnzx, Int.cast_zero, add_zero]
      have hyy : ((addWithSlope c (fDiv c.p (fSub c.p P.y (neg c zero).y) (fSub c.p P.x (neg c zero).x)) P (neg c zero)).y : ZMod c.p)
          = (P.y / P.x) * (P.x - ((P.y / P.x) ^ 2 - P.x)) - P.y := by
        rw [addWithSlope]
        simp only
        rw [cast_fSub, cast_fMul, hsl, cast_fSub, cast_fSub, cast_fPow, hsl, cast_fAdd, hnzx, Int.cast_zero, add_zero]
      rw [hxx, hyy] at hs
      obtain ⟨h1, h2⟩ := hs
      rw [h1, sub_self, mul_zero, zero_sub] at h2
      have h2' : (2 : ZMod c.p) * P.y = 0 := by linear_combination -h2
      have hy0 : (P.y : ZMod c.p) = 0 := (mul_eq_zero.1 h2').resolve_left (two_ne h)
      rw [hy0, zero_div] at h1
      have h3 : (2 : ZMod c.p) * P.x = 0 := by linear_combination -h1
      exact hx ((mul_eq_zero.1 h3).resolve_left (two_ne h))

/-- On the small curve: (3, 10) - Infinity. -/
example : sub ⟨23, 1, 1⟩ ⟨3, 10⟩ zero = ⟨3, 13⟩ ∧ sub ⟨23, 1, 1⟩ ⟨3, 10⟩ ⟨3, 10⟩ = zero :=
  ⟨addFuel_eq (k := 20) (by decide +kernel), addFuel_eq (k := 20) (by decide +kernel)⟩

/-! ## C64: scalar multiplication -/

/-- C64, what is true of `P * n`: for every scalar n = 2^t m with m odd and |n| < 2^53, the result is the multiple
2^t (2^(1074 + T) - 1) of P, for some 1 ≤ T ≤ 54 (the loop halves the scalar as a float until it underflows, setting every
bit on the way).  It is a point of the curve, and the n-fold sum only if that multiple happens to agree. -/
theorem C64_multiple_partial (c : Curve) (hp : c.p.Prime) (h : Proper c) (t : Nat) (m : Int) (hm : m % 2 = 1)
    (hn : |2 ^ t * m| < 2 ^ 53) :
    letI := Fact.mk hp
    ∃ T, 1 ≤ T ∧ T ≤ 54 ∧ ∀ (P : Pt) (A : (weierstrass c).Point), Denotes c P A →
      ∃ R, mul c P (2 ^ t * m) = .ok R ∧ Denotes c R ((2 ^ t * (2 ^ (1074 + T) - 1) : Nat) • A) := by
  have := Fact.mk hp
  obtain ⟨T, h1, h2, h3⟩ := mulCoeff_small t m hm hn
  refine ⟨T, h1, h2, fun P A hA => ?_⟩
  have hn' : |2 ^ t * m| ≤ 2 ^ 1000 := hn.le.trans (pow_le_pow_right₀ (by norm_num) (by norm_num))
  have := denotes_mul h hn' hA
  rwa [h3] at this

/-- C64, zero and the range of scalars: P * 0 is Infinity; below 2^1025 - 2^971 the result is some multiple of P, hence on the
curve; from there on every multiplication raises `OverflowError`. -/
theorem C64_range_partial (c : Curve) (hp : c.p.Prime) (h : Proper c) (P : Pt) (n : Int) :
    mul c P 0 = .ok zero ∧
    (OnCurve c P → |n| < 2 ^ 1025 - 2 ^ 971 → ∃ R, mul c P n = .ok R ∧ OnCurve c R) ∧
    (2 ^ 1025 - 2 ^ 971 ≤ |n| → mul c P n = .error .overflowError) := by
  have := Fact.mk hp
  refine ⟨rfl, ?_, ?_⟩
  · intro hP hn
    obtain ⟨A, hA⟩ := exists_denotes h hP
    obtain ⟨R, h1, h2⟩ := denotes_mul_wide h hn hA
    exact ⟨R, h1, denotes_onCurve h2⟩
  · intro hn
    have h0 : n ≠ 0 := by
      rintro rfl
      rw [abs_zero] at hn
      have := in_range (n := 0) (by rw [abs_zero]; exact pow_nonneg (by norm_num) _)
      rw [abs_zero] at this
      exact absurd hn (not_le.2 this)
    rw [mul, if_neg h0]
    simp only [intTrueDiv_two_overflow hn]

/-- C64 fails on the curve secp256r1 for every small scalar: for every n with 0 < |n| < 2^53, `G * n` (so also `calcpub(n)`)
is not the n-fold sum of the base point G. -/
theorem C64_small_scalars_violated (n : Int) (h0 : n ≠ 0) (hn : |n| < 2 ^ 53) :
    letI := Fact.mk p256_prime
    ∃ R, secp256r1.calcpub n = .ok R ∧ ∀ A : (weierstrass secp256r1Curve).Point,
      Denotes secp256r1Curve secp256r1.G A → ¬ Denotes secp256r1Curve R (n • A) := by
  have := Fact.mk p256_prime
  obtain ⟨t, m, hm, rfl⟩ : ∃ (t : Nat) (m : Int), m % 2 = 1 ∧ n = 2 ^ t * m := by
    have hf : FiniteMultiplicity (2 : Int) n := Int.finiteMultiplicity_iff.2 ⟨by decide, h0⟩
    obtain ⟨m, hh, hm⟩ := hf.exists_eq_pow_mul_and_not_dvd
    exact ⟨_, m, by omega, hh⟩
  obtain ⟨G, hG, hord⟩ := p256_order
  obtain ⟨T, hT1, hT2, hmul⟩ := C64_multiple_partial secp256r1Curve p256_prime p256_proper t m hm hn
  obtain ⟨R, hR1, hR2⟩ := hmul secp256r1.G G hG
  refine ⟨R, hR1, fun A hA hbad => ?_⟩
  obtain rfl : A = G := (denotes_same p256_proper hA hG).1 ⟨by simp, by simp⟩
  have heq := (denotes_same p256_proper hR2 hbad).1 ⟨by simp, by simp⟩
  rw [← natCast_zsmul, zsmul_eq_zsmul_iff_modEq, hord] at heq
  have hdvd : (p256Order : Int) ∣ 2 ^ t * ((2 ^ (1074 + T) - 1 : Nat) - m) := by
    have := heq.dvd
    rw [← Int.dvd_neg] at this
    convert this using 1
    push_cast
    ring
  have hpi : Prime (p256Order : Int) := Nat.prime_iff_prime_int.1 p256Order_prime
  have hdvd2 : (p256Order : Int) ∣ ((2 ^ (1074 + T) - 1 : Nat) - m) := by
    rcases hpi.dvd_or_dvd hdvd with hd | hd
    · have := hpi.dvd_of_dvd_pow hd
      exact absurd (Int.le_of_dvd (by norm_num) this) (by decide +kernel)
    · exact hd
  have hres : ∀ T < 55, 2 ^ 53 ≤ (2 ^ (1074 + T) - 1) % p256Order ∧ (2 ^ (1074 + T) - 1) % p256Order ≤ p256Order - 2 ^ 53 := by
    decide +kernel
  have hr := hres T (by omega)
  have hmabs : |m| < 2 ^ 53 := by
    refine lt_of_le_of_lt ?_ hn
    rw [abs_mul]
    have : (1 : Int) ≤ |2 ^ t| := by
      rw [abs_of_pos (by positivity)]
      exact one_le_pow₀ (by norm_num)
    nlinarith [abs_nonneg m]
  have hd3 : (p256Order : Int) ∣ ((2 ^ (1074 + T) - 1) % p256Order : Nat) - m := by
    have : (((2 ^ (1074 + T) - 1) % p256Order : Nat) : Int) = (2 ^ (1074 + T) - 1 : Nat) - p256Order * (((2 ^ (1074 + T) - 1) / p256Order : Nat) : Int) := by
      have := Nat.mod_add_div (2 ^ (1074 + T) - 1) p256Order
      rw [eq_sub_iff_add_eq]
      exact_mod_cast this
    rw [this, show ((2 ^ (1074 + T) - 1 : Nat) : Int) - p256Order * (((2 ^ (1074 + T) - 1) / p256Order : Nat) : Int) - m =
      ((2 ^ (1074 + T) - 1 : Nat) - m) - p256Order * (((2 ^ (1074 + T) - 1) / p256Order : Nat) : Int) by ring]
    exact dvd_sub hdvd2 (Dvd.intro _ rfl)
  generalize (2 ^ (1074 + T) - 1) % p256Order = r at hr hd3
  have hN : (2 : Nat) ^ 54 < p256Order := by decide +kernel
  generalize p256Order = N at *
  obtain ⟨q, hq⟩ := hd3
  rw [abs_lt] at hmabs
  have h1 : 0 < (r : Int) - m := by
    have : (2 : Int) ^ 53 ≤ r := by exact_mod_cast hr.1
    linarith
  have h2 : (r : Int) - m < N := by
    have : (r : Int) + 2 ^ 53 ≤ N := by
      have := hr.2
      have h54 : (2 : Nat) ^ 54 = 2 ^ 53 * 2 := by norm_num
      have : r + 2 ^ 53 ≤ N := by omega
      exact_mod_cast this
    linarith
  exact absurd (Int.le_of_dvd h1 (Dvd.intro _ hq.symm)) (not_le.2 h2)

end Neo.Props
