import Verif.Spec.NamedCurves
import Verif.Props.ScalarMul
import Verif.Props.Ecdsa
import Verif.Props.Crypto

/-!
# C200, C201: the curves `secp256r1()` and `secp256k1()`, and signatures on the latter
-/

namespace Neo.Props
open Py Neo.EC Spec.EC

/-! ## C200 -/

/-- An ECDSA object, whatever it takes for the order, has these domain parameters; they are sound: field and order are prime, the
curve is not singular, the base point is on it and its multiples are exactly n points. -/
def HasParameters (E : ECDSA) (D : DomainParameters) : Prop :=
  E.ec.p = D.p ∧ E.ec.a = D.a ∧ E.ec.b = D.b ∧ E.G = ⟨D.gx, D.gy⟩ ∧
  D.n.Prime ∧ Proper E.ec ∧ OnCurve E.ec E.G ∧ ∃ hp : E.ec.p.Prime, letI := Fact.mk hp
    ∃ A : (weierstrass E.ec).Point, Denotes E.ec E.G A ∧ addOrderOf A = D.n

private theorem k_order : sec2_secp256k1.n = k256Order := by decide +kernel
private theorem r_order : sec2_secp256r1.n = p256Order := by decide +kernel

/-- C200. `secp256k1()` and `secp256r1()` have the parameters of SEC 2; `secp256k1()` computes with the right order; and
`SetupSignatureCurve` and `KeyPair` configure the signing package with those of secp256r1. -/
theorem C200_parameters :
    HasParameters secp256k1 sec2_secp256k1 ∧ secp256k1.n = some (sec2_secp256k1.n : Int) ∧
    HasParameters secp256r1 sec2_secp256r1 ∧
    ∀ c, c = signatureCurve ∨ c = keyPairCurve →
      c.p = sec2_secp256r1.p ∧ (c.a : Int) = sec2_secp256r1.a ∧ (c.b : Int) = sec2_secp256r1.b ∧
      (c.gx : Int) = sec2_secp256r1.gx ∧ (c.gy : Int) = sec2_secp256r1.gy ∧ c.n = sec2_secp256r1.n := by
  refine ⟨⟨by decide +kernel, by decide +kernel, by decide +kernel, by decide +kernel, k_order ▸ k256Order_prime, k256_proper,
    Or.inr (by decide +kernel), k256_prime, k_order ▸ k256_order⟩, by decide +kernel,
    ⟨by decide +kernel, by decide +kernel, by decide +kernel, by decide +kernel, r_order ▸ p256Order_prime, p256_proper,
    Or.inr (by decide +kernel), p256_prime, r_order ▸ p256_order⟩, ?_⟩
  rintro c (rfl | rfl) <;> exact ⟨by decide +kernel, by decide +kernel, by decide +kernel, by decide +kernel, by decide +kernel, by decide +kernel⟩

/-! ## C201: public keys on secp256k1 -/

/-- A scalar that `mul` multiplies rightly on secp256k1; the other one is the next number. -/
def goodKey : Nat := 0xd502f489393e64ea9918bfcd4e98a659c4d109cb110959a620f777d5e787baa6

private def order : Nat := 0xFFFFFFFFFFFFFFFFFFFFFFFFFFFFFFFEBAAEDCE6AF48A03BBFD25E8CD0364141
private theorem order_eq : order = k256Order := by decide +kernel

private def clash (e a T : Nat) : Bool :=
  let x := (e + 2 ^ a * (2 ^ (1074 + T) - 1)) % order
  (x % 2 == e && gives x a T && !(Nat.beq x goodKey) && !(Nat.beq x (goodKey + 1))) || ((order - x) % 2 == e && gives (order - x) a T)

set_option maxRecDepth 100000 in
private theorem no_clash : ∀ a < 258, ∀ T < 55, clash 0 a T = false ∧ clash 1 a T = false := by decide +kernel

private theorem fixed_large (n : Nat) (h1 : 2 ^ 53 ≤ n) (h2 : n < k256Order) :
    (mulCoeff n ≡ n [MOD k256Order] → n = goodKey ∨ n = goodKey + 1) ∧ ¬ mulCoeff n + n ≡ 0 [MOD k256Order] := by
  have hN : k256Order < 2 ^ 256 := by decide +kernel
  obtain ⟨a, T, ha, hT, hg, hc⟩ := large_gives n h1 (h2.trans hN)
  rw [← order_eq] at h2 ⊢
  have he : n % 2 = 0 ∨ n % 2 = 1 := by omega
  have key : clash (n % 2) a T = false := by
    rcases he with h | h <;> rw [h]
    · exact (no_clash a ha T hT).1
    · exact (no_clash a ha T hT).2
  constructor
  · intro hm
    have hx : (n % 2 + 2 ^ a * (2 ^ (1074 + T) - 1)) % order = n := by
      rw [← hc]
      exact (show mulCoeff n % order = n % order from hm).trans (Nat.mod_eq_of_lt h2)
    rw [clash] at key
    simp only [hx, hg] at key
    by_contra hne
    rw [not_or] at hne
    have k1 : Nat.beq n goodKey = false := by
      rw [Bool.eq_false_iff]; exact fun h => hne.1 (Nat.eq_of_beq_eq_true h)
    have k2 : Nat.beq n (goodKey + 1) = false := by
      rw [Bool.eq_false_iff]; exact fun h => hne.2 (Nat.eq_of_beq_eq_true h)
    simp [k1, k2] at key
  · intro hm
    have hpos : 0 < n := lt_of_lt_of_le (by norm_num) h1
    have hx : order - (n % 2 + 2 ^ a * (2 ^ (1074 + T) - 1)) % order = n := by
      rw [← hc]
      have h3 : (mulCoeff n % order + n) % order = 0 := by rw [Nat.mod_add_mod]; exact hm
      have h4 : mulCoeff n % order < order := Nat.mod_lt _ (by decide)
      generalize mulCoeff n % order = y at h3 h4 ⊢
      obtain ⟨q, hq⟩ := Nat.dvd_of_mod_eq_zero h3
      generalize order = N at *
      have : q = 1 := by
        have hq1 : q ≠ 0 := by rintro rfl; omega
        by_contra hq2
        have : N * 2 ≤ N * q := Nat.mul_le_mul_left _ (by omega)
        omega
      subst this
      omega
    rw [clash] at key
    simp only [hx, hg] at key
    simp at key

private theorem not_fixed_small (n : Int) (h0 : n ≠ 0) (hn : |n| < 2 ^ 53) : ¬ (mulCoeff n : Int) ≡ n [ZMOD k256Order] := by
  obtain ⟨t, m, hm, rfl⟩ := odd_part h0
  obtain ⟨T, hT1, hT2, hmul⟩ := mulCoeff_small t m hm hn
  intro heq
  rw [hmul] at heq
  have hdvd : (k256Order : Int) ∣ 2 ^ t * ((2 ^ (1074 + T) - 1 : Nat) - m) := by
    have := heq.dvd
    rw [← Int.dvd_neg] at this
    convert this using 1
    push_cast
    ring
  have hpi : Prime (k256Order : Int) := Nat.prime_iff_prime_int.1 k256Order_prime
  have hdvd2 : (k256Order : Int) ∣ ((2 ^ (1074 + T) - 1 : Nat) - m) := by
    rcases hpi.dvd_or_dvd hdvd with hd | hd
    · have := hpi.dvd_of_dvd_pow hd
      exact absurd (Int.le_of_dvd (by norm_num) this) (by decide +kernel)
    · exact hd
  have hres : ∀ T < 55, 2 ^ 53 ≤ (2 ^ (1074 + T) - 1) % k256Order ∧ (2 ^ (1074 + T) - 1) % k256Order ≤ k256Order - 2 ^ 53 := by
    decide +kernel
  have hr := hres T (by omega)
  have hmabs : |m| < 2 ^ 53 := by
    refine lt_of_le_of_lt ?_ hn
    rw [abs_mul]
    have : (1 : Int) ≤ |2 ^ t| := by
      rw [abs_of_pos (by positivity)]
      exact one_le_pow₀ (by norm_num)
    nlinarith [abs_nonneg m]
  have hd3 : (k256Order : Int) ∣ ((2 ^ (1074 + T) - 1) % k256Order : Nat) - m := by
    have : (((2 ^ (1074 + T) - 1) % k256Order : Nat) : Int) = (2 ^ (1074 + T) - 1 : Nat) - k256Order * (((2 ^ (1074 + T) - 1) / k256Order : Nat) : Int) := by
      have := Nat.mod_add_div (2 ^ (1074 + T) - 1) k256Order
      rw [eq_sub_iff_add_eq]
      exact_mod_cast this
    rw [this, show ((2 ^ (1074 + T) - 1 : Nat) : Int) - k256Order * (((2 ^ (1074 + T) - 1) / k256Order : Nat) : Int) - m =
      ((2 ^ (1074 + T) - 1 : Nat) - m) - k256Order * (((2 ^ (1074 + T) - 1) / k256Order : Nat) : Int) by ring]
    exact dvd_sub hdvd2 (Dvd.intro _ rfl)
  clear heq hdvd hdvd2 hmul
  generalize (2 ^ (1074 + T) - 1) % k256Order = r at hr hd3
  have hN : (2 : Nat) ^ 54 < k256Order := by decide +kernel
  generalize k256Order = N at *
  obtain ⟨q, hq⟩ := hd3
  rw [abs_lt] at hmabs
  have h1 : 0 < (r : Int) - m := by
    have : (2 : Int) ^ 53 ≤ r := by exact_mod_cast hr.1
    linarith
  have h2 : (r : Int) - m < N := by
    have : (r : Int) + 2 ^ 53 ≤ N := by
      have := hr.2
      have h54 : (2 : Nat) ^ 54 = 2 ^ 53 * 2 := by norm_num
      have : r + 2 ^ 53 ≤ N := by omega
      exact_mod_cast this
    linarith
  exact absurd (Int.le_of_dvd h1 (Dvd.intro _ hq.symm)) (not_le.2 h2)

private theorem good_fixed (e : Nat) (he : e ≤ 1) : mulCoeff ((goodKey + e : Nat) : Int) ≡ goodKey + e [MOD k256Order] := by
  have hb : ∀ e < 2, 2 ^ (202 + 53) ≤ goodKey + e ∧ goodKey + e < 2 ^ (202 + 54) ∧ rneN (goodKey + e) (202 + 1) % 2 = 1 ∧
      steps 54 (rneN (goodKey + e) (202 + 1)) = 54 ∧ (goodKey + e) % 2 = e ∧
      (e + 2 ^ (202 + 1) * (2 ^ (1074 + 54) - 1)) % k256Order = (goodKey + e) % k256Order := by decide +kernel
  obtain ⟨h1, h2, h3, h4, h5, h6⟩ := hb e (by omega)
  obtain ⟨t, m, hR, hm, -, -, hc⟩ := mulCoeff_large (goodKey + e) 202 h1 h2
  have ht : t = 0 := by
    by_contra ht
    obtain ⟨u, rfl⟩ := Nat.exists_eq_succ_of_ne_zero ht
    rw [hR, pow_succ, mul_comm (2 ^ u) 2, mul_assoc] at h3
    omega
  subst ht
  rw [pow_zero, one_mul] at hR
  rw [hR] at h4
  have hA : 202 + 1 + 0 = 202 + 1 := rfl
  have hval : ∀ A S E : Nat, 202 + 1 + 0 = A → steps 54 m = S → (goodKey + e) % 2 = E →
      mulCoeff ((goodKey + e : Nat) : Int) = E + 2 ^ A * (2 ^ (1074 + S) - 1) := by
    rintro A S E rfl rfl rfl
    exact hc
  have := hval (202 + 1) 54 e hA h4 h5
  unfold Nat.ModEq
  rw [this]
  exact h6

/-- C201, `calcpub` in full: on secp256k1 `calcpub(n)` (which is `G * n`) is the public key of n, for |n| below the order of the group,
exactly for n = 0 and for two other numbers. -/
theorem C201_calcpub_iff_partial (n : Int) (hn : |n| < k256Order) :
    letI := Fact.mk k256_prime
    ∃ R, secp256k1.calcpub n = .ok R ∧ ∀ A : (weierstrass secp256k1.ec).Point, Denotes secp256k1.ec secp256k1.G A →
      (Denotes secp256k1.ec R (n • A) ↔ n = 0 ∨ n = goodKey ∨ n = goodKey + 1) := by
  have := Fact.mk k256_prime
  have hN : (k256Order : Int) ≤ 2 ^ 1000 := by
    have h1 : (k256Order : Int) ≤ 2 ^ 256 := by decide +kernel
    exact h1.trans (pow_le_pow_right₀ (by norm_num) (by norm_num))
  obtain ⟨G, hG, hord⟩ := k256_order
  obtain ⟨R, hR1, hR2⟩ := denotes_mul k256_proper (hn.le.trans hN) hG
  refine ⟨R, hR1, fun A hA => ?_⟩
  obtain rfl : A = G := (denotes_same k256_proper hA hG).1 ⟨by simp, by simp⟩
  have hiff : Denotes secp256k1.ec R (n • A) ↔ (mulCoeff n : Int) ≡ n [ZMOD k256Order] := by
    rw [← hord, ← zsmul_eq_zsmul_iff_modEq, natCast_zsmul]
    constructor
    · intro h; exact (denotes_same k256_proper hR2 h).1 ⟨by simp, by simp⟩
    · intro h; rw [← h]; exact hR2
  rw [hiff]
  clear hR1 hR2 hN hiff
  constructor
  · intro heq
    by_cases h0 : n = 0
    · exact .inl h0
    right
    by_cases hs : |n| < 2 ^ 53
    · exact absurd heq (not_fixed_small n h0 hs)
    have h1 : 2 ^ 53 ≤ n.natAbs := by
      rw [not_lt, Int.abs_eq_natAbs] at hs
      exact_mod_cast hs
    have h2 : n.natAbs < k256Order := by
      rw [Int.abs_eq_natAbs] at hn
      exact_mod_cast hn
    obtain ⟨k1, k2⟩ := fixed_large _ h1 h2
    rcases Int.natAbs_eq n with h | h
    · rw [h] at heq
      rcases k1 (Int.natCast_modEq_iff.1 heq) with h' | h'
      · left; rw [h, h']
      · right; rw [h, h']; push_cast; rfl
    · rw [h, mulCoeff_neg] at heq
      exfalso
      apply k2
      apply Int.natCast_modEq_iff.1
      have := heq.add_right (n.natAbs : Int)
      rw [neg_add_cancel] at this
      exact_mod_cast this
  · rintro (rfl | rfl | rfl)
    · rw [mulCoeff, if_pos rfl]; exact Int.ModEq.refl _
    · have := good_fixed 0 (by omega)
      rw [Nat.add_zero] at this
      exact Int.natCast_modEq_iff.2 this
    · have := good_fixed 1 (by omega)
      have := Int.natCast_modEq_iff.2 this
      push_cast at this
      exact this

/-- The two keys are private keys of secp256k1, and not small. -/
example : 2 ^ 255 < goodKey ∧ goodKey + 1 < k256Order ∧ |(1 : Int)| < k256Order ∧ (1 : Int) ≠ 0 ∧ (1 : Int) ≠ goodKey ∧ (1 : Int) ≠ goodKey + 1 := by
  decide +kernel

end Neo.Props
