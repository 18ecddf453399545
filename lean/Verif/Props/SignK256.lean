import Verif.Props.ScalarMul
import Verif.Props.Ecdsa
import Verif.Props.ReducedPoints

/-! # C201: `sign` and `verify` on secp256k1 -/

namespace Neo.Props
open Py Neo.EC Spec.EC

/-- C201, what is true of `sign` and `verify` themselves: on secp256k1, if scalar multiplication were correct, every signature with
s ≠ 0 that `sign` returns would be accepted by `verify` with the public key of x. -/
theorem C201_sign_verify_partial (smul : Pt → Int → Except Err Pt) :
    letI := Fact.mk k256_prime
    CorrectSmul secp256k1.ec smul → ∀ A : (weierstrass secp256k1.ec).Point, Denotes secp256k1.ec secp256k1.G A →
    ∀ m x k r s : Int, 0 < k → k < k256Order → secp256k1.signWith smul m x k = .ok (r, s) → s ≠ 0 →
    ∀ Y, Denotes secp256k1.ec Y (x • A) → secp256k1.verifyWith smul m Y r s = .ok true := by
  have := Fact.mk k256_prime
  intro hsm A hA m x k r s hk hkn h hs Y hY
  obtain ⟨G, hG, hord⟩ := k256_order
  obtain rfl : A = G := (denotes_same k256_proper hA hG).1 ⟨by simp, by simp⟩
  exact C71_sign_verify_partial secp256k1 k256_prime k256_proper k256Order k256Order_prime (by decide +kernel) smul A hA
    (by rw [← hord]; exact addOrderOf_nsmul_eq_zero A) hsm m x k r s hk (fun hd => absurd (Int.le_of_dvd hk hd) (not_le.2 hkn)) h hs Y hY

/-- A correct scalar multiplication exists, and then nonces in range give signatures. -/
example : (letI := Fact.mk k256_prime; CorrectSmul secp256k1.ec (naiveMul secp256k1.ec)) ∧
    secp256k1.signWith (naiveMul secp256k1.ec) 5 3 1 = .ok (secp256k1.G.x, fDiv k256Order (fAdd k256Order 5 (fMul k256Order 3 secp256k1.G.x)) 1) ∧
    fDiv k256Order (fAdd k256Order 5 (fMul k256Order 3 secp256k1.G.x)) 1 ≠ 0 := by
  refine ⟨?_, rfl, by decide +kernel⟩
  have := Fact.mk k256_prime
  exact naiveMul_correct _ k256_proper

private theorem loop_one : loopCoeff 1 = 2 ^ 1 - 1 := by
  obtain ⟨T, h1, h2, h⟩ := loopCoeff_small 0 (by omega) 1 (by decide) (by decide)
  obtain rfl : T = 1 := by omega
  exact h

private theorem coeff_of : ∀ j, 1074 + 1 = j → mulCoeff 1 = 2 ^ j - 1 ∧ mulCoeff 2 = 2 * (2 ^ j - 1) ∧ mulCoeff 4 = 2 ^ 2 * (2 ^ j - 1) := by
  rintro j rfl
  have h := mulCoeff_small_of 0 1 (by decide) (by norm_num) loop_one
  have h' := mulCoeff_small_of 1 1 (by decide) (by norm_num) loop_one
  have h'' := mulCoeff_small_of 2 1 (by decide) (by norm_num) loop_one
  generalize 1074 + 1 = j at *
  rw [mul_one, show (2 : Int) ^ 2 = 4 from rfl] at h''
  rw [pow_zero, one_mul, pow_zero, one_mul] at h
  rw [pow_one, mul_one, pow_one] at h'
  exact ⟨h, h', h''⟩

private theorem coeff_one : mulCoeff 1 = 2 ^ 1075 - 1 := (coeff_of 1075 rfl).1
private theorem coeff_two : mulCoeff 2 = 2 * (2 ^ 1075 - 1) := (coeff_of 1075 rfl).2.1
private theorem coeff_four : mulCoeff 4 = 2 ^ 2 * (2 ^ 1075 - 1) := (coeff_of 1075 rfl).2.2

private theorem same_x {c : Curve} [hp : Fact c.p.Prime] {P Q : Pt} {A B : (weierstrass c).Point} (hP : Denotes c P A)
    (hQ : Denotes c Q B) (hA : A ≠ 0) (hB : B ≠ 0) (h : (P.x : ZMod c.p) = Q.x) : A = B ∨ A = -B := by
  cases A with
  | zero => exact absurd rfl hA
  | some x₁ y₁ h₁ => cases B with
    | zero => exact absurd rfl hB
    | some x₂ y₂ h₂ =>
      have hx : x₁ = x₂ := by rw [← hP.1, ← hQ.1, h]
      rcases WeierstrassCurve.Affine.Y_eq_of_X_eq h₁.1 h₂.1 hx with hy | hy
      · left; simp [hx, hy]
      · right; rw [WeierstrassCurve.Affine.Point.neg_some]; simp [hx, hy]

private theorem kill {c : Curve} [hp : Fact c.p.Prime] {A : (weierstrass c).Point} {n : Nat} (ho : addOrderOf A = n) (j : Nat) :
    j • A = 0 ↔ n ∣ j := by rw [← ho]; exact addOrderOf_dvd_iff_nsmul_eq_zero.symm

/-- C201 fails for the library's own scalar multiplication: with the private key 1 and the public key which `calcpub` returns for it,
`sign` returns a signature of the message 0 for every nonce in range, and `verify` rejects it (unless the order divides r, in which
case s = 0 and the signature is not a signature). -/
theorem C201_sign_verify_violated (k : Int) (hk : 0 < k) (hkn : k < k256Order) :
    ∃ Y r s, secp256k1.calcpub 1 = .ok Y ∧ secp256k1.sign 0 1 k = .ok (r, s) ∧
      (¬ (k256Order : Int) ∣ r → s ≠ 0 ∧ secp256k1.verify 0 Y r s = .ok false) := by
  have := Fact.mk k256_prime
  have := Fact.mk k256Order_prime
  have := NeZero.mk k256Order_prime.ne_zero
  have hN : (k256Order : Int) ≤ 2 ^ 1000 := by
    have h1 : (k256Order : Int) ≤ 2 ^ 256 := by decide +kernel
    exact h1.trans (pow_le_pow_right₀ (by norm_num) (by norm_num))
  have hE : secp256k1.n = some (k256Order : Int) := by decide +kernel
  obtain ⟨A, hA, hord⟩ := k256_order
  obtain ⟨Y, hY1, hY2⟩ := denotes_mul (n := 1) k256_proper (by rw [abs_one]; exact one_le_pow₀ (by norm_num)) hA
  have hkr : |k| ≤ 2 ^ 1000 := by rw [abs_of_pos hk]; exact hkn.le.trans hN
  obtain ⟨R, hR1, hR2⟩ := denotes_mul k256_proper hkr hA
  have hsig : ∃ s, secp256k1.sign 0 1 k = .ok (R.x, s) := by
    rw [ECDSA.sign, ECDSA.signWith]
    simp only [ECDSA.modN, hE, bind, Except.bind, pure, Except.pure]
    rw [show mul secp256k1.ec secp256k1.G k = .ok R from hR1]
    exact ⟨_, rfl⟩
  obtain ⟨s, hs⟩ := hsig
  refine ⟨Y, R.x, s, hY1, hs, fun hnr => ?_⟩
  have hkd : ¬ (k256Order : Int) ∣ k := fun hd => absurd (Int.le_of_dvd hk hd) (not_le.2 hkn)
  obtain ⟨-, hsk, hs0, hsn⟩ := sign_eq hE hk hkd hs
  push_cast at hsk
  rw [zero_add, one_mul] at hsk
  have hrz : (R.x : ZMod k256Order) ≠ 0 := by rw [ne_eq, cast_eq_zero]; exact hnr
  have hsz : (s : ZMod k256Order) ≠ 0 := by
    intro h; rw [h, zero_mul] at hsk; exact hrz hsk.symm
  have hspos : 0 < s := pos_of_cast_ne_zero hs0 hsz
  refine ⟨hspos.ne', ?_⟩
  have hu : fDiv k256Order 0 s = 0 := by rw [fDiv, zero_mul, Int.zero_fmod]
  have hv : fDiv k256Order R.x s = k := by
    have h1 : ((fDiv k256Order R.x s : Int) : ZMod k256Order) = k := by
      rw [cast_fDiv _ hspos hsz, ← hsk, mul_comm, mul_div_assoc, div_self hsz, mul_one]
    have h2 := (ZMod.intCast_eq_intCast_iff _ _ _).1 h1
    have h3 : 0 ≤ fDiv k256Order R.x s ∧ fDiv k256Order R.x s < k256Order := fmod_range (p := k256Order) _
    rw [Int.ModEq, Int.emod_eq_of_lt h3.1 h3.2, Int.emod_eq_of_lt hk.le hkn] at h2
    exact h2
  obtain ⟨B, hB1, hB2⟩ := denotes_mul k256_proper hkr hY2
  have hres : secp256k1.verify 0 Y R.x s = .ok (fEq secp256k1.ec.p B.x R.x) := by
    rw [ECDSA.verify, ECDSA.verifyWith]
    simp only [ECDSA.modN, hE, bind, Except.bind, pure, Except.pure, hu, hv]
    rw [show mul secp256k1.ec Y k = .ok B from hB1]
    rfl
  rw [hres]
  congr 1
  rw [fEq_false_iff]
  intro hx
  have hRn : mulCoeff k • A ≠ 0 := by
    intro h
    rw [h] at hR2
    apply hnr
    rw [show R = ⟨0, 0⟩ from hR2]
    exact dvd_zero _
  have hc1 : ¬ k256Order ∣ 2 ^ 1075 - 1 ∧ ¬ k256Order ∣ 2 ^ 1075 - 2 ∧ ¬ k256Order ∣ 2 ^ 1075 := by decide +kernel
  rw [coeff_one] at hB2
  have hBn : mulCoeff k • (2 ^ 1075 - 1) • A ≠ 0 := by
    rw [← mul_nsmul', ne_eq, kill hord, k256Order_prime.dvd_mul]
    rw [ne_eq, kill hord] at hRn
    exact fun h => h.elim hRn hc1.1
  have hsx := same_x hB2 hR2 hBn hRn hx
  rw [ne_eq, kill hord] at hRn
  clear hR1 hR2 hB1 hB2 hY1 hY2 hs hres hN hkr hBn hx
  have hpow : (2 : Nat) ≤ 2 ^ 1075 := by
    calc 2 = 2 ^ 1 := rfl
      _ ≤ 2 ^ 1075 := Nat.pow_le_pow_right (by norm_num) (by norm_num)
  generalize (2 : Nat) ^ 1075 = z at *
  obtain ⟨w, rfl⟩ := Nat.exists_eq_add_of_le hpow
  rw [show 2 + w - 1 = w + 1 by omega] at hsx
  rw [show 2 + w - 2 = w by omega] at hc1
  rcases hsx with h | h
  · have h2 : (mulCoeff k * w) • A = 0 := by
      rw [add_nsmul, one_nsmul, nsmul_add, ← mul_nsmul'] at h
      exact add_eq_right.1 h
    rw [kill hord, k256Order_prime.dvd_mul] at h2
    exact h2.elim hRn hc1.2.1
  · have h2 : (mulCoeff k * (2 + w)) • A = 0 := by
      rw [mul_nsmul', show 2 + w = w + 1 + 1 by omega, add_nsmul A (w + 1) 1, one_nsmul, nsmul_add, h, neg_add_cancel]
    rw [kill hord, k256Order_prime.dvd_mul] at h2
    exact h2.elim hRn hc1.2.2

private theorem not_both (u v : Nat) (hu : u ≤ 2) (hv : u < v) (hv2 : v ≤ 2) (P Q : Pt) (z : Nat) (hc1 : ¬ k256Order ∣ z) :
    letI := Fact.mk k256_prime
    ∀ A : (weierstrass secp256k1.ec).Point, addOrderOf A = k256Order → Denotes secp256k1.ec P ((2 ^ u * z) • A) →
      Denotes secp256k1.ec Q ((2 ^ v * z) • A) → P.x ≠ Q.x := by
  have := Fact.mk k256_prime
  intro A ho hP hQ hx
  have hsm : ∀ u ≤ 2, ∀ v ≤ 2, ¬ k256Order ∣ 2 ^ u ∧ ¬ k256Order ∣ 2 ^ u + 2 ^ v ∧ (u < v → ¬ k256Order ∣ 2 ^ v - 2 ^ u) := by decide +kernel
  have hn : ∀ u ≤ 2, (2 ^ u * z) • A ≠ 0 := by
    intro u hu
    rw [ne_eq, kill ho, k256Order_prime.dvd_mul]
    exact fun h => h.elim (hsm u hu u hu).1 hc1
  rcases same_x hP hQ (hn u hu) (hn v hv2) (by rw [hx]) with h | h
  · have h2 : ((2 ^ v - 2 ^ u) * z) • A = 0 := by
      have hle : 2 ^ u * z ≤ 2 ^ v * z := Nat.mul_le_mul_right _ (Nat.pow_le_pow_right (by norm_num) hv.le)
      rw [Nat.sub_mul, sub_nsmul _ hle, h, add_neg_cancel]
    rw [kill ho, k256Order_prime.dvd_mul] at h2
    exact h2.elim ((hsm u hu v hv2).2.2 hv) hc1
  · have h2 : ((2 ^ u + 2 ^ v) * z) • A = 0 := by rw [Nat.add_mul, add_nsmul, h, neg_add_cancel]
    rw [kill ho, k256Order_prime.dvd_mul] at h2
    exact h2.elim (hsm u hu v hv2).2.1 hc1

/-- C201 fails, without hypothesis: some signature that `sign` returns on secp256k1, with s ≠ 0, is rejected by `verify`. -/
theorem C201_rejected_violated : ∃ (Y : Pt) (k r s : Int), 0 < k ∧ k < k256Order ∧ secp256k1.calcpub 1 = .ok Y ∧
    secp256k1.sign 0 1 k = .ok (r, s) ∧ s ≠ 0 ∧ secp256k1.verify 0 Y r s = .ok false := by
  have := Fact.mk k256_prime
  have : NeZero secp256k1.ec.p := ⟨k256_prime.ne_zero⟩
  by_contra hno
  have hdiv : ∀ k : Int, 0 < k → k < k256Order → ∃ R, mul secp256k1.ec secp256k1.G k = .ok R ∧ (k256Order : Int) ∣ R.x := by
    intro k hk hkn
    obtain ⟨Y, r, s, h1, h2, h3⟩ := C201_sign_verify_violated k hk hkn
    obtain ⟨⟨R, hR, hRx⟩, -⟩ := @sign_eq secp256k1 k256Order ⟨k256Order_prime⟩ (by decide +kernel) _ _ _ _ _ _ hk
      (fun hd => absurd (Int.le_of_dvd hk hd) (not_le.2 hkn)) h2
    refine ⟨R, hR, ?_⟩
    by_contra hnd
    rw [hRx] at hnd
    exact hno ⟨Y, k, r, s, hk, hkn, h1, h2, h3 hnd⟩
  obtain ⟨A, hA, hord⟩ := k256_order
  have hbig : (4 : Int) < k256Order ∧ (secp256k1.ec.p : Int) < 2 * k256Order := by decide +kernel
  have hG : Reduced secp256k1.ec secp256k1.G := by unfold Reduced; decide +kernel
  obtain ⟨z, c1, c2, c4, hz⟩ : ∃ z, mulCoeff 1 = 2 ^ 0 * z ∧ mulCoeff 2 = 2 ^ 1 * z ∧ mulCoeff 4 = 2 ^ 2 * z ∧ ¬ k256Order ∣ z := by
    refine ⟨2 ^ 1075 - 1, ?_, ?_, coeff_four, by decide +kernel⟩
    · rw [coeff_one, pow_zero, one_mul]
    · rw [coeff_two, pow_one]
  have key : ∀ (k : Int) (u : Nat), 0 < k → k ≤ 4 → mulCoeff k = 2 ^ u * z →
      ∃ R, Denotes secp256k1.ec R ((2 ^ u * z) • A) ∧ (R.x = 0 ∨ R.x = k256Order) := by
    intro k u hk hk4 hc
    obtain ⟨R, hR, hd⟩ := hdiv k hk (by omega)
    obtain ⟨R', hR', hden⟩ := denotes_mul k256_proper (n := k) (by
      rw [abs_of_pos hk]
      exact hk4.trans ((show (4 : Int) = 2 ^ 2 by norm_num).le.trans (pow_le_pow_right₀ (by norm_num) (by norm_num)))) hA
    obtain rfl : R' = R := Except.ok.inj (hR'.symm.trans hR)
    have hred := mul_reduced hG hR'
    refine ⟨R', hc ▸ hden, ?_⟩
    obtain ⟨q, hq⟩ := hd
    have h1 := hred.1
    have h2 := hred.2.1
    have h3 := hbig.2
    have h4 := hbig.1
    clear hbig hden hc
    rw [hq] at h1 h2 ⊢
    generalize (k256Order : Int) = N at *
    have hq0 : 0 ≤ q := by
      by_contra h; rw [not_le] at h; nlinarith
    have hq2 : q < 2 := by
      by_contra h; rw [not_lt] at h; nlinarith
    have : q = 0 ∨ q = 1 := by omega
    rcases this with rfl | rfl
    · left; ring
    · right; ring
  obtain ⟨R1, d1, x1⟩ := key 1 0 (by norm_num) (by norm_num) c1
  obtain ⟨R2, d2, x2⟩ := key 2 1 (by norm_num) (by norm_num) c2
  obtain ⟨R4, d4, x4⟩ := key 4 2 (by norm_num) (by norm_num) c4
  have n12 := not_both 0 1 (by omega) (by omega) (by omega) R1 R2 z hz A hord d1 d2
  have n14 := not_both 0 2 (by omega) (by omega) (by omega) R1 R4 z hz A hord d1 d4
  have n24 := not_both 1 2 (by omega) (by omega) (by omega) R2 R4 z hz A hord d2 d4
  clear d1 d2 d4 key
  rcases x1 with x1 | x1 <;> rcases x2 with x2 | x2 <;> rcases x4 with x4 | x4 <;>
    first | exact n12 (x1.trans x2.symm) | exact n14 (x1.trans x4.symm) | exact n24 (x2.trans x4.symm)

end Neo.Props
