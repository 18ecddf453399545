import Verif.Model.Bitcoin
import Verif.Proofs.ECGroup
import Verif.Spec.Wallet
import Verif.Proofs.P256NoTorsion
import Verif.Proofs.ECEncode
import Verif.Proofs.Base58

/-! The `bitcoin` package computes multiples of points. -/

namespace Neo.Bitcoin
open Py Neo.EC Spec Spec.EC WeierstrassCurve WeierstrassCurve.Affine

/-! ### `inv` -/

theorem invLoop_spec (n a : ℤ) : ∀ (k : Nat) (lm hm low high : Int), low.toNat ≤ k → 0 ≤ low → 0 ≤ high →
    n ∣ lm * a - low → n ∣ hm * a - high →
    n ∣ (invLoop lm hm low high).1 * a - (invLoop lm hm low high).2 ∧ (0 ≤ (invLoop lm hm low high).2 ∧ (invLoop lm hm low high).2 ≤ 1) ∧
      (IsCoprime low high → 0 < low → (invLoop lm hm low high).2 = 1) := by
  intro k
  induction k with
  | zero =>
    intro lm hm low high hk h0 h1 d1 d2
    rw [invLoop, dif_neg (by omega)]
    exact ⟨d1, ⟨h0, by show low ≤ 1; omega⟩, fun _ h => by show low = 1; omega⟩
  | succ k ih =>
    intro lm hm low high hk h0 h1 d1 d2
    rw [invLoop]
    by_cases hl : 1 < low
    · rw [dif_pos hl]
      simp only
      have he : high - low * (high / low) = high % low := by rw [Int.emod_def]
      have h2 := Int.emod_lt_of_pos high (show 0 < low by omega)
      have h3 := Int.emod_nonneg high (show low ≠ 0 by omega)
      rw [he]
      have hd : n ∣ (hm - lm * (high / low)) * a - high % low := by
        rw [← he]
        have : (hm - lm * (high / low)) * a - (high - low * (high / low)) = (hm * a - high) - (high / low) * (lm * a - low) := by ring
        rw [this]
        exact dvd_sub d2 (Dvd.dvd.mul_left d1 _)
      obtain ⟨i1, i2, i3⟩ := ih (hm - lm * (high / low)) lm (high % low) low (by omega) h3 h0 hd d1
      refine ⟨i1, i2, ?_⟩
      intro hc _
      have hc' : IsCoprime (high % low) low := by
        rw [← he]
        have := hc.symm.add_mul_left_left (-(high / low))
        rwa [show high + low * -(high / low) = high - low * (high / low) by ring] at this
      refine i3 hc' ?_
      by_contra hz
      have hz : high % low = 0 := by omega
      rw [hz, isCoprime_zero_left, Int.isUnit_iff] at hc'
      omega
    · rw [dif_neg hl]
      exact ⟨d1, ⟨h0, by show low ≤ 1; omega⟩, fun _ h => by show low = 1; omega⟩

theorem inv_spec {p : Nat} [hp : Fact p.Prime] (a : Int) (ha : (a : ZMod p) ≠ 0) : ((inv a p : Int) : ZMod p) = (a : ZMod p)⁻¹ := by
  have hp1 := hp.out.one_lt
  have ha0 : a ≠ 0 := by rintro rfl; simp at ha
  have hnd : ¬ (p : Int) ∣ a := by rwa [← ZMod.intCast_zmod_eq_zero_iff_dvd]
  rw [inv, if_neg ha0]
  have hc : IsCoprime (a % (p : Int)) p := by
    rw [isCoprime_comm, Prime.coprime_iff_not_dvd (Nat.prime_iff_prime_int.1 hp.out)]
    intro hh
    have := Int.emod_eq_zero_of_dvd hh
    rw [Int.emod_emod_of_dvd _ dvd_rfl] at this
    exact hnd (Int.dvd_of_emod_eq_zero this)
  have hpos : 0 < a % (p : Int) := by
    have := Int.emod_nonneg a (show (p : Int) ≠ 0 by omega)
    have hne : a % (p : Int) ≠ 0 := fun h => hnd (Int.dvd_of_emod_eq_zero h)
    omega
  obtain ⟨h1, _, h3⟩ := invLoop_spec p a _ 1 0 (a % p) p le_rfl hpos.le (by omega)
    (by rw [one_mul]; exact Int.dvd_self_sub_emod) (by simp)
  rw [h3 hc hpos, ← ZMod.intCast_zmod_eq_zero_iff_dvd] at h1
  push_cast at h1
  rw [ZMod.intCast_mod]
  exact eq_inv_of_mul_eq_one_left (sub_eq_zero.1 h1)

theorem inv_zero (n : Int) : inv 0 n = 0 := by rw [inv, if_pos rfl]

theorem cast_emod {p : Nat} (v : Int) : ((v % (p : Int) : Int) : ZMod p) = v := ZMod.intCast_mod v p

/-! ### Jacobian coordinates -/

/-- The parameters of the `bitcoin` package and a neocore curve are the same curve. -/
structure Matches (b : BtcCurve) (c : Curve) : Prop where
  p : b.p = c.p
  a : (b.a : Int) = c.a

variable {b : BtcCurve} {c : Curve} [hp : Fact c.p.Prime]

/-- Jacobian coordinates stand for a point: y = 0 (and x = 0) is used for the point at infinity. -/
def JDenotes (c : Curve) [Fact c.p.Prime] (J : Jac) (A : (weierstrass c).Point) : Prop :=
  (J.y = 0 ∧ J.x = 0 ∧ A = 0) ∨
  (J.y ≠ 0 ∧ (J.y : ZMod c.p) ≠ 0 ∧ (J.z : ZMod c.p) ≠ 0 ∧
    ∃ x y h, A = .some x y h ∧ (J.x : ZMod c.p) = x * J.z ^ 2 ∧ (J.y : ZMod c.p) = y * J.z ^ 3)

theorem jdenotes_finite {X Y Z : Int} {x y : ZMod c.p} {h : (weierstrass c).Nonsingular x y} (hY : (Y : ZMod c.p) ≠ 0)
    (hZ : (Z : ZMod c.p) ≠ 0) (hx : (X : ZMod c.p) = x * Z ^ 2) (hy : (Y : ZMod c.p) = y * Z ^ 3) :
    JDenotes c ⟨X, Y, Z⟩ (.some x y h) :=
  .inr ⟨by rintro rfl; simp at hY, hY, hZ, x, y, h, rfl, hx, hy⟩

/-- No point of the curve has y = 0. -/
def NoTwoTorsion (c : Curve) : Prop := ∀ x y : ZMod c.p, (weierstrass c).Equation x y → y ≠ 0

theorem negY_eq (x y : ZMod c.p) : (weierstrass c).negY x y = -y := by simp [Affine.negY, weierstrass]

theorem double_denotes (hm : Matches b c) (h : Proper c) (ht : NoTwoTorsion c) {J : Jac} {A : (weierstrass c).Point}
    (hJ : JDenotes c J A) : JDenotes c (jacobianDouble b J) (A + A) := by
  rcases hJ with ⟨hy, hx, rfl⟩ | ⟨hy, hy', hz', x, y, hn, rfl, hx, hyy⟩
  · rw [jacobianDouble, if_pos hy, add_zero]
    exact .inl ⟨rfl, rfl, rfl⟩
  · rw [jacobianDouble, if_neg hy]
    simp only [hm.p]
    have hy0 : y ≠ 0 := ht x y hn.1
    have h2 := two_ne h
    have hne : y ≠ (weierstrass c).negY x y := by
      rw [negY_eq]
      intro hh
      have : (2 : ZMod c.p) * y = 0 := by linear_combination hh
      rcases mul_eq_zero.mp this with h3 | h3
      · exact h2 h3
      · exact hy0 h3
    rw [Point.add_some (fun hh => hne hh.2)]
    have ha : ((b.a : Int) : ZMod c.p) = c.a := by rw [hm.a]
    have hsl : (weierstrass c).slope x x y y = (3 * x ^ 2 + c.a) / (2 * y) := by
      rw [Affine.slope_of_Y_ne rfl hne, negY_eq]
      simp only [weierstrass]
      congr 1 <;> ring
    have hZ : ((2 * J.y * J.z % (c.p : Int) : Int) : ZMod c.p) = 2 * J.y * J.z := by rw [cast_emod]; push_cast; rfl
    have hX : (((((3 * J.x ^ 2 + b.a * J.z ^ 4) % (c.p : Int)) ^ 2 - 2 * (4 * J.x * (J.y ^ 2 % (c.p : Int)) % (c.p : Int))) % (c.p : Int) : Int) :
        ZMod c.p) = (weierstrass c).addX x x ((weierstrass c).slope x x y y) * (2 * J.y * J.z) ^ 2 := by
      rw [cast_emod]
      push_cast
      rw [hsl]
      simp only [Affine.addX, weierstrass]
      have ha' : ((b.a : ℕ) : ZMod c.p) = c.a := by exact_mod_cast ha
      rw [ha', hx, hyy]
      field_simp
      ring
    have hY : (((((3 * J.x ^ 2 + b.a * J.z ^ 4) % (c.p : Int)) * ((4 * J.x * (J.y ^ 2 % (c.p : Int)) % (c.p : Int)) -
        (((3 * J.x ^ 2 + b.a * J.z ^ 4) % (c.p : Int)) ^ 2 - 2 * (4 * J.x * (J.y ^ 2 % (c.p : Int)) % (c.p : Int))) % (c.p : Int)) -
        8 * (J.y ^ 2 % (c.p : Int)) ^ 2) % (c.p : Int) : Int) :
        ZMod c.p) = (weierstrass c).addY x x y ((weierstrass c).slope x x y y) * (2 * J.y * J.z) ^ 3 := by
      rw [cast_emod]
      rw [Int.cast_sub, Int.cast_mul, Int.cast_sub, hX]
      push_cast
      rw [hsl]
      simp only [Affine.addY, Affine.negAddY, Affine.negY, Affine.addX, weierstrass]
      have ha' : ((b.a : ℕ) : ZMod c.p) = c.a := by exact_mod_cast ha
      rw [ha', hx, hyy]
      field_simp
      ring
    refine jdenotes_finite ?_ ?_ ?_ ?_
    · rw [hY]
      refine mul_ne_zero ?_ (pow_ne_zero _ (mul_ne_zero (mul_ne_zero h2 hy') hz'))
      exact ht _ _ (Affine.nonsingular_add hn hn (fun hh => hne hh.2)).1
    · rw [hZ]; exact mul_ne_zero (mul_ne_zero h2 hy') hz'
    · rw [hX, hZ]
    · rw [hY, hZ]

theorem emod_eq_iff (u v : Int) : u % (c.p : Int) = v % (c.p : Int) ↔ (u : ZMod c.p) = v := by
  rw [ZMod.intCast_eq_intCast_iff']

theorem add_denotes (hm : Matches b c) (h : Proper c) (ht : NoTwoTorsion c) {J K : Jac} {A B : (weierstrass c).Point}
    (hJ : JDenotes c J A) (hK : JDenotes c K B) : JDenotes c (jacobianAdd b J K) (A + B) := by
  rcases hJ with ⟨hy, hx, rfl⟩ | ⟨hy, hy', hz', x, y, hn, rfl, hx, hyy⟩
  · rw [jacobianAdd, if_pos hy, zero_add]
    exact hK
  have hJ : JDenotes c J (.some x y hn) := .inr ⟨hy, hy', hz', x, y, hn, rfl, hx, hyy⟩
  rcases hK with ⟨ky, kx, rfl⟩ | ⟨ky, ky', kz', u, v, kn, rfl, kx, kyy⟩
  · rw [jacobianAdd, if_neg hy, if_pos ky, add_zero]
    exact hJ
  rw [jacobianAdd, if_neg hy, if_neg ky]
  simp only [hm.p]
  by_cases hU : J.x * K.z ^ 2 % (c.p : Int) = K.x * J.z ^ 2 % (c.p : Int)
  · rw [if_pos hU]
    rw [emod_eq_iff] at hU
    push_cast at hU
    have hxu : x = u := by
      rw [hx, kx] at hU
      have : (x - u) * ((J.z : ZMod c.p) ^ 2 * K.z ^ 2) = 0 := by linear_combination hU
      rcases mul_eq_zero.1 this with h1 | h1
      · exact sub_eq_zero.1 h1
      · exact absurd h1 (mul_ne_zero (pow_ne_zero _ hz') (pow_ne_zero _ kz'))
    by_cases hS : J.y * K.z ^ 3 % (c.p : Int) ≠ K.y * J.z ^ 3 % (c.p : Int)
    · rw [if_pos hS]
      rw [ne_eq, emod_eq_iff] at hS
      push_cast at hS
      have hyv : y ≠ v := by
        rintro rfl
        apply hS
        rw [hyy, kyy]
        ring
      have hneg : y = (weierstrass c).negY u v := (Affine.Y_eq_of_X_eq hn.1 kn.1 hxu).resolve_left hyv
      rw [Point.add_of_Y_eq hxu hneg]
      exact .inl ⟨rfl, rfl, rfl⟩
    · rw [if_neg hS]
      rw [not_not, emod_eq_iff] at hS
      push_cast at hS
      have hyv : y = v := by
        rw [hyy, kyy] at hS
        have : (y - v) * ((J.z : ZMod c.p) ^ 3 * K.z ^ 3) = 0 := by linear_combination hS
        rcases mul_eq_zero.1 this with h1 | h1
        · exact sub_eq_zero.1 h1
        · exact absurd h1 (mul_ne_zero (pow_ne_zero _ hz') (pow_ne_zero _ kz'))
      subst hxu hyv
      exact double_denotes hm h ht hJ
  · rw [if_neg hU]
    rw [emod_eq_iff] at hU
    push_cast at hU
    have hxu : x ≠ u := by
      rintro rfl
      apply hU
      rw [hx, kx]
      ring
    rw [Point.add_some (fun hh => hxu hh.1)]
    have hsl : (weierstrass c).slope x u y v = (y - v) / (x - u) := Affine.slope_of_X_ne hxu
    have hxu' : x - u ≠ 0 := sub_ne_zero.2 hxu
    set z : ZMod c.p := (J.z : ZMod c.p) with hz
    set t : ZMod c.p := (K.z : ZMod c.p) with ht'
    have hZ : (((K.x * J.z ^ 2 % (c.p : Int) - J.x * K.z ^ 2 % (c.p : Int)) * J.z * K.z % (c.p : Int) : Int) : ZMod c.p) =
        (u - x) * (z ^ 3 * t ^ 3) := by
      push_cast
      rw [hx, kx]
      ring
    have hX : ((((K.y * J.z ^ 3 % (c.p : Int) - J.y * K.z ^ 3 % (c.p : Int)) ^ 2 -
        (K.x * J.z ^ 2 % (c.p : Int) - J.x * K.z ^ 2 % (c.p : Int)) * ((K.x * J.z ^ 2 % (c.p : Int) - J.x * K.z ^ 2 % (c.p : Int)) *
          (K.x * J.z ^ 2 % (c.p : Int) - J.x * K.z ^ 2 % (c.p : Int)) % (c.p : Int)) % (c.p : Int) -
        2 * ((J.x * K.z ^ 2 % (c.p : Int)) * ((K.x * J.z ^ 2 % (c.p : Int) - J.x * K.z ^ 2 % (c.p : Int)) *
          (K.x * J.z ^ 2 % (c.p : Int) - J.x * K.z ^ 2 % (c.p : Int)) % (c.p : Int)) % (c.p : Int))) % (c.p : Int) : Int) : ZMod c.p) =
        (weierstrass c).addX x u ((weierstrass c).slope x u y v) * ((u - x) * (z ^ 3 * t ^ 3)) ^ 2 := by
      push_cast
      rw [hsl]
      simp only [Affine.addX, weierstrass]
      rw [hx, kx, hyy, kyy]
      field_simp
      ring
    have hY : ((((K.y * J.z ^ 3 % (c.p : Int) - J.y * K.z ^ 3 % (c.p : Int)) *
        ((J.x * K.z ^ 2 % (c.p : Int)) * ((K.x * J.z ^ 2 % (c.p : Int) - J.x * K.z ^ 2 % (c.p : Int)) *
          (K.x * J.z ^ 2 % (c.p : Int) - J.x * K.z ^ 2 % (c.p : Int)) % (c.p : Int)) % (c.p : Int) -
        ((K.y * J.z ^ 3 % (c.p : Int) - J.y * K.z ^ 3 % (c.p : Int)) ^ 2 -
        (K.x * J.z ^ 2 % (c.p : Int) - J.x * K.z ^ 2 % (c.p : Int)) * ((K.x * J.z ^ 2 % (c.p : Int) - J.x * K.z ^ 2 % (c.p : Int)) *
          (K.x * J.z ^ 2 % (c.p : Int) - J.x * K.z ^ 2 % (c.p : Int)) % (c.p : Int)) % (c.p : Int) -
        2 * ((J.x * K.z ^ 2 % (c.p : Int)) * ((K.x * J.z ^ 2 % (c.p : Int) - J.x * K.z ^ 2 % (c.p : Int)) *
          (K.x * J.z ^ 2 % (c.p : Int) - J.x * K.z ^ 2 % (c.p : Int)) % (c.p : Int)) % (c.p : Int))) % (c.p : Int)) -
        (J.y * K.z ^ 3 % (c.p : Int)) * ((K.x * J.z ^ 2 % (c.p : Int) - J.x * K.z ^ 2 % (c.p : Int)) *
          ((K.x * J.z ^ 2 % (c.p : Int) - J.x * K.z ^ 2 % (c.p : Int)) *
          (K.x * J.z ^ 2 % (c.p : Int) - J.x * K.z ^ 2 % (c.p : Int)) % (c.p : Int)) % (c.p : Int))) % (c.p : Int) : Int) : ZMod c.p) =
        (weierstrass c).addY x u y ((weierstrass c).slope x u y v) * ((u - x) * (z ^ 3 * t ^ 3)) ^ 3 := by
      push_cast
      rw [hsl]
      simp only [Affine.addY, Affine.negAddY, Affine.negY, Affine.addX, weierstrass]
      rw [hx, kx, hyy, kyy]
      field_simp
      ring
    have hzz : (u - x) * (z ^ 3 * t ^ 3) ≠ 0 := mul_ne_zero (sub_ne_zero.2 (Ne.symm hxu))
      (mul_ne_zero (pow_ne_zero _ hz') (pow_ne_zero _ kz'))
    refine jdenotes_finite ?_ ?_ ?_ ?_
    · rw [hY]
      refine mul_ne_zero ?_ (pow_ne_zero _ hzz)
      exact ht _ _ (Affine.nonsingular_add hn kn (fun hh => hxu hh.1)).1
    · rw [hZ]; exact hzz
    · rw [hX, hZ]
    · rw [hY, hZ]

theorem multiplyNat_denotes (hm : Matches b c) (h : Proper c) (ht : NoTwoTorsion c) {J : Jac} {A : (weierstrass c).Point}
    (hJ : JDenotes c J A) (n : Nat) : JDenotes c (jacobianMultiplyNat b J n) (n • A) := by
  induction n using Nat.strong_induction_on with
  | _ n ih =>
    rw [jacobianMultiplyNat]
    by_cases h0 : J.y = 0 ∨ n = 0
    · rw [if_pos h0]
      refine .inl ⟨rfl, rfl, ?_⟩
      rcases h0 with h0 | h0
      · rcases hJ with ⟨_, _, rfl⟩ | ⟨hy, _⟩
        · exact nsmul_zero n
        · exact absurd h0 hy
      · rw [h0, zero_nsmul]
    · rw [if_neg h0]
      push Not at h0
      by_cases h1 : n ≤ 1
      · rw [dif_pos h1, show n = 1 by omega, one_nsmul]
        exact hJ
      · rw [dif_neg h1]
        have hd := double_denotes hm h ht (ih (n / 2) (by omega))
        rw [← add_nsmul] at hd
        by_cases h2 : n % 2 = 0
        · rw [if_pos h2]
          rwa [show n / 2 + n / 2 = n by omega] at hd
        · rw [if_neg h2]
          have ha := add_denotes hm h ht hd hJ
          rwa [← succ_nsmul, show n / 2 + n / 2 + 1 = n by omega] at ha

theorem multiply_denotes (hm : Matches b c) (h : Proper c) (ht : NoTwoTorsion c) {J : Jac} {A : (weierstrass c).Point}
    (hJ : JDenotes c J A) (hn : 0 < b.n) (hA : b.n • A = 0) (k : Int) : JDenotes c (jacobianMultiply b J k) (k • A) := by
  rw [jacobianMultiply]
  by_cases h0 : J.y = 0 ∨ k = 0
  · rw [if_pos h0]
    refine .inl ⟨rfl, rfl, ?_⟩
    rcases h0 with h0 | h0
    · rcases hJ with ⟨_, _, rfl⟩ | ⟨hy, _⟩
      · exact zsmul_zero k
      · exact absurd h0 hy
    · rw [h0, zero_zsmul]
  rw [if_neg h0]
  by_cases h1 : k = 1
  · rw [if_pos h1, h1, one_zsmul]
    exact hJ
  rw [if_neg h1]
  by_cases h2 : k < 0 ∨ k ≥ b.n
  · rw [if_pos h2]
    have key := multiplyNat_denotes hm h ht hJ (k % b.n).toNat
    have hnn := Int.emod_nonneg k (show (b.n : Int) ≠ 0 by omega)
    rw [← natCast_zsmul, Int.toNat_of_nonneg hnn] at key
    have : k • A = (k % b.n) • A := by
      conv_lhs => rw [← Int.emod_add_mul_ediv k b.n]
      rw [add_zsmul, mul_comm, mul_zsmul, natCast_zsmul, hA, zsmul_zero, add_zero]
    rw [this]
    exact key
  · rw [if_neg h2]
    have key := multiplyNat_denotes hm h ht hJ k.toNat
    rwa [← natCast_zsmul, Int.toNat_of_nonneg (by omega)] at key

theorem fromJacobian_denotes (hm : Matches b c) {J : Jac} {A : (weierstrass c).Point} (hJ : JDenotes c J A) :
    Denotes c (fromJacobian b J) A ∧ Reduced c (fromJacobian b J) := by
  have hpos : (0 : Int) < c.p := by exact_mod_cast hp.out.pos
  constructor
  · rw [fromJacobian]
    simp only [hm.p]
    rcases hJ with ⟨hy, hx, rfl⟩ | ⟨hy, hy', hz', x, y, hn, rfl, hx, hyy⟩
    · show (⟨_, _⟩ : Pt) = ⟨0, 0⟩
      rw [hx, hy]
      simp
    · refine ⟨?_, ?_⟩
      · push_cast
        rw [inv_spec _ hz', hx]
        field_simp
      · push_cast
        rw [inv_spec _ hz', hyy]
        field_simp
  · rw [fromJacobian]
    simp only [hm.p]
    exact ⟨Int.emod_nonneg _ hpos.ne', Int.emod_lt_of_pos _ hpos, Int.emod_nonneg _ hpos.ne', Int.emod_lt_of_pos _ hpos⟩

/-- `fast_multiply` computes multiples of points, for all integers. -/
theorem fastMultiply_denotes (hm : Matches b c) (h : Proper c) (ht : NoTwoTorsion c) {G : Pt} {A : (weierstrass c).Point}
    (hG : Denotes c G A) (hn : 0 < b.n) (hA : b.n • A = 0) (k : Int) :
    Denotes c (fastMultiply b G k) (k • A) ∧ Reduced c (fastMultiply b G k) := by
  rw [fastMultiply]
  refine fromJacobian_denotes hm (multiply_denotes hm h ht ?_ hn hA k)
  cases A with
  | zero =>
    rw [show G = ⟨0, 0⟩ from hG]
    exact .inl ⟨rfl, rfl, rfl⟩
  | some x y hn' =>
    obtain ⟨h1, h2⟩ := hG
    refine jdenotes_finite ?_ (by simp) (by simp [h1]) (by simp [h2])
    rw [h2]
    exact ht _ _ hn'.1

/-! ### secp256r1 -/

theorem p256_matches : Matches keyPairCurve secp256r1Curve := ⟨rfl, rfl⟩

theorem p256_noTwoTorsion : letI := Fact.mk p256_prime; NoTwoTorsion secp256r1Curve := by
  have := Fact.mk p256_prime
  rintro x y he rfl
  rw [EC.equation_iff'] at he
  obtain ⟨X, rfl⟩ := ZMod.intCast_surjective x
  refine P256.no_two_torsion X ?_
  rw [← ZMod.intCast_zmod_eq_zero_iff_dvd]
  rw [zero_pow (by norm_num)] at he
  rw [Int.cast_add, Int.cast_add, Int.cast_pow, Int.cast_mul]
  exact he.symm

theorem btcEncode_spec {v : Nat} (hv : v < 2 ^ 256) :
    (btcDecompress.btcEncode v).length = 32 ∧ beNumber (btcDecompress.btcEncode v) = v := by
  have hl : (Base58.bytesOf v).length ≤ 32 := by
    rw [Base58.bytesOf_eq, List.length_map, Nat.digits_length_le_iff (by omega)]
    exact hv.trans_eq (by decide)
  constructor
  · simp only [btcDecompress.btcEncode, List.length_reverse, List.length_append, List.length_replicate]
    omega
  · rw [beNumber_le, btcDecompress.btcEncode]
    rw [List.reverse_reverse, leToNat_append, leToNat_replicate_zero, Nat.mul_zero, Nat.add_zero, Base58.leToNat_bytesOf]

theorem intToBytes_big {v : Int} (h0 : 0 ≤ v) (h1 : v < 2 ^ 256) :
    ∃ b : Bytes, intToBytes v 32 .big false = .ok b ∧ b.length = 32 ∧ v = beNumber b := by
  obtain ⟨b, e, hl, hn⟩ := intToBytes_beNumber h0 h1
  refine ⟨b.reverse, ?_, by rw [List.length_reverse, hl], hn⟩
  rw [intToBytes] at e ⊢
  rw [if_neg (by decide)] at e ⊢
  split at e
  · cases e
  · rw [if_neg (by assumption)]
    split at e
    · rw [if_pos (by assumption)]
      cases e
      rfl
    · cases e

theorem intToBytes_big_error {v : Int} (h : v < 0 ∨ 2 ^ 256 ≤ v) : intToBytes v 32 .big false = .error .overflowError := by
  have hp256 : (256 : Int) ^ 32 = 2 ^ 256 := by norm_num
  rw [intToBytes, if_neg (by decide)]
  by_cases h0 : v < 0
  · rw [if_pos h0]
  · rw [if_neg h0, if_neg (by rw [hp256]; omega)]

end Neo.Bitcoin

namespace Neo

/-- The `bitcoin` package as modelled, with an arbitrary nonce generator and an arbitrary `ecdsa` package. -/
def pyBtc (genK : Py.Str → Nat → Nat) (verify : Py.Bytes → Py.Val → Py.Val → Except Py.Err Bool) : Btc where
  privkeyToPubkey := Bitcoin.privkeyToPubkey
  ecdsaRawSign := fun c => Bitcoin.ecdsaRawSign c genK
  verify := verify

open Spec Spec.EC Neo.EC Neo.Bitcoin in
theorem pyBtc_derives (genK verify) : DerivesPublicKeys (pyBtc genK verify) keyPairCurve := by
  have := Fact.mk p256_prime
  intro key hk
  have hn : keyPairCurve.n = p256Order := rfl
  obtain ⟨A, hA, hord⟩ := p256_order
  have hz : keyPairCurve.n • A = 0 := by rw [hn, ← hord]; exact addOrderOf_nsmul_eq_zero A
  constructor
  · intro h
    refine ⟨.exc, ?_⟩
    show Bitcoin.privkeyToPubkey keyPairCurve key = _
    rw [Bitcoin.privkeyToPubkey]
    simp only
    rw [if_pos]
    rw [hn, ← beNumber_le]
    exact h
  · intro h
    obtain ⟨h1, h2⟩ := fastMultiply_denotes p256_matches p256_proper p256_noTwoTorsion hA (by rw [hn]; exact p256Order_prime.pos) hz
      (beNumber key : Int)
    have h2' := h2
    obtain ⟨x0, x1, y0, y1⟩ := h2
    have hb : (secp256r1Curve.p : Int) < 2 ^ 256 := by decide +kernel
    obtain ⟨e1, e2⟩ := btcEncode_spec (v := (fastMultiply keyPairCurve secp256r1.G (beNumber key : Int)).x.toNat) (by omega)
    obtain ⟨e3, e4⟩ := btcEncode_spec (v := (fastMultiply keyPairCurve secp256r1.G (beNumber key : Int)).y.toNat) (by omega)
    refine ⟨_, fastMultiply keyPairCurve secp256r1.G (beNumber key : Int), ?_, ⟨_, _, rfl, e1, e3, ?_, ?_⟩, h2', ?_⟩
    · show Bitcoin.privkeyToPubkey keyPairCurve key = _
      rw [Bitcoin.privkeyToPubkey]
      simp only
      rw [if_neg (by rw [hn, ← beNumber_le]; omega), ← beNumber_le]
      rfl
    · rw [e2, Int.toNat_of_nonneg x0]
    · rw [e4, Int.toNat_of_nonneg y0]
    · intro G hG
      have : G = A := (denotes_same p256_proper hG hA).1 ⟨by simp, by simp⟩
      rw [this, ← natCast_zsmul]
      exact h1

end Neo
