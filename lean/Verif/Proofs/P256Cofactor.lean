import Verif.Proofs.Bitcoin
import Mathlib.GroupTheory.Perm.Cycle.Type
import Mathlib.Data.Fintype.Option

/-! Every point of secp256r1 is a multiple of the base point (the cofactor is one). -/

namespace Neo.EC
open Spec.EC WeierstrassCurve WeierstrassCurve.Affine Neo.Bitcoin

variable {c : Curve} [hp : Fact c.p.Prime]

/-- x and the parity of y, for counting. -/
def pointCode (c : Curve) [Fact c.p.Prime] : (weierstrass c).Point → Option (ZMod c.p × Bool)
  | .zero => none
  | .some x y _ => some (x, decide (y.val % 2 = 0))

theorem pointCode_injective (h : Proper c) : Function.Injective (pointCode c) := by
  have := NeZero.mk hp.out.ne_zero
  intro A B hAB
  cases A with
  | zero => cases B with
    | zero => rfl
    | some x y hn => cases hAB
  | some x y hn => cases B with
    | zero => cases hAB
    | some u v kn =>
      simp only [pointCode, Option.some.injEq, Prod.mk.injEq, decide_eq_decide] at hAB
      obtain ⟨rfl, hpar⟩ := hAB
      rcases Affine.Y_eq_of_X_eq hn.1 kn.1 rfl with h1 | h1
      · subst h1; rfl
      · rw [negY_eq] at h1
        by_cases hv : v = 0
        · subst hv
          rw [neg_zero] at h1
          subst h1; rfl
        · exfalso
          have hval : y.val = c.p - v.val := by
            rw [h1, ZMod.neg_val, if_neg hv]
          have hodd : c.p % 2 = 1 := by
            rcases hp.out.eq_two_or_odd with h2 | h2
            · exact absurd h2 h.odd
            · exact h2
          have := ZMod.val_lt v
          omega

instance : Finite (weierstrass c).Point := by
  classical
  have := NeZero.mk hp.out.ne_zero
  let f : (weierstrass c).Point → Option (ZMod c.p × ZMod c.p) := fun
    | .zero => none
    | .some x y _ => some (x, y)
  refine Finite.of_injective f ?_
  intro A B hAB
  cases A <;> cases B <;> simp_all [f]

theorem card_le (h : Proper c) : Nat.card (weierstrass c).Point ≤ 2 * c.p + 1 := by
  have := NeZero.mk hp.out.ne_zero
  have := Nat.card_le_card_of_injective (pointCode c) (pointCode_injective h)
  refine this.trans_eq ?_
  rw [Nat.card_eq_fintype_card, Fintype.card_option, Fintype.card_prod, ZMod.card, Fintype.card_bool]
  omega

/-- A curve without points of order 2, with a point of odd prime order n, 2p + 1 < 3n, consists of the multiples of that point. -/
theorem multiples_of_base (h : Proper c) (ht : NoTwoTorsion c) {n : Nat} (hn : n.Prime) (hb : 2 * c.p + 1 < 3 * n)
    {G : (weierstrass c).Point} (hG : addOrderOf G = n) :
    Nat.card (weierstrass c).Point = n ∧ ∀ A : (weierstrass c).Point, ∃ k, k < n ∧ k • G = A := by
  have hcard : Nat.card (weierstrass c).Point = n := by
    have hd : n ∣ Nat.card (weierstrass c).Point := by rw [← hG]; exact addOrderOf_dvd_natCard G
    obtain ⟨m, hm⟩ := hd
    have hle := card_le h
    have hpos : 0 < Nat.card (weierstrass c).Point := Nat.card_pos
    have hm3 : m < 3 := by
      by_contra hc
      have : n * 3 ≤ n * m := Nat.mul_le_mul_left n (by omega)
      omega
    have hm0 : m ≠ 0 := by rintro rfl; omega
    have hm2 : m ≠ 2 := by
      rintro rfl
      obtain ⟨T, hT⟩ := exists_prime_addOrderOf_dvd_card' (G := (weierstrass c).Point) 2 (by rw [hm]; exact Dvd.intro_left n rfl)
      have h2T : T + T = 0 := by rw [← two_nsmul, ← hT]; exact addOrderOf_nsmul_eq_zero T
      cases T with
      | zero =>
        have : addOrderOf (0 : (weierstrass c).Point) = 2 := hT
        rw [addOrderOf_zero] at this
        omega
      | some x y hn' =>
        have hneg : Point.some x y hn' = -Point.some x y hn' := eq_neg_of_add_eq_zero_left h2T
        rw [Point.neg_some] at hneg
        simp only [Point.some.injEq, true_and] at hneg
        rw [negY_eq] at hneg
        have h2 : (2 : ZMod c.p) * y = 0 := by linear_combination hneg
        rcases mul_eq_zero.1 h2 with h3 | h3
        · exact two_ne h h3
        · exact ht x y hn'.1 h3
    have : m = 1 := by omega
    rw [hm, this, mul_one]
  refine ⟨hcard, ?_⟩
  intro A
  have hz : AddSubgroup.zmultiples G = ⊤ := by
    apply AddSubgroup.eq_top_of_card_eq
    rw [Nat.card_zmultiples, hG, hcard]
  have hA : A ∈ AddSubgroup.zmultiples G := by rw [hz]; trivial
  obtain ⟨k, hk⟩ := AddSubgroup.mem_zmultiples_iff.1 hA
  have hn0 : (n : Int) ≠ 0 := by exact_mod_cast hn.ne_zero
  refine ⟨(k % n).toNat, ?_, ?_⟩
  · have := Int.emod_lt_of_pos k (show (0 : Int) < n by exact_mod_cast hn.pos)
    have := Int.emod_nonneg k hn0
    omega
  · rw [← natCast_zsmul, Int.toNat_of_nonneg (Int.emod_nonneg k hn0), ← hk]
    conv_rhs => rw [← Int.emod_add_mul_ediv k n]
    rw [add_zsmul, mul_comm, mul_zsmul, natCast_zsmul, ← hG, addOrderOf_nsmul_eq_zero, zsmul_zero, add_zero]

/-- secp256r1 has exactly `p256Order` points, the multiples of the base point. -/
theorem p256_multiples : letI := Fact.mk p256_prime
    ∀ G : (weierstrass secp256r1Curve).Point, Denotes secp256r1Curve secp256r1.G G →
    Nat.card (weierstrass secp256r1Curve).Point = p256Order ∧ ∀ A, ∃ k, k < p256Order ∧ k • G = A := by
  have := Fact.mk p256_prime
  intro G hG
  obtain ⟨G', hG', ho⟩ := p256_order
  have : G = G' := (denotes_same p256_proper hG hG').1 ⟨by simp, by simp⟩
  subst this
  exact multiples_of_base p256_proper p256_noTwoTorsion p256Order_prime (by decide +kernel) ho

end Neo.EC
