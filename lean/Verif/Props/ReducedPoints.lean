import Verif.Props.Curve
import Verif.Proofs.ECOrder
import Verif.Spec.PointEncoding

/-! # C202: sums and multiples of points have reduced coordinates -/

namespace Neo.Props
open Py Neo.EC Spec.EC

private theorem slope_reduced {c : Curve} [NeZero c.p] (l : Int) (P Q : Pt) : Reduced c (addWithSlope c l P Q) :=
  ⟨(fmod_range (p := c.p) _).1, (fmod_range (p := c.p) _).2, (fmod_range (p := c.p) _).1, (fmod_range (p := c.p) _).2⟩

private theorem zero_reduced {c : Curve} [h : NeZero c.p] : Reduced c zero :=
  have := Nat.pos_of_ne_zero h.out
  ⟨le_refl _, by show (0 : Int) < c.p; omega, le_refl _, by show (0 : Int) < c.p; omega⟩

theorem add_reduced {c : Curve} [NeZero c.p] {P Q : Pt} (hP : Reduced c P) (hQ : Reduced c Q) : Reduced c (add c P Q) := by
  rw [add]
  by_cases h1 : P.isZero = true
  · rw [if_pos h1]; exact hQ
  rw [if_neg h1]
  by_cases h2 : Q.isZero = true
  · rw [if_pos h2]; exact hP
  rw [if_neg h2]
  by_cases h3 : ptEq c P Q = true
  · rw [if_pos h3]
    by_cases h4 : fEq c.p P.y 0 = true
    · rw [if_pos h4]; exact zero_reduced
    · rw [if_neg h4]; exact slope_reduced _ _ _
  · rw [if_neg h3]
    by_cases h4 : fEq c.p P.x Q.x = true
    · rw [if_pos h4]; exact zero_reduced
    · rw [if_neg h4]; exact slope_reduced _ _ _

private theorem loop_reduced {c : Curve} [NeZero c.p] (k : Int) : ∀ acc sh : Pt, Reduced c acc → Reduced c sh → Reduced c (mulLoop c k acc sh) := by
  induction k using loopCoeff.induct with
  | case1 => intro acc sh h _; rw [mulLoop, dif_pos rfl]; exact h
  | case2 k hk ih =>
    intro acc sh h1 h2
    rw [mulLoop, dif_neg hk]
    refine ih _ _ ?_ (add_reduced h2 h2)
    by_cases hb : k % 2 ^ 1075 ≠ 0
    · rw [if_pos hb]; exact add_reduced h1 h2
    · rw [if_neg hb]; exact h1

theorem mul_reduced {c : Curve} [NeZero c.p] {P R : Pt} (hP : Reduced c P) {n : Int} (h : mul c P n = .ok R) : Reduced c R := by
  rw [mul] at h
  by_cases h0 : n = 0
  · rw [if_pos h0] at h; cases h; exact zero_reduced
  rw [if_neg h0] at h
  have hacc : Reduced c (if n % 2 ≠ 0 then add c zero P else zero) := by
    by_cases hb : n % 2 ≠ 0
    · rw [if_pos hb]; exact add_reduced zero_reduced hP
    · rw [if_neg hb]; exact zero_reduced
  simp only at h
  cases hd : intTrueDiv n 2 with
  | error e => rw [hd] at h; cases h
  | ok f =>
    rw [hd] at h
    cases f with
    | fin q => cases h; exact loop_reduced _ _ _ hacc (add_reduced hP hP)
    | _ => cases h

/-- C202, coordinates: on every curve over a field of p > 0 elements, the sum of two points with coordinates in [0, p), every multiple
of such a point, and its negative if its second coordinate is not 0, have coordinates in [0, p). -/
theorem C202_reduced (c : Curve) (hp : 0 < c.p) (P Q : Pt) (hP : Reduced c P) (hQ : Reduced c Q) :
    Reduced c (add c P Q) ∧ (∀ n R, mul c P n = .ok R → Reduced c R) ∧ (P.y ≠ 0 → Reduced c (neg c P)) := by
  have : NeZero c.p := ⟨hp.ne'⟩
  refine ⟨add_reduced hP hQ, fun n R h => mul_reduced hP h, fun hy => ⟨hP.1, hP.2.1, ?_, ?_⟩⟩
  · have := hP.2.2.2; show 0 ≤ (c.p : Int) - P.y; omega
  · have := hP.2.2.1; show (c.p : Int) - P.y < c.p; omega

/-- Congruent reduced points are identical. -/
theorem reduced_same {c : Curve} {P Q : Pt} (hP : Reduced c P) (hQ : Reduced c Q) (h : Same c P Q) : P = Q := by
  obtain ⟨hx, hy⟩ := h
  have key : ∀ a b : Int, 0 ≤ a → a < c.p → 0 ≤ b → b < c.p → (c.p : Int) ∣ a - b → a = b := by
    intro a b h1 h2 h3 h4 hd
    have h5 : a % c.p = b % c.p := Int.emod_eq_emod_iff_emod_sub_eq_zero.2 (Int.emod_eq_zero_of_dvd hd)
    rwa [Int.emod_eq_of_lt h1 h2, Int.emod_eq_of_lt h3 h4] at h5
  cases P; cases Q
  congr 1
  · exact key _ _ hP.1 hP.2.1 hQ.1 hQ.2.1 hx
  · exact key _ _ hP.2.2.1 hP.2.2.2 hQ.2.2.1 hQ.2.2.2 hy

/-- C202, identity: on every proper curve, the point of the group that a result stands for determines its coordinates; so sums do not
depend, down to their coordinates, on the order of the summands or on the way they are grouped. -/
theorem C202_identical (c : Curve) (hp : c.p.Prime) (h : Proper c) :
    letI := Fact.mk hp
    (∀ (P Q : Pt) (A : (weierstrass c).Point), Reduced c P → Reduced c Q → Denotes c P A → Denotes c Q A → P = Q) ∧
    ∀ P Q R, Reduced c P → Reduced c Q → Reduced c R → OnCurve c P → OnCurve c Q → OnCurve c R →
      add c P Q = add c Q P ∧ add c (add c P Q) R = add c P (add c Q R) := by
  have := Fact.mk hp
  have : NeZero c.p := ⟨hp.ne_zero⟩
  refine ⟨fun P Q A hP hQ h1 h2 => reduced_same hP hQ ((denotes_same h h1 h2).2 rfl), fun P Q R hP hQ hR oP oQ oR => ?_⟩
  obtain ⟨-, hc, ha, -⟩ := C62_laws c hp h P Q R oP oQ oR
  have hcomm := reduced_same (add_reduced hP hQ) (add_reduced hQ hP) hc
  exact ⟨hcomm, reduced_same (add_reduced (add_reduced hP hQ) hR) (add_reduced hP (add_reduced hQ hR)) ha⟩

/-- The hypotheses are met by the base point of secp256k1, its double and its negative; a negative is not reduced when the second
coordinate is 0. -/
example : secp256k1.ec.p.Prime ∧ Proper secp256k1.ec ∧
    (∀ P, P = secp256k1.G ∨ P = add secp256k1.ec secp256k1.G secp256k1.G ∨ P = neg secp256k1.ec secp256k1.G →
      Reduced secp256k1.ec P ∧ OnCurve secp256k1.ec P) ∧
    ∃ (c : Curve) (P : Pt), c.p.Prime ∧ Reduced c P ∧ OnCurve c P ∧ ¬ Reduced c (neg c P) := by
  refine ⟨k256_prime, k256_proper, ?_, ⟨7, 0, 1⟩, ⟨3, 0⟩, by norm_num, by unfold Reduced; decide, Or.inr (by decide), by unfold Reduced; decide⟩
  have hG : Reduced secp256k1.ec secp256k1.G ∧ OnCurve secp256k1.ec secp256k1.G := ⟨by unfold Reduced; decide +kernel, Or.inr (by decide +kernel)⟩
  obtain ⟨h1, -, h2⟩ := C202_reduced secp256k1.ec k256_prime.pos _ _ hG.1 hG.1
  rintro P (rfl | rfl | rfl)
  · exact hG
  · exact ⟨h1, (C62_laws _ k256_prime k256_proper _ _ _ hG.2 hG.2 hG.2).1⟩
  · exact ⟨h2 (by decide +kernel), Or.inr (by decide +kernel)⟩

end Neo.Props
