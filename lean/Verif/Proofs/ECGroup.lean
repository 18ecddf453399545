import Verif.Proofs.Field
import Verif.Spec.EllipticCurve

/-! `add`, `neg`, `sub` refine the group law. -/

namespace Neo.EC
open Py Spec.EC WeierstrassCurve WeierstrassCurve.Affine

variable {c : Curve} [hp : Fact c.p.Prime]

theorem ptEq_iff (P Q : Pt) : ptEq c P Q = true ↔ (P.x : ZMod c.p) = Q.x ∧ (P.y : ZMod c.p) = Q.y := by
  rw [ptEq, Bool.and_eq_true, fEq_iff, fEq_iff]

theorem same_iff (P Q : Pt) : Same c P Q ↔ ptEq c P Q = true := by
  rw [ptEq_iff, Same, ← ZMod.intCast_zmod_eq_zero_iff_dvd, ← ZMod.intCast_zmod_eq_zero_iff_dvd]
  push_cast
  rw [sub_eq_zero, sub_eq_zero]

theorem isZero_iff (P : Pt) : P.isZero = true ↔ P = ⟨0, 0⟩ := by
  rcases P with ⟨x, y⟩
  simp [Pt.isZero]

theorem cast_rhs (x : Int) : ((rhs c x : Int) : ZMod c.p) = x ^ 3 + c.a * x + c.b := by
  rw [rhs, cast_fAdd, cast_fAdd, cast_fPow, cast_fMul]

theorem onCurve_iff (P : Pt) : OnCurve c P ↔ isOnCurve c P = true := by
  rw [OnCurve, isOnCurve, Bool.or_eq_true, isZero_iff, fEq_iff, cast_fPow, cast_rhs, ← ZMod.intCast_zmod_eq_zero_iff_dvd]
  push_cast
  rw [sub_eq_zero]

theorem equation_iff' (x y : ZMod c.p) : (weierstrass c).Equation x y ↔ y ^ 2 = x ^ 3 + c.a * x + c.b := by
  rw [Affine.equation_iff]
  simp [weierstrass]

theorem two_ne (h : Proper c) : (2 : ZMod c.p) ≠ 0 := by
  have h2 := h.odd
  intro h0
  have : ((2 : ℕ) : ZMod c.p) = 0 := by exact_mod_cast h0
  rw [ZMod.natCast_eq_zero_iff] at this
  exact h2 ((Nat.prime_dvd_prime_iff_eq hp.out Nat.prime_two).mp this)

theorem nonsingular_of_equation (h : Proper c) {x y : ZMod c.p} (he : (weierstrass c).Equation x y) :
    (weierstrass c).Nonsingular x y := by
  refine (Affine.equation_iff_nonsingular_of_Δ_ne_zero ?_).mp he
  have : (weierstrass c).Δ = -2 ^ 4 * (4 * (c.a : ZMod c.p) ^ 3 + 27 * (c.b : ZMod c.p) ^ 2) := by
    simp only [WeierstrassCurve.Δ, WeierstrassCurve.b₂, WeierstrassCurve.b₄, WeierstrassCurve.b₆, WeierstrassCurve.b₈,
      weierstrass]
    ring
  rw [this]
  exact mul_ne_zero (neg_ne_zero.mpr (pow_ne_zero 4 (two_ne h))) h.disc

theorem denotes_zero : Denotes c zero 0 := rfl

theorem denotes_some_not_zero (h : Proper c) {P : Pt} {x y : ZMod c.p} {hn : (weierstrass c).Nonsingular x y}
    (hd : Denotes c P (.some x y hn)) : P.isZero = false := by
  rw [← Bool.not_eq_true, isZero_iff]
  rintro rfl
  obtain ⟨hx, hy⟩ := hd
  have he := (equation_iff' x y).mp hn.1
  simp only [Int.cast_zero] at hx hy
  rw [← hx, ← hy] at he
  apply h.b_ne
  simpa using he.symm

theorem denotes_onCurve {P : Pt} {A : (weierstrass c).Point} (hd : Denotes c P A) : OnCurve c P := by
  cases A with
  | zero => left; exact hd
  | some x y hn =>
    right
    rw [← ZMod.intCast_zmod_eq_zero_iff_dvd]
    have he := (equation_iff' x y).mp hn.1
    obtain ⟨hx, hy⟩ := hd
    push_cast
    rw [hx, hy, he, sub_self]

theorem exists_denotes (h : Proper c) {P : Pt} (ho : OnCurve c P) : ∃ A, Denotes c P A := by
  rcases ho with ho | ho
  · exact ⟨0, ho⟩
  · rw [← ZMod.intCast_zmod_eq_zero_iff_dvd] at ho
    push_cast at ho
    exact ⟨.some P.x P.y (nonsingular_of_equation h ((equation_iff' _ _).mpr (sub_eq_zero.mp ho))), rfl, rfl⟩

theorem denotes_same (h : Proper c) {P Q : Pt} {A B : (weierstrass c).Point} (hP : Denotes c P A) (hQ : Denotes c Q B) :
    Same c P Q ↔ A = B := by
  rw [same_iff, ptEq_iff]
  have key : ∀ (x y : ZMod c.p) (hn : (weierstrass c).Nonsingular x y), ¬ ((0 : ZMod c.p) = x ∧ (0 : ZMod c.p) = y) := by
    rintro x y hn ⟨rfl, rfl⟩
    have he := (equation_iff' (0 : ZMod c.p) 0).mp hn.1
    apply h.b_ne
    simpa using he.symm
  cases A with
  | zero => cases B with
    | zero => rw [show P = ⟨0, 0⟩ from hP, show Q = ⟨0, 0⟩ from hQ]; simp
    | some x y hn =>
      obtain ⟨hx, hy⟩ := hQ
      rw [show P = ⟨0, 0⟩ from hP, hx, hy]
      have := key x y hn
      simpa using this
  | some x y hn => cases B with
    | zero =>
      obtain ⟨hx, hy⟩ := hP
      rw [show Q = ⟨0, 0⟩ from hQ, hx, hy]
      have := key x y hn
      simpa [eq_comm] using this
    | some x' y' hn' =>
      obtain ⟨hx, hy⟩ := hP
      obtain ⟨hx', hy'⟩ := hQ
      rw [hx, hy, hx', hy']
      simp

theorem denotes_add (h : Proper c) {P Q : Pt} {A B : (weierstrass c).Point} (hP : Denotes c P A) (hQ : Denotes c Q B) :
    Denotes c (add c P Q) (A + B) := by
  have : NeZero c.p := ⟨hp.out.ne_zero⟩
  cases A with
  | zero =>
    rw [show P = ⟨0, 0⟩ from hP, add, if_pos (show Pt.isZero ⟨0, 0⟩ = true from rfl)]
    change Denotes c Q (0 + B)
    rwa [zero_add]
  | some x₁ y₁ h₁ => cases B with
    | zero =>
      have hz := denotes_some_not_zero h hP
      rw [show Q = ⟨0, 0⟩ from hQ, add, hz]
      change Denotes c P (_ + 0)
      rwa [add_zero]
    | some x₂ y₂ h₂ =>
      have hz := denotes_some_not_zero h hP
      have hz' := denotes_some_not_zero h hQ
      obtain ⟨hx₁, hy₁⟩ := hP
      obtain ⟨hx₂, hy₂⟩ := hQ
      have e₁ := (equation_iff' _ _).mp h₁.1
      have e₂ := (equation_iff' _ _).mp h₂.1
      have hnegY : (weierstrass c).negY x₂ y₂ = -y₂ := by simp [Affine.negY, weierstrass]
      -- shape of the generic result
      have slopeCase : ∀ (lft : Int), ((lft : Int) : ZMod c.p) = (weierstrass c).slope x₁ x₂ y₁ y₂ →
          ¬ (x₁ = x₂ ∧ y₁ = (weierstrass c).negY x₂ y₂) →
          Denotes c (addWithSlope c lft P Q) (Point.some x₁ y₁ h₁ + Point.some x₂ y₂ h₂) := by
        intro lft hl hxy
        rw [Point.add_some hxy]
        refine ⟨?_, ?_⟩
        · simp only [addWithSlope]
          rw [cast_fSub, cast_fPow, cast_fAdd, hx₁, hx₂, hl]
          simp only [Affine.addX, weierstrass]
          ring
        · simp only [addWithSlope]
          rw [cast_fSub, cast_fMul, cast_fSub, cast_fSub, cast_fPow, cast_fAdd, hx₁, hx₂, hl, hy₁]
          simp only [Affine.addY, Affine.negAddY, Affine.negY, Affine.addX, weierstrass]
          ring
      rw [add, hz, hz']
      simp only [Bool.false_eq_true, if_false]
      by_cases hpt : ptEq c P Q = true
      · rw [if_pos hpt]
        obtain ⟨q1, q2⟩ := (ptEq_iff P Q).mp hpt
        rw [hx₁, hx₂] at q1
        rw [hy₁, hy₂] at q2
        by_cases hy0 : fEq c.p P.y 0 = true
        · rw [if_pos hy0]
          rw [fEq_iff, hy₁] at hy0
          simp only [Int.cast_zero] at hy0
          rw [Point.add_of_Y_eq q1 (by rw [hnegY, ← q2, hy0, neg_zero])]
          rfl
        · rw [if_neg hy0]
          rw [fEq_iff, hy₁] at hy0
          simp only [Int.cast_zero] at hy0
          have hne : y₁ ≠ (weierstrass c).negY x₂ y₂ := by
            rw [hnegY, ← q2]
            intro hh
            have : (2 : ZMod c.p) * y₁ = 0 := by linear_combination hh
            rcases mul_eq_zero.mp this with h2 | h2
            · exact two_ne h h2
            · exact hy0 h2
          have h2y : ((fMul c.p 2 P.y : Int) : ZMod c.p) ≠ 0 := by
            rw [cast_fMul, hy₁]
            push_cast
            exact mul_ne_zero (two_ne h) hy0
          apply slopeCase _ _ (fun hh => hne hh.2)
          have hpos : 0 < fMul c.p 2 P.y := pos_of_cast_ne_zero (fmod_range _).1 h2y
          rw [cast_fDiv _ hpos h2y, cast_fMul, cast_fAdd, cast_fMul, cast_fPow, hx₁, hy₁,
            Affine.slope_of_Y_ne q1 hne]
          simp only [weierstrass, Affine.negY]
          push_cast
          congr 1 <;> ring
      · rw [if_neg hpt]
        have hpt' : ¬ (x₁ = x₂ ∧ y₁ = y₂) := by
          rw [ptEq_iff, hx₁, hx₂, hy₁, hy₂] at hpt; exact hpt
        by_cases hxx : fEq c.p P.x Q.x = true
        · rw [if_pos hxx]
          rw [fEq_iff, hx₁, hx₂] at hxx
          have hyy : y₁ = (weierstrass c).negY x₂ y₂ := by
            rcases Affine.Y_eq_of_X_eq h₁.1 h₂.1 hxx with h3 | h3
            · exact absurd ⟨hxx, h3⟩ hpt'
            · exact h3
          rw [Point.add_of_Y_eq hxx hyy]
          rfl
        · rw [if_neg hxx]
          rw [fEq_iff, hx₁, hx₂] at hxx
          have hd : ((fSub c.p P.x Q.x : Int) : ZMod c.p) ≠ 0 := by
            rw [cast_fSub, hx₁, hx₂]; exact sub_ne_zero.mpr hxx
          apply slopeCase _ _ (fun hh => hxx hh.1)
          have hpos : 0 < fSub c.p P.x Q.x := pos_of_cast_ne_zero (fmod_range _).1 hd
          rw [cast_fDiv _ hpos hd, cast_fSub, cast_fSub, hx₁, hx₂, hy₁, hy₂,
            Affine.slope_of_X_ne hxx]

theorem denotes_neg (h : Proper c) {P : Pt} {A : (weierstrass c).Point} (hP : Denotes c P A) (hA : A ≠ 0) :
    Denotes c (neg c P) (-A) := by
  cases A with
  | zero => exact absurd rfl hA
  | some x y hn =>
    obtain ⟨hx, hy⟩ := hP
    refine ⟨hx, ?_⟩
    rw [neg, cast_fNeg, hy]
    simp [Affine.negY, weierstrass]

theorem denotes_sub (h : Proper c) {P Q : Pt} {A B : (weierstrass c).Point} (hP : Denotes c P A) (hQ : Denotes c Q B)
    (hB : B ≠ 0) : Denotes c (sub c P Q) (A - B) := by
  rw [sub_eq_add_neg]
  exact denotes_add h hP (denotes_neg h hQ hB)

end Neo.EC
