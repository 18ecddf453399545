import Mathlib.FieldTheory.Finite.Basic
import Mathlib.Data.ZMod.Basic
import Mathlib.Tactic.LinearCombination
import Mathlib.Tactic.Ring
import Verif.Model.ECCurve

/-! Extended GCD, modular inverse and field arithmetic. -/

namespace Neo.EC
open Py

theorem fdiv_fmod (b a : Int) : a * Int.fdiv b a + Int.fmod b a = b := Int.mul_fdiv_add_fmod b a

theorem fmod_pos_range (b : Int) {a : Int} (h : 0 < a) : 0 ≤ Int.fmod b a ∧ Int.fmod b a < a :=
  ⟨Int.fmod_nonneg_of_pos b h, Int.fmod_lt_of_pos b h⟩

theorem fmod_neg_range (b : Int) {a : Int} (h : a < 0) : a < Int.fmod b a ∧ Int.fmod b a ≤ 0 := by
  have h0 : Int.fmod b a = -Int.fmod (-b) (-a) := by rw [Int.neg_fmod_neg, neg_neg]
  have h1 := Int.fmod_lt_of_pos (-b) (show 0 < -a by omega)
  have h2 := Int.fmod_nonneg_of_pos (-b) (show 0 < -a by omega)
  omega

/-- Everything about `GCD`: Bézout, divisibility, and the sign of the result. -/
theorem gcdExt_spec (a b : Int) :
    let r := gcdExt a b
    a * r.2.1 + b * r.2.2 = r.1 ∧ r.1 ∣ a ∧ r.1 ∣ b ∧ (0 < a → 0 < r.1) ∧ (a < 0 → r.1 < 0) := by
  induction a, b using gcdExt.induct with
  | case1 b =>
    rw [gcdExt.eq_1]
    simp
  | case2 a b h ih =>
    rw [gcdExt.eq_1]
    simp only [dif_neg h]
    obtain ⟨i1, i2, i3, i4, i5⟩ := ih
    have hb := fdiv_fmod b a
    refine ⟨?_, i3, ?_, ?_, ?_⟩
    · generalize gcdExt (Int.fmod b a) a = r at *
      linear_combination i1 - r.2.1 * hb
    · calc (gcdExt (Int.fmod b a) a).1 ∣ a * Int.fdiv b a + Int.fmod b a := dvd_add (Dvd.dvd.mul_right i3 _) i2
        _ = b := hb
    · intro ha
      rcases (fmod_pos_range b ha).1.lt_or_eq with h1 | h1
      · exact i4 h1
      · rw [← h1, gcdExt.eq_1]; simpa using ha
    · intro ha
      rcases (fmod_neg_range b ha).2.lt_or_eq with h1 | h1
      · exact i5 h1
      · rw [h1, gcdExt.eq_1]; simpa using ha

/-- `GCD` with a bound on the number of rounds, for evaluation by the kernel. -/
def gcdFuel : Nat → Int → Int → Option (Int × Int × Int)
  | 0, _, _ => none
  | k + 1, a, b =>
    if a = 0 then some (b, 0, 1)
    else match gcdFuel k (Int.fmod b a) a with
      | none => none
      | some r => some (r.1, r.2.2 - Int.fdiv b a * r.2.1, r.2.1)

theorem gcdFuel_eq : ∀ (k : Nat) {a b : Int} {r : Int × Int × Int}, gcdFuel k a b = some r → gcdExt a b = r
  | 0, a, b, r, h => by simp [gcdFuel] at h
  | k + 1, a, b, r, h => by
    rw [gcdFuel] at h
    rw [gcdExt.eq_1]
    by_cases ha : a = 0
    · rw [if_pos ha] at h
      rw [dif_pos ha]
      exact Option.some.inj h
    · rw [if_neg ha] at h
      rw [dif_neg ha]
      cases hg : gcdFuel k (Int.fmod b a) a with
      | none => rw [hg] at h; simp at h
      | some r' =>
        rw [hg] at h
        have := gcdFuel_eq k hg
        simp only [this]
        exact Option.some.inj h

theorem modinv_bezout (x m : Int) : ∃ g d : Int, x * modinv x m + m * d = g ∧ g.natAbs = Int.gcd x m ∧ (0 < x → 0 < g) ∧
    (x < 0 → g < 0) := by
  obtain ⟨h1, h2, h3, h4, h5⟩ := gcdExt_spec x m
  refine ⟨_, _, h1, ?_, h4, h5⟩
  apply Nat.dvd_antisymm
  · exact Int.dvd_gcd (Int.natAbs_dvd.mpr h2) (Int.natAbs_dvd.mpr h3)
  · have : (Int.gcd x m : Int) ∣ (gcdExt x m).1 := by
      rw [← h1]; exact dvd_add (Dvd.dvd.mul_right (Int.gcd_dvd_left ..) _) (Dvd.dvd.mul_right (Int.gcd_dvd_right ..) _)
    exact Int.natCast_dvd.mp this

section
variable {p : ℕ}

theorem cast_fmod (v : Int) : ((Int.fmod v p : Int) : ZMod p) = v := by
  rw [Int.fmod_eq_emod_of_nonneg _ (by omega)]
  exact ZMod.intCast_mod v p

theorem fmod_range [NeZero p] (v : Int) : 0 ≤ Int.fmod v p ∧ Int.fmod v p < p := by
  have : 0 < p := Nat.pos_of_ne_zero (NeZero.ne p)
  exact fmod_pos_range v (by omega)

theorem cast_fAdd (l r : Int) : ((fAdd p l r : Int) : ZMod p) = l + r := by rw [fAdd, cast_fmod]; push_cast; rfl
theorem cast_fSub (l r : Int) : ((fSub p l r : Int) : ZMod p) = l - r := by rw [fSub, cast_fmod]; push_cast; rfl
theorem cast_fMul (l r : Int) : ((fMul p l r : Int) : ZMod p) = l * r := by rw [fMul, cast_fmod]; push_cast; rfl
theorem cast_fPow (l : Int) (e : ℕ) : ((fPow p l e : Int) : ZMod p) = l ^ e := by
  rw [fPow, modpow, cast_fmod]; push_cast; rfl
theorem cast_fNeg (v : Int) : ((fNeg p v : Int) : ZMod p) = -v := by
  rw [fNeg]; push_cast; simp

theorem fEq_iff (l r : Int) : fEq p l r = true ↔ (l : ZMod p) = r := by
  rw [fEq, decide_eq_true_eq, Int.fmod_eq_emod_of_nonneg _ (by omega), ← Int.dvd_iff_emod_eq_zero,
    ← ZMod.intCast_zmod_eq_zero_iff_dvd]
  push_cast
  exact sub_eq_zero

theorem fEq_false_iff (l r : Int) : fEq p l r = false ↔ (l : ZMod p) ≠ r := by
  rw [ne_eq, ← fEq_iff, Bool.not_eq_true]

/-- The inverse is right for positive representatives. -/
theorem cast_modinv [Fact p.Prime] {r : Int} (h0 : 0 < r) (hr : (r : ZMod p) ≠ 0) :
    ((modinv r p : Int) : ZMod p) = (r : ZMod p)⁻¹ := by
  obtain ⟨g, d, h1, h2, h3, -⟩ := modinv_bezout r p
  have hg : g = 1 := by
    have hpos := h3 h0
    have : Int.gcd r p = 1 := by
      have hd : ¬ (p : Int) ∣ r := by rwa [← ZMod.intCast_zmod_eq_zero_iff_dvd]
      rw [Int.gcd_comm]
      have := (Nat.Prime.coprime_iff_not_dvd (Fact.out : p.Prime) (n := r.natAbs)).mpr
        (fun h => hd (Int.natCast_dvd.mpr h))
      simpa [Int.gcd] using this
    omega
  have h4 : (r : ZMod p) * (modinv r p : Int) = 1 := by
    have := congrArg (Int.cast : Int → ZMod p) h1
    rw [hg] at this
    push_cast at this
    simpa using this
  exact eq_inv_of_mul_eq_one_right h4

theorem cast_fDiv [Fact p.Prime] (l : Int) {r : Int} (h0 : 0 < r) (hr : (r : ZMod p) ≠ 0) :
    ((fDiv p l r : Int) : ZMod p) = l / r := by
  rw [fDiv, cast_fmod]; push_cast; rw [cast_modinv h0 hr, div_eq_mul_inv]

theorem pos_of_cast_ne_zero {r : Int} (h : 0 ≤ r) (hr : (r : ZMod p) ≠ 0) : 0 < r := by
  rcases h.lt_or_eq with h | h
  · exact h
  · exfalso; apply hr; rw [← h]; simp

end

end Neo.EC
