import Mathlib.Data.Int.ModEq
import Mathlib.Tactic.LinearCombination
import Mathlib.Tactic.Ring
import Mathlib.Data.Nat.Log
import Mathlib.Algebra.Group.Int.Even
import Verif.Spec.Lucas
import Verif.Model.ECCurve

/-! Identities of Lucas sequences and correctness of the three loops. -/

namespace Neo.EC
open Py Spec.Lucas

variable (P Q : Int)

/-- 2·Uₖ₊₁ = P·Uₖ + Vₖ and 2·Vₖ₊₁ = D·Uₖ + P·Vₖ. -/
theorem lucas_step (k : Nat) : 2 * U P Q (k + 1) = P * U P Q k + V P Q k ∧
    2 * V P Q (k + 1) = (P * P - 4 * Q) * U P Q k + P * V P Q k := by
  induction k using Nat.strong_induction_on with
  | _ k ih =>
    match k with
    | 0 => simp [U, V]; ring
    | 1 => simp [U, V]; constructor <;> ring
    | k + 2 =>
      obtain ⟨a1, a2⟩ := ih k (by omega)
      obtain ⟨b1, b2⟩ := ih (k + 1) (by omega)
      have e1 : U P Q (k + 2 + 1) = P * U P Q (k + 2) - Q * U P Q (k + 1) := rfl
      have e2 : V P Q (k + 2 + 1) = P * V P Q (k + 2) - Q * V P Q (k + 1) := rfl
      have e3 : U P Q (k + 2) = P * U P Q (k + 1) - Q * U P Q k := rfl
      have e4 : V P Q (k + 2) = P * V P Q (k + 1) - Q * V P Q k := rfl
      constructor
      · rw [e1, e4]
        linear_combination P * b1 - Q * a1 - P * e3
      · rw [e2, e3]
        linear_combination P * b2 - Q * a2 - P * e4

/-- Q-identity: V² - D·U² = 4·Qᵏ. -/
theorem lucas_norm (k : Nat) : V P Q k ^ 2 - (P * P - 4 * Q) * U P Q k ^ 2 = 4 * Q ^ k := by
  induction k with
  | zero => simp [U, V]
  | succ k ih =>
    obtain ⟨a1, a2⟩ := lucas_step P Q k
    have : (4 : Int) * (V P Q (k + 1) ^ 2 - (P * P - 4 * Q) * U P Q (k + 1) ^ 2) = 4 * (4 * Q ^ (k + 1)) := by
      rw [pow_succ Q k]
      linear_combination (2 * V P Q (k + 1) + ((P * P - 4 * Q) * U P Q k + P * V P Q k)) * a2
        - (P * P - 4 * Q) * (2 * U P Q (k + 1) + (P * U P Q k + V P Q k)) * a1 + 4 * Q * ih
    omega

/-- Addition formulas. -/
theorem lucas_add (m k : Nat) : 2 * U P Q (m + k) = U P Q m * V P Q k + V P Q m * U P Q k ∧
    2 * V P Q (m + k) = V P Q m * V P Q k + (P * P - 4 * Q) * (U P Q m * U P Q k) := by
  induction k with
  | zero => simp [U, V]; constructor <;> ring
  | succ k ih =>
    obtain ⟨i1, i2⟩ := ih
    obtain ⟨a1, a2⟩ := lucas_step P Q (m + k)
    obtain ⟨b1, b2⟩ := lucas_step P Q k
    constructor
    · have : (2 : Int) * (2 * U P Q (m + (k + 1))) = 2 * (U P Q m * V P Q (k + 1) + V P Q m * U P Q (k + 1)) := by
        rw [show m + (k + 1) = m + k + 1 from rfl]
        linear_combination 2 * a1 + P * i1 + i2 - U P Q m * b2 - V P Q m * b1
      omega
    · have : (2 : Int) * (2 * V P Q (m + (k + 1))) =
          2 * (V P Q m * V P Q (k + 1) + (P * P - 4 * Q) * (U P Q m * U P Q (k + 1))) := by
        rw [show m + (k + 1) = m + k + 1 from rfl]
        linear_combination 2 * a2 + (P * P - 4 * Q) * i1 + P * i2 - V P Q m * b2 - (P * P - 4 * Q) * U P Q m * b1
      omega

theorem lucas_double (k : Nat) : U P Q (2 * k) = U P Q k * V P Q k ∧ V P Q (2 * k) = V P Q k ^ 2 - 2 * Q ^ k := by
  obtain ⟨a1, a2⟩ := lucas_add P Q k k
  have hn := lucas_norm P Q k
  rw [← Nat.two_mul] at a1 a2
  constructor
  · have : (2 : Int) * U P Q (2 * k) = 2 * (U P Q k * V P Q k) := by linear_combination a1
    omega
  · have : (2 : Int) * V P Q (2 * k) = 2 * (V P Q k ^ 2 - 2 * Q ^ k) := by linear_combination a2 - hn
    omega

section mods
variable {n : Int}

theorem fmod_modEq (hn : 0 < n) (x : Int) : Int.fmod x n ≡ x [ZMOD n] := by
  rw [Int.fmod_eq_emod_of_nonneg _ hn.le]
  exact Int.mod_modEq x n

/-- Halving mod an odd number. -/
theorem halveMod_modEq (hodd : n % 2 = 1) {X Y : Int} (h : X ≡ 2 * Y [ZMOD n]) : halveMod n X ≡ Y [ZMOD n] := by
  have h2 : 2 * halveMod n X ≡ 2 * Y [ZMOD n] := by
    refine Int.ModEq.trans ?_ h
    unfold halveMod
    split
    · rename_i h1
      rw [show 2 * ((X + n) / 2) = X + n by omega]
      exact Int.modEq_iff_dvd.mpr ⟨-1, by ring⟩
    · rw [show 2 * (X / 2) = X by omega]
  obtain ⟨t, ht⟩ := h2.symm.dvd
  have : (2 : Int) ∣ t := by
    rcases Int.even_or_odd t with he | ho
    · exact he.two_dvd
    · exfalso
      have hodd' : Odd (n * t) := (Int.odd_iff.mpr hodd).mul ho
      rw [← ht, Int.odd_iff] at hodd'
      omega
  obtain ⟨u, rfl⟩ := this
  exact (Int.modEq_iff_dvd.mpr ⟨u, by linarith [ht, (by ring : n * (2 * u) = 2 * (n * u))]⟩).symm

/-- What a pair of loop variables stands for. -/
def LucasAt (n P Q : Int) (j : Nat) (u v : Int) : Prop := u ≡ U P Q j [ZMOD n] ∧ v ≡ V P Q j [ZMOD n]

theorem lucasAt_double (hn : 0 < n) {j : Nat} {u v q : Int} (h : LucasAt n P Q j u v) (hq : q ≡ Q ^ j [ZMOD n]) :
    LucasAt n P Q (2 * j) (Int.fmod (u * v) n) (Int.fmod (v * v - 2 * q) n) := by
  obtain ⟨d1, d2⟩ := lucas_double P Q j
  refine ⟨(fmod_modEq hn _).trans ?_, (fmod_modEq hn _).trans ?_⟩
  · rw [d1]; exact h.1.mul h.2
  · rw [d2, pow_two]; exact (h.2.mul h.2).sub (hq.mul_left 2)

theorem lucasAt_succ (hodd : n % 2 = 1) {j : Nat} {u v : Int} (h : LucasAt n P Q j u v) :
    LucasAt n P Q (j + 1) (halveMod n (u * P + v)) (halveMod n (v * P + u * (P * P - 4 * Q))) := by
  obtain ⟨d1, d2⟩ := lucas_step P Q j
  refine ⟨halveMod_modEq hodd ?_, halveMod_modEq hodd ?_⟩
  · rw [d1, mul_comm P]; exact (h.1.mul_right P).add h.2
  · rw [d2, add_comm ((P * P - 4 * Q) * U P Q j), mul_comm P (V P Q j), mul_comm (P * P - 4 * Q) (U P Q j)]
    exact (h.2.mul_right P).add (h.1.mul_right _)

theorem shift_step (k b : Nat) : k >>> b = 2 * (k >>> (b + 1)) + (k >>> b) % 2 := by
  rw [Nat.shiftRight_succ]; omega

theorem loop3_spec (hn : 0 < n) (hodd : n % 2 = 1) (k : Nat) : ∀ (b : Nat) (u v q : Int),
    LucasAt n P Q (k >>> b) u v → q ≡ Q ^ (k >>> b) [ZMOD n] →
    LucasAt n P Q k (lucasLoop3 n P Q (P * P - 4 * Q) k (b + 1) u v q).1 (lucasLoop3 n P Q (P * P - 4 * Q) k (b + 1) u v q).2
  | 0, u, v, q, h, _ => by simpa [lucasLoop3] using h
  | b + 1, u, v, q, h, hq => by
    rw [lucasLoop3]
    have hd := lucasAt_double P Q hn h hq
    have hs := shift_step k b
    have hqq : q * q ≡ Q ^ (2 * k >>> (b + 1)) [ZMOD n] := by
      rw [Nat.two_mul, pow_add]; exact hq.mul hq
    by_cases hbit : (k >>> b) % 2 = 1
    · simp only [if_pos hbit]
      rw [hbit] at hs
      apply loop3_spec hn hodd k b
      · rw [hs]; exact lucasAt_succ P Q hodd hd
      · rw [hs, pow_succ]; exact (fmod_modEq hn _).trans (hqq.mul_right Q)
    · simp only [if_neg hbit]
      rw [show k >>> b % 2 = 0 by omega, Nat.add_zero] at hs
      apply loop3_spec hn hodd k b
      · rw [hs]; exact hd
      · rw [hs]; exact (fmod_modEq hn _).trans hqq

theorem loop1_spec (hn : 0 < n) (hodd : n % 2 = 1) (k : Nat) : ∀ (b : Nat) (u v : Int),
    LucasAt n P 1 (k >>> b) u v →
    LucasAt n P 1 k (lucasLoop1 n P (P * P - 4 * 1) k (b + 1) u v).1 (lucasLoop1 n P (P * P - 4 * 1) k (b + 1) u v).2
  | 0, u, v, h => by simpa [lucasLoop1] using h
  | b + 1, u, v, h => by
    rw [lucasLoop1]
    have hd := lucasAt_double P 1 hn (q := 1) h (by rw [one_pow])
    rw [show v * v - 2 * 1 = v * v - 2 by ring] at hd
    have hs := shift_step k b
    by_cases hbit : (k >>> b) % 2 = 1
    · simp only [if_pos hbit]
      rw [hbit] at hs
      apply loop1_spec hn hodd k b
      rw [hs]; exact lucasAt_succ P 1 hodd hd
    · simp only [if_neg hbit]
      rw [show k >>> b % 2 = 0 by omega, Nat.add_zero] at hs
      apply loop1_spec hn hodd k b
      rw [hs]; exact hd

theorem loop2_spec (hn : 0 < n) (hodd : n % 2 = 1) (k : Nat) : ∀ (b : Nat) (u v q : Int),
    LucasAt n 1 (-1) (k >>> b) u v → q = (-1) ^ (k >>> b) →
    LucasAt n 1 (-1) k (lucasLoop2 n (1 * 1 - 4 * (-1)) k (b + 1) u v q).1 (lucasLoop2 n (1 * 1 - 4 * (-1)) k (b + 1) u v q).2
  | 0, u, v, q, h, _ => by simpa [lucasLoop2] using h
  | b + 1, u, v, q, h, hq => by
    rw [lucasLoop2]
    have hd := lucasAt_double 1 (-1) hn h (q := q) (by rw [hq])
    have hv : (if q = 1 then Int.fmod (v * v - 2) n else Int.fmod (v * v + 2) n) = Int.fmod (v * v - 2 * q) n := by
      rcases neg_one_pow_eq_or Int (k >>> (b + 1)) with h1 | h1
      · rw [hq, h1, if_pos rfl]; rfl
      · rw [hq, h1, if_neg (by decide)]; rfl
    have hq1 : (if q = 1 then q else (1 : Int)) = 1 := by split <;> first | assumption | rfl
    have hs := shift_step k b
    have hsq : ((-1) ^ (2 * k >>> (b + 1)) : Int) = 1 := by rw [pow_mul]; norm_num
    simp only [hv, hq1]
    by_cases hbit : (k >>> b) % 2 = 1
    · simp only [if_pos hbit]
      rw [hbit] at hs
      apply loop2_spec hn hodd k b
      · rw [hs]
        have := lucasAt_succ 1 (-1) hodd hd
        rwa [mul_one, mul_one] at this
      · rw [hs, pow_succ, hsq]; rfl
    · simp only [if_neg hbit]
      rw [show k >>> b % 2 = 0 by omega, Nat.add_zero] at hs
      apply loop2_spec hn hodd k b
      · rw [hs]; exact hd
      · rw [hs, hsq]

end mods

theorem shift_top {k : Nat} (hk : k ≠ 0) : k >>> (natBitLength k - 1) = 1 := by
  rw [natBitLength, if_neg hk, Nat.add_sub_cancel, Nat.shiftRight_eq_div_pow]
  have h1 := Nat.log2_self_le hk
  have h2 : k < 2 ^ (k.log2 + 1) := Nat.lt_log2_self
  rw [pow_succ] at h2
  exact Nat.div_eq_of_lt_le (by omega) (by omega)

end Neo.EC
