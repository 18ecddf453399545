import Verif.Model.Writer
import Mathlib.Data.Nat.Bitwise
import Mathlib.Tactic.Ring
import Mathlib.Tactic.Linarith

/-!
# C23: convert_to_uint160 / convert_to_uint256
-/

namespace Spec

/-- The `k`-digit binary numeral of `m`: digit `i` (counted from the right, starting at 0) is bit `i` of `m`. -/
def numeral (k m : Nat) : List Char := (List.range k).reverse.map fun i => if m.testBit i then '1' else '0'

end Spec

namespace Neo.Props
open Py Spec Writer

theorem numeral_succ (k m : Nat) : numeral (k + 1) m = numeral k (m / 2) ++ [if m % 2 = 0 then '0' else '1'] := by
  unfold numeral
  rw [List.range_succ_eq_map, List.reverse_cons, List.map_append]
  congr 1
  · rw [← List.map_reverse, List.map_map]
    apply List.map_congr_left
    intro i _
    simp [Function.comp, Nat.testBit_succ]
  · simp only [List.map_cons, List.map_nil, Nat.testBit_zero]
    rcases Nat.mod_two_eq_zero_or_one m with h | h <;> simp [h]

theorem numeral_length (k m : Nat) : (numeral k m).length = k := by simp [numeral]

theorem numeral_chars (k m : Nat) : ∀ c ∈ numeral k m, c = '0' ∨ c = '1' := by
  intro c hc
  simp only [numeral, List.mem_map] at hc
  obtain ⟨i, _, rfl⟩ := hc
  split <;> simp

theorem numeral_mod (k m : Nat) : numeral k (m % 2 ^ k) = numeral k m := by
  unfold numeral
  apply List.map_congr_left
  intro i hi
  have : i < k := by simpa using hi
  simp [Nat.testBit_mod_two_pow, this]

theorem numeral_inj (k a b : Nat) (h : numeral k a = numeral k b) : a % 2 ^ k = b % 2 ^ k := by
  apply Nat.eq_of_testBit_eq
  intro i
  rw [Nat.testBit_mod_two_pow, Nat.testBit_mod_two_pow]
  by_cases hi : i < k
  · simp only [hi, decide_true, Bool.true_and]
    have hmap : ((List.range k).reverse.map fun i => if a.testBit i then '1' else '0') =
        ((List.range k).reverse.map fun i => if b.testBit i then '1' else '0') := h
    have := List.map_inj_left.mp hmap i (by simp [hi])
    by_cases ha : a.testBit i <;> by_cases hb : b.testBit i <;> simp_all
  · simp [hi]

theorem lastN_append (k : Nat) (a b : Str) (h : b.length ≤ k) : lastN k (a ++ b) = lastN (k - b.length) a ++ b := by
  unfold lastN
  rw [List.length_append, List.drop_append]
  congr 1
  · congr 1; omega
  · rw [show a.length + b.length - k - a.length = 0 by omega]; rfl

theorem lastN_le (k : Nat) (a b : Str) (h : k ≤ b.length) : lastN k (a ++ b) = lastN k b := by
  unfold lastN
  rw [List.length_append, List.drop_append, List.drop_of_length_le (by omega)]
  simp only [List.nil_append]
  congr 1; omega

/-- `binDigits` has `j + 1` digits for numbers in `[2^j, 2^(j+1))`, and they are the numeral. -/
theorem binDigits_eq (j n : Nat) (h1 : 2 ^ j ≤ n) (h2 : n < 2 ^ (j + 1)) : binDigits n = numeral (j + 1) n := by
  induction j generalizing n with
  | zero =>
    have : n = 1 := by simp at h1 h2; omega
    subst this
    unfold binDigits; rfl
  | succ j ih =>
    rw [Nat.pow_succ] at h1 h2
    have hp : 0 < 2 ^ j := Nat.pow_pos (by decide)
    unfold binDigits
    rw [dif_neg (by omega), ih (n / 2) (by omega) (by rw [Nat.pow_succ] at *; omega)]
    exact (numeral_succ (j + 1) n).symm

theorem binDigits_zero : binDigits 0 = ['0'] := by unfold binDigits; rfl

theorem lastN_numeral (k j n : Nat) (h : k ≤ j) : lastN k (numeral j n) = numeral k n := by
  induction k generalizing j n with
  | zero => unfold lastN; rw [Nat.sub_zero, List.drop_length]; rfl
  | succ k ih =>
    obtain ⟨j, rfl⟩ : ∃ i, j = i + 1 := ⟨j - 1, by omega⟩
    rw [numeral_succ, numeral_succ, lastN_append _ _ _ (by simp)]
    simp only [List.length_singleton, Nat.add_sub_cancel]
    rw [ih j (n / 2) (by omega)]

/-- Long enough numbers: the last `k` digits of `bin(n)` are the `k`-digit numeral. -/
theorem lastN_binDigits (k n : Nat) (hk : 0 < k) (h : 2 ^ (k - 1) ≤ n) (pre : Str) :
    lastN k (pre ++ binDigits n) = numeral k n := by
  have hn : n ≠ 0 := by have : 0 < 2 ^ (k - 1) := Nat.pow_pos (by decide); omega
  have h1 := Nat.log2_self_le hn
  have h2 := @Nat.lt_log2_self n
  have hk' : k ≤ n.log2 + 1 := by
    have : k - 1 < n.log2 + 1 := (Nat.pow_lt_pow_iff_right (by decide : 1 < 2)).mp (Nat.lt_of_le_of_lt h h2)
    omega
  rw [binDigits_eq n.log2 n h1 h2, lastN_le _ _ _ (by rw [numeral_length]; exact hk'), lastN_numeral _ _ _ hk']

/-- Short numbers: a `b` shows up among the last `k` characters. -/
theorem b_mem_lastN (k n : Nat) (hk : 1 < k) (h : n < 2 ^ (k - 1)) (pre : Str) :
    'b' ∈ lastN k (pre ++ ['0', 'b'] ++ binDigits n) := by
  have hl : (binDigits n).length ≤ k - 1 := by
    by_cases hn : n = 0
    · subst hn; rw [binDigits_zero]; simp; omega
    · have h1 := Nat.log2_self_le hn
      rw [binDigits_eq n.log2 n h1 Nat.lt_log2_self, numeral_length]
      have : n.log2 < k - 1 := (Nat.pow_lt_pow_iff_right (by decide : 1 < 2)).mp (Nat.lt_of_le_of_lt h1 h)
      omega
  rw [lastN_append _ _ _ (by omega)]
  apply List.mem_append_left
  unfold lastN
  rw [show pre ++ ['0', 'b'] = (pre ++ ['0']) ++ ['b'] by simp, List.drop_append]
  apply List.mem_append_right
  rw [show (pre ++ ['0'] ++ ['b']).length - (k - (binDigits n).length) - (pre ++ ['0']).length = 0 by
    simp only [List.length_append, List.length_singleton]; omega]
  simp

/-- The conversion with any width `k`, as both Python functions do it. -/
theorem convert_general (k : Nat) (hk : 1 < k) (v : Int) :
    lastN k (pyBin (v + 2 ^ k)) = numeral k (v % 2 ^ k).toNat ↔
      -(2 ^ (k - 1)) ≤ v ∨ (v ≤ -(2 ^ k) - 2 ^ (k - 1) ∧ (2 ^ (k - 1) : Int) ∣ v) := by
  obtain ⟨p, hp⟩ : ∃ p : Nat, p = 2 ^ (k - 1) := ⟨_, rfl⟩
  have hppos : 0 < p := by rw [hp]; exact Nat.pow_pos (by decide)
  have h2p : 2 ^ k = 2 * p := by rw [hp, ← Nat.pow_succ']; congr 1; omega
  have hpI : (2 : Int) ^ (k - 1) = p := by rw [hp]; push_cast; rfl
  have h2pI : (2 : Int) ^ k = 2 * p := by
    have : ((2 ^ k : Nat) : Int) = ((2 * p : Nat) : Int) := by rw [h2p]
    push_cast at this; exact this
  rw [hpI, h2pI]
  have hnot : ∀ n pre, n < p → ¬ lastN k (pre ++ ['0', 'b'] ++ binDigits n) = numeral k (v % (2 * p)).toNat := by
    intro n pre hn heq
    have := b_mem_lastN k n hk (by rw [← hp]; exact hn) pre
    rw [heq] at this
    rcases numeral_chars _ _ _ this with h | h <;> exact absurd h (by decide)
  have hmod0 : 0 ≤ v % (2 * p) := Int.emod_nonneg _ (by omega)
  have hmod1 : v % (2 * p) < 2 * p := Int.emod_lt_of_pos _ (by omega)
  unfold pyBin
  by_cases h1 : -(p : Int) ≤ v
  · -- v + 2^k ≥ 2^(k-1)
    simp only [h1, true_or, iff_true]
    rw [lastN_binDigits k _ (by omega) (by rw [← hp]; omega)]
    have hnn : ((v + 2 * p).natAbs : Int) = v + 2 * p := by omega
    rw [← numeral_mod, ← numeral_mod k (v % (2 * p)).toNat]
    congr 1
    have e1 : (((v + 2 * p).natAbs % 2 ^ k : Nat) : Int) = ((v % (2 * p)).toNat % 2 ^ k : Nat) := by
      rw [h2p]; push_cast
      rw [abs_of_nonneg (by omega), Int.toNat_of_nonneg hmod0]
      rw [Int.add_emod_right, Int.emod_emod]
    exact_mod_cast e1
  · simp only [h1, false_or]
    by_cases h2 : (v + 2 * p).natAbs < p
    · have : ¬ (v ≤ -(2 * (p : Int)) - p ∧ (p : Int) ∣ v) := by omega
      simp only [this, iff_false]
      exact hnot _ _ h2
    · rw [lastN_binDigits k _ (by omega) (by rw [← hp]; omega)]
      have hle : v ≤ -(2 * (p : Int)) - p := by omega
      simp only [hle, true_and]
      have hnn : ((v + 2 * p).natAbs : Int) = -(v + 2 * p) := by omega
      have hfin : numeral k (v + 2 * p).natAbs = numeral k (v % (2 * p)).toNat ↔
          (-(v + 2 * p)) % (2 * p) = v % (2 * p) := by
        constructor
        · intro h
          have := numeral_inj _ _ _ h
          rw [h2p] at this
          have e : (((v + 2 * p).natAbs % (2 * p) : Nat) : Int) = ((v % (2 * p)).toNat % (2 * p) : Nat) := by rw [this]
          push_cast at e
          rw [abs_of_nonpos (by omega), Int.toNat_of_nonneg hmod0, Int.emod_emod] at e
          exact e
        · intro h
          rw [← numeral_mod, ← numeral_mod k (v % (2 * p)).toNat]
          congr 1
          rw [h2p]
          have e : (((v + 2 * p).natAbs % (2 * p) : Nat) : Int) = ((v % (2 * p)).toNat % (2 * p) : Nat) := by
            push_cast
            rw [abs_of_nonpos (by omega), Int.toNat_of_nonneg hmod0, Int.emod_emod]
            exact h
          exact_mod_cast e
      rw [hfin, Int.emod_eq_emod_iff_emod_sub_eq_zero]
      constructor
      · intro h
        obtain ⟨q, hq⟩ := Int.dvd_of_emod_eq_zero h
        exact ⟨-q - 1, by linarith⟩
      · rintro ⟨q, hq⟩
        apply Int.emod_eq_zero_of_dvd
        exact ⟨-q - 1, by linarith⟩

/-- C23 holds from −2^19 on: the result is the 20-digit numeral of v mod 2^20. -/
theorem C23_convert160_partial (v : Int) (h : -(2 ^ 19) ≤ v) : convertToUInt160 v = numeral 20 (v % 2 ^ 20).toNat :=
  (convert_general 20 (by decide) v).mpr (.inl (by simpa using h))

/-- C23 holds from −2^31 on for the 32-digit function. -/
theorem C23_convert256_partial (v : Int) (h : -(2 ^ 31) ≤ v) : convertToUInt256 v = numeral 32 (v % 2 ^ 32).toNat :=
  (convert_general 32 (by decide) v).mpr (.inl (by simpa using h))

example : convertToUInt160 (-1) = List.replicate 20 '1' := by decide +kernel
example : numeral 4 10 = ['1', '0', '1', '0'] := by decide

/-- C23, exactly where it fails (20 digits): below −2^19 the result is right only for the multiples of 2^19 that are at
most −2^20 − 2^19. -/
theorem C23_convert160_violated (v : Int) :
    convertToUInt160 v ≠ numeral 20 (v % 2 ^ 20).toNat ↔
      v < -(2 ^ 19) ∧ ¬ (v ≤ -(2 ^ 20) - 2 ^ 19 ∧ (2 ^ 19 : Int) ∣ v) := by
  rw [ne_eq, convertToUInt160, convert_general 20 (by decide) v]
  simp only [Nat.reduceSub]
  rw [not_or, not_le]

/-- C23, exactly where it fails (32 digits). -/
theorem C23_convert256_violated (v : Int) :
    convertToUInt256 v ≠ numeral 32 (v % 2 ^ 32).toNat ↔
      v < -(2 ^ 31) ∧ ¬ (v ≤ -(2 ^ 32) - 2 ^ 31 ∧ (2 ^ 31 : Int) ∣ v) := by
  rw [ne_eq, convertToUInt256, convert_general 32 (by decide) v]
  simp only [Nat.reduceSub]
  rw [not_or, not_le]

example : (-600000 : Int) < -(2 ^ 19) ∧ ¬ ((-600000 : Int) ≤ -(2 ^ 20) - 2 ^ 19 ∧ (2 ^ 19 : Int) ∣ -600000) := by decide

private theorem binDigits_length (k : Nat) : ∀ n : Nat, n < 2 ^ (k + 1) → (binDigits n).length ≤ k + 1 := by
  induction k with
  | zero =>
    intro n h
    rw [binDigits, dif_pos (by omega)]
    simp
  | succ k ih =>
    intro n h
    rw [binDigits]
    split
    · simp
    · have := ih (n / 2) (by rw [pow_succ] at h; omega)
      rw [List.length_append, List.length_singleton]
      omega

/-- C23: the numbers just below -2^20 come out as a text with a minus sign and a prefix. -/
theorem C23_sign_violated (v : Int) (h1 : -(2 ^ 20) - 2 ^ 17 < v) (h2 : v < -(2 ^ 20)) :
    ∃ t, convertToUInt160 v = ['-', '0', 'b'] ++ t := by
  refine ⟨binDigits (v + 2 ^ 20).natAbs, ?_⟩
  have hl := binDigits_length 16 (v + 2 ^ 20).natAbs (by norm_num at h1 h2 ⊢; omega)
  rw [convertToUInt160, pyBin, if_pos (by omega)]
  generalize binDigits (v + 2 ^ 20).natAbs = t at hl
  simp only [lastN, List.length_append, List.length_cons, List.length_nil]
  rw [show 0 + 1 + (0 + 1 + 1) + t.length - 20 = 0 by omega]
  rfl

example : convertToUInt160 (-1048581) = "-0b101".toList := by decide +kernel

end Neo.Props
