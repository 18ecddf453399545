import Verif.Proofs.Field
import Verif.Proofs.Lucas
import Verif.Proofs.Bytes
import Verif.Proofs.Float
import Verif.Proofs.P256Primes
import Mathlib.NumberTheory.LegendreSymbol.QuadraticReciprocity

/-!
# C60, C61, C65, C72, C73, C75: number theory behind the curve code
-/

namespace Neo.Props
open Py EC

/-! ## C60: GCD and modular inverse -/

/-- C95: `GCD(a, b)` returns (g, c, d) with a·c + b·d = g, where g divides a and b and every common divisor divides g; for all
integers of either sign. -/
theorem C95_gcd (a b : Int) :
    let (g, c, d) := gcdExt a b
    a * c + b * d = g ∧ g ∣ a ∧ g ∣ b ∧ ∀ e : Int, e ∣ a → e ∣ b → e ∣ g := by
  obtain ⟨h1, h2, h3, -⟩ := gcdExt_spec a b
  refine ⟨h1, h2, h3, fun e ha hb => ?_⟩
  show e ∣ (gcdExt a b).1
  rw [← h1]
  exact dvd_add (Dvd.dvd.mul_right ha _) (Dvd.dvd.mul_right hb _)

/-- C60 (the positive case): `modinv(x, m)` is an inverse of x mod m for every positive x coprime to m. -/
theorem C60_modinv_partial (x m : Int) (hx : 0 < x) (h : IsCoprime x m) : x * modinv x m ≡ 1 [ZMOD m] := by
  obtain ⟨g, d, h1, h2, h3, -⟩ := modinv_bezout x m
  have hg : g = 1 := by
    have := Int.isCoprime_iff_gcd_eq_one.mp h
    have := h3 hx
    omega
  exact (Int.modEq_iff_dvd.mpr ⟨-d, by rw [hg] at h1; linear_combination h1⟩).symm

/-- C60 fails for every negative x: `modinv` then returns an inverse of -x. -/
theorem C60_modinv_negative_violated :
    (∀ x m : Int, x < 0 → IsCoprime x m → x * modinv x m ≡ -1 [ZMOD m]) ∧
    ∃ x m : Int, IsCoprime x m ∧ ¬ x * modinv x m ≡ 1 [ZMOD m] := by
  have key : ∀ x m : Int, x < 0 → IsCoprime x m → x * modinv x m ≡ -1 [ZMOD m] := by
    intro x m hx h
    obtain ⟨g, d, h1, h2, -, h4⟩ := modinv_bezout x m
    have hg : g = -1 := by
      have := Int.isCoprime_iff_gcd_eq_one.mp h
      have := h4 hx
      omega
    exact (Int.modEq_iff_dvd.mpr ⟨-d, by rw [hg] at h1; linear_combination h1⟩).symm
  refine ⟨key, -3, 7, ?_, ?_⟩
  · exact ⟨2, 1, by norm_num⟩
  · intro h
    have h2 := key (-3) 7 (by norm_num) ⟨2, 1, by norm_num⟩
    have := h.symm.trans h2
    exact absurd this (by decide)

example : gcdExt 240 46 = (2, -9, 47) := by decide +kernel
example : modinv 3 7 = -2 ∧ modinv (-3) 7 = -2 := by decide +kernel
example : IsCoprime (3 : Int) 7 := ⟨-2, 1, by norm_num⟩

/-! ## C61: field arithmetic -/

private theorem fmod_ok {p : Int} (hp : 0 < p) (x : Int) : Int.fmod x p ≡ x [ZMOD p] ∧ 0 ≤ Int.fmod x p ∧ Int.fmod x p < p :=
  ⟨fmod_modEq hp x, fmod_pos_range x hp⟩

/-- C96 (everything but division): for every modulus and all integers inside the operands, reduced or not, +, -, *, ** and
unary - are right mod p, the results of the binary operators are reduced, and == is congruence. -/
theorem C96_ring_ops (p l r : Int) (hp : 0 < p) :
    (fAdd p l r ≡ l + r [ZMOD p] ∧ 0 ≤ fAdd p l r ∧ fAdd p l r < p) ∧
    (fSub p l r ≡ l - r [ZMOD p] ∧ 0 ≤ fSub p l r ∧ fSub p l r < p) ∧
    (fMul p l r ≡ l * r [ZMOD p] ∧ 0 ≤ fMul p l r ∧ fMul p l r < p) ∧
    (∀ e : Nat, fPow p l e ≡ l ^ e [ZMOD p] ∧ 0 ≤ fPow p l e ∧ fPow p l e < p) ∧
    fNeg p r ≡ -r [ZMOD p] ∧
    (fEq p l r = true ↔ l ≡ r [ZMOD p]) := by
  refine ⟨fmod_ok hp _, fmod_ok hp _, fmod_ok hp _, fun e => fmod_ok hp _, ?_, ?_⟩
  · exact (Int.modEq_iff_dvd.mpr ⟨-1, by unfold fNeg; ring⟩)
  · rw [fEq, decide_eq_true_eq, Int.fmod_eq_emod_of_nonneg _ hp.le, ← Int.dvd_iff_emod_eq_zero]
    rw [show (l ≡ r [ZMOD p]) ↔ (r ≡ l [ZMOD p]) from ⟨fun h => h.symm, fun h => h.symm⟩]
    exact Int.modEq_iff_dvd.symm

/-- C61 (division): the quotient times the divisor is the dividend, for every positive divisor coprime to p (in a prime field:
every positive representative of a nonzero element). -/
theorem C61_division_partial (p l r : Int) (hp : 0 < p) (hr : 0 < r) (h : IsCoprime r p) :
    fDiv p l r * r ≡ l [ZMOD p] ∧ 0 ≤ fDiv p l r ∧ fDiv p l r < p := by
  refine ⟨?_, (fmod_pos_range _ hp)⟩
  have h1 := C60_modinv_partial r p hr h
  calc fDiv p l r * r ≡ l * modinv r p * r [ZMOD p] := (fmod_modEq hp _).mul_right r
    _ = l * (r * modinv r p) := by ring
    _ ≡ l * 1 [ZMOD p] := h1.mul_left l
    _ = l := mul_one l

/-- C61 fails for division by zero, which returns 0 for every dividend instead of raising. -/
theorem C61_division_by_zero_violated (p l : Int) : fDiv p l 0 = 0 := by
  rw [fDiv, modinv, gcdExt.eq_1]
  simp

/-- C61 fails for division by a negative representative: the quotient has the wrong sign. -/
theorem C61_division_negative_violated (p l r : Int) (hp : 0 < p) (hr : r < 0) (h : IsCoprime r p) :
    fDiv p l r * r ≡ -l [ZMOD p] := by
  have h1 := C60_modinv_negative_violated.1 r p hr h
  calc fDiv p l r * r ≡ l * modinv r p * r [ZMOD p] := (fmod_modEq hp _).mul_right r
    _ = l * (r * modinv r p) := by ring
    _ ≡ l * (-1) [ZMOD p] := h1.mul_left l
    _ = -l := by ring

example : fAdd 7 5 4 = 2 ∧ fSub 7 2 5 = 4 ∧ fMul 7 5 4 = 6 ∧ fPow 7 3 5 = 5 ∧ fNeg 7 0 = 7 ∧ fEq 7 10 3 = true := by
  decide +kernel
example : fDiv 7 1 3 = 5 ∧ fDiv 7 1 (-4) = 2 := by
  have h1 := gcdFuel_eq 10 (a := 3) (b := 7) (r := (1, -2, 1)) (by decide +kernel)
  have h2 := gcdFuel_eq 10 (a := -4) (b := 7) (r := (-1, 2, 1)) (by decide +kernel)
  constructor
  · rw [fDiv, modinv, h1]; decide
  · rw [fDiv, modinv, h2]; decide

/-! ## C65: square roots mod p -/

private theorem testBit_one (p : Nat) : EC.testBit p 1 = decide (2 ≤ p % 4) := by
  rw [EC.testBit, Nat.testBit_succ, Nat.testBit_zero]
  congr 1
  rw [eq_iff_iff]
  omega

/-- C97 (soundness, every modulus): what `sqrtCQ(v, p)` returns is a reduced square root of v. -/
theorem C97_sound (v : Int) (p : Nat) (hp : 0 < p) (r : Int) (h : sqrtCQ v p = some r) :
    r * r ≡ v [ZMOD p] ∧ 0 ≤ r ∧ r < p := by
  rw [sqrtCQ] at h
  have hp' : (0 : Int) < p := by exact_mod_cast hp
  by_cases hb : EC.testBit p 1 = true
  · rw [if_pos hb] at h
    simp only at h
    by_cases hz : Int.fmod (modpow v ((p >>> 2) + 1) p * modpow v ((p >>> 2) + 1) p) p = v
    · rw [if_pos hz] at h
      obtain rfl := Option.some.inj h
      refine ⟨?_, fmod_pos_range _ hp'⟩
      conv_rhs => rw [← hz]
      exact (fmod_modEq hp' _).symm
    · rw [if_neg hz] at h; exact absurd h (by simp)
  · rw [if_neg hb] at h
    simp only at h
    split at h <;> exact absurd h (by simp)

private theorem zmod2_sq : ∀ x : ZMod 2, (x * x) ^ 2 = x * x := by decide

/-- C65 (completeness) for primes p = 2 or p ≡ 3 mod 4 and reduced v, which includes secp256r1 and secp256k1. -/
theorem C65_complete_partial (p : Nat) (hprime : p.Prime) (hp : p = 2 ∨ p % 4 = 3) (v : Int) (h0 : 0 ≤ v) (h1 : v < p)
    (hs : ∃ w : Int, w * w ≡ v [ZMOD p]) : ∃ r, sqrtCQ v p = some r := by
  have := Fact.mk hprime
  have hpos : (0 : Int) < p := by exact_mod_cast hprime.pos
  have hb : EC.testBit p 1 = true := by
    rw [testBit_one, decide_eq_true_eq]
    rcases hp with hp | hp
    · rw [hp]
    · omega
  have hz : Int.fmod (modpow v ((p >>> 2) + 1) p * modpow v ((p >>> 2) + 1) p) p = v := by
    obtain ⟨w, hw⟩ := hs
    have hw' : (w : ZMod p) * w = v := by
      have := (ZMod.intCast_eq_intCast_iff _ _ _).mpr hw
      push_cast at this; exact this
    have hc : ((Int.fmod (modpow v ((p >>> 2) + 1) p * modpow v ((p >>> 2) + 1) p) p : Int) : ZMod p) = v := by
      rw [cast_fmod]
      push_cast
      rw [modpow, cast_fmod]
      push_cast
      rw [← pow_add, ← hw']
      have he : p >>> 2 = p / 4 := by rw [Nat.shiftRight_eq_div_pow]
      rcases hp with hp | hp
      · subst hp
        rw [he]
        exact zmod2_sq w
      · have hcard : (w : ZMod p) ^ p = w := ZMod.pow_card _
        rw [he, ← pow_two, ← pow_mul, show 2 * (p / 4 + 1 + (p / 4 + 1)) = p + 1 by omega, pow_succ, hcard, pow_two]
    have hr := fmod_pos_range (modpow v ((p >>> 2) + 1) p * modpow v ((p >>> 2) + 1) p) hpos
    have := (ZMod.intCast_eq_intCast_iff' _ _ _).mp hc
    rwa [Int.emod_eq_of_lt hr.1 hr.2, Int.emod_eq_of_lt h0 h1] at this
  exact ⟨modpow v ((p >>> 2) + 1) p, by rw [sqrtCQ, if_pos hb]; simp only [if_pos hz]⟩

/-- C65 fails for every prime p ≡ 1 mod 4 (`sqrtCQ` never finds any root, not even of 1) and for every unreduced v. -/
theorem C65_incomplete_violated :
    (∀ (p : Nat) (v : Int), p % 4 = 1 → sqrtCQ v p = none) ∧
    (∀ (p : Nat) (v : Int), 0 < p → (v < 0 ∨ p ≤ v) → sqrtCQ v p = none) := by
  constructor
  · intro p v hp
    have hb : EC.testBit p 1 = false := by rw [testBit_one, decide_eq_false_iff_not]; omega
    rw [sqrtCQ, hb]
    simp
  · intro p v hp hv
    have hp' : (0 : Int) < p := by exact_mod_cast hp
    rw [sqrtCQ]
    by_cases hb : EC.testBit p 1 = true
    · rw [if_pos hb]
      simp only
      rw [if_neg]
      intro hz
      have := fmod_pos_range (modpow v ((p >>> 2) + 1) p * modpow v ((p >>> 2) + 1) p) hp'
      omega
    · rw [if_neg hb]
      simp

example : sqrtCQ 2 7 = some 4 := by decide +kernel
example : sqrtCQ 3 7 = none := by decide +kernel
example : sqrtCQ 4 13 = none := by decide +kernel

/-! ## C72: Lucas sequences -/

/-- C72: for odd n the function returns the k-th terms of both sequences mod n, whatever P, Q (of nonzero discriminant), in all
three code paths. -/
theorem C72_lucas (n P Q : Int) (k : Nat) (hn : 2 ≤ n) (hodd : n % 2 = 1) (hD : P * P - 4 * Q ≠ 0) :
    lucasSequence n P Q k = .ok (Spec.Lucas.U P Q k % n, Spec.Lucas.V P Q k % n) := by
  have hpos : 0 < n := by omega
  rw [lucasSequence]
  simp only
  rw [if_neg (by omega), if_neg (by omega), if_neg hD]
  by_cases hk : k = 0
  · subst hk
    rw [if_pos (by rfl)]
    have : (2 : Int) % n = 2 := Int.emod_eq_of_lt (by omega) (by omega)
    simp only [Spec.Lucas.U, Spec.Lucas.V, this, Int.zero_emod]
  · rw [if_neg (by omega)]
    have hbl : bitLength (k : Int) = (natBitLength k - 1) + 1 := by
      rw [bitLength, Int.natAbs_natCast]
      have : natBitLength k ≠ 0 := by rw [natBitLength, if_neg hk]; omega
      omega
    have h1 : k >>> (natBitLength k - 1) = 1 := shift_top hk
    have fin : ∀ u v : Int, LucasAt n P Q k u v →
        (Except.ok (Int.fmod u n, Int.fmod v n) : Except Err (Int × Int)) =
          .ok (Spec.Lucas.U P Q k % n, Spec.Lucas.V P Q k % n) := by
      intro u v h
      rw [Int.fmod_eq_emod_of_nonneg _ hpos.le, Int.fmod_eq_emod_of_nonneg _ hpos.le, h.1, h.2]
    have start : ∀ P Q : Int, LucasAt n P Q (k >>> (natBitLength k - 1)) 1 P := by
      intro P Q; rw [h1]; exact ⟨rfl, rfl⟩
    rw [hbl, Int.toNat_natCast]
    by_cases hQ : Q = 1
    · subst hQ
      rw [if_pos rfl]
      exact fin _ _ (loop1_spec P hpos hodd k _ 1 P (start P 1))
    · rw [if_neg hQ]
      by_cases hPQ : P = 1 ∧ Q = -1
      · obtain ⟨rfl, rfl⟩ := hPQ
        rw [if_pos ⟨rfl, rfl⟩]
        exact fin _ _ (loop2_spec hpos hodd k _ 1 1 (-1) (start 1 (-1)) (by rw [h1]; rfl))
      · rw [if_neg hPQ]
        exact fin _ _ (loop3_spec P Q hpos hodd k _ 1 P Q (start P Q) (by rw [h1, pow_one]))

/-- C72: n < 2, k < 0 and a zero discriminant are rejected with `ValueError`. -/
theorem C72_rejects (n P Q k : Int) (h : n < 2 ∨ k < 0 ∨ P * P - 4 * Q = 0) :
    lucasSequence n P Q k = .error .valueError := by
  rw [lucasSequence]
  simp only
  split_ifs <;> first | rfl | omega

example : lucasSequence 1000003 3 2 20 = .ok (48572, 48574) := by decide +kernel
example : lucasSequence 101 1 (-1) 10 = .ok (55, 123 % 101) := by decide +kernel
example : Spec.Lucas.U 3 2 20 % 1000003 = 48572 := by decide +kernel
example : lucasSequence 101 3 1 10 = .ok (Spec.Lucas.U 3 1 10 % 101, Spec.Lucas.V 3 1 10 % 101) := by decide +kernel

/-! ## C73: random integers -/

private theorem be_lt (ba : Bytes) : leToNat ba.reverse < 256 ^ ba.length := by
  have := leToNat_lt ba.reverse
  rwa [List.length_reverse] at this

/-- C73 (sizes below one byte, any random outcome): the result is below 2^s; negative sizes raise. -/
theorem C73_small_partial (s : Int) (rand : Bytes) (hr : rand.length = nextRandomLen s) :
    (s < 0 → nextRandomInteger s rand = .error .exc) ∧
    (0 ≤ s → s < 8 → ∃ v, nextRandomInteger s rand = .ok v ∧ v < 2 ^ s.toNat) ∧
    (0 ≤ s → ∃ v, nextRandomInteger s rand = .ok v ∧ v < 256 ^ (s.toNat / 8 + 1)) := by
  refine ⟨fun h => by rw [nextRandomInteger, if_pos h], fun h0 h8 => ?_, fun h0 => ?_⟩
  · rw [nextRandomInteger, if_neg (by omega)]
    by_cases hs : s = 0
    · rw [if_pos hs]; exact ⟨0, rfl, by positivity⟩
    · rw [if_neg hs]
      have hlen : nextRandomLen s = 1 := by rw [nextRandomLen]; omega
      have hm : s % 8 = s := Int.emod_eq_of_lt h0 h8
      rw [hlen] at hr
      obtain ⟨b, rfl⟩ := List.length_eq_one_iff.mp hr
      refine ⟨_, rfl, ?_⟩
      rw [hm, if_neg hs, hlen]
      simp only [Nat.sub_self, List.modify_zero_cons, List.reverse_cons, List.reverse_nil, List.nil_append, leToNat]
      rw [Nat.mul_zero, Nat.add_zero, UInt8.toNat_and, UInt8.toNat_ofNat']
      have hpow : 0 < 2 ^ s.toNat := by positivity
      have hle : (2 ^ s.toNat - 1) % 2 ^ 8 ≤ 2 ^ s.toNat - 1 := Nat.mod_le _ _
      have := Nat.and_le_right (n := b.toNat) (m := (2 ^ s.toNat - 1) % 2 ^ 8)
      omega
  · rw [nextRandomInteger, if_neg (by omega)]
    by_cases hs : s = 0
    · rw [if_pos hs]; exact ⟨0, rfl, by positivity⟩
    · rw [if_neg hs]
      refine ⟨_, rfl, ?_⟩
      have hl : nextRandomLen s = s.toNat / 8 + 1 := by rw [nextRandomLen]; omega
      refine lt_of_lt_of_eq (be_lt _) ?_
      congr 1
      split
      · rw [List.length_set, hr, hl]
      · rw [List.length_modify, hr, hl]

/-- C73 fails for every size from 8 bits on: the mask is applied to the least significant byte of the big-endian number, so some
random outcome gives a value of at least 2^s. -/
theorem C73_out_of_range_violated (s : Nat) (hs : 8 ≤ s) :
    ∃ (rand : Bytes) (v : Nat), rand.length = nextRandomLen s ∧ nextRandomInteger s rand = .ok v ∧ 2 ^ s ≤ v := by
  have hl : nextRandomLen s = s / 8 + 1 := by rw [nextRandomLen]; omega
  obtain ⟨t, ht⟩ : ∃ t, s / 8 = t + 1 := ⟨s / 8 - 1, by omega⟩
  suffices h : ∃ v, nextRandomInteger s (List.replicate (s / 8 + 1) 255) = .ok v ∧ 2 ^ s ≤ v by
    obtain ⟨v, h1, h2⟩ := h
    exact ⟨List.replicate (s / 8 + 1) 255, v, by rw [List.length_replicate, hl], h1, h2⟩
  rw [nextRandomInteger, if_neg (by omega), if_neg (by omega)]
  refine ⟨_, rfl, ?_⟩
  · -- whatever the last byte becomes, the first byte stays 255
    have key : ∀ ba : Bytes, ba.length = s / 8 + 1 → ba.head? = some 255 → 2 ^ s ≤ leToNat ba.reverse := by
      intro ba hlen hhead
      cases ba with
      | nil => simp at hhead
      | cons b rest =>
        simp only [List.head?_cons, Option.some.injEq] at hhead
        subst hhead
        simp only [List.length_cons, Nat.add_right_cancel_iff] at hlen
        rw [List.reverse_cons, leToNat_append, List.length_reverse, hlen]
        have h255 : leToNat [255] = 255 := rfl
        rw [h255]
        have h1 : 2 ^ s ≤ 256 ^ (s / 8) * 128 := by
          calc 2 ^ s ≤ 2 ^ (8 * (s / 8) + 7) := Nat.pow_le_pow_right (by decide) (by omega)
            _ = 256 ^ (s / 8) * 128 := by rw [Nat.pow_add, Nat.pow_mul]
        have : 256 ^ (s / 8) * 128 ≤ 256 ^ (s / 8) * 255 := Nat.mul_le_mul_left _ (by decide)
        omega
    apply key
    · split
      · rw [List.length_set, List.length_replicate]
      · rw [List.length_modify, List.length_replicate]
    · rw [hl, ht]
      simp only [Nat.add_sub_cancel, List.replicate_succ]
      split <;> simp

example : nextRandomInteger 8 [255, 17] = .ok 65280 := by decide +kernel
example : nextRandomInteger 5 [255] = .ok 31 := by decide +kernel

/-! ## C75: `FiniteField.sqrt` -/

private theorem floatQuot_exact {a : Int} {d : Nat} (t : Nat) (hd : d = 2 ^ t) (ht : t ≤ 3) (h0 : 0 ≤ a) (h1 : a < 2 ^ 53) :
    floatQuot a d = .ok (a / d) := by
  have hd0 : (d : Int) ≠ 0 := by rw [hd]; positivity
  have hq : ((a : ℚ) / ((d : Int) : ℚ)) = a * 2 ^ (-(t : ℤ)) := by
    rw [hd, zpow_neg, div_eq_mul_inv]; push_cast; rw [zpow_natCast]
  have hrep : Representable ((a : ℚ) / ((d : Int) : ℚ)) := by
    refine ⟨a, -(t : ℤ), ?_, by omega, hq⟩
    rw [abs_of_nonneg h0]; exact h1
  have hnn : 0 ≤ (a : ℚ) / ((d : Int) : ℚ) := by
    apply div_nonneg
    · exact_mod_cast h0
    · exact_mod_cast (Int.natCast_nonneg d)
  have hd1 : (1 : ℚ) ≤ ((d : Int) : ℚ) := by
    have : (1 : Int) ≤ d := by have := Int.natCast_nonneg d; omega
    exact_mod_cast this
  have hle : |(a : ℚ) / ((d : Int) : ℚ)| ≤ 2 ^ 1000 := by
    rw [abs_of_nonneg hnn]
    have h2 : (a : ℚ) / ((d : Int) : ℚ) ≤ a := div_le_self (by exact_mod_cast h0) hd1
    have h3 : (a : ℚ) ≤ 2 ^ 53 := by exact_mod_cast h1.le
    have h4 : (2 : ℚ) ^ 53 ≤ 2 ^ 1000 := pow_le_pow_right₀ (by norm_num) (by norm_num)
    exact h2.trans (h3.trans h4)
  have h5 : floatQuot a d = (PyFloat.fin ((a : ℚ) / ((d : Int) : ℚ))).toInt := by
    unfold floatQuot intTrueDiv
    rw [if_neg hd0, ofRat_fin hle, roundQ_exact hrep]
  have h6 : ⌊(a : ℚ) / ((d : Int) : ℚ)⌋ = a / d := Rat.floor_intCast_div_natCast a d
  rw [h5, ← h6]
  clear hq hrep hle h5 h6
  generalize (a : ℚ) / ((d : Int) : ℚ) = q at hnn ⊢
  have h7 : PyFloat.toInt (.fin q) = .ok (if q < 0 then ⌈q⌉ else ⌊q⌋) := rfl
  rw [h7, if_neg (not_lt.mpr hnn)]

private theorem sqrt_candidate (p : Nat) [Fact p.Prime] (hp : p < 2 ^ 52) (h8 : p % 8 = 3 ∨ p % 8 = 5 ∨ p % 8 = 7) (v w : Int)
    (hw : (w : ZMod p) * w = v) (hv : (v : ZMod p) ≠ 0) :
    ∃ r, fSqrtCandidate p v = .ok r ∧ (r : ZMod p) * r = v ∧ 0 ≤ r ∧ r < p := by
  have hprime : p.Prime := Fact.out
  have hpos : (0 : Int) < p := by exact_mod_cast hprime.pos
  have hcard : (w : ZMod p) ^ p = w := ZMod.pow_card _
  have hw0 : (w : ZMod p) ≠ 0 := by rintro h; rw [h] at hw; exact hv (by rw [← hw]; ring)
  have hsw : Int.fmod (p : Int) 8 = ((p % 8 : Nat) : Int) := by
    rw [Int.fmod_eq_emod_of_nonneg _ (by norm_num)]; rfl
  have q4 : floatQuot ((p : Int) + 1) 4 = .ok (((p : Int) + 1) / 4) := floatQuot_exact 2 (by rfl) (by decide) (by omega) (by omega)
  have q8 : floatQuot ((p : Int) + 3) 8 = .ok (((p : Int) + 3) / 8) := floatQuot_exact 3 (by rfl) (by decide) (by omega) (by omega)
  have tn : ∀ a b : Nat, ((a : Int) / (b : Int)).toNat = a / b := by
    intro a b; rw [← Int.natCast_ediv, Int.toNat_natCast]
  have t4 : (((p : Int) + 1) / 4).toNat = (p + 1) / 4 := by rw [← tn]; rfl
  have t8 : (((p : Int) + 3) / 8).toNat = (p + 3) / 8 := by rw [← tn]; rfl
  rw [fSqrtCandidate]
  simp only [hsw]
  by_cases h37 : p % 8 = 3 ∨ p % 8 = 7
  · rw [if_pos (by omega)]
    simp only [q4]
    refine ⟨_, rfl, ?_, fmod_pos_range _ hpos⟩
    rw [cast_fPow, t4, ← hw, ← pow_add, ← pow_two, ← pow_mul, show 2 * ((p + 1) / 4 + (p + 1) / 4) = p + 1 by omega, pow_succ,
      hcard, pow_two]
  · have h5 : p % 8 = 5 := by omega
    rw [if_neg (by omega), if_pos (by omega)]
    simp only [q4, t4]
    obtain ⟨k, hk⟩ : ∃ k, p = 8 * k + 5 := ⟨p / 8, by omega⟩
    have q5 : floatQuot ((p : Int) - 5) 8 = .ok (((p : Int) - 5) / 8) :=
      floatQuot_exact 3 (by rfl) (by decide) (by omega) (by omega)
    have t5 : (((p : Int) - 5) / 8).toNat = k := by omega
    have e4 : (p + 1) / 4 = 2 * k + 1 := by omega
    have hfermat : (w : ZMod p) ^ (p - 1) = 1 := ZMod.pow_card_sub_one_eq_one hw0
    have hpm : (v : ZMod p) ^ (2 * k + 1) * (v : ZMod p) ^ (2 * k + 1) = 1 := by
      rw [← hw, ← pow_add, ← pow_two, ← pow_mul, show 2 * (2 * k + 1 + (2 * k + 1)) = p - 1 by omega, hfermat]
    by_cases hx : fEq p (fPow p v ((p + 1) / 4)) 1 = true
    · rw [if_pos hx]
      simp only [q8]
      refine ⟨_, rfl, ?_, fmod_pos_range _ hpos⟩
      rw [fEq_iff, cast_fPow, e4, Int.cast_one] at hx
      rw [cast_fPow, t8, ← pow_add, show (p + 3) / 8 + (p + 3) / 8 = 2 * k + 1 + 1 by omega, pow_succ, hx, one_mul]
    · rw [if_neg hx]
      simp only [q5]
      refine ⟨_, rfl, ?_, fmod_pos_range _ hpos⟩
      rw [fEq_iff, cast_fPow, e4, Int.cast_one] at hx
      have hm1 : (v : ZMod p) ^ (2 * k + 1) = -1 := by
        rcases mul_self_eq_one_iff.mp hpm with h | h
        · exact absurd h hx
        · exact h
      have h2 : (2 : ZMod p) ^ (p / 2) = -1 := by
        have hne2 : p ≠ 2 := by omega
        have h20 : (2 : ZMod p) ≠ 0 := by
          intro h0
          have : ((2 : ℕ) : ZMod p) = 0 := by exact_mod_cast h0
          rw [ZMod.natCast_eq_zero_iff] at this
          exact hne2 ((Nat.prime_dvd_prime_iff_eq hprime Nat.prime_two).mp this)
        rcases ZMod.pow_div_two_eq_neg_one_or_one p h20 with h | h
        · exfalso
          have := (ZMod.euler_criterion p h20).mpr h
          rw [ZMod.exists_sq_eq_two_iff hne2] at this
          omega
        · exact h
      rw [cast_fMul, cast_fMul, cast_fPow, cast_fMul, t5]
      push_cast
      calc ((4 : ZMod p) * v) ^ k * 2 * v * ((4 * v) ^ k * 2 * v)
          = (4 : ZMod p) ^ (2 * k + 1) * (v : ZMod p) ^ (2 * k + 1) * v := by rw [mul_pow]; ring
        _ = (2 : ZMod p) ^ (p / 2) * (-1) * v := by
            rw [hm1, show (4 : ZMod p) = 2 ^ 2 by norm_num, ← pow_mul, show 2 * (2 * k + 1) = p / 2 by omega]
        _ = v := by rw [h2]; ring

/-- C75 (moduli below 2^52): for every odd prime p not congruent 1 mod 8, every nonzero square v and either parity,
`F.value(v).sqrt(flag)` is the square root of v with that parity. -/
theorem C75_sqrt_partial (p : Nat) (hprime : p.Prime) (hp : p < 2 ^ 52) (h8 : p % 8 = 3 ∨ p % 8 = 5 ∨ p % 8 = 7) (v : Int)
    (hv : ¬ (p : Int) ∣ v) (hs : ∃ w : Int, w * w ≡ v [ZMOD p]) (flag : Int) (hf : flag = 0 ∨ flag = 1) :
    ∃ r, fSqrt p v flag = .ok r ∧ r * r ≡ v [ZMOD p] ∧ r % 2 = flag ∧ 0 < r ∧ r < p := by
  have := Fact.mk hprime
  obtain ⟨w, hw⟩ := hs
  have hw' : (w : ZMod p) * w = v := by
    have := (ZMod.intCast_eq_intCast_iff _ _ _).mpr hw
    push_cast at this; exact this
  have hv' : (v : ZMod p) ≠ 0 := by rwa [ne_eq, ZMod.intCast_zmod_eq_zero_iff_dvd]
  obtain ⟨r, hr, hsq, h0, h1⟩ := sqrt_candidate p hp h8 v w hw' hv'
  have hr0 : r ≠ 0 := by rintro rfl; apply hv'; rw [← hsq]; simp
  have hsq' : r * r ≡ v [ZMOD p] := by
    rw [← ZMod.intCast_eq_intCast_iff]; push_cast; exact hsq
  have hv0 : v ≠ 0 := by rintro rfl; exact hv (dvd_zero _)
  rw [fSqrt, if_neg hv0]
  simp only [hr]
  rw [Int.fmod_eq_emod_of_nonneg _ (by norm_num)]
  by_cases hpar : r % 2 = flag
  · rw [if_pos hpar]
    exact ⟨r, rfl, hsq', hpar, by omega, h1⟩
  · rw [if_neg hpar]
    refine ⟨_, rfl, ?_, ?_, ?_, ?_⟩
    · rw [← ZMod.intCast_eq_intCast_iff]; push_cast; rw [cast_fNeg, neg_mul_neg]; exact hsq
    all_goals unfold fNeg; omega

/-- C75: for p ≡ 1 mod 8 (and even p) square roots of nonzero values are refused with an exception. -/
theorem C75_unsupported (p : Int) (h8 : p % 8 ≠ 3 ∧ p % 8 ≠ 5 ∧ p % 8 ≠ 7) (v flag : Int) (hv : v ≠ 0) :
    fSqrt p v flag = .error .exc := by
  rw [fSqrt, if_neg hv, fSqrtCandidate]
  rw [Int.fmod_eq_emod_of_nonneg _ (by norm_num), if_neg (by omega), if_neg (by omega)]

/-- The exponent `(p + 1) / 4` computed through a float, for the prime of secp256r1: 2^254 - 2^222 instead of
2^254 - 2^222 + 2^190 + 2^94. -/
private theorem p256_exponent : floatQuot ((secp256r1Curve.p : Int) + 1) 4 = .ok (2 ^ 254 - 2 ^ 222) := by
  have hlog : Int.log 2 |(((secp256r1Curve.p : Int) + 1 : Int) : ℚ) / ((4 : Int) : ℚ)| = 253 := by
    have : |(((secp256r1Curve.p : Int) + 1 : Int) : ℚ) / ((4 : Int) : ℚ)| =
        ((28948022302589062190674361737351893382521535853822578548883407827216774463488 : ℕ) : ℚ) := by
      rw [abs_of_nonneg]
      · simp only [secp256r1Curve]; norm_num
      · simp only [secp256r1Curve]; norm_num
    rw [this, Int.log_natCast]
    norm_cast
  have hu : ulpExp ((((secp256r1Curve.p : Int) + 1 : Int) : ℚ) / ((4 : Int) : ℚ)) = 201 := by
    rw [ulpExp, hlog]; rfl
  have hround : roundQ ((((secp256r1Curve.p : Int) + 1 : Int) : ℚ) / ((4 : Int) : ℚ)) = ((2 ^ 254 - 2 ^ 222 : Int) : ℚ) := by
    rw [roundQ, hu]
    have hfl : ⌊(((secp256r1Curve.p : Int) + 1 : Int) : ℚ) / ((4 : Int) : ℚ) / 2 ^ (201 : ℤ)⌋ = 2 ^ 53 - 2 ^ 21 := by
      rw [Int.floor_eq_iff]
      simp only [secp256r1Curve]
      constructor <;> norm_num
    rw [rne, hfl, if_pos]
    · push_cast; norm_num
    · simp only [secp256r1Curve]; norm_num
  have hle : |(((secp256r1Curve.p : Int) + 1 : Int) : ℚ) / ((4 : Int) : ℚ)| ≤ 2 ^ 1000 := by
    have h1 : |(((secp256r1Curve.p : Int) + 1 : Int) : ℚ) / ((4 : Int) : ℚ)| ≤ 2 ^ 256 := by
      rw [abs_of_nonneg] <;> simp only [secp256r1Curve] <;> norm_num
    exact h1.trans (pow_le_pow_right₀ (by norm_num) (by norm_num))
  have h5 : floatQuot ((secp256r1Curve.p : Int) + 1) 4 = (PyFloat.fin ((2 ^ 254 - 2 ^ 222 : Int) : ℚ)).toInt := by
    rw [← hround, ← ofRat_fin hle, floatQuot.eq_1, intTrueDiv, if_neg (by decide), ofRat_fin hle]
  rw [h5]
  have hint : ∀ z : Int, 0 ≤ z → PyFloat.toInt (.fin (z : ℚ)) = .ok z := by
    intro z hz
    have h7 : PyFloat.toInt (.fin (z : ℚ)) = .ok (if (z : ℚ) < 0 then ⌈(z : ℚ)⌉ else ⌊(z : ℚ)⌋) := rfl
    rw [h7, if_neg (by exact_mod_cast not_lt.mpr hz), Int.floor_intCast]
  exact hint _ (by norm_num)

/-- What `sqrt` computes in the field of secp256r1: a root of v^(2e), e the rounded exponent. -/
theorem p256_fSqrt (v flag : Int) (hv : v ≠ 0) :
    ∃ r, fSqrt secp256r1Curve.p v flag = .ok r ∧ (r : ZMod secp256r1Curve.p) * r = v ^ (2 ^ 254 - 2 ^ 222 + (2 ^ 254 - 2 ^ 222)) := by
  have hcand : fSqrtCandidate secp256r1Curve.p v = .ok (fPow secp256r1Curve.p v (2 ^ 254 - 2 ^ 222)) := by
    rw [fSqrtCandidate, if_pos (by decide)]
    simp only [p256_exponent]
    rfl
  have heq : ((fPow secp256r1Curve.p v (2 ^ 254 - 2 ^ 222) : Int) : ZMod secp256r1Curve.p) *
      (fPow secp256r1Curve.p v (2 ^ 254 - 2 ^ 222) : Int) = v ^ (2 ^ 254 - 2 ^ 222 + (2 ^ 254 - 2 ^ 222)) := by
    rw [cast_fPow, ← pow_add]
  rw [fSqrt, if_neg hv, hcand]
  simp only
  split
  · exact ⟨_, rfl, heq⟩
  · refine ⟨_, rfl, ?_⟩
    rw [cast_fNeg, neg_mul_neg]
    exact heq

/-- C75 fails for the curve's own prime: in the field of secp256r1 `F.value(4).sqrt(flag)` is not a square root of 4 (which is a
square), because the exponent is rounded to a float. -/
theorem C75_sqrt_p256_violated (flag : Int) :
    secp256r1Curve.p.Prime ∧ secp256r1Curve.p % 8 = 7 ∧
    ∃ r, fSqrt secp256r1Curve.p 4 flag = .ok r ∧ ¬ r * r ≡ 4 [ZMOD secp256r1Curve.p] := by
  have hprime : secp256r1Curve.p.Prime := P256.prime_115792089210356248762697446949407573530086143415290314195533631308867097853951
  refine ⟨hprime, by decide, ?_⟩
  obtain ⟨r, hr, hsq⟩ := p256_fSqrt 4 flag (by decide)
  refine ⟨r, hr, ?_⟩
  rw [← ZMod.intCast_eq_intCast_iff, Int.cast_mul, hsq]
  have h4 : ((4 : Int) : ZMod secp256r1Curve.p) = ((4 : ℕ) : ZMod secp256r1Curve.p) := by norm_cast
  have hp := Pratt.powMod_eq (b := 4) (e := 2 ^ 254 - 2 ^ 222 + (2 ^ 254 - 2 ^ 222)) (m := secp256r1Curve.p) (by decide +kernel)
  rw [h4, ← hp]
  intro h'
  rw [ZMod.natCast_eq_natCast_iff'] at h'
  revert h'
  decide +kernel

example : Nat.Prime 13 ∧ ¬ ((13 : Nat) : Int) ∣ 3 ∧ (4 : Int) * 4 ≡ 3 [ZMOD (13 : Nat)] := ⟨by norm_num, by decide, by decide⟩

end Neo.Props
