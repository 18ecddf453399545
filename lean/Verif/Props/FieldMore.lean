import Verif.Props.Field

/-!
# C60, C61, C73: exact results
-/

namespace Neo.Props
open Py EC

private theorem random_last (init : Bytes) (b : UInt8) (s : Nat) (hs : 0 < s) (hl : init.length = s / 8) :
    nextRandomInteger s (init ++ [b]) = .ok (b.toNat % 2 ^ (s % 8) + 256 * leToNat init.reverse) := by
  have hlen : nextRandomLen s = s / 8 + 1 := by rw [nextRandomLen]; omega
  rw [nextRandomInteger, if_neg (by omega), if_neg (by omega)]
  simp only [hlen, Nat.add_sub_cancel]
  by_cases h0 : (s : Int) % 8 = 0
  · rw [if_pos h0, ← hl, List.set_append_right _ _ (le_refl _), Nat.sub_self]
    have h8 : s % 8 = 0 := by omega
    simp [h8, leToNat, Nat.mod_one]
  · rw [if_neg h0, ← hl]
    have hm : (init ++ [b]).modify init.length (fun b => b &&& UInt8.ofNat (2 ^ ((s : Int) % 8).toNat - 1)) =
        init ++ [b &&& UInt8.ofNat (2 ^ ((s : Int) % 8).toNat - 1)] := by
      rw [List.modify_eq_set_getElem?]
      simp
    rw [hm, List.reverse_append]
    simp only [List.reverse_cons, List.reverse_nil, List.nil_append, List.cons_append, leToNat]
    congr 2
    rw [UInt8.toNat_and, UInt8.toNat_ofNat', show ((s : Int) % 8).toNat = s % 8 by omega]
    have hlt : 2 ^ (s % 8) ≤ 2 ^ 7 := Nat.pow_le_pow_right (by omega) (by omega)
    rw [Nat.mod_eq_of_lt (by omega), Nat.and_two_pow_sub_one_eq_mod]

/-- C73, exactly: the values `next_random_integer(s)` can return are those of s // 8 + 1 bytes whose LEAST significant byte is below
2^(s % 8). For s = 256 these are the multiples of 256 below 2^264. -/
theorem C73_values_partial (s : Nat) (hs : 0 < s) (v : Nat) :
    (∃ rand : Bytes, rand.length = nextRandomLen s ∧ nextRandomInteger s rand = .ok v) ↔
      v < 256 ^ (s / 8 + 1) ∧ v % 256 < 2 ^ (s % 8) := by
  have hlen : nextRandomLen s = s / 8 + 1 := by rw [nextRandomLen]; omega
  have hp : 2 ^ (s % 8) ≤ 2 ^ 7 := Nat.pow_le_pow_right (by omega) (by omega)
  constructor
  · rintro ⟨rand, hr, hv⟩
    rw [hlen] at hr
    obtain ⟨init, b, rfl⟩ : ∃ init b, rand = init ++ [b] :=
      ⟨rand.dropLast, rand.getLast (by rintro rfl; simp at hr), (List.dropLast_append_getLast _).symm⟩
    have hi : init.length = s / 8 := by simpa using hr
    rw [random_last init b s hs hi] at hv
    have hv := Except.ok.inj hv
    have h1 : b.toNat % 2 ^ (s % 8) < 2 ^ (s % 8) := Nat.mod_lt _ (by positivity)
    have h2 := leToNat_lt init.reverse
    rw [List.length_reverse, hi] at h2
    rw [pow_succ]
    constructor <;> omega
  · rintro ⟨h1, h2⟩
    rw [pow_succ] at h1
    refine ⟨(natToLE (s / 8) (v / 256)).reverse ++ [UInt8.ofNat (v % 256)], by simp [hlen, natToLE_length], ?_⟩
    rw [random_last _ _ s hs (by simp [natToLE_length]), List.reverse_reverse, leToNat_natToLE_of_lt (by omega),
      UInt8.toNat_ofNat', Nat.mod_eq_of_lt (show v % 256 < 2 ^ 8 by omega), Nat.mod_eq_of_lt h2]
    congr 1
    omega

example : (256 : Nat) < 256 ^ (256 / 8 + 1) ∧ 256 % 256 < 2 ^ (256 % 8) ∧ ¬ (1 % 256 < 2 ^ (256 % 8)) := by decide +kernel

/-- C60, exactly: for x coprime to m the result is an inverse if and only if x is positive or m divides 2 (or x = 0 and m = ±1). -/
theorem C60_iff_partial (x m : Int) (h : IsCoprime x m) : x * modinv x m ≡ 1 [ZMOD m] ↔ 0 < x ∨ m ∣ 2 := by
  rcases lt_trichotomy x 0 with hx | hx | hx
  · have h1 := C60_modinv_negative_violated.1 x m hx h
    constructor
    · intro h2
      right
      have h3 := (h2.symm.trans h1)
      rw [Int.modEq_iff_dvd] at h3
      have h4 : (-1 - 1 : Int) = -2 := by norm_num
      rw [h4, Int.dvd_neg] at h3
      exact h3
    · rintro (h2 | h2)
      · omega
      · refine h1.trans ?_
        rw [Int.modEq_iff_dvd]
        simpa using h2
  · subst hx
    have hu : IsUnit m := isCoprime_zero_left.1 h
    have h2 : m ∣ 2 := hu.dvd
    constructor
    · intro _; exact .inr h2
    · intro _
      rw [Int.modEq_iff_dvd]
      exact hu.dvd
  · exact ⟨fun _ => .inl hx, fun _ => C60_modinv_partial x m hx h⟩

/-- C61, exactly: over an odd modulus, dividing by an integer coprime to it gives the quotient if and only if the divisor is positive or
the dividend is zero modulo p. -/
theorem C61_iff_partial (p l r : Int) (hp : 2 < p) (hodd : p % 2 = 1) (h : IsCoprime r p) :
    fDiv p l r * r ≡ l [ZMOD p] ↔ 0 < r ∨ p ∣ l := by
  rcases lt_trichotomy r 0 with hr | hr | hr
  · have h1 := C61_division_negative_violated p l r (by omega) hr h
    constructor
    · intro h2
      right
      have h3 := h1.symm.trans h2
      rw [Int.modEq_iff_dvd] at h3
      have h4 : p ∣ 2 * l := by
        have : l - -l = 2 * l := by ring
        rwa [this] at h3
      have hc : IsCoprime p 2 := by
        refine ⟨1, -(p / 2), ?_⟩
        omega
      exact hc.dvd_of_dvd_mul_left h4
    · rintro (h2 | h2)
      · omega
      · refine h1.trans ?_
        rw [Int.modEq_iff_dvd]
        have : l - -l = 2 * l := by ring
        rw [this]
        exact h2.mul_left 2
  · subst hr
    have := isCoprime_zero_left.1 h
    rw [Int.isUnit_iff] at this
    omega
  · exact ⟨fun _ => .inl hr, fun _ => (C61_division_partial p l r (by omega) hr h).1⟩

example : IsCoprime (-3 : Int) 7 ∧ (7 : Int) % 2 = 1 := ⟨⟨2, 1, by norm_num⟩, by norm_num⟩

end Neo.Props
