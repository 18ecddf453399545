import Verif.Props.Fixed8Exact

/-!
# C30 for amounts of 2^52 satoshis (45,035,996.27 units) and more
-/

namespace Neo.Props
open Py Fixed8

theorem rne_eq_iff (q : ℚ) (n : ℤ) : rne q = n ↔ |q - n| < 1 / 2 ∨ (|q - n| = 1 / 2 ∧ Even n) := by
  have h0 := Int.floor_le q
  have h1 := Int.lt_floor_add_one q
  generalize hf : ⌊q⌋ = f at h0 h1
  have key : ∀ m : ℤ, (m = f ∨ m = f + 1) ∨ 1 ≤ |q - m| := by
    intro m
    rcases lt_trichotomy m f with h | h | h
    · right
      have : (m : ℚ) + 1 ≤ f := by exact_mod_cast h
      rw [abs_of_nonneg (by linarith)]
      linarith
    · exact Or.inl (Or.inl h)
    · rcases eq_or_lt_of_le (show f + 1 ≤ m from h) with h | h
      · exact Or.inl (Or.inr h.symm)
      · right
        have : (f : ℚ) + 1 + 1 ≤ m := by exact_mod_cast h
        rw [abs_of_nonpos (by linarith)]
        linarith
  have e0 : |q - (f : ℚ)| = q - f := abs_of_nonneg (by linarith)
  have e1 : |q - ((f + 1 : ℤ) : ℚ)| = f + 1 - q := by
    push_cast
    rw [abs_of_nonpos (by linarith)]
    ring
  have ev : Even f ↔ f % 2 = 0 := Int.even_iff
  have ev1 : Even (f + 1) ↔ ¬ f % 2 = 0 := by rw [Int.even_iff]; omega
  constructor
  · intro h
    unfold rne at h
    rw [hf] at h
    split at h
    · subst h; rw [e0]; left; linarith
    · split at h
      · subst h; rw [e1]; left; linarith
      · have : q - f = 1 / 2 := by linarith
        split at h
        · next h2 => subst h; rw [e0]; right; exact ⟨this, ev.2 h2⟩
        · next h2 => subst h; rw [e1]; right; exact ⟨by linarith, ev1.2 h2⟩
  · intro h
    unfold rne
    rw [hf]
    rcases key n with (rfl | rfl) | hk
    · rw [e0] at h
      rcases h with h | ⟨h, h'⟩
      · rw [if_pos h]
      · rw [if_neg (by linarith), if_neg (by linarith), if_pos (ev.1 h')]
    · rw [e1] at h
      rcases h with h | ⟨h, h'⟩
      · rw [if_neg (by linarith), if_pos (by linarith)]
      · rw [if_neg (by linarith), if_neg (by linarith), if_neg (ev1.1 h')]
    · exfalso
      rcases h with h | ⟨h, -⟩ <;> linarith

/-- Rounding a scaled product to 53 bits. -/
private theorem round_scaled {v k N B M Y : ℕ} (hN : N = v * 2 ^ k) (hM : N = 2 ^ B * M) (hk : k ≤ 1000)
    (h1 : 2 ^ (52 + B) ≤ Y) (h2 : Y < 2 ^ (53 + B)) :
    roundQ ((Y : ℚ) / 2 ^ k) = v ↔ |((Y : ℚ) - N) / 2 ^ B| < 1 / 2 ∨ (|((Y : ℚ) - N) / 2 ^ B| = 1 / 2 ∧ Even M) := by
  have hp : (0 : ℚ) < 2 ^ k := by positivity
  have hb : (0 : ℚ) < 2 ^ B := by positivity
  have e : (2 : ℚ) ^ ((B : ℤ) - k) = 2 ^ B / 2 ^ k := by rw [zpow_sub₀ (by norm_num), zpow_natCast, zpow_natCast]
  have g1 : (2 : ℚ) ^ 52 * 2 ^ B ≤ Y := by rw [← pow_add]; exact_mod_cast h1
  have g2 : (Y : ℚ) < 2 ^ 53 * 2 ^ B := by rw [← pow_add]; exact_mod_cast h2
  have hu : ulpExp ((Y : ℚ) / 2 ^ k) = (B : ℤ) - k := by
    apply ulpExp_eq
    · rw [zpow_add₀ (by norm_num), e, div_mul_eq_mul_div, div_le_div_iff_of_pos_right hp, mul_comm]
      exact_mod_cast g1
    · rw [zpow_add₀ (by norm_num), e, div_mul_eq_mul_div, div_lt_div_iff_of_pos_right hp, mul_comm]
      exact_mod_cast g2
    · omega
  have hv : (v : ℚ) = ((M : ℤ) : ℚ) * (2 ^ B / 2 ^ k) := by
    have : (v : ℚ) * 2 ^ k = 2 ^ B * M := by exact_mod_cast hN.symm.trans hM
    rw [Int.cast_natCast]
    field_simp
    linarith
  have hq : (Y : ℚ) / 2 ^ k / (2 ^ B / 2 ^ k) = Y / 2 ^ B := by field_simp
  have hd : (Y : ℚ) / 2 ^ B - ((M : ℤ) : ℚ) = ((Y : ℚ) - N) / 2 ^ B := by
    have : (N : ℚ) = 2 ^ B * M := by exact_mod_cast hM
    rw [this, Int.cast_natCast]
    field_simp
  have hne : (2 : ℚ) ^ B / 2 ^ k ≠ 0 := (div_pos hb hp).ne'
  unfold roundQ
  rw [hu, e, hq, hv, mul_left_inj' hne, Int.cast_inj, rne_eq_iff, hd]
  simp only [Int.even_coe_nat]

private theorem multiple_of {v k N B : ℕ} (hN : N = v * 2 ^ k) (hB : 2 ^ (52 + B) ≤ N) (hr : Representable (v : ℚ)) :
    2 ^ B ∣ N := by
  have hp : (0 : ℚ) < 2 ^ k := by positivity
  have e : ∀ a : ℕ, (2 : ℚ) ^ ((a : ℤ) - k) = 2 ^ a / 2 ^ k := fun a => by rw [zpow_sub₀ (by norm_num), zpow_natCast, zpow_natCast]
  have hNq : (N : ℚ) = v * 2 ^ k := by exact_mod_cast hN
  have g1 : (2 : ℚ) ^ (52 + B) ≤ N := by exact_mod_cast hB
  obtain ⟨z, hz⟩ := representable_multiple hr (((52 + B : ℕ) : ℤ) - k) (by
    rw [e, abs_of_nonneg (by positivity), div_le_iff₀ hp, ← hNq]
    exact g1) ((B : ℤ) - k) (by push_cast; omega)
  rw [e] at hz
  have : (N : ℚ) = z * 2 ^ B := by
    rw [hNq, hz]
    field_simp
  have hi : (N : ℤ) = z * 2 ^ B := by exact_mod_cast this
  have : ((2 ^ B : ℕ) : ℤ) ∣ (N : ℤ) := ⟨z, by rw [hi]; push_cast; ring⟩
  exact_mod_cast this

private theorem half_cases {R Y N M B : ℕ} (hR : R < 100000000) (hY : Y = N - R + (if R < 50000000 then 0 else 100000000)) (hRN : R ≤ N)
    (hB : B = 26 ∨ B = 27) :
    (|((Y : ℚ) - N) / 2 ^ B| < 1 / 2 ∨ (|((Y : ℚ) - N) / 2 ^ B| = 1 / 2 ∧ Even M)) ↔
      ((R < 2 ^ (B - 1) ∧ R < 50000000) ∨ (100000000 < R + 2 ^ (B - 1) ∧ 50000000 ≤ R)) ∨
      (((R = 2 ^ (B - 1) ∧ R < 50000000) ∨ (100000000 = R + 2 ^ (B - 1) ∧ 50000000 ≤ R)) ∧ Even M) := by
  have hb : (0 : ℚ) < 2 ^ B := by positivity
  have hh : (2 : ℚ) ^ B = 2 * ((2 ^ (B - 1) : ℕ) : ℚ) := by rcases hB with rfl | rfl <;> norm_num
  generalize 2 ^ (B - 1) = T at *
  rw [abs_div, abs_of_pos hb, div_lt_iff₀ hb, div_eq_iff hb.ne', hh]
  by_cases h : R < 50000000
  · have : (Y : ℚ) - N = -(R : ℚ) := by
      rw [if_pos h, add_zero] at hY
      rw [hY, Nat.cast_sub hRN]
      ring
    have e1 : (R : ℚ) < T ↔ R < T := Nat.cast_lt
    have e2 : (R : ℚ) = T ↔ R = T := Nat.cast_inj
    rw [this, abs_neg, abs_of_nonneg (by positivity), show (1 : ℚ) / 2 * (2 * (T : ℚ)) = T by ring, e1, e2]
    constructor
    · rintro (h1 | ⟨h1, h2⟩)
      · exact Or.inl (Or.inl ⟨h1, h⟩)
      · exact Or.inr ⟨Or.inl ⟨h1, h⟩, h2⟩
    · rintro ((⟨h1, -⟩ | ⟨-, h1⟩) | ⟨⟨h1, -⟩ | ⟨-, h1⟩, h2⟩)
      · exact Or.inl h1
      · omega
      · exact Or.inr ⟨h1, h2⟩
      · omega
  · have : (Y : ℚ) - N = ((100000000 - R : ℕ) : ℚ) := by
      rw [if_neg h] at hY
      rw [hY, Nat.cast_add, Nat.cast_sub hRN, Nat.cast_sub hR.le]
      ring
    have e1 : ((100000000 - R : ℕ) : ℚ) < T ↔ 100000000 - R < T := Nat.cast_lt
    have e2 : ((100000000 - R : ℕ) : ℚ) = T ↔ 100000000 - R = T := Nat.cast_inj
    rw [this, abs_of_nonneg (by positivity), show (1 : ℚ) / 2 * (2 * (T : ℚ)) = T by ring, e1, e2]
    constructor
    · rintro (h1 | ⟨h1, h2⟩)
      · exact Or.inl (Or.inr ⟨by omega, by omega⟩)
      · exact Or.inr ⟨Or.inr ⟨by omega, by omega⟩, h2⟩
    · rintro ((⟨-, h1⟩ | ⟨h1, -⟩) | ⟨⟨-, h1⟩ | ⟨h1, -⟩, h2⟩)
      · omega
      · left; omega
      · omega
      · right; exact ⟨by omega, h2⟩

private theorem final_cases {R N : ℕ} (hR : R < 100000000) (hlt : N < 2 ^ 79) (hd : 2 ^ 26 ∣ N) :
    (((R < 2 ^ (26 - 1) ∧ R < 50000000) ∨ (100000000 < R + 2 ^ (26 - 1) ∧ 50000000 ≤ R)) ∨
      (((R = 2 ^ (26 - 1) ∧ R < 50000000) ∨ (100000000 = R + 2 ^ (26 - 1) ∧ 50000000 ≤ R)) ∧ 2 ^ 27 ∣ N)) ↔
    ((2 ^ 79 ≤ N ∧ 2 ^ 27 ∣ N) ∨
      (N < 2 ^ 79 ∧ 2 ^ 26 ∣ N ∧ (R < 2 ^ 25 ∨ 10 ^ 8 - 2 ^ 25 < R ∨ (2 ^ 27 ∣ N ∧ (R = 2 ^ 25 ∨ R = 10 ^ 8 - 2 ^ 25))))) := by
  have hge : ¬ 2 ^ 79 ≤ N := Nat.not_le.2 hlt
  have a1 : (R < 2 ^ (26 - 1) ∧ R < 50000000) ↔ R < 2 ^ 25 := by clear hge hlt hd; omega
  have a2 : (100000000 < R + 2 ^ (26 - 1) ∧ 50000000 ≤ R) ↔ 10 ^ 8 - 2 ^ 25 < R := by clear hge hlt hd; omega
  have a3 : (R = 2 ^ (26 - 1) ∧ R < 50000000) ↔ R = 2 ^ 25 := by clear hge hlt hd; omega
  have a4 : (100000000 = R + 2 ^ (26 - 1) ∧ 50000000 ≤ R) ↔ R = 10 ^ 8 - 2 ^ 25 := by clear hge hlt hd; omega
  rw [a1, a2, a3, a4]
  clear a1 a2 a3 a4 hR
  generalize (2 ^ 79 ≤ N) = p1 at *
  generalize (N < 2 ^ 79) = p2 at *
  generalize (2 ^ 26 ∣ N) = p3 at *
  generalize (2 ^ 27 ∣ N) = p4 at *
  generalize (R < 2 ^ 25) = p5 at *
  generalize (10 ^ 8 - 2 ^ 25 < R) = p6 at *
  generalize (R = 2 ^ 25) = p7 at *
  generalize (R = 10 ^ 8 - 2 ^ 25) = p8 at *
  tauto

/-- C30, exactly when it holds for floats, for all amounts v from 2^52 to 2^53 * 10^8 - 1 satoshis (64-bit amounts are less than 2^64): let
N = v * 2^k be the amount scaled to at least 2^52 and less than 2^53 units, R its part below a unit, in satoshis. Making an amount
from the float nearest to v/10^8 gives v exactly if
- in case N is 2^79 or more: N is a multiple of 2^27;
- in case N is less: N is a multiple of 2^26, and R is less than 2^25 or greater than 10^8 - 2^25, or, if N is a multiple of 2^27,
  equal to one of them. -/
theorem C30_float_large_iff_partial (v k N R : ℕ) (hv : 2 ^ 52 ≤ v) (hN : N = v * 2 ^ k) (h1 : 2 ^ 52 * 100000000 ≤ N)
    (h2 : N < 2 ^ 53 * 100000000) (hR : R = N % 100000000) :
    fromDecimal (.float (.ofRat ((v : ℚ) / 100000000))) = .ok v ↔
      (2 ^ 79 ≤ N ∧ 2 ^ 27 ∣ N) ∨
      (N < 2 ^ 79 ∧ 2 ^ 26 ∣ N ∧ (R < 2 ^ 25 ∨ 10 ^ 8 - 2 ^ 25 < R ∨ (2 ^ 27 ∣ N ∧ (R = 2 ^ 25 ∨ R = 10 ^ 8 - 2 ^ 25)))) := by
  have hk : k ≤ 27 := by
    by_contra hk
    have : 2 ^ 28 ≤ 2 ^ k := Nat.pow_le_pow_right (by norm_num) (by omega)
    have : 2 ^ 52 * 2 ^ 28 ≤ v * 2 ^ k := Nat.mul_le_mul hv this
    omega
  have hk1 : 1 ≤ 2 ^ k := Nat.one_le_two_pow
  have hvN : v ≤ N := by rw [hN]; exact Nat.le_mul_of_pos_right v hk1
  have hp : (0 : ℚ) < 2 ^ k := by positivity
  have hfl := from_float v (lt_of_le_of_lt hvN (h2.trans (by norm_num)))
  have hx := round_amount v k (hN ▸ h1) (hN ▸ h2) (by omega)
  rw [← hN] at hx
  have hRlt : R < 100000000 := by rw [hR]; exact Nat.mod_lt _ (by norm_num)
  have hdm := Nat.div_add_mod N 100000000
  rw [← hR] at hdm
  rw [hfl, Except.ok.injEq]
  -- the case of a multiple of 2^B
  have main : ∀ B M : ℕ, (B = 26 ∨ B = 27) → N = 2 ^ B * M → 2 ^ (52 + B) ≤ N → (B = 26 → N < 2 ^ 79) → k ≤ B →
      (⌊roundQ (roundQ ((v : ℚ) / 100000000) * 100000000)⌋ = (v : ℤ) ↔
      ((R < 2 ^ (B - 1) ∧ R < 50000000) ∨ (100000000 < R + 2 ^ (B - 1) ∧ 50000000 ≤ R)) ∨
      (((R = 2 ^ (B - 1) ∧ R < 50000000) ∨ (100000000 = R + 2 ^ (B - 1) ∧ 50000000 ≤ R)) ∧ Even M)) := by
    intro B M hB hM hlow hup hkB
    have hne : N % 100000000 ≠ 50000000 := by rcases hB with rfl | rfl <;> omega
    have hx' := hx
    rw [rne_frac _ hne, ← hR] at hx'
    have hy : roundQ ((v : ℚ) / 100000000) * 100000000 =
        ((N - R + (if R < 50000000 then 0 else 100000000) : ℕ) : ℚ) / 2 ^ k := by
      rw [hx', show N - R = 100000000 * (N / 100000000) by omega]
      generalize N / 100000000 = m
      split <;> push_cast <;> ring
    generalize hY : N - R + (if R < 50000000 then 0 else 100000000) = Y at hy
    have hYl : 2 ^ (52 + B) ≤ Y := by
      rcases hB with rfl | rfl
      · split at hY <;> omega
      · split at hY <;> omega
    have hYu : Y < 2 ^ (53 + B) := by
      rcases hB with rfl | rfl
      · have := hup rfl
        split at hY <;> omega
      · split at hY <;> omega
    rw [hy]
    have hint : ∃ z : ℤ, roundQ ((Y : ℚ) / 2 ^ k) = z * 2 ^ (0 : ℤ) := by
      have hge : (2 : ℚ) ^ 52 ≤ (Y : ℚ) / 2 ^ k := by
        rw [le_div_iff₀ hp]
        have : 2 ^ 52 * 2 ^ k ≤ Y := by
          rw [← pow_add]
          exact le_trans (Nat.pow_le_pow_right (by norm_num) (by omega)) hYl
        exact_mod_cast this
      have h52 : Representable ((2 : ℚ) ^ 52) := ⟨1, 52, by norm_num, by norm_num, by norm_num⟩
      have := le_roundQ h52 hge
      exact representable_multiple (roundQ_representable _) 52 (by
        rw [abs_of_nonneg (le_trans (by positivity) this)]
        exact_mod_cast this) 0 (by norm_num)
    obtain ⟨z, hz⟩ := hint
    rw [zpow_zero, mul_one] at hz
    have hfloor : ⌊roundQ ((Y : ℚ) / 2 ^ k)⌋ = (v : ℤ) ↔ roundQ ((Y : ℚ) / 2 ^ k) = v := by
      rw [hz, Int.floor_intCast]
      constructor
      · intro h; rw [h, Int.cast_natCast]
      · intro h; exact_mod_cast h
    rw [hfloor, round_scaled hN hM (by omega) hYl hYu]
    exact half_cases hRlt hY.symm (by omega) hB
  -- amounts that are not multiples
  have anti : ∀ B : ℕ, k ≤ 26 → 2 ^ (52 + B) ≤ N → ⌊roundQ (roundQ ((v : ℚ) / 100000000) * 100000000)⌋ = (v : ℤ) → 2 ^ B ∣ N := by
    intro B hk26 hlow h
    refine multiple_of hN hlow ?_
    have hge : (2 : ℚ) ^ 52 ≤ roundQ ((v : ℚ) / 100000000) * 100000000 := by
      rw [hx]
      have h3 : ((2 ^ 52 : ℤ) : ℤ) ≤ rne ((N : ℚ) / 100000000) := by
        have hc := rne_close ((N : ℚ) / 100000000)
        have : (2 : ℚ) ^ 52 ≤ (N : ℚ) / 100000000 := by
          rw [le_div_iff₀ (by norm_num)]
          exact_mod_cast h1
        rw [abs_le] at hc
        have : ((2 ^ 52 : ℤ) : ℚ) - 1 < rne ((N : ℚ) / 100000000) := by push_cast; linarith [hc.1]
        have : (2 ^ 52 : ℤ) - 1 < rne ((N : ℚ) / 100000000) := by exact_mod_cast this
        omega
      have h3q : (2 : ℚ) ^ 52 ≤ (rne ((N : ℚ) / 100000000) : ℚ) := by exact_mod_cast h3
      have h4 : (2 : ℚ) ^ k ≤ 100000000 := by
        have : 2 ^ k ≤ 2 ^ 26 := Nat.pow_le_pow_right (by norm_num) hk26
        exact_mod_cast this.trans (by norm_num)
      rw [div_mul_eq_mul_div, le_div_iff₀ hp]
      exact mul_le_mul h3q h4 hp.le (le_trans (by positivity) h3q)
    have h52 : Representable ((2 : ℚ) ^ 52) := ⟨1, 52, by norm_num, by norm_num, by norm_num⟩
    have hge' := le_roundQ h52 hge
    obtain ⟨z, hz⟩ := representable_multiple (roundQ_representable (roundQ ((v : ℚ) / 100000000) * 100000000)) 52 (by
        rw [abs_of_nonneg (le_trans (by positivity) hge')]
        exact_mod_cast hge') 0 (by norm_num)
    rw [zpow_zero, mul_one] at hz
    rw [hz, Int.floor_intCast] at h
    have := roundQ_representable (roundQ ((v : ℚ) / 100000000) * 100000000)
    rw [hz, h, Int.cast_natCast] at this
    exact this
  rcases Nat.lt_or_ge N (2 ^ 79) with hlt | hge
  · have hk26 : k ≤ 26 := by
      by_contra hc
      have : k = 27 := by omega
      subst this
      omega
    have hlow : 2 ^ (52 + 26) ≤ N := le_trans (by norm_num) h1
    by_cases hd : 2 ^ 26 ∣ N
    · obtain ⟨M, hM⟩ := hd
      have hev : Even M ↔ 2 ^ 27 ∣ N := by
        rw [hM, Nat.even_iff]
        constructor
        · intro h; exact ⟨M / 2, by omega⟩
        · rintro ⟨c, hc⟩; omega
      rw [main 26 M (Or.inl rfl) hM hlow (fun _ => hlt) hk26, hev]
      have : 2 ^ 26 ∣ N := ⟨M, hM⟩
      exact final_cases hRlt hlt this
    · constructor
      · intro h; exact absurd (anti 26 hk26 hlow h) hd
      · rintro (⟨h, -⟩ | ⟨-, h, -⟩)
        · omega
        · exact absurd h hd
  · have hlow : 2 ^ (52 + 27) ≤ N := le_trans (by norm_num) hge
    have hnot : ¬ N < 2 ^ 79 := by omega
    by_cases hd : 2 ^ 27 ∣ N
    · obtain ⟨M, hM⟩ := hd
      rw [main 27 M (Or.inr rfl) hM hlow (fun h => by omega) hk]
      have : 2 ^ 27 ∣ N := ⟨M, hM⟩
      simp only [hge, this, true_and, true_or, iff_true]
      left
      norm_num
      omega
    · have hk26 : k ≤ 26 := by
        by_contra hc
        have : k = 27 := by omega
        subst this
        exact hd ⟨v, by omega⟩
      constructor
      · intro h; exact absurd (anti 27 hk26 hlow h) hd
      · rintro (⟨-, h⟩ | ⟨h, -⟩)
        · exact absurd h hd
        · omega

/-- C30 in units, up to 2^27 = 134,217,728 of them, more than there are (100,000,000): from 2^52 satoshis on and below 2^26 = 67,108,864
units every amount comes out right; from there on and below 2^53 satoshis (90,071,992.54740992 units) exactly those for which v * 2^26
modulo 10^8 is small or large enough; from there on exactly the even numbers of satoshis. -/
theorem C30_float_supply_partial (v : ℕ) (hv : 2 ^ 52 ≤ v) (h : v < 2 ^ 27 * 10 ^ 8) :
    (v < 2 ^ 26 * 10 ^ 8 → fromDecimal (.float (.ofRat ((v : ℚ) / 100000000))) = .ok v) ∧
    (2 ^ 26 * 10 ^ 8 ≤ v → v < 2 ^ 53 → (fromDecimal (.float (.ofRat ((v : ℚ) / 100000000))) = .ok v ↔
      (v * 2 ^ 26 % 100000000 < 2 ^ 25 ∨ 10 ^ 8 - 2 ^ 25 < v * 2 ^ 26 % 100000000 ∨
        (v % 2 = 0 ∧ (v * 2 ^ 26 % 100000000 = 2 ^ 25 ∨ v * 2 ^ 26 % 100000000 = 10 ^ 8 - 2 ^ 25))))) ∧
    (2 ^ 53 ≤ v → (fromDecimal (.float (.ofRat ((v : ℚ) / 100000000))) = .ok v ↔ v % 2 = 0)) := by
  refine ⟨fun h1 => ?_, fun h1 h2 => ?_, fun h1 => ?_⟩
  · exact (C30_float_large_iff_partial v 27 _ _ hv rfl (by omega) (by omega) rfl).2 (Or.inl ⟨by omega, ⟨v, Nat.mul_comm _ _⟩⟩)
  · have hd : 2 ^ 26 ∣ v * 2 ^ 26 := ⟨v, Nat.mul_comm _ _⟩
    have hl : v * 2 ^ 26 < 2 ^ 79 := by omega
    have hg : ¬ 2 ^ 79 ≤ v * 2 ^ 26 := by omega
    have he : 2 ^ 27 ∣ v * 2 ^ 26 ↔ v % 2 = 0 := by
      rw [show 2 ^ 27 = 2 * 2 ^ 26 by norm_num, Nat.mul_dvd_mul_iff_right (by norm_num), Nat.dvd_iff_mod_eq_zero]
    rw [C30_float_large_iff_partial v 26 _ _ hv rfl (by omega) (by omega) rfl, he]
    simp only [hd, hl, hg, true_and, false_and, false_or]
  · have hl : ¬ v * 2 ^ 26 < 2 ^ 79 := by omega
    have hg : 2 ^ 79 ≤ v * 2 ^ 26 := by omega
    have he : 2 ^ 27 ∣ v * 2 ^ 26 ↔ v % 2 = 0 := by
      rw [show 2 ^ 27 = 2 * 2 ^ 26 by norm_num, Nat.mul_dvd_mul_iff_right (by norm_num), Nat.dvd_iff_mod_eq_zero]
    rw [C30_float_large_iff_partial v 26 _ _ hv rfl (by omega) (by omega) rfl, he]
    simp only [hl, hg, true_and, false_and, or_false]

/-- C30, how far off it is, up to 2^27 units: by a satoshi at most. -/
theorem C30_float_supply_near_partial (v : ℕ) (hv : 2 ^ 52 ≤ v) (h : v < 2 ^ 27 * 10 ^ 8) :
    ∃ r : Int, fromDecimal (.float (.ofRat ((v : ℚ) / 100000000))) = .ok r ∧ |r - v| ≤ 1 := by
  rcases Nat.lt_or_ge v (2 ^ 26 * 10 ^ 8) with hs | hs
  · exact ⟨v, (C30_float_supply_partial v hv h).1 hs, by simp⟩
  refine ⟨_, from_float v (h.trans (by norm_num)), ?_⟩
  have g1 : (4503599627370497 : ℚ) ≤ v := by
    have : 4503599627370497 ≤ v := by omega
    exact_mod_cast this
  have g2 : (v : ℚ) ≤ 13421772799999999 := by
    have : v ≤ 13421772799999999 := by omega
    exact_mod_cast this
  have e1 := roundQ_error (q := (v : ℚ) / 100000000) (k := 27) (by
    rw [abs_of_nonneg (by positivity), div_lt_iff₀ (by norm_num)]
    norm_num1
    linarith) (by norm_num)
  generalize roundQ ((v : ℚ) / 100000000) = x at *
  rw [show ((27 : ℤ) - 54) = -27 by norm_num, abs_le] at e1
  norm_num at e1
  have b1 : x * 100000000 - v ≤ 3 / 4 := by linarith [e1.2]
  have b2 : -(3 / 4) ≤ x * 100000000 - v := by linarith [e1.1]
  have e2 := roundQ_error (q := x * 100000000) (k := 54) (by
    rw [abs_of_nonneg (by linarith)]
    norm_num
    linarith) (by norm_num)
  rw [show ((54 : ℤ) - 54) = 0 by norm_num, zpow_zero, abs_le] at e2
  have h52 : Representable ((2 : ℚ) ^ 52) := ⟨1, 52, by norm_num, by norm_num, by norm_num⟩
  have hge := le_roundQ h52 (q := x * 100000000) (by norm_num; linarith)
  obtain ⟨z, hz⟩ := representable_multiple (roundQ_representable (x * 100000000)) 52 (by
    rw [abs_of_nonneg (le_trans (by positivity) hge)]
    exact_mod_cast hge) 0 (by norm_num)
  rw [zpow_zero, mul_one] at hz
  rw [hz] at e2 ⊢
  rw [Int.floor_intCast]
  have u1 : ((z - v : ℤ) : ℚ) < 2 := by push_cast; linarith [e2.2]
  have u2 : (-2 : ℚ) < ((z - v : ℤ) : ℚ) := by push_cast; linarith [e2.1]
  have u1' : z - v < 2 := by exact_mod_cast u1
  have u2' : -2 < z - v := by exact_mod_cast u2
  rw [abs_le]
  constructor <;> omega

/-- 50,000,000.00000001 units come out right; 90,000,000.00000002 do not, nor do 100,000,000.00000001. -/
example : fromDecimal (.float (.ofRat (((5000000000000001 : ℕ) : ℚ) / 100000000))) = .ok (5000000000000001 : ℕ) :=
  (C30_float_supply_partial 5000000000000001 (by norm_num) (by norm_num)).1 (by norm_num)
example : fromDecimal (.float (.ofRat (((9000000000000002 : ℕ) : ℚ) / 100000000))) ≠ .ok (9000000000000002 : ℕ) := fun h =>
  absurd (((C30_float_supply_partial 9000000000000002 (by norm_num) (by norm_num)).2.1 (by norm_num) (by norm_num)).1 h) (by decide +kernel)
example : fromDecimal (.float (.ofRat (((10000000000000001 : ℕ) : ℚ) / 100000000))) ≠ .ok (10000000000000001 : ℕ) := fun h =>
  absurd (((C30_float_supply_partial 10000000000000001 (by norm_num) (by norm_num)).2.2 (by norm_num)).1 h) (by decide +kernel)

/-- The condition of `C30_float_large_iff_partial`, for an amount of N / 2^k satoshis, N scaled to at least 2^52 and less than 2^53 units. -/
def LargeExact (N : ℕ) : Prop :=
  (2 ^ 79 ≤ N ∧ 2 ^ 27 ∣ N) ∨
  (N < 2 ^ 79 ∧ 2 ^ 26 ∣ N ∧ (N % 100000000 < 2 ^ 25 ∨ 10 ^ 8 - 2 ^ 25 < N % 100000000 ∨
    (2 ^ 27 ∣ N ∧ (N % 100000000 = 2 ^ 25 ∨ N % 100000000 = 10 ^ 8 - 2 ^ 25))))

/-- C30, exactly when it holds for floats, for negative amounts of 2^52 satoshis and more: the same condition. -/
theorem C30_float_large_negative_iff_partial (v k N : ℕ) (hv : 2 ^ 52 ≤ v) (hN : N = v * 2 ^ k) (h1 : 2 ^ 52 * 100000000 ≤ N)
    (h2 : N < 2 ^ 53 * 100000000) :
    fromDecimal (.float (.ofRat (-((v : ℚ) / 100000000)))) = .ok (-(v : Int)) ↔ LargeExact N := by
  have hi : fromDecimal (.float (.ofRat ((v : ℚ) / 100000000))) = .ok (v : Int) ↔ LargeExact N :=
    C30_float_large_iff_partial v k N _ hv hN h1 h2 rfl
  have hvN : v ≤ N := by rw [hN]; exact Nat.le_mul_of_pos_right v Nat.one_le_two_pow
  have hfl := from_float v (lt_of_le_of_lt hvN (h2.trans (by norm_num)))
  have hn := fromDecimal_neg _ _ hfl
  rw [hfl, Except.ok.injEq] at hi
  rw [hn, ← hi, Except.ok.injEq, neg_inj]

example : fromDecimal (.float (.ofRat (-(((5000000000000001 : ℕ) : ℚ) / 100000000)))) = .ok (-((5000000000000001 : ℕ) : Int)) :=
  (C30_float_large_negative_iff_partial 5000000000000001 27 _ (by norm_num) rfl (by norm_num) (by norm_num)).2
    (Or.inl ⟨by norm_num, ⟨_, Nat.mul_comm _ _⟩⟩)

/-- C156, exactly when it holds, for all amounts of magnitude 2^52 satoshis to 2^64 - 1. -/
theorem C156_large_iff_partial (P : Parsers) (hP : Faithful P) (R : Dtoa) (v : Int) (k N : ℕ) (h52 : 2 ^ 52 ≤ |v|) (h64 : |v| < 2 ^ 64)
    (hN : N = v.natAbs * 2 ^ k) (h1 : 2 ^ 52 * 100000000 ≤ N) (h2 : N < 2 ^ 53 * 100000000) (pos : Bool) (hpos : pos = true → 0 ≤ v) :
    ∃ s t r, Fixed8.toStr R v = .ok s ∧ Fixed8.toNeoJsonStr R v = .ok t ∧
      tryParse P (.str s) pos = .ok (some r) ∧ tryParse P (.str t) pos = .ok (some r) ∧ (r = v ↔ LargeExact N) := by
  obtain ⟨s, t, r, hs, ht, e1, e2, hr⟩ := parse_text P hP R v h64 pos hpos
  refine ⟨s, t, r, hs, ht, e1, e2, ?_⟩
  have hof := ofRat_fin (big 64 (by norm_num) (small h64))
  rw [← hof, show (10 : ℚ) ^ 8 = 100000000 by norm_num] at hr
  have ha : 2 ^ 52 ≤ v.natAbs := by
    rw [Int.abs_eq_natAbs] at h52
    exact_mod_cast h52
  rcases le_total 0 v with hv | hv
  · have hc : ((v.natAbs : ℕ) : ℤ) = v := Int.natAbs_of_nonneg hv
    have hq : ((v.natAbs : ℕ) : ℚ) = (v : ℚ) := by rw [← Int.cast_natCast, hc]
    have hiff : _ ↔ LargeExact N := C30_float_large_iff_partial v.natAbs k N _ ha hN h1 h2 rfl
    rw [hq, hr, hc, Except.ok.injEq] at hiff
    exact hiff
  · have hc : ((v.natAbs : ℕ) : ℤ) = -v := by omega
    have hq : ((v.natAbs : ℕ) : ℚ) = -(v : ℚ) := by rw [← Int.cast_natCast, hc, Int.cast_neg]
    have hiff := C30_float_large_negative_iff_partial v.natAbs k N ha hN h1 h2
    rw [hq, neg_div, neg_neg, hr, hc, neg_neg, Except.ok.injEq] at hiff
    exact hiff

/-- 90,000,000.00000002 units. -/
example : 2 ^ 52 ≤ |(9000000000000002 : Int)| ∧ |(9000000000000002 : Int)| < 2 ^ 64 ∧
    2 ^ 52 * 100000000 ≤ (9000000000000002 : Int).natAbs * 2 ^ 26 ∧ (9000000000000002 : Int).natAbs * 2 ^ 26 < 2 ^ 53 * 100000000 := by
  decide +kernel

/-- C181 for Decimals, exactly when it holds, for all amounts of magnitude 2^52 satoshis to 2^53 * 10^8 - 1. -/
theorem C181_decimal_large_iff_partial (P : Parsers) (d : Dec) (v : Int) (k N : ℕ) (hd : d.val = (v : ℚ) / 100000000) (h52 : 2 ^ 52 ≤ |v|)
    (hN : N = v.natAbs * 2 ^ k) (h1 : 2 ^ 52 * 100000000 ≤ N) (h2 : N < 2 ^ 53 * 100000000) :
    tryParse P (.decimal d) false = .ok (some v) ↔ LargeExact N := by
  have ha : 2 ^ 52 ≤ v.natAbs := by
    rw [Int.abs_eq_natAbs] at h52
    exact_mod_cast h52
  have hmap : ∀ x : Except Err Int, (x.map some = (Except.ok (some v) : Except Err (Option Int))) ↔ x = Except.ok v := by
    intro x
    cases x <;> simp [Except.map]
  rw [decimal_as_float P d v hd, hmap]
  rcases le_total 0 v with hv | hv
  · have hc : ((v.natAbs : ℕ) : ℤ) = v := Int.natAbs_of_nonneg hv
    have hq : ((v.natAbs : ℕ) : ℚ) = (v : ℚ) := by rw [← Int.cast_natCast, hc]
    have hiff : _ ↔ LargeExact N := C30_float_large_iff_partial v.natAbs k N _ ha hN h1 h2 rfl
    rw [hq, hc] at hiff
    exact hiff
  · have hc : ((v.natAbs : ℕ) : ℤ) = -v := by omega
    have hq : ((v.natAbs : ℕ) : ℚ) = -(v : ℚ) := by rw [← Int.cast_natCast, hc, Int.cast_neg]
    have hiff := C30_float_large_negative_iff_partial v.natAbs k N ha hN h1 h2
    rw [hq, neg_div, neg_neg, hc, neg_neg] at hiff
    exact hiff

/-- 50,000,000.00000001 written out, which stays what it is. -/
example (P : Parsers) : tryParse P (.decimal ⟨5000000000000001, -8⟩) false = .ok (some 5000000000000001) :=
  (C181_decimal_large_iff_partial P ⟨5000000000000001, -8⟩ 5000000000000001 27 _ (by norm_num [Dec.val]) (by decide +kernel) rfl
    (by decide +kernel) (by decide +kernel)).2 (Or.inl ⟨by decide +kernel, ⟨5000000000000001, by decide +kernel⟩⟩)

end Neo.Props
