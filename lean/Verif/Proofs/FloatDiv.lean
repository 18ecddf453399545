import Verif.Proofs.FloatRange
import Mathlib.Data.Nat.Size

/-!
# When rounding a quotient to a float changes its integral part
-/

namespace Py

theorem rne_top {x : ℚ} {K : ℤ} (hK : Even K) (h : x < K) : rne x = K ↔ (K : ℚ) - x ≤ 1 / 2 := by
  constructor
  · intro e
    have := rne_close x
    rw [e, abs_le] at this
    linarith [this.2]
  · intro hx
    have hf : ⌊x⌋ = K - 1 := by
      rw [Int.floor_eq_iff]
      push_cast
      constructor <;> linarith
    have hfq : ((⌊x⌋ : ℤ) : ℚ) = K - 1 := by rw [hf]; push_cast; ring
    have hodd : ¬ (K - 1) % 2 = 0 := by
      obtain ⟨c, hc⟩ := hK
      omega
    unfold rne
    rw [hfq, hf, if_neg (by linarith), if_neg hodd]
    split <;> omega

theorem rne_bottom {x : ℚ} {T : ℤ} (hT : Even T) (h : (T : ℚ) ≤ x) : rne x = T ↔ x - T ≤ 1 / 2 := by
  constructor
  · intro e
    have := rne_close x
    rw [e, abs_le] at this
    linarith [this.1]
  · intro hx
    have hf : ⌊x⌋ = T := by
      rw [Int.floor_eq_iff]
      constructor <;> linarith
    have he : T % 2 = 0 := by
      obtain ⟨c, hc⟩ := hT
      omega
    unfold rne
    rw [hf, if_pos he]
    split
    · rfl
    · rw [if_neg (by linarith)]

/-- The unit in the last place of a number between 2^(L-1) and 2^L. -/
theorem ulpExp_between {q : ℚ} {L : ℕ} (h1 : (2 : ℚ) ^ ((L : ℤ) - 1) ≤ q) (h2 : q < 2 ^ L) : ulpExp q = (L : ℤ) - 53 := by
  have hq : 0 < q := lt_of_lt_of_le (two_zpow_pos _) h1
  have ha : |q| = q := abs_of_pos hq
  have l1 := log_le_abs hq.ne'
  have l2 := abs_lt_log (q := q)
  have l3 : (2 : ℚ) ^ Int.log 2 |q| < 2 ^ (L : ℤ) := by
    rw [zpow_natCast]; exact lt_of_le_of_lt l1 (by rw [ha]; exact h2)
  have l4 : (2 : ℚ) ^ ((L : ℤ) - 1) < 2 ^ (Int.log 2 |q| + 1) := lt_of_le_of_lt h1 (by rw [ha] at l2 ⊢; exact l2)
  rw [zpow_lt_zpow_iff_right₀ (by norm_num)] at l3 l4
  unfold ulpExp
  omega

theorem roundQ_between {q : ℚ} {L : ℕ} (h1 : (2 : ℚ) ^ ((L : ℤ) - 1) ≤ q) (h2 : q < 2 ^ L) (hL : L ≤ 53) :
    roundQ q = rne (q * 2 ^ (53 - L)) / 2 ^ (53 - L) := by
  have e : (2 : ℚ) ^ ((L : ℤ) - 53) = (2 ^ (53 - L))⁻¹ := by
    rw [← zpow_natCast, ← zpow_neg]
    congr 1
    omega
  unfold roundQ
  rw [ulpExp_between h1 h2, e, div_inv_eq_mul, div_eq_mul_inv]

variable {t : ℕ} {q : ℚ}

private theorem size_bounds (h1 : (t : ℚ) ≤ q) (h2 : q < t + 1) : (0 < t → (2 : ℚ) ^ (((Nat.size t : ℕ) : ℤ) - 1) ≤ q) ∧ q < 2 ^ Nat.size t := by
  constructor
  · intro ht
    have hs : 0 < Nat.size t := Nat.size_pos.2 ht
    have : 2 ^ (Nat.size t - 1) ≤ t := Nat.lt_size.1 (by omega)
    have h' : ((2 ^ (Nat.size t - 1) : ℕ) : ℚ) ≤ t := by exact_mod_cast this
    have e : (2 : ℚ) ^ (((Nat.size t : ℕ) : ℤ) - 1) = ((2 ^ (Nat.size t - 1) : ℕ) : ℚ) := by
      rw [Nat.cast_pow, Nat.cast_ofNat, ← zpow_natCast]
      congr 1
      omega
    rw [e]
    linarith
  · have : t + 1 ≤ 2 ^ Nat.size t := Nat.lt_size_self t
    have h' : (t : ℚ) + 1 ≤ 2 ^ Nat.size t := by exact_mod_cast this
    linarith

/-- A number between t and t + 1 (below 2^52) is rounded up to t + 1 exactly if it is that close to it. -/
theorem roundQ_top (h1 : (t : ℚ) ≤ q) (h2 : q < t + 1) (hL : Nat.size t ≤ 52) :
    roundQ q = t + 1 ↔ (t + 1 - q) * 2 ^ (54 - Nat.size t) ≤ 1 := by
  obtain ⟨b1, b2⟩ := size_bounds h1 h2
  have main : (2 : ℚ) ^ (((Nat.size t : ℕ) : ℤ) - 1) ≤ q →
      (roundQ q = t + 1 ↔ (t + 1 - q) * 2 ^ (54 - Nat.size t) ≤ 1) := by
    intro hb
    rw [roundQ_between hb b2 (by omega)]
    set w : ℚ := 2 ^ (53 - Nat.size t) with hw
    have hw0 : 0 < w := by positivity
    have hKq : (((((t + 1) * 2 ^ (53 - Nat.size t) : ℕ)) : ℤ) : ℚ) = (t + 1) * w := by push_cast; rfl
    have heven : Even ((((t + 1) * 2 ^ (53 - Nat.size t) : ℕ)) : ℤ) := by
      rw [show 53 - Nat.size t = (52 - Nat.size t) + 1 by omega, pow_succ]
      exact ⟨(((t + 1) * 2 ^ (52 - Nat.size t) : ℕ) : ℤ), by push_cast; ring⟩
    have hlt : q * w < (((((t + 1) * 2 ^ (53 - Nat.size t) : ℕ)) : ℤ) : ℚ) := by
      rw [hKq]; exact (mul_lt_mul_iff_left₀ hw0).2 h2
    have h54 : (2 : ℚ) ^ (54 - Nat.size t) = w * 2 := by
      rw [hw, ← pow_succ]; congr 1; omega
    have := rne_top heven hlt
    rw [hKq] at this
    rw [div_eq_iff hw0.ne', ← hKq, Int.cast_inj, this, h54]
    constructor <;> intro h <;> nlinarith
  rcases Nat.eq_zero_or_pos t with ht | ht
  · by_cases hq : (1 / 2 : ℚ) ≤ q
    · apply main
      rw [ht]
      simpa [Nat.size_zero] using hq
    · have hhalf : Representable ((1 / 2 : ℚ)) := by
        refine ⟨1, -1, by norm_num, by norm_num, by norm_num⟩
      have hr := roundQ_le hhalf (le_of_lt (not_le.1 hq))
      subst ht
      simp only [Nat.cast_zero, zero_add, Nat.size_zero]
      constructor
      · intro e; rw [e] at hr; norm_num at hr
      · intro h
        exfalso
        have hq' := not_le.1 hq
        norm_num at h hq'
        linarith
  · exact main (b1 ht)

/-- A number between t and t + 1 is rounded down to t > 0 exactly if it is that close to it. -/
theorem roundQ_bottom (ht : 0 < t) (h1 : (t : ℚ) ≤ q) (h2 : q < t + 1) (hL : Nat.size t ≤ 52) :
    roundQ q = t ↔ (q - t) * 2 ^ (54 - Nat.size t) ≤ 1 := by
  obtain ⟨b1, b2⟩ := size_bounds h1 h2
  rw [roundQ_between (b1 ht) b2 (by omega)]
  set w : ℚ := 2 ^ (53 - Nat.size t) with hw
  have hw0 : 0 < w := by positivity
  have hKq : ((((t * 2 ^ (53 - Nat.size t) : ℕ)) : ℤ) : ℚ) = t * w := by push_cast; rfl
  have heven : Even (((t * 2 ^ (53 - Nat.size t) : ℕ)) : ℤ) := by
    rw [show 53 - Nat.size t = (52 - Nat.size t) + 1 by omega, pow_succ]
    exact ⟨((t * 2 ^ (52 - Nat.size t) : ℕ) : ℤ), by push_cast; ring⟩
  have hle : ((((t * 2 ^ (53 - Nat.size t) : ℕ)) : ℤ) : ℚ) ≤ q * w := by
    rw [hKq]; exact (mul_le_mul_iff_left₀ hw0).2 h1
  have h54 : (2 : ℚ) ^ (54 - Nat.size t) = w * 2 := by
    rw [hw, ← pow_succ]; congr 1; omega
  have := rne_bottom heven hle
  rw [hKq] at this
  rw [div_eq_iff hw0.ne', ← hKq, Int.cast_inj, this, h54]
  constructor <;> intro h <;> nlinarith

/-- Below 2^53 rounding stays between neighbouring integers. -/
theorem roundQ_within (h1 : (t : ℚ) ≤ q) (h2 : q < t + 1) (hL : t < 2 ^ 53) : (t : ℚ) ≤ roundQ q ∧ roundQ q ≤ t + 1 := by
  have r1 : Representable (t : ℚ) := by
    have := representable_int (n := (t : ℤ)) (by rw [abs_of_nonneg (by omega)]; exact_mod_cast hL.le)
    exact_mod_cast this
  have r2 : Representable ((t : ℚ) + 1) := by
    have := representable_int (n := (t : ℤ) + 1) (by rw [abs_of_nonneg (by omega)]; exact_mod_cast hL)
    exact_mod_cast this
  exact ⟨le_roundQ r1 h1, roundQ_le r2 h2.le⟩

/-- Numbers of 53 bits before the point are rounded to the nearest integer, ties to even. -/
theorem roundQ_53 (h1 : (t : ℚ) ≤ q) (h2 : q < t + 1) (hL : Nat.size t = 53) :
    roundQ q = rne q ∧ (rne q = t ↔ q - t < 1 / 2 ∨ (q - t = 1 / 2 ∧ t % 2 = 0)) := by
  obtain ⟨b1, b2⟩ := size_bounds h1 h2
  have ht : 0 < t := Nat.size_pos.1 (by omega)
  have hf : ⌊q⌋ = (t : ℤ) := by
    rw [Int.floor_eq_iff]
    exact ⟨by exact_mod_cast h1, by exact_mod_cast h2⟩
  have hfq : ((⌊q⌋ : ℤ) : ℚ) = t := by rw [hf]; simp
  constructor
  · have := roundQ_between (b1 ht) b2 (by omega)
    rw [hL] at this
    simpa using this
  · unfold rne
    rw [hfq, hf]
    split
    · next h => simp only [h, true_or]
    · next h =>
      split
      · next h' => constructor
                   · intro e; omega
                   · rintro (h'' | ⟨h'', -⟩) <;> linarith
      · next h' =>
        have he : q - t = 1 / 2 := le_antisymm (not_lt.1 h') (not_lt.1 h)
        split
        · next h3 => simp only [true_iff]; exact .inr ⟨he, by omega⟩
        · next h3 =>
          constructor
          · intro e; omega
          · rintro (h'' | ⟨-, h''⟩)
            · exact absurd h'' h
            · omega

/-- From 2^53 on a number with integral part t is rounded to t exactly if 53 bits hold t. -/
theorem roundQ_large (h1 : (t : ℚ) ≤ q) (h2 : q < t + 1) (hL : 53 < Nat.size t) :
    (∃ n : ℤ, roundQ q = n) ∧ (roundQ q = t ↔ 2 ^ (Nat.size t - 53) ∣ t) := by
  obtain ⟨b1, b2⟩ := size_bounds h1 h2
  have ht : 0 < t := Nat.size_pos.1 (by omega)
  have e : (2 : ℚ) ^ (((Nat.size t : ℕ) : ℤ) - 53) = ((2 ^ (Nat.size t - 53) : ℕ) : ℚ) := by
    rw [Nat.cast_pow, Nat.cast_ofNat, ← zpow_natCast]
    congr 1
    omega
  have hr : roundQ q = rne (q / ((2 ^ (Nat.size t - 53) : ℕ) : ℚ)) * ((2 ^ (Nat.size t - 53) : ℕ) : ℚ) := by
    unfold roundQ
    rw [ulpExp_between (b1 ht) b2, e]
  set u : ℕ := 2 ^ (Nat.size t - 53) with hu
  have hu2 : 2 ≤ u := by
    rw [hu, show Nat.size t - 53 = (Nat.size t - 54) + 1 by omega, pow_succ]
    have : 1 ≤ 2 ^ (Nat.size t - 54) := Nat.one_le_two_pow
    omega
  have huq : (2 : ℚ) ≤ u := by exact_mod_cast hu2
  refine ⟨⟨rne (q / u) * u, by rw [hr]; push_cast; rfl⟩, ?_⟩
  constructor
  · intro he
    rw [hr] at he
    have : rne (q / u) * (u : ℤ) = (t : ℤ) := by exact_mod_cast he
    exact Int.natCast_dvd_natCast.1 ⟨rne (q / u), by rw [← this]; ring⟩
  · rintro ⟨c, hc⟩
    have hcq : (t : ℚ) = u * c := by exact_mod_cast hc
    have hx : q / u - c < 1 / 2 := by
      rw [sub_lt_iff_lt_add, div_lt_iff₀ (by linarith)]
      nlinarith
    have hx0 : (c : ℚ) ≤ q / u := by
      rw [le_div_iff₀ (by linarith)]
      linarith
    have hf : ⌊q / (u : ℚ)⌋ = (c : ℤ) := by
      rw [Int.floor_eq_iff]
      exact ⟨by exact_mod_cast hx0, by push_cast; linarith⟩
    have : rne (q / u) = c := by
      unfold rne
      rw [hf, if_pos (by push_cast; exact hx)]
    rw [hr, this, hcq]
    push_cast
    ring

end Py
