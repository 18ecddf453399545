import Verif.Model.Floats
import Verif.Proofs.Float
import Verif.Spec.Float

/-! Rounding to an IEEE-754 format, and the bit patterns of its numbers. -/

namespace Py.FloatFmt
open Spec
variable (f : FloatFmt)

theorem ulp_ge (q : ℚ) : f.minExp ≤ f.ulp q := by
  unfold ulp; split
  · exact le_refl _
  · exact le_max_right _ _

theorem round_zero : f.round 0 = 0 := by
  have := rne_intCast 0
  unfold round
  simp at this
  simp [this]

theorem round_nearest_grid (q : ℚ) (n : ℤ) : |f.round q - q| ≤ |n * 2 ^ f.ulp q - q| := by
  have hp := two_zpow_pos (f.ulp q)
  have h := rne_nearest (q / 2 ^ f.ulp q) n
  have e : ∀ m : ℤ, (m : ℚ) * 2 ^ f.ulp q - q = (m - q / 2 ^ f.ulp q) * 2 ^ f.ulp q := by
    intro m; field_simp
  unfold round
  rw [e, e, abs_mul, abs_mul, abs_of_pos hp]
  exact mul_le_mul_of_nonneg_right h hp.le

/-- A number of the grid of magnitude at least 2^k is a multiple of 2^(k-mant). -/
theorem grid_multiple {x : ℚ} (hx : OnGrid (f.mant + 1) f.minExp x) (k : ℤ) (hk : (2 : ℚ) ^ k ≤ |x|) (u : ℤ)
    (hu : u ≤ max (k - f.mant) f.minExp) : ∃ n : ℤ, x = n * 2 ^ u := by
  obtain ⟨m, e, hm, he, rfl⟩ := hx
  have hue : u ≤ e := by
    by_contra hcon
    have hm' : (|(m : ℚ)|) < 2 ^ ((f.mant + 1 : ℕ) : ℤ) := by
      have : ((|m| : ℤ) : ℚ) < ((2 ^ (f.mant + 1) : ℤ) : ℚ) := Int.cast_lt.mpr hm
      rw [Int.cast_abs] at this
      refine lt_of_lt_of_eq this ?_
      rw [zpow_natCast]; push_cast; rfl
    have h1 : |(m : ℚ) * 2 ^ e| < 2 ^ ((f.mant + 1 : ℕ) : ℤ) * 2 ^ e := by
      rw [abs_mul, abs_of_pos (two_zpow_pos e)]
      exact mul_lt_mul_of_pos_right hm' (two_zpow_pos e)
    rw [← zpow_add₀ (by norm_num)] at h1
    have h2 : (2 : ℚ) ^ k < 2 ^ (((f.mant + 1 : ℕ) : ℤ) + e) := lt_of_le_of_lt hk h1
    rw [zpow_lt_zpow_iff_right₀ (by norm_num)] at h2
    push_cast at h2
    omega
  refine ⟨m * 2 ^ (e - u).toNat, ?_⟩
  push_cast
  rw [mul_assoc, ← zpow_natCast, ← zpow_add₀ (by norm_num)]
  congr 2
  omega

/-- No number of the grid is nearer than the rounded one; one that is as near is a multiple of the unit in the last place,
or is itself nearest. -/
theorem grid_dist (q x : ℚ) (hx : OnGrid (f.mant + 1) f.minExp x) :
    (∃ n : ℤ, x = n * 2 ^ f.ulp q) ∨ |f.round q - q| < |x - q| := by
  by_cases hq : q = 0
  · subst hq
    left
    obtain ⟨m, e, hm, he, rfl⟩ := hx
    refine ⟨m * 2 ^ (e - f.minExp).toNat, ?_⟩
    have : f.ulp 0 = f.minExp := by unfold ulp; rw [if_pos rfl]
    rw [this]; push_cast
    rw [mul_assoc, ← zpow_natCast, ← zpow_add₀ (by norm_num)]
    congr 2
    omega
  have hul : f.ulp q = max (Int.log 2 |q| - f.mant) f.minExp := by unfold ulp; rw [if_neg hq]
  by_cases hk : (2 : ℚ) ^ Int.log 2 |q| ≤ |x|
  · left
    exact f.grid_multiple hx _ hk (f.ulp q) (le_of_eq hul)
  · have hk := not_le.mp hk
    by_cases hu : Int.log 2 |q| - f.mant ≤ f.minExp
    · left
      have hue : f.ulp q = f.minExp := by rw [hul]; exact max_eq_right hu
      obtain ⟨m, e, hm, he, rfl⟩ := hx
      refine ⟨m * 2 ^ (e - f.minExp).toNat, ?_⟩
      rw [hue]
      push_cast
      rw [mul_assoc, ← zpow_natCast, ← zpow_add₀ (by norm_num)]
      congr 2
      omega
    · right
      have hue : f.ulp q = Int.log 2 |q| - f.mant := by rw [hul]; exact max_eq_left (by omega)
      have hpow : ((2 : ℚ) ^ Int.log 2 |q|) = ((2 ^ f.mant : ℤ) : ℚ) * 2 ^ f.ulp q := by
        rw [hue, zpow_sub₀ (by norm_num)]
        push_cast
        rw [zpow_natCast]
        field_simp
      have hle := log_le_abs hq
      have hxq : |q| - |x| ≤ |x - q| := by
        rw [abs_sub_comm]
        exact abs_sub_abs_le_abs_sub q x
      rcases lt_or_gt_of_ne hq with hneg | hpos
      · refine lt_of_le_of_lt (f.round_nearest_grid q (-2 ^ f.mant)) ?_
        rw [show (((-2 ^ f.mant : ℤ)) : ℚ) * 2 ^ f.ulp q = -(2 : ℚ) ^ Int.log 2 |q| by rw [hpow]; push_cast; ring]
        have e : |(-(2 : ℚ) ^ Int.log 2 |q| - q)| = |q| - 2 ^ Int.log 2 |q| := by
          rw [abs_of_neg hneg] at hle ⊢
          rw [abs_of_nonneg (by linarith)]; ring
        rw [e]
        linarith
      · refine lt_of_le_of_lt (f.round_nearest_grid q (2 ^ f.mant)) ?_
        rw [← hpow]
        have e : |((2 : ℚ) ^ Int.log 2 |q| - q)| = |q| - 2 ^ Int.log 2 |q| := by
          rw [abs_of_pos hpos] at hle ⊢
          rw [abs_of_nonpos (by linarith)]; ring
        rw [e]
        linarith

theorem round_nearest (q x : ℚ) (hx : OnGrid (f.mant + 1) f.minExp x) : |f.round q - q| ≤ |x - q| := by
  rcases f.grid_dist q x hx with ⟨n, rfl⟩ | h
  · exact f.round_nearest_grid q n
  · exact h.le

theorem round_exact {x : ℚ} (hx : OnGrid (f.mant + 1) f.minExp x) : f.round x = x := by
  have := f.round_nearest x x hx
  simp at this
  linarith

/-- The significand of the rounded number, before normalisation. -/
theorem sig_le (q : ℚ) : |rne (q / 2 ^ f.ulp q)| ≤ 2 ^ (f.mant + 1) := by
  have hp := two_zpow_pos (f.ulp q)
  have hq : |q| ≤ 2 ^ (f.mant + 1) * 2 ^ f.ulp q := by
    by_cases h0 : q = 0
    · rw [h0, abs_zero]; rw [h0] at hp; exact mul_nonneg (by positivity) hp.le
    have h1 := abs_lt_log (q := q)
    have h2 : (2 : ℚ) ^ (Int.log 2 |q| + 1) ≤ 2 ^ (((f.mant + 1 : ℕ) : ℤ) + f.ulp q) := by
      rw [zpow_le_zpow_iff_right₀ (by norm_num)]
      unfold ulp
      rw [if_neg h0]
      push_cast
      omega
    rw [zpow_add₀ (by norm_num) ((f.mant + 1 : ℕ) : ℤ), zpow_natCast] at h2
    linarith
  have h3 : |q / 2 ^ f.ulp q| ≤ 2 ^ (f.mant + 1) := by
    rw [abs_div, abs_of_pos hp, div_le_iff₀ hp]
    exact hq
  have h4 := rne_nearest (q / 2 ^ f.ulp q)
  by_contra hcon
  have hcon := not_le.mp hcon
  rw [abs_le] at h3
  rcases lt_abs.mp hcon with h | h
  · have h5 := h4 (2 ^ (f.mant + 1))
    have h6 : ((2 ^ (f.mant + 1) : ℤ) : ℚ) + 1 ≤ rne (q / 2 ^ f.ulp q) := by exact_mod_cast h
    push_cast at h5 h6
    rw [abs_of_nonneg (by linarith), abs_of_nonneg (by linarith)] at h5
    linarith
  · have h5 := h4 (-2 ^ (f.mant + 1))
    have h6 : ((2 ^ (f.mant + 1) : ℤ) : ℚ) + 1 ≤ -(rne (q / 2 ^ f.ulp q) : ℚ) := by exact_mod_cast h
    push_cast at h5 h6
    rw [abs_of_nonpos (by linarith), abs_of_nonpos (by linarith)] at h5
    linarith

theorem round_grid (q : ℚ) : OnGrid (f.mant + 1) f.minExp (f.round q) := by
  have hu := f.ulp_ge q
  rcases (f.sig_le q).lt_or_eq with h | h
  · exact ⟨_, _, h, hu, rfl⟩
  · rcases abs_eq (by positivity) |>.mp h with h | h
    · refine ⟨2 ^ f.mant, f.ulp q + 1, ?_, by omega, ?_⟩
      · rw [abs_of_pos (by positivity)]; exact pow_lt_pow_right₀ (by norm_num) (Nat.lt_succ_self _)
      · unfold round; rw [h, zpow_add₀ (by norm_num)]; push_cast; ring
    · refine ⟨-2 ^ f.mant, f.ulp q + 1, ?_, by omega, ?_⟩
      · rw [abs_neg, abs_of_pos (by positivity)]; exact pow_lt_pow_right₀ (by norm_num) (Nat.lt_succ_self _)
      · unfold round; rw [h, zpow_add₀ (by norm_num)]; push_cast; ring

/-- At a tie the nearest even number is chosen. -/
theorem rne_tie {q : ℚ} {n : ℤ} (hn : n ≠ rne q) (h : |(n : ℚ) - q| = |(rne q : ℚ) - q|) : Even (rne q) := by
  have h1 := Int.floor_le q
  have h2 := Int.lt_floor_add_one q
  have hodd : ¬ (⌊q⌋ % 2 = 0) → Even (⌊q⌋ + 1) := by intro h; rw [Int.even_iff]; omega
  -- |n - q| ≤ 1/2 and n ≠ rne q force a tie
  have hc := rne_close q
  rw [← h] at hc
  rw [abs_le] at hc
  have hn1 : ⌊q⌋ ≤ n := by
    have : ((⌊q⌋ : ℤ) : ℚ) - 1 < n := by linarith
    have : ⌊q⌋ - 1 < n := by exact_mod_cast this
    omega
  have hn2 : n ≤ ⌊q⌋ + 1 := by
    have : (n : ℚ) < ((⌊q⌋ + 1 + 1 : ℤ) : ℚ) := by push_cast; linarith
    have : n < ⌊q⌋ + 1 + 1 := by exact_mod_cast this
    omega
  unfold rne at *
  split_ifs with c1 c2 c3
  · exfalso
    rw [if_pos c1] at hn h
    have : n = ⌊q⌋ + 1 := by omega
    rw [this] at hc; push_cast at hc; linarith
  · exfalso
    rw [if_neg c1, if_pos c2] at hn h
    have : n = ⌊q⌋ := by omega
    rw [this] at hc; linarith
  · rw [Int.even_iff]; exact c3
  · exact hodd c3

theorem round_even (q z : ℚ) (hz : OnGrid (f.mant + 1) f.minExp z) (hne : z ≠ f.round q) (h : |z - q| = |f.round q - q|)
    (hm : 1 ≤ f.mant) : EvenSignificand (f.mant + 1) f.minExp (f.round q) := by
  have hp := two_zpow_pos (f.ulp q)
  rcases f.grid_dist q z hz with ⟨n, rfl⟩ | h'
  swap
  · exact absurd h (ne_of_gt h')
  have e : ∀ m : ℤ, (m : ℚ) * 2 ^ f.ulp q - q = (m - q / 2 ^ f.ulp q) * 2 ^ f.ulp q := by
    intro m; field_simp
  have hev : Even (rne (q / 2 ^ f.ulp q)) := by
    apply rne_tie (n := n)
    · intro h; apply hne; unfold round; rw [h]
    · unfold round at h
      rw [e, e, abs_mul, abs_mul, abs_of_pos hp] at h
      exact mul_right_cancel₀ (ne_of_gt hp) h
  have hu := f.ulp_ge q
  have hmant : Even ((2 : ℤ) ^ f.mant) := by
    rw [Int.even_pow]; exact ⟨by decide, by omega⟩
  rcases (f.sig_le q).lt_or_eq with h | h
  · refine ⟨_, _, hev, h, ?_, rfl⟩
    by_cases hmin : f.ulp q = f.minExp
    · exact Or.inr hmin
    · left
      refine ⟨?_, hu⟩
      have hq : q ≠ 0 := by
        rintro rfl
        apply hmin; unfold ulp; rw [if_pos rfl]
      have hul : f.ulp q = Int.log 2 |q| - f.mant := by
        unfold ulp at hmin ⊢
        rw [if_neg hq] at hmin ⊢
        omega
      have hlow : (2 : ℚ) ^ f.mant ≤ |q / 2 ^ f.ulp q| := by
        rw [abs_div, abs_of_pos hp, le_div_iff₀ hp, ← zpow_natCast, ← zpow_add₀ (by norm_num), hul]
        have := log_le_abs hq
        rwa [show (f.mant : ℤ) + (Int.log 2 |q| - f.mant) = Int.log 2 |q| by omega]
      rw [Nat.add_sub_cancel]
      by_contra hcon
      have hcon := not_le.mp hcon
      rw [abs_lt] at hcon
      have h4 := rne_nearest (q / 2 ^ f.ulp q)
      rcases le_abs.mp hlow with h' | h'
      · have h5 := h4 (2 ^ f.mant)
        have h6 : (rne (q / 2 ^ f.ulp q) : ℚ) + 1 ≤ ((2 ^ f.mant : ℤ) : ℚ) := by exact_mod_cast hcon.2
        push_cast at h5 h6
        rw [abs_of_nonpos (by linarith), abs_of_nonpos (by linarith)] at h5
        linarith
      · have h5 := h4 (-2 ^ f.mant)
        have h6 : ((-2 ^ f.mant : ℤ) : ℚ) + 1 ≤ (rne (q / 2 ^ f.ulp q) : ℚ) := by exact_mod_cast hcon.1
        push_cast at h5 h6
        rw [abs_of_nonneg (by linarith), abs_of_nonneg (by linarith)] at h5
        linarith
  · rcases abs_eq (by positivity) |>.mp h with h | h
    · refine ⟨2 ^ f.mant, f.ulp q + 1, hmant, ?_, Or.inl ⟨?_, by omega⟩, ?_⟩
      · rw [abs_of_pos (by positivity)]; exact pow_lt_pow_right₀ (by norm_num) (Nat.lt_succ_self _)
      · rw [Nat.add_sub_cancel]; exact le_abs_self _
      · unfold round; rw [h, zpow_add₀ (by norm_num)]; push_cast; ring
    · refine ⟨-2 ^ f.mant, f.ulp q + 1, hmant.neg, ?_, Or.inl ⟨?_, by omega⟩, ?_⟩
      · rw [abs_neg, abs_of_pos (by positivity)]; exact pow_lt_pow_right₀ (by norm_num) (Nat.lt_succ_self _)
      · rw [Nat.add_sub_cancel, abs_neg]; exact le_abs_self _
      · unfold round; rw [h, zpow_add₀ (by norm_num)]; push_cast; ring

theorem round_spec (q : ℚ) (hm : 1 ≤ f.mant) : RoundsTo (f.mant + 1) f.minExp q (f.round q) :=
  ⟨f.round_grid q, fun z hz => f.round_nearest q z hz, fun z hz hne h => f.round_even q z hz hne h hm⟩

theorem zero_grid : OnGrid (f.mant + 1) f.minExp 0 := ⟨0, f.minExp, by simp, le_refl _, by simp⟩

theorem round_nonneg {q : ℚ} (h : 0 ≤ q) : 0 ≤ f.round q := by
  by_contra hcon
  have := f.round_nearest q 0 f.zero_grid
  rw [abs_of_nonpos (by linarith), abs_of_nonpos (by linarith)] at this
  linarith

/-! ### The upper limit -/

theorem two_limit (hb : 2 ≤ f.expBits) : 1 ≤ f.bias := by
  unfold bias
  have : (2 : ℤ) ^ 1 ≤ 2 ^ (f.expBits - 1) := pow_le_pow_right₀ (by norm_num) (by omega)
  omega

theorem limit_grid (hb : 2 ≤ f.expBits) : OnGrid (f.mant + 1) f.minExp f.limit := by
  have := f.two_limit hb
  refine ⟨1, f.bias + 1, ?_, ?_, ?_⟩
  · rw [abs_one]; exact one_lt_pow₀ (by norm_num) (by omega)
  · unfold minExp; omega
  · unfold limit; push_cast; ring

/-- A finite number is too large exactly from half a unit in the last place below the limit on. -/
theorem limit_le_round (hb : 2 ≤ f.expBits) (q : ℚ) (hq : 0 ≤ q) :
    f.limit ≤ f.round q ↔ f.limit - 2 ^ (f.bias - f.mant - 1) ≤ q := by
  have hbias := f.two_limit hb
  set u : ℤ := f.bias - f.mant with hu
  have hpu := two_zpow_pos u
  have hhalf : (2 : ℚ) ^ (u - 1) = 2 ^ u / 2 := by rw [zpow_sub₀ (by norm_num)]; norm_num
  have hlim : f.limit = 2 ^ (f.mant + 1) * 2 ^ u := by
    unfold limit
    rw [← zpow_natCast, ← zpow_add₀ (by norm_num)]
    congr 1; push_cast; omega
  have hbigG : OnGrid (f.mant + 1) f.minExp ((2 ^ (f.mant + 1) - 1) * 2 ^ u) := by
    refine ⟨2 ^ (f.mant + 1) - 1, u, ?_, ?_, by push_cast; ring⟩
    · have : (1 : ℤ) ≤ 2 ^ (f.mant + 1) := one_le_pow₀ (by norm_num)
      rw [abs_of_nonneg (by omega)]; omega
    · unfold minExp; omega
  rw [hhalf]
  constructor
  · intro h
    by_contra hcon
    have hcon := not_le.mp hcon
    have h1 := f.round_nearest q _ hbigG
    rw [abs_of_nonneg (by linarith)] at h1
    rcases le_total q ((2 ^ (f.mant + 1) - 1) * 2 ^ u) with hle | hle
    · rw [abs_of_nonneg (by linarith)] at h1
      linarith
    · rw [abs_of_nonpos (by linarith)] at h1
      linarith
  · intro h
    rcases le_total f.limit q with hle | hle
    · have h1 := f.round_nearest q _ (f.limit_grid hb)
      rw [abs_of_nonpos (by linarith : f.limit - q ≤ 0), abs_le] at h1
      linarith
    · rcases hle.lt_or_eq with hlt | heq
      swap
      · rw [heq, f.round_exact (f.limit_grid hb)]
      have hmantq : (1 : ℚ) ≤ 2 ^ f.mant := one_le_pow₀ (by norm_num)
      have hpos : 0 < q := by
        have : (2 : ℚ) ^ (f.mant + 1) = 2 * 2 ^ f.mant := by ring
        nlinarith
      have hlow : (2 : ℚ) ^ f.bias ≤ q := by
        have e : (2 : ℚ) ^ f.bias = 2 ^ f.mant * 2 ^ u := by
          rw [← zpow_natCast, ← zpow_add₀ (by norm_num)]; congr 1; omega
        have : (2 : ℚ) ^ (f.mant + 1) = 2 * 2 ^ f.mant := by ring
        rw [e]
        nlinarith
      have hlog : Int.log 2 |q| = f.bias := by
        rw [abs_of_pos hpos]
        apply le_antisymm
        · have : Int.log 2 q < f.bias + 1 := by
            rw [← Int.lt_zpow_iff_log_lt (by norm_num) hpos]; exact_mod_cast hlt
          omega
        · rw [← Int.zpow_le_iff_le_log (by norm_num) hpos]; exact_mod_cast hlow
      have hulp : f.ulp q = u := by
        unfold ulp; rw [if_neg (ne_of_gt hpos), hlog]
        apply max_eq_left; unfold minExp; omega
      unfold round
      rw [hulp, hlim]
      apply mul_le_mul_of_nonneg_right _ hpu.le
      have hge : (2 : ℚ) ^ (f.mant + 1) - 1 / 2 ≤ q / 2 ^ u := by
        rw [le_div_iff₀ hpu]; linarith
      by_contra hcon
      have hcon := not_le.mp hcon
      have hint : rne (q / 2 ^ u) < 2 ^ (f.mant + 1) := by exact_mod_cast hcon
      have hle1 : (rne (q / 2 ^ u) : ℚ) ≤ 2 ^ (f.mant + 1) - 1 := by
        have : rne (q / 2 ^ u) ≤ 2 ^ (f.mant + 1) - 1 := by omega
        exact_mod_cast this
      have hc := rne_close (q / 2 ^ u)
      rw [abs_le] at hc
      have heq1 : (rne (q / 2 ^ u) : ℚ) = 2 ^ (f.mant + 1) - 1 := by linarith
      have heq2 : q / 2 ^ u = 2 ^ (f.mant + 1) - 1 / 2 := by linarith
      have heven := rne_tie (q := q / 2 ^ u) (n := 2 ^ (f.mant + 1)) (by omega) (by
        rw [heq1, heq2]; push_cast
        rw [show (2 : ℚ) ^ (f.mant + 1) - (2 ^ (f.mant + 1) - 1 / 2) = 1 / 2 by ring,
          show (2 : ℚ) ^ (f.mant + 1) - 1 - (2 ^ (f.mant + 1) - 1 / 2) = -(1 / 2) by ring, abs_neg])
      have heqz : rne (q / 2 ^ u) = 2 ^ (f.mant + 1) - 1 := by exact_mod_cast heq1
      rw [heqz, pow_succ, Int.even_iff] at heven
      omega

/-! ### Bit patterns -/

theorem fields (neg : Bool) (E F : ℕ) (hE : E < 2 ^ f.expBits) (hF : F < 2 ^ f.mant) :
    f.assemble neg E F % 2 ^ f.mant = F ∧ f.assemble neg E F / 2 ^ f.mant % 2 ^ f.expBits = E ∧
    f.assemble neg E F / 2 ^ (f.mant + f.expBits) % 2 = (if neg then 1 else 0) ∧
    f.assemble neg E F < 2 ^ (1 + f.expBits + f.mant) := by
  have hpm : 0 < 2 ^ f.mant := by positivity
  have hpe : 0 < 2 ^ f.expBits := by positivity
  obtain ⟨s, hs, hs2⟩ : ∃ s : ℕ, s < 2 ∧ (if neg then 1 else 0) = s := ⟨_, by cases neg <;> decide, rfl⟩
  have ha : f.assemble neg E F = (s * 2 ^ f.expBits + E) * 2 ^ f.mant + F := by
    unfold assemble
    rw [← hs2, pow_add]
    cases neg <;> simp <;> ring
  rw [hs2, ha]
  have h1 : ((s * 2 ^ f.expBits + E) * 2 ^ f.mant + F) / 2 ^ f.mant = s * 2 ^ f.expBits + E := by
    rw [Nat.add_comm, Nat.add_mul_div_right _ _ hpm, Nat.div_eq_of_lt hF, Nat.zero_add]
  refine ⟨?_, ?_, ?_, ?_⟩
  · rw [Nat.add_comm, Nat.add_mul_mod_self_right, Nat.mod_eq_of_lt hF]
  · rw [h1, Nat.add_comm, Nat.add_mul_mod_self_right, Nat.mod_eq_of_lt hE]
  · rw [pow_add, ← Nat.div_div_eq_div_mul, h1, Nat.add_comm, Nat.add_mul_div_right _ _ hpe, Nat.div_eq_of_lt hE, Nat.zero_add,
      Nat.mod_eq_of_lt hs]
  · have e1 : 2 ^ (1 + f.expBits + f.mant) = 2 * 2 ^ f.expBits * 2 ^ f.mant := by ring
    have e2 : s * 2 ^ f.expBits + E + 1 ≤ 2 * 2 ^ f.expBits := by
      have : s * 2 ^ f.expBits ≤ 1 * 2 ^ f.expBits := Nat.mul_le_mul_right _ (by omega)
      omega
    have e3 := Nat.mul_le_mul_right (2 ^ f.mant) e2
    rw [e1]
    rw [Nat.add_mul] at e3
    omega

/-- The significand and exponent of a number of the format. -/
theorem normal_form {mag : ℚ} (h0 : 0 ≤ mag) (hg : OnGrid (f.mant + 1) f.minExp mag) (hl : mag < f.limit) :
    ∃ m : ℕ, mag = m * 2 ^ f.ulp mag ∧ m < 2 ^ (f.mant + 1) ∧ (f.ulp mag = f.minExp ∨ 2 ^ f.mant ≤ m) ∧
      (2 ^ f.mant ≤ m → f.ulp mag + f.mant ≤ f.bias) := by
  have hp := two_zpow_pos (f.ulp mag)
  have hmul : ∃ n : ℤ, mag = n * 2 ^ f.ulp mag := by
    rcases f.grid_dist mag mag hg with h | h
    · exact h
    · rw [sub_self, abs_zero] at h
      exact absurd h (not_lt.mpr (abs_nonneg _))
  obtain ⟨n, hn⟩ := hmul
  have hn0 : 0 ≤ n := by
    by_contra hcon
    have : (n : ℚ) < 0 := by exact_mod_cast not_le.mp hcon
    have := mul_neg_of_neg_of_pos this hp
    linarith
  obtain ⟨m, rfl⟩ := Int.eq_ofNat_of_zero_le hn0
  push_cast at hn
  refine ⟨m, hn, ?_, ?_, ?_⟩
  · by_cases hz : mag = 0
    · have hm0 : (m : ℚ) = 0 := by
        rcases mul_eq_zero.mp (hn.symm.trans hz) with h | h
        · exact h
        · exact absurd h (ne_of_gt hp)
      have : m = 0 := by exact_mod_cast hm0
      rw [this]; positivity
    · have h1 := abs_lt_log (q := mag)
      rw [abs_of_nonneg h0] at h1
      have h2 : (2 : ℚ) ^ (Int.log 2 mag + 1) ≤ 2 ^ (((f.mant + 1 : ℕ) : ℤ) + f.ulp mag) := by
        rw [zpow_le_zpow_iff_right₀ (by norm_num)]
        unfold ulp
        rw [if_neg hz, abs_of_nonneg h0]
        push_cast
        omega
      rw [zpow_add₀ (by norm_num) ((f.mant + 1 : ℕ) : ℤ), zpow_natCast] at h2
      have h3 : (m : ℚ) * 2 ^ f.ulp mag < 2 ^ (f.mant + 1) * 2 ^ f.ulp mag := by rw [← hn]; linarith
      have h4 := lt_of_mul_lt_mul_right h3 hp.le
      exact_mod_cast h4
  · by_cases hmin : f.ulp mag = f.minExp
    · exact Or.inl hmin
    · right
      have hz : mag ≠ 0 := by
        intro hz; apply hmin; unfold ulp; rw [if_pos hz]
      have hul : f.ulp mag = Int.log 2 |mag| - f.mant := by
        unfold ulp at hmin ⊢
        rw [if_neg hz] at hmin ⊢
        omega
      have h1 := log_le_abs hz
      have h2 : (2 : ℚ) ^ f.mant * 2 ^ f.ulp mag ≤ m * 2 ^ f.ulp mag := by
        rw [← hn, ← zpow_natCast, ← zpow_add₀ (by norm_num), hul]
        rw [show (f.mant : ℤ) + (Int.log 2 |mag| - f.mant) = Int.log 2 |mag| by omega]
        rwa [abs_of_nonneg h0] at h1 ⊢
      have h3 := le_of_mul_le_mul_right h2 hp
      exact_mod_cast h3
  · intro hm
    have h1 : (2 : ℚ) ^ f.mant * 2 ^ f.ulp mag ≤ mag := by
      have : ((2 ^ f.mant : ℕ) : ℚ) ≤ m := by exact_mod_cast hm
      push_cast at this
      rw (occs := [2]) [hn]
      exact mul_le_mul_of_nonneg_right this hp.le
    have h2 := lt_of_le_of_lt h1 hl
    unfold limit at h2
    rw [← zpow_natCast, ← zpow_add₀ (by norm_num), zpow_lt_zpow_iff_right₀ (by norm_num)] at h2
    omega

theorem decode_assemble (neg : Bool) (E F : ℕ) (hE : E < 2 ^ f.expBits) (hF : F < 2 ^ f.mant) :
    f.decode (f.assemble neg E F) =
      if E = 2 ^ f.expBits - 1 then if F = 0 then .inf neg else .nan
      else if E = 0 then .fin neg (F * 2 ^ f.minExp)
      else .fin neg ((2 ^ f.mant + F : ℕ) * 2 ^ (f.minExp + (E - 1 : ℕ))) := by
  obtain ⟨h1, h2, h3, -⟩ := f.fields neg E F hE hF
  unfold decode
  simp only [h1, h2, h3]
  cases neg <;> simp

theorem decode_encode (hb : 2 ≤ f.expBits) (neg : Bool) {mag : ℚ} (h0 : 0 ≤ mag) (hg : OnGrid (f.mant + 1) f.minExp mag)
    (hl : mag < f.limit) : f.decode (f.encode neg mag) = .fin neg mag ∧ f.encode neg mag < 2 ^ (1 + f.expBits + f.mant) := by
  obtain ⟨m, hm, hm1, hm2, hm3⟩ := f.normal_form h0 hg hl
  have hp := two_zpow_pos (f.ulp mag)
  have hpm : 0 < 2 ^ f.mant := by positivity
  have hfl : ⌊mag / 2 ^ f.ulp mag⌋.toNat = m := by
    have : mag / 2 ^ f.ulp mag = ((m : ℤ) : ℚ) := by
      rw [div_eq_iff (ne_of_gt hp)]; exact_mod_cast hm
    rw [this, Int.floor_intCast]; rfl
  have hcast : ((2 ^ f.expBits : ℕ) : ℤ) = 2 * (f.bias + 1) := by
    unfold bias
    rw [show f.expBits = (f.expBits - 1) + 1 by omega]
    push_cast
    rw [pow_succ]; ring
  have hulp := f.ulp_ge mag
  unfold encode
  rw [hfl]
  by_cases hsub : m < 2 ^ f.mant
  · have hmin : f.ulp mag = f.minExp := by
      rcases hm2 with h | h
      · exact h
      · omega
    rw [hmin, sub_self, Int.toNat_zero]
    have hE : 0 < 2 ^ f.expBits := by positivity
    have h4 : ¬ 0 = 2 ^ f.expBits - 1 := by
      have : 2 ^ 1 < 2 ^ f.expBits := Nat.pow_lt_pow_right (by omega) (by omega)
      omega
    refine ⟨?_, (f.fields neg 0 m hE hsub).2.2.2⟩
    rw [f.decode_assemble neg 0 m hE hsub, if_neg h4, if_pos rfl, ← hmin, ← hm]
  · have hge : 2 ^ f.mant ≤ m := by omega
    have hbias := hm3 hge
    obtain ⟨k, hk⟩ : ∃ k : ℕ, f.ulp mag - f.minExp = k := Int.eq_ofNat_of_zero_le (by omega)
    have hlt : k + 1 < 2 ^ f.expBits - 1 := by
      have : ((k + 1 : ℕ) : ℤ) < ((2 ^ f.expBits : ℕ) : ℤ) - 1 := by
        rw [hcast]; push_cast; rw [← hk]; unfold minExp; omega
      omega
    have hF : m - 2 ^ f.mant < 2 ^ f.mant := by rw [pow_succ] at hm1; omega
    have hre : f.assemble neg k m = f.assemble neg (k + 1) (m - 2 ^ f.mant) := by
      unfold assemble; rw [Nat.add_mul, Nat.one_mul]; omega
    rw [hk, Int.toNat_natCast, hre]
    refine ⟨?_, (f.fields neg (k + 1) _ (by omega) hF).2.2.2⟩
    rw [f.decode_assemble neg (k + 1) _ (by omega) hF, if_neg (by omega), if_neg (by omega)]
    rw [show 2 ^ f.mant + (m - 2 ^ f.mant) = m by omega, Nat.add_sub_cancel, ← hk,
      show f.minExp + (f.ulp mag - f.minExp) = f.ulp mag by omega, ← hm]

/-- Every bit pattern, taken apart. -/
theorem assemble_self (bits : ℕ) (h : bits < 2 ^ (1 + f.expBits + f.mant)) :
    bits = f.assemble (decide (bits / 2 ^ (f.mant + f.expBits) % 2 = 1)) (bits / 2 ^ f.mant % 2 ^ f.expBits) (bits % 2 ^ f.mant) := by
  have e1 := Nat.div_add_mod bits (2 ^ f.mant)
  have e2 := Nat.div_add_mod (bits / 2 ^ f.mant) (2 ^ f.expBits)
  have e3 : bits / 2 ^ f.mant / 2 ^ f.expBits = bits / 2 ^ (f.mant + f.expBits) := by
    rw [pow_add, Nat.div_div_eq_div_mul]
  have hs : bits / 2 ^ (f.mant + f.expBits) < 2 := by
    rw [Nat.div_lt_iff_lt_mul (by positivity)]
    refine lt_of_lt_of_eq h ?_
    ring
  rw [e3] at e2
  unfold assemble
  generalize hS : bits / 2 ^ (f.mant + f.expBits) = S at *
  generalize bits / 2 ^ f.mant % 2 ^ f.expBits = E at *
  generalize bits % 2 ^ f.mant = F at *
  rw [← e2] at e1
  have hS2 : S = 0 ∨ S = 1 := by omega
  rcases hS2 with rfl | rfl
  · simp at e1 ⊢; rw [← e1]; ring
  · simp at e1 ⊢; rw [← e1]; ring

/-- The number a bit pattern stands for is on the grid and below the limit, and its bit pattern is the one given. -/
theorem encode_decode (hb : 2 ≤ f.expBits) (bits : ℕ) (h : bits < 2 ^ (1 + f.expBits + f.mant)) (neg : Bool) (mag : ℚ)
    (hd : f.decode bits = .fin neg mag) :
    0 ≤ mag ∧ OnGrid (f.mant + 1) f.minExp mag ∧ mag < f.limit ∧ f.encode neg mag = bits := by
  have hbits := f.assemble_self bits h
  have hEl : bits / 2 ^ f.mant % 2 ^ f.expBits < 2 ^ f.expBits := Nat.mod_lt _ (by positivity)
  have hFl : bits % 2 ^ f.mant < 2 ^ f.mant := Nat.mod_lt _ (by positivity)
  generalize decide (bits / 2 ^ (f.mant + f.expBits) % 2 = 1) = s at hbits
  generalize bits / 2 ^ f.mant % 2 ^ f.expBits = E at hbits hEl
  generalize bits % 2 ^ f.mant = F at hbits hFl
  rw [hbits, f.decode_assemble s E F hEl hFl] at hd
  have hcast : ((2 ^ f.expBits : ℕ) : ℤ) = 2 * (f.bias + 1) := by
    unfold bias
    rw [show f.expBits = (f.expBits - 1) + 1 by omega]
    push_cast
    rw [pow_succ]; ring
  have hpm : (0 : ℚ) < 2 ^ f.mant := by positivity
  have hbias := f.two_limit hb
  by_cases hE1 : E = 2 ^ f.expBits - 1
  · rw [if_pos hE1] at hd
    split at hd <;> cases hd
  rw [if_neg hE1] at hd
  -- significand and exponent
  obtain ⟨m, k, hm, hmk, hsub, hnorm, hmag, hneg, hasm⟩ : ∃ m k : ℕ, m < 2 ^ (f.mant + 1) ∧ (k + 2 < 2 ^ f.expBits) ∧
      (m < 2 ^ f.mant → k = 0) ∧ True ∧ mag = m * 2 ^ (f.minExp + k) ∧ neg = s ∧ f.assemble s k m = f.assemble s E F := by
    by_cases hE0 : E = 0
    · rw [if_pos hE0] at hd
      injection hd with h1 h2
      refine ⟨F, 0, ?_, ?_, fun _ => rfl, trivial, ?_, h1.symm, by rw [hE0]⟩
      · rw [pow_succ]; omega
      · have : 2 ^ 2 ≤ 2 ^ f.expBits := Nat.pow_le_pow_right (by omega) hb
        omega
      · rw [← h2]; simp
    · rw [if_neg hE0] at hd
      injection hd with h1 h2
      refine ⟨2 ^ f.mant + F, E - 1, ?_, ?_, ?_, trivial, ?_, h1.symm, ?_⟩
      · rw [pow_succ]; omega
      · omega
      · intro h; omega
      · rw [← h2]
      · unfold assemble
        obtain ⟨E', rfl⟩ := Nat.exists_eq_succ_of_ne_zero hE0
        rw [Nat.succ_sub_one, Nat.succ_mul]; omega
  have hz2 := two_zpow_pos (f.minExp + k)
  have h0 : 0 ≤ mag := by rw [hmag]; exact mul_nonneg (by positivity) hz2.le
  have hg : OnGrid (f.mant + 1) f.minExp mag := by
    refine ⟨m, f.minExp + k, ?_, by omega, by rw [hmag]; push_cast; rfl⟩
    rw [abs_of_nonneg (by omega)]; exact_mod_cast hm
  have hlt : mag < f.limit := by
    have h1 : (m : ℚ) < 2 ^ (f.mant + 1) := by exact_mod_cast hm
    have h2 : mag < 2 ^ (f.mant + 1) * 2 ^ (f.minExp + k) := by rw [hmag]; exact mul_lt_mul_of_pos_right h1 hz2
    refine lt_of_lt_of_le h2 ?_
    unfold limit
    rw [← zpow_natCast, ← zpow_add₀ (by norm_num), zpow_le_zpow_iff_right₀ (by norm_num)]
    have : ((k + 2 : ℕ) : ℤ) < ((2 ^ f.expBits : ℕ) : ℤ) := by exact_mod_cast hmk
    rw [hcast] at this
    push_cast at this ⊢
    unfold minExp
    omega
  have hulp : f.ulp mag = f.minExp + k := by
    by_cases hz : mag = 0
    · have : (m : ℚ) = 0 := by
        rcases mul_eq_zero.mp (hmag.symm.trans hz) with h | h
        · exact h
        · exact absurd h (ne_of_gt hz2)
      have hm0 : m = 0 := by exact_mod_cast this
      have hk0 := hsub (by rw [hm0]; positivity)
      unfold ulp; rw [if_pos hz, hk0]; simp
    · unfold ulp
      rw [if_neg hz, abs_of_nonneg h0]
      have hpos : 0 < mag := lt_of_le_of_ne h0 (Ne.symm hz)
      have hup : Int.log 2 mag < f.minExp + k + f.mant + 1 := by
        rw [← Int.lt_zpow_iff_log_lt (by norm_num) hpos]
        have h1 : (m : ℚ) < 2 ^ (f.mant + 1) := by exact_mod_cast hm
        have h2 : mag < 2 ^ (f.mant + 1) * 2 ^ (f.minExp + k) := by rw [hmag]; exact mul_lt_mul_of_pos_right h1 hz2
        refine lt_of_lt_of_eq h2 ?_
        rw [← zpow_natCast, ← zpow_add₀ (by norm_num)]; push_cast
        congr 1; omega
      by_cases hms : m < 2 ^ f.mant
      · rw [hsub hms] at hup ⊢
        have hup2 : Int.log 2 mag < f.minExp + f.mant := by
          rw [← Int.lt_zpow_iff_log_lt (by norm_num) hpos]
          have h1 : (m : ℚ) < 2 ^ f.mant := by exact_mod_cast hms
          have h2 : mag < 2 ^ f.mant * 2 ^ (f.minExp + k) := by rw [hmag]; exact mul_lt_mul_of_pos_right h1 hz2
          refine lt_of_lt_of_eq h2 ?_
          rw [← zpow_natCast, ← zpow_add₀ (by norm_num), hsub hms]; push_cast
          congr 1; omega
        simp
        omega
      · have hlo : f.minExp + k + f.mant ≤ Int.log 2 mag := by
          rw [← Int.zpow_le_iff_le_log (by norm_num) hpos]
          have h1 : (2 : ℚ) ^ f.mant ≤ m := by exact_mod_cast not_lt.mp hms
          have h2 : (2 : ℚ) ^ f.mant * 2 ^ (f.minExp + k) ≤ mag := by rw [hmag]; exact mul_le_mul_of_nonneg_right h1 hz2.le
          refine le_of_eq_of_le ?_ h2
          rw [← zpow_natCast, ← zpow_add₀ (by norm_num)]; push_cast
          congr 1; omega
        omega
  refine ⟨h0, hg, hlt, ?_⟩
  unfold encode
  have hdiv : mag / 2 ^ f.ulp mag = ((m : ℤ) : ℚ) := by
    rw [hulp, div_eq_iff (ne_of_gt hz2), hmag]; push_cast; rfl
  rw [hdiv, hulp, Int.floor_intCast, show f.minExp + (k : ℤ) - f.minExp = k by omega, Int.toNat_natCast, Int.toNat_natCast, hneg, hasm,
    ← hbits]

end Py.FloatFmt
