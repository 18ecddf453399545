import Verif.Model.MulCost
import Verif.Proofs.ECMul
import Mathlib.Data.Nat.Size

/-!
# C183: how many doublings `P * n` takes
-/

namespace Neo.Props
open Py EC

/-- The counted loop computes what the loop computes, whatever the counter. -/
private theorem loop_same (c : Curve) (k : Int) : ∀ acc sh r, (mulLoopCounted c k acc sh r).1 = mulLoop c k acc sh := by
  induction k using loopCoeff.induct with
  | case1 => intro acc sh r; rw [mulLoopCounted, dif_pos rfl, mulLoop, dif_pos rfl]
  | case2 k hk ih => intro acc sh r; rw [mulLoopCounted, dif_neg hk, mulLoop, dif_neg hk]; exact ih _ _ _

private theorem halve_lower (k : Int) (j : Nat) (h : 2 ^ (j + 1) ≤ |k|) : 2 ^ j ≤ |halveUnits k| := by
  have h1 : (2 : Int) ^ (j + 1) = 2 * 2 ^ j := by ring
  rw [h1] at h
  generalize (2 : Int) ^ j = x at h ⊢
  unfold halveUnits
  split
  · rcases abs_cases k with ⟨h2, _⟩ | ⟨h2, _⟩ <;> rcases abs_cases (k / 2) with ⟨h3, _⟩ | ⟨h3, _⟩ <;> omega
  · split
    · rcases abs_cases k with ⟨h2, _⟩ | ⟨h2, _⟩ <;> rcases abs_cases (k / 2) with ⟨h3, _⟩ | ⟨h3, _⟩ <;> omega
    · rcases abs_cases k with ⟨h2, _⟩ | ⟨h2, _⟩ <;> rcases abs_cases (k / 2 + 1) with ⟨h3, _⟩ | ⟨h3, _⟩ <;> omega

private theorem halve_upper (k : Int) (j : Nat) (h : |k| ≤ 2 ^ (j + 1)) : |halveUnits k| ≤ 2 ^ j := by
  have h1 : (2 : Int) ^ (j + 1) = 2 * 2 ^ j := by ring
  have hx : (2 : Int) ^ j = 1 ∨ ∃ y, (2 : Int) ^ j = 2 * y := by
    cases j with
    | zero => exact .inl rfl
    | succ j => exact .inr ⟨2 ^ j, by ring⟩
  rw [h1] at h
  generalize (2 : Int) ^ j = x at h hx ⊢
  unfold halveUnits
  rcases hx with hx | ⟨y, hx⟩ <;> split
  · rcases abs_cases k with ⟨h2, _⟩ | ⟨h2, _⟩ <;> rcases abs_cases (k / 2) with ⟨h3, _⟩ | ⟨h3, _⟩ <;> omega
  · split
    · rcases abs_cases k with ⟨h2, _⟩ | ⟨h2, _⟩ <;> rcases abs_cases (k / 2) with ⟨h3, _⟩ | ⟨h3, _⟩ <;> omega
    · rcases abs_cases k with ⟨h2, _⟩ | ⟨h2, _⟩ <;> rcases abs_cases (k / 2 + 1) with ⟨h3, _⟩ | ⟨h3, _⟩ <;> omega
  · rcases abs_cases k with ⟨h2, _⟩ | ⟨h2, _⟩ <;> rcases abs_cases (k / 2) with ⟨h3, _⟩ | ⟨h3, _⟩ <;> omega
  · split
    · rcases abs_cases k with ⟨h2, _⟩ | ⟨h2, _⟩ <;> rcases abs_cases (k / 2) with ⟨h3, _⟩ | ⟨h3, _⟩ <;> omega
    · rcases abs_cases k with ⟨h2, _⟩ | ⟨h2, _⟩ <;> rcases abs_cases (k / 2 + 1) with ⟨h3, _⟩ | ⟨h3, _⟩ <;> omega

private theorem loop_lower (c : Curve) (j : Nat) : ∀ (k : Int) acc sh r, 2 ^ j ≤ |k| → r + j + 1 ≤ (mulLoopCounted c k acc sh r).2 := by
  have mono : ∀ (k : Int) acc sh r, r ≤ (mulLoopCounted c k acc sh r).2 := by
    intro k
    induction k using loopCoeff.induct with
    | case1 => intro acc sh r; rw [mulLoopCounted, dif_pos rfl]
    | case2 k hk ih => intro acc sh r; rw [mulLoopCounted, dif_neg hk]; exact (Nat.le_succ r).trans (ih _ _ _)
  induction j with
  | zero =>
    intro k acc sh r h
    have hk : k ≠ 0 := by rintro rfl; norm_num at h
    rw [mulLoopCounted, dif_neg hk]
    exact mono _ _ _ _
  | succ j ih =>
    intro k acc sh r h
    have hk : k ≠ 0 := by
      rintro rfl
      have : (0 : Int) < 2 ^ (j + 1) := by positivity
      rw [abs_zero] at h
      omega
    rw [mulLoopCounted, dif_neg hk]
    have := ih (halveUnits k) (if k % 2 ^ 1075 ≠ 0 then add c acc sh else acc) (add c sh sh) (r + 1) (halve_lower k j h)
    omega

private theorem loop_upper (c : Curve) (j : Nat) : ∀ (k : Int) acc sh r, |k| ≤ 2 ^ j → (mulLoopCounted c k acc sh r).2 ≤ r + j + 1 := by
  induction j with
  | zero =>
    intro k acc sh r h
    by_cases hk : k = 0
    · rw [hk, mulLoopCounted, dif_pos rfl]; simp only; omega
    · rw [mulLoopCounted, dif_neg hk]
      have hz : halveUnits k = 0 := by
        have : k = 1 ∨ k = -1 := by rw [pow_zero, abs_le] at h; omega
        rcases this with rfl | rfl <;> decide
      rw [hz, mulLoopCounted, dif_pos rfl]
  | succ j ih =>
    intro k acc sh r h
    by_cases hk : k = 0
    · rw [hk, mulLoopCounted, dif_pos rfl]; simp only; omega
    · rw [mulLoopCounted, dif_neg hk]
      have := ih (halveUnits k) (if k % 2 ^ 1075 ≠ 0 then add c acc sh else acc) (add c sh sh) (r + 1) (halve_upper k j h)
      omega

/-- The float `n / 2`, in units of 2^-1074, lies between the powers of two around `n`. -/
private theorem units (n : Int) (s : Nat) (h1 : 2 ^ s ≤ |n|) (h2 : |n| ≤ 2 ^ (s + 1)) :
    2 ^ (s + 1073) ≤ |⌊roundQ ((n : ℚ) / ((2 : Int) : ℚ)) * 2 ^ 1074⌋| ∧ |⌊roundQ ((n : ℚ) / ((2 : Int) : ℚ)) * 2 ^ 1074⌋| ≤ 2 ^ (s + 1074) := by
  have rep : ∀ e : Nat, Representable ((2 : ℚ) ^ ((e : ℤ) - 1)) := fun e => ⟨1, (e : ℤ) - 1, by norm_num, by omega, by simp⟩
  have repn : ∀ e : Nat, Representable (-(2 : ℚ) ^ ((e : ℤ) - 1)) := fun e => ⟨-1, (e : ℤ) - 1, by norm_num, by omega, by simp⟩
  have hpow : ∀ e : Nat, (2 : ℚ) ^ ((e : ℤ) - 1) = 2 ^ e / 2 := fun e => by
    rw [zpow_sub_one₀ (by norm_num), zpow_natCast]; rfl
  have hu : ∀ e : Nat, (2 : ℚ) ^ ((e : ℤ) - 1) * 2 ^ 1074 = ((2 ^ (e + 1073) : Int) : ℚ) := fun e => by
    rw [hpow, show (2 : ℚ) ^ 1074 = 2 ^ 1073 * 2 from pow_succ 2 1073, Int.cast_pow, Int.cast_ofNat, pow_add]
    generalize (2 : ℚ) ^ 1073 = y
    ring
  have hpos : (0 : ℚ) < 2 ^ 1074 := by positivity
  have l1 : ((2 : ℚ) ^ s) ≤ |(n : ℚ)| := by exact_mod_cast h1
  have l2 : |(n : ℚ)| ≤ ((2 : ℚ) ^ (s + 1)) := by exact_mod_cast h2
  rw [show ((2 : Int) : ℚ) = 2 from rfl]
  have ha := hu s
  have hb := hu (s + 1)
  rw [show s + 1 + 1073 = s + 1074 from by omega] at hb
  rcases le_total 0 n with hn | hn
  · have hq : (0 : ℚ) ≤ n := by exact_mod_cast hn
    rw [abs_of_nonneg hq] at l1 l2
    have k1 := le_roundQ (rep s) (q := (n : ℚ) / 2) (by rw [hpow]; linarith)
    have k2 := roundQ_le (rep (s + 1)) (q := (n : ℚ) / 2) (by rw [hpow]; linarith)
    have m1 := mul_le_mul_of_nonneg_right k1 hpos.le
    have m2 := mul_le_mul_of_nonneg_right k2 hpos.le
    rw [ha] at m1
    rw [hb] at m2
    have f1 := Int.le_floor.2 m1
    have f2 := Int.floor_le_iff.2 (lt_of_le_of_lt m2 (lt_add_one _))
    have f0 : (0 : Int) ≤ 2 ^ (s + 1073) := by positivity
    rw [abs_of_nonneg (f0.trans f1)]
    exact ⟨f1, f2⟩
  · have hq : (n : ℚ) ≤ 0 := by exact_mod_cast hn
    rw [abs_of_nonpos hq] at l1 l2
    have k1 := roundQ_le (repn s) (q := (n : ℚ) / 2) (by rw [hpow]; linarith)
    have k2 := le_roundQ (repn (s + 1)) (q := (n : ℚ) / 2) (by rw [hpow]; linarith)
    have m1 := mul_le_mul_of_nonneg_right k1 hpos.le
    have m2 := mul_le_mul_of_nonneg_right k2 hpos.le
    rw [neg_mul, ha, ← Int.cast_neg] at m1
    rw [neg_mul, hb, ← Int.cast_neg] at m2
    have f1 := Int.le_floor.2 m2
    have f2 := Int.floor_le_iff.2 (lt_of_le_of_lt m1 (lt_add_one _))
    have f0 : (0 : Int) ≤ 2 ^ (s + 1073) := by positivity
    rw [abs_of_nonpos (f2.trans (neg_nonpos.2 f0))]
    exact ⟨by linarith, by linarith⟩

/-- The counted multiplication is `mul` with a count: the same point, the same exceptions. -/
private theorem counted_same (c : Curve) (P : Pt) (n : Int) : (mulCounted c P n).map Prod.fst = mul c P n := by
  rw [mulCounted, mul]
  by_cases h0 : n = 0
  · rw [if_pos h0, if_pos h0]; rfl
  · rw [if_neg h0, if_neg h0]
    cases intTrueDiv n 2 with
    | error e => rfl
    | ok q =>
      cases q with
      | fin q => simp only [Except.map]; rw [loop_same]
      | _ => rfl

/-- C183: `P * n` always ends, after at most 1075 rounds more than `n` has bits. -/
theorem C183_rounds_partial (c : Curve) (P : Pt) (n : Int) (hn : |n| < 2 ^ 1025 - 2 ^ 971) :
    ∃ R rounds, mulCounted c P n = .ok (R, rounds) ∧ mul c P n = .ok R ∧ rounds ≤ n.natAbs.size + 1075 := by
  have hs := counted_same c P n
  by_cases h0 : n = 0
  · have : mulCounted c P n = .ok (zero, 0) := by rw [mulCounted, if_pos h0]
    rw [this] at hs
    exact ⟨zero, 0, this, hs.symm, Nat.zero_le _⟩
  · have hm : mulCounted c P n = .ok (mulLoopCounted c ⌊roundQ ((n : ℚ) / ((2 : Int) : ℚ)) * 2 ^ 1074⌋
        (if n % 2 ≠ 0 then add c zero P else zero) (add c P P) 1) := by
      rw [mulCounted, if_neg h0]; simp only [intTrueDiv_two hn]
    have hpos : 0 < n.natAbs.size := Nat.size_pos.2 (Int.natAbs_pos.2 h0)
    obtain ⟨s, e⟩ : ∃ s, n.natAbs.size = s + 1 := ⟨n.natAbs.size - 1, by omega⟩
    have hlo : 2 ^ s ≤ |n| := by
      have := Nat.lt_size.1 (show s < n.natAbs.size by omega)
      rw [Int.abs_eq_natAbs]; exact_mod_cast this
    have hhi : |n| ≤ 2 ^ (s + 1) := by
      have := (Nat.size_le.1 e.le).le
      rw [Int.abs_eq_natAbs]; exact_mod_cast this
    have hb := loop_upper c (s + 1074) _ (if n % 2 ≠ 0 then add c zero P else zero) (add c P P) 1 (units n s hlo hhi).2
    rw [hm] at hs
    generalize mulLoopCounted c _ _ _ _ = res at hm hs hb
    clear hlo hhi hn
    obtain ⟨R, r⟩ := res
    refine ⟨R, r, hm, hs.symm, ?_⟩
    rw [e]
    clear hs hm e
    linarith

/-- C183: but even `P * 1` takes more than a thousand: for every `n` but 0 the loop halves a float down to zero, 1074 rounds more than `n` has bits, on
every curve and for every point. -/
theorem C183_many_rounds_violated (c : Curve) (P : Pt) (n : Int) (h0 : n ≠ 0) (hn : |n| < 2 ^ 1025 - 2 ^ 971) :
    ∃ R rounds, mulCounted c P n = .ok (R, rounds) ∧ mul c P n = .ok R ∧ n.natAbs.size + 1074 ≤ rounds := by
  have hs := counted_same c P n
  have hm : mulCounted c P n = .ok (mulLoopCounted c ⌊roundQ ((n : ℚ) / ((2 : Int) : ℚ)) * 2 ^ 1074⌋
      (if n % 2 ≠ 0 then add c zero P else zero) (add c P P) 1) := by
    rw [mulCounted, if_neg h0]; simp only [intTrueDiv_two hn]
  have hpos : 0 < n.natAbs.size := Nat.size_pos.2 (Int.natAbs_pos.2 h0)
  obtain ⟨s, e⟩ : ∃ s, n.natAbs.size = s + 1 := ⟨n.natAbs.size - 1, by omega⟩
  have hlo : 2 ^ s ≤ |n| := by
    have := Nat.lt_size.1 (show s < n.natAbs.size by omega)
    rw [Int.abs_eq_natAbs]; exact_mod_cast this
  have hhi : |n| ≤ 2 ^ (s + 1) := by
    have := (Nat.size_le.1 e.le).le
    rw [Int.abs_eq_natAbs]; exact_mod_cast this
  have hb := loop_lower c (s + 1073) _ (if n % 2 ≠ 0 then add c zero P else zero) (add c P P) 1 (units n s hlo hhi).1
  rw [hm] at hs
  generalize mulLoopCounted c _ _ _ _ = res at hm hs hb
  clear hlo hhi hn
  obtain ⟨R, r⟩ := res
  refine ⟨R, r, hm, hs.symm, ?_⟩
  rw [e]
  clear hs hm e
  linarith

/-- `P * 1` takes 1075 or 1076 rounds. -/
example (c : Curve) (P : Pt) : ∃ R rounds, mulCounted c P 1 = .ok (R, rounds) ∧ 1075 ≤ rounds := by
  obtain ⟨R, r, h, -, hr⟩ := C183_many_rounds_violated c P 1 (by decide) (in_range (by rw [abs_one]; exact one_le_pow₀ (by norm_num)))
  exact ⟨R, r, h, hr⟩

end Neo.Props
