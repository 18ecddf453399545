import Verif.Proofs.DecimalMul
import Mathlib.RingTheory.Coprime.Lemmas
import Verif.Model.Fixed8
import Verif.Proofs.FloatRange
import Mathlib.Tactic.IntervalCases

/-!
# C27–C31, C74: Fixed8 (C32, its text form, is in Props/Fixed8Text)
-/

namespace Neo.Props
open Py Fixed8

/-! ### C27 -/

/-- C27. Addition, subtraction and negation are those of the integer amounts. -/
theorem C27_exact (a b : Int) : Fixed8.add a b = a + b ∧ Fixed8.sub a b = a - b ∧ Fixed8.neg a = -a := by
  refine ⟨rfl, rfl, ?_⟩
  unfold Fixed8.neg; omega

/-- A running balance: amounts credited (true) or debited (false). -/
def balance (start : Int) (moves : List (Bool × Int)) : Int :=
  moves.foldl (fun acc m => if m.1 then Fixed8.add acc m.2 else Fixed8.sub acc m.2) start

/-- C27. A balance computed by any sequence of additions and subtractions is the exact signed sum, so it does not
depend on the order of the moves. -/
theorem C27_balance (start : Int) (moves : List (Bool × Int)) :
    balance start moves = start + (moves.map fun m => if m.1 then m.2 else -m.2).sum := by
  unfold balance
  induction moves generalizing start with
  | nil => simp
  | cons m ms ih =>
    rw [List.foldl_cons, ih, List.map_cons, List.sum_cons]
    cases m with
    | mk b x => cases b <;> simp [Fixed8.add, Fixed8.sub] <;> omega

/-- C27. Any reordering of the moves gives the same balance. -/
theorem C27_order_independent (start : Int) (m₁ m₂ : List (Bool × Int)) (h : m₁.Perm m₂) :
    balance start m₁ = balance start m₂ := by
  rw [C27_balance, C27_balance, (h.map _).sum_eq]

example : [(true, (5 : Int)), (false, 3)].Perm [(false, 3), (true, 5)] := List.Perm.swap _ _ _

/-- C27. The comparison operators are the total order of the amounts. -/
theorem C27_order (a b : Int) :
    (Fixed8.eq a b = true ↔ a = b) ∧ (Fixed8.lt a b = true ↔ a < b) ∧ (Fixed8.gt a b = true ↔ b < a) ∧
      (Fixed8.le a b = true ↔ a ≤ b) ∧ (Fixed8.ge a b = true ↔ b ≤ a) ∧
      (Fixed8.lt a b = true ∨ Fixed8.eq a b = true ∨ Fixed8.gt a b = true) := by
  simp only [Fixed8.eq, Fixed8.lt, Fixed8.gt, Fixed8.le, Fixed8.ge, beq_iff_eq, decide_eq_true_eq, gt_iff_lt, ge_iff_le]
  refine ⟨trivial, trivial, trivial, trivial, trivial, ?_⟩
  omega

/-! ### C28 -/

private theorem D_pos : (0 : ℚ) < (D : ℚ) := by norm_num [D]

/-- True division by `D` in closed form, for amounts of up to 1000 bits. -/
private theorem trueDiv_D (v : Int) (h : |v| ≤ 2 ^ 900) : intTrueDiv v D = .ok (.fin (roundQ ((v : ℚ) / (D : ℚ)))) := by
  unfold intTrueDiv
  rw [if_neg (by decide), ofRat_fin]
  rw [abs_div, abs_of_pos D_pos, div_le_iff₀ D_pos]
  have h1 : |(v : ℚ)| ≤ 2 ^ 900 := by
    rw [← Int.cast_abs]
    have : ((|v| : ℤ) : ℚ) ≤ ((2 ^ 900 : ℤ) : ℚ) := Int.cast_le.mpr h
    refine this.trans (le_of_eq ?_)
    rw [Int.cast_pow]; rfl
  have h2 : (2 : ℚ) ^ 900 ≤ 2 ^ 1000 := by rw [pow_le_pow_iff_right₀ (by norm_num)]; norm_num
  have h3 : (2 : ℚ) ^ 1000 ≤ 2 ^ 1000 * (D : ℚ) := le_mul_of_one_le_right (by positivity) (by norm_num [D])
  exact (h1.trans h2).trans h3

/-- Rounding a quotient by D of a moderate amount stays strictly between the neighbouring integers. -/
private theorem round_between (v : Int) (h : |v| ≤ 2 ^ 27 * D) (hd : ¬ D ∣ v) :
    ((v.fdiv D : Int) : ℚ) < roundQ ((v : ℚ) / (D : ℚ)) ∧ roundQ ((v : ℚ) / (D : ℚ)) < (v.fdiv D : Int) + 1 := by
  have hD := D_pos
  have hfd : v.fdiv D = v / D := Int.fdiv_eq_ediv_of_nonneg v (by decide)
  rw [hfd]
  have hmod := Int.emod_nonneg v (show D ≠ 0 by decide)
  have hmod2 := Int.emod_lt_of_pos v (show 0 < D by decide)
  have hmod0 : v % D ≠ 0 := fun hh => hd (Int.dvd_of_emod_eq_zero hh)
  have hdiv := Int.emod_add_mul_ediv v D
  have hq : (v : ℚ) / D = (v / D : ℤ) + ((v % D : ℤ) : ℚ) / D := by
    have : (v : ℚ) = ((v % D : ℤ) : ℚ) + D * ((v / D : ℤ) : ℚ) := by exact_mod_cast hdiv.symm
    rw [div_eq_iff hD.ne']
    rw [add_mul, div_mul_cancel₀ _ hD.ne']
    linarith
  have hlo : (1 : ℚ) / D ≤ ((v % D : ℤ) : ℚ) / D := by
    apply div_le_div_of_nonneg_right _ hD.le
    exact_mod_cast (by omega : 1 ≤ v % D)
  have hhi : ((v % D : ℤ) : ℚ) / D ≤ 1 - 1 / D := by
    rw [div_le_iff₀ hD, sub_mul, one_mul, div_mul_cancel₀ _ hD.ne']
    have : v % D ≤ D - 1 := by omega
    exact_mod_cast this
  have hlt : |(v : ℚ) / D| < 2 ^ (27 : ℤ) := by
    rw [abs_div, abs_of_pos hD, div_lt_iff₀ hD]
    have hne : |v| ≠ 2 ^ 27 * D := by
      intro he
      apply hd
      rw [← dvd_abs, he]
      exact Dvd.intro_left _ rfl
    have : |v| < 2 ^ 27 * D := lt_of_le_of_ne h hne
    rw [← Int.cast_abs]
    exact_mod_cast this
  have herr := roundQ_error hlt (by norm_num)
  have hsmall : (2 : ℚ) ^ ((27 : ℤ) - 54) < 1 / D := by norm_num [D]
  rw [abs_le] at herr
  constructor
  · linarith [herr.1]
  · linarith [herr.2]

private theorem bound_900 {v : Int} (h : |v| ≤ 2 ^ 27 * D) : |v| ≤ 2 ^ 900 :=
  le_trans h (le_trans (by decide : (2 : Int) ^ 27 * D ≤ 2 ^ 54) (by
    exact_mod_cast Nat.pow_le_pow_right (by decide) (by decide : 54 ≤ 900)))

private theorem round_exact (n : Int) (h : |n * D| ≤ 2 ^ 27 * D) : roundQ (((n * D : Int) : ℚ) / (D : ℚ)) = n := by
  have hD := D_pos
  rw [Int.cast_mul, mul_div_cancel_right₀ _ hD.ne']
  apply roundQ_int
  rw [abs_mul, abs_of_pos (show 0 < D by decide)] at h
  have : |n| ≤ 2 ^ 27 := by
    have := (Int.mul_le_mul_right (show 0 < D by decide)).mp h
    exact this
  have h2 : (2 : Int) ^ 27 ≤ 2 ^ 53 := by norm_num
  omega

private theorem floor_of {v : Int} {q : ℚ} {n : Int} (h : intTrueDiv v D = .ok (.fin q)) (h2 : ⌊q⌋ = n) :
    Fixed8.floor v = .ok (n * D) := by
  unfold Fixed8.floor; rw [h]; subst h2; rfl

private theorem ceil_of {v : Int} {q : ℚ} {n : Int} (h : intTrueDiv v D = .ok (.fin q)) (h2 : ⌈q⌉ = n) :
    Fixed8.ceil v = .ok (n * D) := by
  unfold Fixed8.ceil; rw [h]; subst h2; rfl

private theorem toInt_of {v : Int} {q : ℚ} {n : Int} (h : intTrueDiv v D = .ok (.fin q))
    (h2 : (if q < 0 then ⌈q⌉ else ⌊q⌋) = n) : Fixed8.toInt v = .ok n := by
  unfold Fixed8.toInt; rw [h]; subst h2; rfl

/-- C28 holds for every amount of magnitude up to 2^27 units (above the total supply of 10^8): `Floor` is the largest
multiple of one unit not above the amount, `Ceil` the smallest not below it, `ToInt` the number of whole units. -/
theorem C28_floor_ceil_toInt_partial (v : Int) (h : |v| ≤ 2 ^ 27 * 100000000) :
    ∃ f c n, Fixed8.floor v = .ok f ∧ Fixed8.ceil v = .ok c ∧ Fixed8.toInt v = .ok n ∧
      (100000000 ∣ f ∧ f ≤ v ∧ ∀ w, 100000000 ∣ w → w ≤ v → w ≤ f) ∧
      (100000000 ∣ c ∧ v ≤ c ∧ ∀ w, 100000000 ∣ w → v ≤ w → c ≤ w) ∧
      n = v.tdiv 100000000 := by
  have hb : |v| ≤ 2 ^ 27 * D := h
  have htd := trueDiv_D v (bound_900 hb)
  have hDv : D = 100000000 := rfl
  by_cases hd : D ∣ v
  · obtain ⟨k, hk⟩ := hd
    have hv : v = k * D := by rw [hk, Int.mul_comm]
    have hr : roundQ ((v : ℚ) / (D : ℚ)) = k := by rw [hv]; exact round_exact k (by rw [← hv]; exact hb)
    refine ⟨v, v, k, ?_, ?_, ?_, ⟨⟨k, hk⟩, le_refl _, fun w _ hw => hw⟩, ⟨⟨k, hk⟩, le_refl _, fun w _ hw => hw⟩, ?_⟩
    · rw [hr] at htd; rw [floor_of htd (Int.floor_intCast k), hv]
    · rw [hr] at htd; rw [ceil_of htd (Int.ceil_intCast k), hv]
    · rw [hr] at htd
      exact toInt_of htd (by rw [Int.ceil_intCast, Int.floor_intCast, ite_self])
    · rw [hv, hDv, Int.mul_tdiv_cancel _ (by decide)]
  · obtain ⟨h1, h2⟩ := round_between v hb hd
    have hfd : v.fdiv D = v / D := Int.fdiv_eq_ediv_of_nonneg v (by decide)
    rw [hfd] at h1 h2
    have hfloor : ⌊roundQ ((v : ℚ) / (D : ℚ))⌋ = v / D := by
      rw [Int.floor_eq_iff]; exact ⟨h1.le, h2⟩
    have hceil : ⌈roundQ ((v : ℚ) / (D : ℚ))⌉ = v / D + 1 := by
      rw [Int.ceil_eq_iff]; push_cast; exact ⟨by linarith, h2.le⟩
    have hm : v % 100000000 ≠ 0 := fun hh => hd (Int.dvd_of_emod_eq_zero hh)
    refine ⟨v / D * D, (v / D + 1) * D, v.tdiv 100000000, ?_, ?_, ?_, ?_, ?_, rfl⟩
    · exact floor_of htd hfloor
    · exact ceil_of htd hceil
    · apply toInt_of htd
      rw [hfloor, hceil]
      by_cases hneg : v < 0
      · rw [if_pos]
        · rw [Int.tdiv_eq_ediv, if_neg (by rintro (h | h); exacts [by omega, hd h])]
          rfl
        · have : v / D + 1 ≤ 0 := by rw [hDv]; omega
          have : ((v / D : Int) : ℚ) + 1 ≤ 0 := by exact_mod_cast this
          linarith
      · rw [if_neg]
        · rw [Int.tdiv_eq_ediv_of_nonneg (by omega), hDv]
        · have : 0 ≤ v / D := by rw [hDv]; omega
          have : (0 : ℚ) ≤ ((v / D : Int) : ℚ) := by exact_mod_cast this
          linarith
    · rw [hDv]
      refine ⟨Dvd.intro_left _ rfl, by omega, ?_⟩
      rintro w ⟨k, rfl⟩ hw
      omega
    · rw [hDv]
      refine ⟨Dvd.intro_left _ rfl, by omega, ?_⟩
      rintro w ⟨k, rfl⟩ hw
      omega

example : |(10000000000000000 : Int)| ≤ 2 ^ 27 * 100000000 := by decide

/-- C28 fails above: the amount one satoshi below 2^27 + 1 units is rounded up to it by the float division, so `Floor`
is larger than the amount and `ToInt` one too many. -/
theorem C28_large_violated :
    Fixed8.floor ((2 ^ 27 + 1) * 100000000 - 1) = .ok ((2 ^ 27 + 1) * 100000000) ∧
      Fixed8.toInt ((2 ^ 27 + 1) * 100000000 - 1) = .ok (2 ^ 27 + 1) := by
  constructor <;> decide +kernel

/-- C28 fails also for Ceil. -/
theorem C28_large_ceil_violated :
    Fixed8.ceil ((2 ^ 27 + 1) * 100000000 + 1) = .ok ((2 ^ 27 + 1) * 100000000) := by
  decide +kernel

/-- A double between a whole number k above 2^27 and a satoshi beside it there is none. -/
private theorem round_satoshi (k e : Int) (he : e = 1 ∨ e = -1) (h1 : 2 ^ 27 * D ≤ k * D + e) (h2 : k ≤ 2 ^ 53) :
    roundQ (((k * D + e : Int) : ℚ) / (D : ℚ)) = k := by
  have hD : (D : ℚ) = 100000000 := by norm_num [D]
  have hDi : D = 100000000 := rfl
  have hk : 2 ^ 27 ≤ k := by rw [hDi] at h1; rcases he with rfl | rfl <;> omega
  have hrk : Representable (k : ℚ) := representable_int (by rw [abs_of_nonneg (by omega)]; exact h2)
  have hr27 : Representable ((2 ^ 27 : Int) : ℚ) := representable_int (by norm_num)
  set q : ℚ := ((k * D + e : Int) : ℚ) / (D : ℚ) with hq
  have hqe : q = k + e / 100000000 := by rw [hq, hD]; push_cast; rw [hD]; ring
  have hq27 : ((2 ^ 27 : Int) : ℚ) ≤ q := by
    rw [hq, le_div_iff₀ (by rw [hD]; norm_num)]
    exact_mod_cast h1
  have hx27 := le_roundQ hr27 hq27
  obtain ⟨n, hn⟩ := representable_multiple (roundQ_representable q) 27 (by
    rw [abs_of_nonneg (le_trans (by norm_num) hx27)]
    refine le_trans ?_ hx27
    norm_num) (-25) (by norm_num)
  have hclose := roundQ_nearest q k hrk
  have hkq : |(k : ℚ) - q| = 1 / 100000000 := by
    rw [hqe]
    rcases he with rfl | rfl
    · rw [show (k : ℚ) - (k + ((1 : Int) : ℚ) / 100000000) = -(1 / 100000000) by push_cast; ring, abs_neg, abs_of_nonneg (by norm_num)]
    · rw [show (k : ℚ) - (k + ((-1 : Int) : ℚ) / 100000000) = 1 / 100000000 by push_cast; ring, abs_of_nonneg (by norm_num)]
  rw [hkq] at hclose
  have h25 : ((2 : ℚ) ^ (-25 : ℤ)) = 1 / 33554432 := by norm_num
  have hdist : |roundQ q - k| ≤ 2 / 100000000 := by
    have := abs_sub_le (roundQ q) q k
    have h' : |q - (k : ℚ)| = 1 / 100000000 := by rw [abs_sub_comm]; exact hkq
    rw [h'] at this
    linarith
  have hint : |((n - k * 33554432 : Int) : ℚ)| < 1 := by
    have : roundQ q - k = ((n - k * 33554432 : Int) : ℚ) / 33554432 := by
      rw [hn, h25]; push_cast; ring
    rw [this, abs_div, abs_of_pos (by norm_num : (0 : ℚ) < 33554432), div_le_iff₀ (by norm_num)] at hdist
    refine lt_of_le_of_lt hdist (by norm_num)
  have hz : n - k * 33554432 = 0 := by
    have : |n - k * 33554432| < 1 := by exact_mod_cast hint
    exact Int.abs_lt_one_iff.1 this
  rw [hn, h25, show n = k * 33554432 by omega]
  push_cast
  ring

/-- C28 fails for every whole number of units above 2^27 (and up to 2^53, far above what 64 bits hold): `Floor` and `ToInt` one satoshi below it
and `Ceil` one satoshi above it give that number. So the bound of `C28_floor_ceil_toInt_partial` is the best possible. -/
theorem C28_every_large_violated (k : Int) (hk : 2 ^ 27 < k) (h2 : k ≤ 2 ^ 53) :
    Fixed8.floor (k * 100000000 - 1) = .ok (k * 100000000) ∧ Fixed8.toInt (k * 100000000 - 1) = .ok k ∧
    Fixed8.ceil (k * 100000000 + 1) = .ok (k * 100000000) ∧ Fixed8.ceil (2 ^ 27 * 100000000 + 1) = .ok (2 ^ 27 * 100000000) := by
  have hDi : D = 100000000 := rfl
  have b : ∀ v : Int, |v| ≤ 2 ^ 53 * 100000000 + 1 → intTrueDiv v D = .ok (.fin (roundQ ((v : ℚ) / (D : ℚ)))) := by
    intro v hv
    exact trueDiv_D v (le_trans hv (le_trans (by decide : (2 : Int) ^ 53 * 100000000 + 1 ≤ 2 ^ 100) (by
      exact_mod_cast Nat.pow_le_pow_right (by decide) (by decide : 100 ≤ 900))))
  have r1 := round_satoshi k (-1) (Or.inr rfl) (by rw [hDi]; omega) h2
  have r2 := round_satoshi k 1 (Or.inl rfl) (by rw [hDi]; omega) h2
  have r3 := round_satoshi (2 ^ 27) 1 (Or.inl rfl) (by rw [hDi]; omega) (by norm_num)
  have t1 := b (k * D + -1) (by rw [hDi, abs_le]; constructor <;> omega)
  have t2 := b (k * D + 1) (by rw [hDi, abs_le]; constructor <;> omega)
  have t3 := b (2 ^ 27 * D + 1) (by rw [hDi, abs_le]; constructor <;> omega)
  rw [r1] at t1
  rw [r2] at t2
  rw [r3] at t3
  refine ⟨floor_of t1 (Int.floor_intCast k), toInt_of t1 (by rw [Int.ceil_intCast, Int.floor_intCast, ite_self]),
    ceil_of t2 (Int.ceil_intCast k), ceil_of t3 (Int.ceil_intCast _)⟩

/-! ### C29 -/

private theorem abs_q (a b : Int) : |(a : ℚ) / b| = |(a : ℚ)| / |(b : ℚ)| := abs_div _ _

/-- C29 holds for every dividend below 2^53 (and any divisor): `/` truncates toward zero. -/
theorem C29_truediv_partial (a b : Int) (ha : |a| < 2 ^ 53) (hb : b ≠ 0) : Fixed8.truediv a b = .ok (a.tdiv b) := by
  have hbq : (b : ℚ) ≠ 0 := by exact_mod_cast hb
  have hb1 : (1 : ℚ) ≤ |(b : ℚ)| := by
    rw [← Int.cast_abs]; exact_mod_cast Int.one_le_abs hb
  have haq : |(a : ℚ)| < 2 ^ 53 := by rw [← Int.cast_abs]; exact_mod_cast ha
  have hq53 : |(a : ℚ) / b| < 2 ^ 53 := by
    rw [abs_div, div_lt_iff₀ (by linarith)]
    nlinarith [abs_nonneg (a : ℚ)]
  have hfin : intTrueDiv a b = .ok (.fin (roundQ ((a : ℚ) / b))) := by
    unfold intTrueDiv
    rw [if_neg hb, ofRat_fin]
    have : (2 : ℚ) ^ 53 ≤ 2 ^ 1000 := by rw [pow_le_pow_iff_right₀ (by norm_num)]; norm_num
    exact (hq53.trans_le this).le
  simp only [Fixed8.truediv, hfin, PyFloat.toInt]
  congr 1
  -- work with the absolute value
  set q : ℚ := (a : ℚ) / b with hqdef
  have hnat : |q| = (a.natAbs : ℚ) / (b.natAbs : ℚ) := by
    rw [hqdef, abs_div, ← Int.cast_abs, ← Int.cast_abs, Int.abs_eq_natAbs, Int.abs_eq_natAbs, Int.cast_natCast,
      Int.cast_natCast]
  have hbn : (0 : ℚ) < b.natAbs := by
    have : 0 < b.natAbs := Int.natAbs_pos.mpr hb
    exact_mod_cast this
  have hbn' : 0 < b.natAbs := Int.natAbs_pos.mpr hb
  obtain ⟨m, hm⟩ : ∃ m : ℕ, m = a.natAbs / b.natAbs := ⟨_, rfl⟩
  have hm1 : (m : ℚ) ≤ |q| := by
    rw [hnat, le_div_iff₀ hbn, hm]
    exact_mod_cast Nat.div_mul_le_self _ _
  have ha53 : a.natAbs < 2 ^ 53 := by
    have : ((a.natAbs : ℕ) : Int) < 2 ^ 53 := by rw [← Int.abs_eq_natAbs]; exact ha
    exact_mod_cast this
  have hgap : (1 : ℚ) / b.natAbs ≤ m + 1 - |q| := by
    rw [hnat, div_le_iff₀ hbn, sub_mul, div_mul_cancel₀ _ hbn.ne']
    have : a.natAbs + 1 ≤ (m + 1) * b.natAbs := by
      have := Nat.lt_div_mul_add (a := a.natAbs) hbn'
      rw [Nat.add_mul, Nat.one_mul, hm]
      omega
    have : ((a.natAbs + 1 : ℕ) : ℚ) ≤ (((m + 1) * b.natAbs : ℕ) : ℚ) := by exact_mod_cast this
    push_cast at this
    linarith
  have hlt : roundQ |q| < m + 1 := by
    have hrel := roundQ_rel |q|
    rw [abs_abs] at hrel
    have hmax : max (|q| / 2 ^ 53) (1 / 2 ^ 1000) < m + 1 - |q| := by
      rw [max_lt_iff]
      constructor
      · refine lt_of_lt_of_le ?_ hgap
        rw [hnat, div_div, mul_comm, ← div_div]
        apply div_lt_div_of_pos_right _ hbn
        rw [div_lt_one (by positivity)]
        exact_mod_cast ha53
      · by_cases hhalf : |q| < 1 / 2
        · have h1 : (1 : ℚ) / 2 ^ 1000 ≤ 1 / 2 := by
            apply one_div_le_one_div_of_le (by norm_num)
            exact le_self_pow₀ (by norm_num) (by norm_num)
          have : (0 : ℚ) ≤ m := by positivity
          linarith
        · have hb54 : (b.natAbs : ℚ) < 2 ^ 54 := by
            have h1 := not_lt.mp hhalf
            rw [hnat, le_div_iff₀ hbn] at h1
            have : (a.natAbs : ℚ) < 2 ^ 53 := by exact_mod_cast ha53
            norm_num at *
            linarith
          refine lt_of_lt_of_le ?_ hgap
          apply one_div_lt_one_div_of_lt hbn
          refine hb54.trans ?_
          rw [pow_lt_pow_iff_right₀ (by norm_num)]
          norm_num
    have := (abs_le.mp hrel).2
    linarith
  have hge : (m : ℚ) ≤ roundQ |q| := by
    have hm53 : m ≤ 2 ^ 53 := hm ▸ le_trans (Nat.div_le_self _ _) ha53.le
    have hrep : Representable ((m : ℤ) : ℚ) := representable_int (by
      rw [abs_of_nonneg (by omega)]; exact_mod_cast hm53)
    have := le_roundQ (q := |q|) hrep (by exact_mod_cast hm1)
    exact_mod_cast this
  have hfl : ⌊roundQ |q|⌋ = (m : ℤ) := by
    rw [Int.floor_eq_iff]; exact ⟨by exact_mod_cast hge, by exact_mod_cast hlt⟩
  have htd : a.tdiv b = if (a < 0 ∧ 0 < b) ∨ (0 < a ∧ b < 0) then -(m : ℤ) else m := by
    rw [hm]
    rcases Int.natAbs_eq a with h1 | h1 <;> rcases Int.natAbs_eq b with h2 | h2
    · conv_lhs => rw [h1, h2]
      rw [if_neg (by omega)]
      rfl
    · conv_lhs => rw [h1, h2]
      rw [Int.tdiv_neg]
      by_cases h0 : a = 0
      · subst h0; simp
      · rw [if_pos (by omega)]; rfl
    · conv_lhs => rw [h1, h2]
      rw [Int.neg_tdiv]
      by_cases h0 : a = 0
      · subst h0; simp
      · rw [if_pos (by omega)]; rfl
    · conv_lhs => rw [h1, h2]
      rw [Int.neg_tdiv, Int.tdiv_neg, Int.neg_neg]
      rw [if_neg (by omega)]
      rfl
  rw [htd]
  by_cases hneg : (a < 0 ∧ 0 < b) ∨ (0 < a ∧ b < 0)
  · rw [if_pos hneg]
    have hqneg : q < 0 := by
      rcases hneg with ⟨h1, h2⟩ | ⟨h1, h2⟩
      · exact div_neg_of_neg_of_pos (by exact_mod_cast h1) (by exact_mod_cast h2)
      · exact div_neg_of_pos_of_neg (by exact_mod_cast h1) (by exact_mod_cast h2)
    have hr : roundQ q = -roundQ |q| := by rw [abs_of_neg hqneg, roundQ_neg, neg_neg]
    rw [hr, Int.ceil_neg, hfl, Int.floor_neg]
    by_cases hz : -roundQ |q| < 0
    · rw [if_pos hz]
    · rw [if_neg hz]
      have h0 : roundQ |q| = 0 := le_antisymm (by linarith) (roundQ_nonneg (abs_nonneg q))
      rw [h0] at hge ⊢
      have : (m : ℚ) = 0 := le_antisymm hge (by positivity)
      have : m = 0 := by exact_mod_cast this
      simp [this]
  · rw [if_neg hneg]
    have hqpos : 0 ≤ q := by
      rcases lt_trichotomy a 0 with h1 | h1 | h1
      · exact div_nonneg_of_nonpos (by exact_mod_cast h1.le) (by
          have : b ≤ 0 := by omega
          exact_mod_cast this)
      · rw [hqdef, h1]; simp
      · exact div_nonneg (by exact_mod_cast h1.le) (by
          have : 0 ≤ b := by omega
          exact_mod_cast this)
    rw [abs_of_nonneg hqpos] at hfl
    have := roundQ_nonneg hqpos
    rw [if_neg (by linarith), hfl]

example : |(-4503599627370497 : Int)| < 2 ^ 53 ∧ (7 : Int) ≠ 0 := by decide

/-- C29 fails for larger dividends: even dividing 2^53 + 1 by 1 loses a satoshi. -/
theorem C29_truediv_violated : Fixed8.truediv (2 ^ 53 + 1) 1 = .ok (2 ^ 53) := by decide +kernel

private theorem div_one_small (a : Int) (hq : |(a : ℚ)| < floatLimit) :
    (Fixed8.truediv a 1 = .ok a ↔ ∃ (m : Int) (j : Nat), |m| < 2 ^ 53 ∧ a = m * 2 ^ j) := by
  have ht : Fixed8.truediv a 1 = .ok (if roundQ (a : ℚ) < 0 then ⌈roundQ (a : ℚ)⌉ else ⌊roundQ (a : ℚ)⌋) := by
    simp only [Fixed8.truediv, intTrueDiv, if_neg (one_ne_zero : (1 : Int) ≠ 0), Int.cast_one, div_one, (ofRat_fin_iff _).1 hq, PyFloat.toInt]
  have iff1 : Fixed8.truediv a 1 = .ok a ↔ ∃ (m : Int) (j : Nat), |m| < 2 ^ 53 ∧ a = m * 2 ^ j := by
    rw [ht]
    constructor
    · intro he
      have he := Except.ok.inj he
      by_cases hs : |a| < 2 ^ 53
      · exact ⟨a, 0, hs, by simp⟩
      · have hs : 2 ^ 53 ≤ |a| := not_lt.1 hs
        have hsq : (2 : ℚ) ^ (53 : ℤ) ≤ |roundQ (a : ℚ)| := by
          rw [roundQ_abs]
          refine le_roundQ (x := (2 : ℚ) ^ (53 : ℤ)) ⟨1, 53, by norm_num, by norm_num, by norm_num⟩ ?_
          rw [← Int.cast_abs]
          exact_mod_cast hs
        obtain ⟨n, hn⟩ := representable_multiple (roundQ_representable (a : ℚ)) 53 hsq 0 (by norm_num)
        rw [zpow_zero, mul_one] at hn
        rw [hn, Int.ceil_intCast, Int.floor_intCast, ite_self] at he
        subst he
        obtain ⟨m, e, h1, _, h3⟩ := roundQ_representable (n : ℚ)
        rw [hn] at h3
        have hm : m ≠ 0 := by
          rintro rfl
          rw [Int.cast_zero, zero_mul] at h3
          have : n = 0 := by exact_mod_cast h3
          rw [this] at hs
          norm_num at hs
        have he : 0 ≤ e := by
          by_contra hneg
          have hneg : e < 0 := not_le.1 hneg
          have : |(n : ℚ)| < 2 ^ 53 := by
            rw [h3, abs_mul, abs_of_pos (two_zpow_pos e)]
            have h2 : (2 : ℚ) ^ e ≤ 1 := zpow_le_one_of_nonpos₀ (by norm_num) hneg.le
            have h4 : |(m : ℚ)| < 2 ^ 53 := by rw [← Int.cast_abs]; exact_mod_cast h1
            nlinarith [abs_nonneg (m : ℚ), two_zpow_pos e]
          rw [← Int.cast_abs] at this
          have : |n| < 2 ^ 53 := by exact_mod_cast this
          omega
        refine ⟨m, e.toNat, h1, ?_⟩
        have : ((2 : ℚ) ^ e) = ((2 ^ e.toNat : Int) : ℚ) := by
          conv_lhs => rw [← Int.toNat_of_nonneg he]
          rw [zpow_natCast]
          push_cast
          rfl
        rw [this] at h3
        exact_mod_cast h3
    · rintro ⟨m, j, hm, rfl⟩
      have : roundQ ((m * 2 ^ j : Int) : ℚ) = ((m * 2 ^ j : Int) : ℚ) :=
        roundQ_exact ⟨m, j, hm, by omega, by push_cast; rw [zpow_natCast]⟩
      rw [this, Int.ceil_intCast, Int.floor_intCast, ite_self]
  exact iff1

/-- C29, exact for the divisor 1 (a satoshi): dividing gives the amount back exactly if it is a float, that is 53 significant bits hold it and it is below
2^1024; never for odd amounts above 2^53. -/
theorem C29_div_one_iff_partial (a : Int) :
    (Fixed8.truediv a 1 = .ok a ↔ (∃ (m : Int) (j : Nat), |m| < 2 ^ 53 ∧ a = m * 2 ^ j) ∧ |a| < 2 ^ 1024) ∧
    (2 ^ 53 < |a| → a % 2 = 1 → Fixed8.truediv a 1 ≠ .ok a) := by
  have iff1 : Fixed8.truediv a 1 = .ok a ↔ (∃ (m : Int) (j : Nat), |m| < 2 ^ 53 ∧ a = m * 2 ^ j) ∧ |a| < 2 ^ 1024 := by
    by_cases hq : |(a : ℚ)| < floatLimit
    · rw [div_one_small a hq]
      refine ⟨fun h => ⟨h, ?_⟩, fun h => h.1⟩
      have := hq.trans floatLimit_lt
      rw [← Int.cast_abs] at this
      exact_mod_cast this
    · have hge := not_lt.1 hq
      constructor
      · intro h
        simp only [Fixed8.truediv, intTrueDiv, if_neg (one_ne_zero : (1 : Int) ≠ 0), Int.cast_one, div_one, (ofRat_fin_iff _).2 hge] at h
        cases h
      · rintro ⟨⟨m, j, hm, rfl⟩, hlt⟩
        exfalso
        have hr : Representable |((m * 2 ^ j : Int) : ℚ)| := by
          clear hlt
          rw [← Int.cast_abs, abs_mul, abs_of_pos (pow_pos (by norm_num : (0 : Int) < 2) j)]
          exact ⟨|m|, j, by rwa [abs_abs], by omega, by push_cast; rw [zpow_natCast]⟩
        have := representable_limit hr hge
        rw [← Int.cast_abs] at this
        have h2 : 2 ^ 1024 ≤ |m * 2 ^ j| := by exact_mod_cast this
        exact absurd hlt (not_lt.2 h2)
  refine ⟨iff1, fun hb ho he => ?_⟩
  have h := (iff1.1 he).1
  clear iff1 he
  obtain ⟨m, j, hm, rfl⟩ := h
  cases j with
  | zero => rw [pow_zero, mul_one] at hb; omega
  | succ j => rw [pow_succ, ← mul_assoc] at ho; omega

example : 2 ^ 53 < |(2 ^ 53 + 1 : Int)| ∧ (2 ^ 53 + 1 : Int) % 2 = 1 := by decide +kernel

/-- C84. `//` and `%` are exact for all amounts, however large: floor quotient and the matching remainder. -/
theorem C84_floordiv_mod (a b : Int) (hb : b ≠ 0) :
    ∃ q r, Fixed8.floordiv a b = .ok q ∧ Fixed8.mod a b = .ok r ∧ a = q * b + r ∧
      q = ⌊(a : ℚ) / (b : ℚ)⌋ ∧ (0 < b → 0 ≤ r ∧ r < b) ∧ (b < 0 → b < r ∧ r ≤ 0) := by
  have hsum : a.fmod b + b * a.fdiv b = a := Int.fmod_add_mul_fdiv a b
  have hr : (0 < b → 0 ≤ a.fmod b ∧ a.fmod b < b) ∧ (b < 0 → b < a.fmod b ∧ a.fmod b ≤ 0) := by
    constructor
    · intro h
      exact ⟨Int.fmod_nonneg_of_pos a h, Int.fmod_lt_of_pos a h⟩
    · intro h
      have h1 := Int.fmod_nonneg_of_pos (-a) (show 0 < -b by omega)
      have h2 := Int.fmod_lt_of_pos (-a) (show 0 < -b by omega)
      rw [Int.neg_fmod_neg] at h1 h2
      exact ⟨by omega, by omega⟩
  have hsum' : a = a.fdiv b * b + a.fmod b := by linarith [mul_comm b (a.fdiv b)]
  refine ⟨a.fdiv b, a.fmod b, ?_, ?_, hsum', ?_, hr.1, hr.2⟩
  · rw [Fixed8.floordiv, if_neg hb]
  · rw [Fixed8.mod, if_neg hb]
  · symm
    rw [Int.floor_eq_iff]
    have e : (a : ℚ) = (a.fdiv b : ℤ) * b + (a.fmod b : ℤ) := by exact_mod_cast hsum'
    have hb' : (b : ℚ) ≠ 0 := by exact_mod_cast hb
    have hq : (a : ℚ) / b = (a.fdiv b : ℤ) + ((a.fmod b : ℤ) : ℚ) / b := by
      rw [div_eq_iff hb', add_mul, div_mul_cancel₀ _ hb']; exact e
    rw [hq]
    rcases lt_or_gt_of_ne hb with hneg | hpos
    · obtain ⟨h1, h2⟩ := hr.2 hneg
      have hbn : (b : ℚ) < 0 := by exact_mod_cast hneg
      have := div_nonneg_of_nonpos (a := ((a.fmod b : ℤ) : ℚ)) (by exact_mod_cast h2) hbn.le
      have : ((a.fmod b : ℤ) : ℚ) / b < 1 := by rw [div_lt_one_of_neg hbn]; exact_mod_cast h1
      constructor <;> linarith
    · obtain ⟨h1, h2⟩ := hr.1 hpos
      have hbn : (0 : ℚ) < b := by exact_mod_cast hpos
      have := div_nonneg (a := ((a.fmod b : ℤ) : ℚ)) (by exact_mod_cast h1) hbn.le
      have : ((a.fmod b : ℤ) : ℚ) / b < 1 := by rw [div_lt_one hbn]; exact_mod_cast h2
      constructor <;> linarith

/-- C84. Division by zero raises in all three forms. -/
theorem C84_zero (a : Int) : Fixed8.truediv a 0 = .error .zeroDivision ∧ Fixed8.floordiv a 0 = .error .zeroDivision ∧
    Fixed8.mod a 0 = .error .zeroDivision := ⟨rfl, rfl, rfl⟩

/-! ### C30 -/

/-- C85. An integer number of units is converted exactly, whatever its size. -/
theorem C85_int (n : Int) : fromDecimal (.int n) = .ok (n * 100000000) := rfl

private theorem rne_exact_div (c : Int) (k : Nat) (h : (10 : Int) ^ k ∣ c) : (rne ((c : ℚ) / 10 ^ k) : ℚ) * 10 ^ k = c := by
  obtain ⟨m, rfl⟩ := h
  have h10 : (10 : ℚ) ^ k ≠ 0 := by positivity
  have : ((10 ^ k * m : Int) : ℚ) / 10 ^ k = (m : ℚ) := by
    push_cast
    rw [mul_comm, mul_div_cancel_right₀ _ h10]
  rw [this, rne_intCast]
  push_cast
  ring

theorem rounded_val (d : Dec) (h : (10 : Int) ^ (decDigits (d.coeff * D).natAbs - 28) ∣ d.coeff * D) :
    (d.rounded D).val = d.val * 100000000 := by
  have := rne_exact_div _ _ h
  simp only [Dec.rounded, Dec.val]
  rw [zpow_add₀ (by norm_num), zpow_natCast, mul_comm ((10 : ℚ) ^ d.exp), ← mul_assoc, this]
  push_cast
  rw [show (D : ℚ) = 100000000 by norm_num [D]]
  ring

private theorem rounded_val_short (d : Dec) (h : d.coeff.natAbs < 10 ^ 28) : (d.rounded D).val = d.val * 100000000 := by
  have hk : decDigits (d.coeff * D).natAbs - 28 ≤ 8 := by
    have hlt : (d.coeff * D).natAbs < 10 ^ 36 := by
      rw [Int.natAbs_mul]
      have : D.natAbs = 10 ^ 8 := rfl
      rw [this]
      calc d.coeff.natAbs * 10 ^ 8 < 10 ^ 28 * 10 ^ 8 := Nat.mul_lt_mul_of_pos_right h (by norm_num)
        _ = 10 ^ 36 := by norm_num
    have := (decDigits_le_iff _ _).2 hlt
    omega
  refine rounded_val d (Dvd.dvd.mul_left ?_ _)
  exact (pow_dvd_pow (10 : Int) hk).trans (by norm_num [D])

/-- `FromDecimal` of a Decimal, through the rounded product. -/
theorem fromDecimal_eq (d : Dec) : fromDecimal (.decimal d) =
    if 10 ^ 1000000 ≤ |(d.rounded D).val| then .error .decimalOverflow else .ok (d.rounded D).toInt := by
  simp only [fromDecimal]
  rw [mulInt_eq]
  by_cases h : (10 : ℚ) ^ 1000000 ≤ |(d.rounded D).val|
  · rw [if_pos h, if_pos h]
  · rw [if_neg h, if_neg h]

/-- C85. A `Decimal` of up to 28 digits with at most 8 decimals (an amount v/10^8) is converted exactly, below 10^1000000 satoshis. -/
theorem C85_decimal (d : Dec) (v : Int) (hd : d.coeff.natAbs < 10 ^ 28) (hv : d.val = (v : ℚ) / 100000000) (hlt : |(v : ℚ)| < 10 ^ 1000000) :
    fromDecimal (.decimal d) = .ok v := by
  rw [fromDecimal_eq, rounded_val_short d hd, hv, div_mul_cancel₀ _ (by norm_num), if_neg (not_le.2 hlt)]
  rw [Dec.toInt, rounded_val_short d hd, hv, div_mul_cancel₀ _ (by norm_num)]
  simp

example : ∃ d : Dec, d.coeff.natAbs < 10 ^ 28 ∧ d.val = ((1234567890123456 : Int) : ℚ) / 100000000 ∧
    |((1234567890123456 : Int) : ℚ)| < 10 ^ 1000000 := by
  refine ⟨⟨1234567890123456, -8⟩, by norm_num, by norm_num [Dec.val], ?_⟩
  exact lt_of_lt_of_le (b := 10 ^ 16) (by norm_num [abs_lt]) (pow_le_pow_right₀ (by norm_num) (by norm_num))

/-- C85. More decimals of a `Decimal` are cut off (toward zero); from 10^999992 units on, `decimal.Overflow` is raised. -/
theorem C85_decimal_truncates (d : Dec) (hd : d.coeff.natAbs < 10 ^ 28) :
    (|d.val * 100000000| < 10 ^ 1000000 →
      ∃ v, fromDecimal (.decimal d) = .ok v ∧ (0 ≤ d.val → v = ⌊d.val * 100000000⌋) ∧ (d.val < 0 → v = ⌈d.val * 100000000⌉)) ∧
    (10 ^ 1000000 ≤ |d.val * 100000000| → fromDecimal (.decimal d) = .error .decimalOverflow) := by
  have hr := rounded_val_short d hd
  rw [fromDecimal_eq, hr]
  constructor
  · intro hlt
    rw [if_neg (not_le.2 hlt)]
    clear hlt
    refine ⟨_, rfl, fun h => ?_, fun h => ?_⟩
    · simp only [Dec.toInt]
      rw [hr, if_neg (by linarith)]
    · simp only [Dec.toInt]
      rw [hr, if_pos (by linarith)]
  · intro hge
    rw [if_pos hge]

/-- C85. The Decimals that are no finite numbers. -/
theorem C85_special (s : DecSpecial) : fromDecimal (.special s) =
    .error (match s with | .nan => .valueError | .inf _ => .overflowError | .snan => .invalidOperation) := by
  cases s <;> rfl

private theorem half_representable {n : Int} (h : |n| < 2 ^ 53) : Representable ((n : ℚ) / 2) :=
  ⟨n, -1, h, by norm_num, by rw [zpow_neg_one]; ring⟩

/-- C30, for floats: the double nearest to an amount v (below 2^52 satoshi) gives v or v one satoshi nearer to zero —
never more than v. -/
theorem C30_float_partial (v : Int) (hv : 0 ≤ v) (h52 : v < 2 ^ 52) :
    ∃ r, fromDecimal (.float (.ofRat ((v : ℚ) / 100000000))) = .ok r ∧ (r = v ∨ r = v - 1) ∧ 0 ≤ r := by
  have hDq : (D : ℚ) = 100000000 := by norm_num [D]
  have hvq : (0 : ℚ) ≤ v := by exact_mod_cast hv
  have hvq2 : (v : ℚ) < 2 ^ 52 := by exact_mod_cast h52
  set q : ℚ := (v : ℚ) / 100000000 with hq
  have hq0 : 0 ≤ q := by positivity
  have hqlt : |q| < 2 ^ (26 : ℤ) := by
    rw [abs_of_nonneg hq0, hq, div_lt_iff₀ (by norm_num)]
    refine hvq2.trans ?_
    norm_num
  have hfin : PyFloat.ofRat q = .fin (roundQ q) := by
    apply ofRat_fin
    refine hqlt.le.trans ?_
    rw [show (2 : ℚ) ^ (26 : ℤ) = 2 ^ 26 by norm_cast, pow_le_pow_iff_right₀ (by norm_num)]
    norm_num
  have herr := abs_le.mp (roundQ_error hqlt (by norm_num))
  have he : (2 : ℚ) ^ ((26 : ℤ) - 54) * 100000000 < 1 / 2 := by norm_num
  generalize (2 : ℚ) ^ ((26 : ℤ) - 54) = ε at herr he
  have hqv : q * 100000000 = v := by rw [hq, div_mul_cancel₀ _ (by norm_num)]
  set y : ℚ := roundQ q * 100000000 with hy
  have hy1 : (v : ℚ) - 1 / 2 < y := by rw [hy]; nlinarith [herr.1]
  have hy2 : y < (v : ℚ) + 1 / 2 := by rw [hy]; nlinarith [herr.2]
  have hy0 : 0 ≤ y := by rw [hy]; have := roundQ_nonneg hq0; positivity
  have hfin2 : PyFloat.ofRat y = .fin (roundQ y) := by
    apply ofRat_fin
    rw [abs_of_nonneg hy0]
    have h1 : y ≤ 2 ^ 53 := by
      have : (2 : ℚ) ^ 53 = 2 ^ 52 + 2 ^ 52 := by norm_num
      have : (1 : ℚ) / 2 ≤ 2 ^ 52 := by norm_num
      linarith
    refine h1.trans ?_
    rw [pow_le_pow_iff_right₀ (by norm_num)]
    norm_num
  have hround : fromDecimal (.float (.ofRat q)) = .ok ⌊roundQ y⌋ := by
    simp only [fromDecimal, hfin, PyFloat.mulPos]
    rw [show ((D.toNat : ℕ) : ℚ) = 100000000 from by rw [show D.toNat = 100000000 from rfl]; norm_num, ← hy, hfin2]
    simp only [PyFloat.toInt]
    rw [if_neg (by linarith [roundQ_nonneg hy0])]
  have hv53 : |2 * v + 1| < 2 ^ 53 := by
    rw [abs_of_nonneg (by omega)]
    norm_num at h52 ⊢
    omega
  have hlt : roundQ y < v + 1 := by
    have h1 : roundQ y ≤ ((2 * v + 1 : ℤ) : ℚ) / 2 := roundQ_le (half_representable hv53) (by push_cast; linarith)
    push_cast at h1
    linarith
  have hge : (v : ℚ) - 1 ≤ roundQ y := by
    have h1 : (((v - 1 : ℤ)) : ℚ) ≤ roundQ y := by
      apply le_roundQ (representable_int _)
      · push_cast; linarith
      · rw [abs_le]; norm_num at h52 ⊢; omega
    push_cast at h1
    exact h1
  refine ⟨⌊roundQ y⌋, hround, ?_, Int.floor_nonneg.mpr (roundQ_nonneg hy0)⟩
  have h1 : ⌊roundQ y⌋ < v + 1 := by rw [Int.floor_lt]; push_cast; exact hlt
  have h2 : v - 1 ≤ ⌊roundQ y⌋ := by rw [Int.le_floor]; push_cast; exact hge
  omega

private theorem ofRat_neg (q : ℚ) : PyFloat.ofRat (-q) = match PyFloat.ofRat q with
    | .fin x => .fin (-x) | .inf _ => .inf (decide (-q < 0)) | .nan => .nan := by
  unfold PyFloat.ofRat
  rw [roundQ_neg, abs_neg]
  split
  · rfl
  · rfl

theorem fromDecimal_neg (q : ℚ) (r : Int) (h : fromDecimal (.float (.ofRat q)) = .ok r) :
    fromDecimal (.float (.ofRat (-q))) = .ok (-r) := by
  simp only [fromDecimal] at h ⊢
  cases hq : PyFloat.ofRat q with
  | nan => rw [hq] at h; simp [PyFloat.mulPos, PyFloat.toInt] at h
  | inf b => rw [hq] at h; simp [PyFloat.mulPos, PyFloat.toInt] at h
  | fin x =>
    rw [ofRat_neg, hq]
    rw [hq] at h
    simp only [PyFloat.mulPos] at h ⊢
    rw [neg_mul, ofRat_neg]
    cases hx : PyFloat.ofRat (x * (D.toNat : ℚ)) with
    | nan => rw [hx] at h; simp [PyFloat.toInt] at h
    | inf b => rw [hx] at h; simp [PyFloat.toInt] at h
    | fin z =>
      rw [hx] at h
      simp only [PyFloat.toInt, Except.ok.injEq] at h ⊢
      rw [← h, Int.ceil_neg, Int.floor_neg]
      rcases lt_trichotomy z 0 with hz | hz | hz
      · rw [if_neg (by linarith), if_pos hz]
      · subst hz; simp
      · rw [if_pos (by linarith), if_neg (by linarith)]

/-- C30, for negative floats: symmetric. -/
theorem C30_float_negative_partial (v : Int) (hv : 0 ≤ v) (h52 : v < 2 ^ 52) :
    ∃ r, fromDecimal (.float (.ofRat (-((v : ℚ) / 100000000)))) = .ok (-r) ∧ (r = v ∨ r = v - 1) ∧ 0 ≤ r := by
  obtain ⟨r, h1, h2, h3⟩ := C30_float_partial v hv h52
  exact ⟨r, fromDecimal_neg _ _ h1, h2, h3⟩

example : (0 : Int) ≤ 10000000000000 ∧ (10000000000000 : Int) < 2 ^ 52 := by decide

/-- C30 fails for floats: 0.00000029 becomes 28 satoshi. -/
theorem C30_float_violated : fromDecimal (.float (.ofRat ((29 : ℚ) / 100000000))) = .ok 28 := by decide +kernel

/-! ### C31 -/

/-- C86. What neither `float()` nor `int()` accepts gives `None`. -/
theorem C86_not_a_number (P : Parsers) (value : Arg) (pos : Bool) (e e' : Err) (h1 : floatOf P value = .error e)
    (h2 : intOf P value = .error e') : tryParse P value pos = .ok none := by
  simp [tryParse, parsedVal, h1, h2, Parsed.falsy]

example (P : Parsers) : ∃ e e', floatOf P .other = .error e ∧ intOf P .other = .error e' := ⟨_, _, rfl, rfl⟩

/-- C86. With `require_positive`, no negative amount is ever returned, whatever the parsers do. -/
theorem C86_require_positive (P : Parsers) (value : Arg) (n : Int) (h : tryParse P value true = .ok (some n)) : 0 ≤ n := by
  unfold tryParse at h
  cases hp : parsedVal P value with
  | none => rw [hp] at h; simp at h
  | int m =>
    rw [hp] at h
    simp only [Bool.true_and, decide_eq_true_eq] at h
    by_cases hm : m < 0
    · rw [if_pos hm] at h; simp at h
    · rw [if_neg hm] at h
      simp only [Except.ok.injEq, Option.some.injEq] at h
      rw [← h]
      exact Int.mul_nonneg (by omega) (by decide)
  | float f =>
    rw [hp] at h
    simp only [Bool.true_and] at h
    by_cases hf : f.isNeg = true
    · rw [if_pos hf] at h; simp at h
    · rw [if_neg hf] at h
      cases f with
      | nan => simp [PyFloat.mulPos, PyFloat.toInt] at h
      | inf s => simp [PyFloat.mulPos, PyFloat.toInt] at h
      | fin q =>
        simp only [PyFloat.isNeg, decide_eq_true_eq, not_lt] at hf
        simp only [PyFloat.mulPos] at h
        unfold PyFloat.ofRat at h
        by_cases hbig : 2 ^ 1024 ≤ |roundQ (q * (D.toNat : ℚ))|
        · rw [if_pos hbig] at h; simp [PyFloat.toInt] at h
        · rw [if_neg hbig] at h
          have h0 : 0 ≤ roundQ (q * (D.toNat : ℚ)) := roundQ_nonneg (by positivity)
          simp only [PyFloat.toInt] at h
          rw [if_neg (by linarith)] at h
          simp only [Except.ok.injEq, Option.some.injEq] at h
          rw [← h]
          exact Int.floor_nonneg.mpr h0

/-- C31, exactly when it raises: when the parsed number times 10^8 is a float that is not finite. -/
theorem C31_raises_iff_partial (P : Parsers) (value : Arg) (pos : Bool) :
    (∃ e, tryParse P value pos = .error e) ↔
      ∃ f, parsedVal P value = .float f ∧ ¬ (pos = true ∧ f.isNeg = true) ∧ ∀ q, f.mulPos 100000000 ≠ .fin q := by
  unfold tryParse
  cases hp : parsedVal P value with
  | none => simp
  | int m =>
    simp only [reduceCtorEq, false_and, exists_false, iff_false, not_exists]
    intro e
    split <;> simp
  | float f =>
    simp only [Parsed.float.injEq, exists_eq_left']
    rw [show D.toNat = 100000000 from rfl]
    by_cases hc : pos = true ∧ f.isNeg = true
    · simp [hc.1, hc.2]
    · rw [if_neg (by simpa using hc)]
      cases hm : f.mulPos 100000000 with
      | nan => simp [PyFloat.toInt]; simpa using hc
      | inf s => simp [PyFloat.toInt]; simpa using hc
      | fin q => simp [PyFloat.toInt]

/-- C31 fails: NaN and the infinities raise. -/
theorem C31_nan_inf_violated (P : Parsers) : tryParse P (.float .nan) false = .error .valueError ∧
    tryParse P (.float (.inf false)) true = .error .overflowError ∧
    tryParse P (.float (.inf true)) false = .error .overflowError := ⟨rfl, rfl, rfl⟩

/-- C31 fails likewise for texts: any text `float()` reads as NaN raises. -/
theorem C31_nan_text_violated (P : Parsers) (s : Str) (h : P.float s = .ok .nan) (pos : Bool) :
    tryParse P (.str s) pos = .error .valueError := by
  cases pos <;> simp [tryParse, parsedVal, floatOf, h, Parsed.falsy, PyFloat.truthy, PyFloat.mulPos, PyFloat.toInt, PyFloat.isNeg]

/-- What both parse routes give for a whole number of units of moderate size. -/
private theorem exact_float (n : Int) (h : |n| * 5 ^ 8 ≤ 2 ^ 53) :
    (PyFloat.mulPos (.fin n) D.toNat).toInt = .ok (n * 100000000) := by
  have hrep : Representable ((n : ℚ) * 100000000) := by
    have h1 : Representable (((n * 5 ^ 8 : ℤ)) : ℚ) := representable_int (by
      rw [abs_mul, abs_of_pos (by norm_num : (0 : ℤ) < 5 ^ 8)]; exact h)
    obtain ⟨m, e, h2, h3, h4⟩ := h1
    refine ⟨m, e + 8, h2, by omega, ?_⟩
    rw [zpow_add₀ (by norm_num), ← mul_assoc, ← h4]
    push_cast
    ring
  have hn : |(n : ℚ) * 100000000| ≤ 2 ^ 1000 := by
    have h1 : |n| ≤ 2 ^ 53 := by
      have := abs_nonneg n
      norm_num at h ⊢
      omega
    have h2 : |(n : ℚ)| ≤ 2 ^ 53 := by rw [← Int.cast_abs]; exact_mod_cast h1
    rw [abs_mul]
    have h3 : |(n : ℚ)| * |100000000| ≤ 2 ^ 53 * 2 ^ 27 := by
      apply mul_le_mul h2 _ (abs_nonneg _) (by positivity)
      norm_num
    refine h3.trans ?_
    rw [← pow_add, pow_le_pow_iff_right₀ (by norm_num)]
    norm_num
  simp only [PyFloat.mulPos]
  rw [show ((D.toNat : ℕ) : ℚ) = 100000000 from by rw [show D.toNat = 100000000 from rfl]; norm_num, ofRat_fin hn, roundQ_exact hrep]
  have he : (n : ℚ) * 100000000 = ((n * 100000000 : ℤ) : ℚ) := by push_cast; ring
  simp only [PyFloat.toInt]
  rw [he, Int.ceil_intCast, Int.floor_intCast, ite_self]

/-- C31. A whole number n of units, as an int or as a text `float()` reads correctly rounded, is exact up to
2^53/5^8 = 23 058 430 092 units. -/
theorem C31_whole_exact_partial (P : Parsers) (n : Int) (h : |n| * 5 ^ 8 ≤ 2 ^ 53) (s : Str)
    (hs : P.float s = .ok (.ofRat n)) (pos : Bool) (hpos : pos = true → 0 ≤ n)
    (hz : n = 0 → P.int s = .ok 0) :
    tryParse P (.int n) pos = .ok (some (n * 100000000)) ∧ tryParse P (.str s) pos = .ok (some (n * 100000000)) := by
  have hn53 : |n| ≤ 2 ^ 53 := by
    have := abs_nonneg n
    norm_num at h ⊢
    omega
  have hof : PyFloat.ofRat (n : ℚ) = .fin n := by
    rw [ofRat_fin, roundQ_int hn53]
    have h2 : |(n : ℚ)| ≤ 2 ^ 53 := by rw [← Int.cast_abs]; exact_mod_cast hn53
    refine h2.trans ?_
    rw [pow_le_pow_iff_right₀ (by norm_num)]
    norm_num
  have key : ∀ value, floatOf P value = .ok (.fin n) → (n = 0 → intOf P value = .ok 0) →
      tryParse P value pos = .ok (some (n * 100000000)) := by
    intro value h1 h2
    unfold tryParse
    by_cases h0 : n = 0
    · subst h0
      have hpv : parsedVal P value = .int 0 := by
        simp [parsedVal, h1, h2 rfl, Parsed.falsy, PyFloat.truthy]
      rw [hpv]
      simp
    · have h0' : (n : ℚ) ≠ 0 := by exact_mod_cast h0
      have hpv : parsedVal P value = .float (.fin n) := by
        simp [parsedVal, h1, Parsed.falsy, PyFloat.truthy, h0]
      rw [hpv]
      simp only
      rw [if_neg, exact_float n h]
      simp only [PyFloat.isNeg, Bool.and_eq_true, decide_eq_true_eq, not_and, not_lt]
      intro hp
      exact_mod_cast hpos hp
  refine ⟨key _ ?_ (fun h0 => by rw [h0]; rfl), key _ ?_ hz⟩
  · simp [floatOf, floatOfInt, hof]
  · simp [floatOf, hs, hof]

example : ∃ P : Parsers, P.float ['7'] = .ok (.ofRat ((7 : Int) : ℚ)) ∧ |(7 : Int)| * 5 ^ 8 ≤ 2 ^ 53 :=
  ⟨⟨fun _ => .ok (.ofRat ((7 : Int) : ℚ)), fun _ => .ok 7⟩, rfl, by decide⟩

/-- C31 fails beyond: 2^53 + 1 units become 2^53 units. -/
theorem C31_whole_violated (P : Parsers) : tryParse P (.int (2 ^ 53 + 1)) false = .ok (some (2 ^ 53 * 100000000)) := by
  have h1 : floatOfInt (2 ^ 53 + 1) = .ok (.fin (2 ^ 53)) := by decide +kernel
  have h2 : (PyFloat.mulPos (.fin (2 ^ 53)) D.toNat).toInt = .ok (2 ^ 53 * 100000000) := by decide +kernel
  unfold tryParse
  have hpv : parsedVal P (.int (2 ^ 53 + 1)) = .float (.fin (2 ^ 53)) := by
    unfold parsedVal
    rw [show floatOf P (.int (2 ^ 53 + 1)) = .ok (.fin (2 ^ 53)) from h1]
    rfl
  rw [hpv]
  simp only
  rw [if_neg (by simp), h2]

private theorem representable_int_iff (n : Int) : Representable (n : ℚ) ↔ ∃ (m : Int) (j : Nat), |m| < 2 ^ 53 ∧ n = m * 2 ^ j := by
  constructor
  · intro h
    by_cases hs : |n| < 2 ^ 53
    · exact ⟨n, 0, hs, by simp⟩
    obtain ⟨m, e, h1, _, h3⟩ := h
    have he : 0 ≤ e := by
      by_contra hneg
      have hneg : e < 0 := not_le.1 hneg
      have : |(n : ℚ)| < 2 ^ 53 := by
        rw [h3, abs_mul, abs_of_pos (two_zpow_pos e)]
        have h2 : (2 : ℚ) ^ e ≤ 1 := zpow_le_one_of_nonpos₀ (by norm_num) hneg.le
        have h4 : |(m : ℚ)| < 2 ^ 53 := by rw [← Int.cast_abs]; exact_mod_cast h1
        nlinarith [abs_nonneg (m : ℚ), two_zpow_pos e]
      rw [← Int.cast_abs] at this
      exact hs (by exact_mod_cast this)
    refine ⟨m, e.toNat, h1, ?_⟩
    have : ((2 : ℚ) ^ e) = ((2 ^ e.toNat : Int) : ℚ) := by
      conv_lhs => rw [← Int.toNat_of_nonneg he]
      rw [zpow_natCast]
      push_cast
      rfl
    rw [this] at h3
    exact_mod_cast h3
  · rintro ⟨m, j, hm, rfl⟩
    exact ⟨m, j, hm, by omega, by push_cast; rw [zpow_natCast]⟩

/-- Truncating a rounded number gives the whole number n exactly if n is representable, when n is the number rounded or far enough away. -/
private theorem trunc_round_eq {q : ℚ} {n : Int} (hb : 2 ^ 53 ≤ |q|)
    (h : (if roundQ q < 0 then ⌈roundQ q⌉ else ⌊roundQ q⌋) = n) : roundQ q = n := by
  have hsq : (2 : ℚ) ^ (53 : ℤ) ≤ |roundQ q| := by
    rw [roundQ_abs]
    exact le_roundQ (x := (2 : ℚ) ^ (53 : ℤ)) ⟨1, 53, by norm_num, by norm_num, by norm_num⟩ (by exact_mod_cast hb)
  obtain ⟨m, hm⟩ := representable_multiple (roundQ_representable q) 53 hsq 0 (by norm_num)
  rw [zpow_zero, mul_one] at hm
  rw [hm, Int.ceil_intCast, Int.floor_intCast, ite_self] at h
  rw [hm, h]

private theorem whole_iff_small (P : Parsers) (n : Int) (hn : |(n : ℚ)| < floatLimit) (hx : |roundQ (n : ℚ) * 100000000| < floatLimit) (pos : Bool)
    (hpos : pos = true → 0 ≤ n) :
    tryParse P (.int n) pos = .ok (some (n * 100000000)) ↔ ∃ (m : Int) (j : Nat), |m| < 2 ^ 53 ∧ n * 5 ^ 8 = m * 2 ^ j := by
  by_cases h0 : n = 0
  · subst h0
    have : tryParse P (.int 0) pos = .ok (some 0) := by
      have hof : PyFloat.ofRat (0 : ℚ) = .fin 0 := by
        rw [ofRat_fin, roundQ_zero]
        rw [abs_zero]
        positivity
      have hpv : parsedVal P (.int 0) = .int 0 := by
        simp [parsedVal, floatOf, floatOfInt, intOf, hof, Parsed.falsy, PyFloat.truthy]
      unfold tryParse
      rw [hpv]
      simp
    rw [this]
    exact ⟨fun _ => ⟨0, 0, by norm_num, by simp⟩, fun _ => by simp⟩
  have hof : floatOfInt n = .ok (.fin (roundQ (n : ℚ))) := by
    rw [floatOfInt, (ofRat_fin_iff _).1 hn]
  have h1n : (1 : ℚ) ≤ |(n : ℚ)| := by rw [← Int.cast_abs]; exact_mod_cast Int.one_le_abs h0
  have h1x : (1 : ℚ) ≤ |roundQ (n : ℚ)| := by
    rw [roundQ_abs]
    have := le_roundQ (x := ((1 : Int) : ℚ)) (representable_int (n := 1) (by norm_num)) (q := |(n : ℚ)|) (by exact_mod_cast h1n)
    exact_mod_cast this
  have hx0 : roundQ (n : ℚ) ≠ 0 := by
    intro h
    rw [h, abs_zero] at h1x
    norm_num at h1x
  have hpv : parsedVal P (.int n) = .float (.fin (roundQ (n : ℚ))) := by
    simp [parsedVal, floatOf, hof, Parsed.falsy, PyFloat.truthy, hx0]
  have hD : D.toNat = 100000000 := rfl
  have hmul : PyFloat.mulPos (.fin (roundQ (n : ℚ))) 100000000 = .fin (roundQ (roundQ (n : ℚ) * 100000000)) := by
    rw [PyFloat.mulPos, (ofRat_fin_iff _).1]
    · norm_num
    · exact_mod_cast hx
  have htp : tryParse P (.int n) pos = .ok (some (if roundQ (roundQ (n : ℚ) * 100000000) < 0 then ⌈roundQ (roundQ (n : ℚ) * 100000000)⌉
      else ⌊roundQ (roundQ (n : ℚ) * 100000000)⌋)) := by
    unfold tryParse
    rw [hpv]
    simp only
    rw [if_neg, hD, hmul]
    · rfl
    · simp only [PyFloat.isNeg, Bool.and_eq_true, decide_eq_true_eq, not_and, not_lt]
      intro hp
      exact roundQ_nonneg (by exact_mod_cast hpos hp)
  rw [htp]
  clear hx hmul htp hpv hof hn
  constructor
  · intro h
    have h := Option.some.inj (Except.ok.inj h)
    by_cases hs : |n * 5 ^ 8| < 2 ^ 53
    · exact ⟨n * 5 ^ 8, 0, hs, by simp⟩
    have hs : 2 ^ 53 ≤ |n * 5 ^ 8| := not_lt.1 hs
    -- the product is at least 2^53
    have hbig : (2 : ℚ) ^ 53 ≤ |roundQ (n : ℚ) * 100000000| := by
      have hnb : (2 : ℚ) ^ 30 ≤ |(n : ℚ)| := by
        rw [← Int.cast_abs]
        rw [abs_mul] at hs
        have : (2 : Int) ^ 30 ≤ |n| := by norm_num at hs ⊢; omega
        exact_mod_cast this
      have := le_roundQ (x := ((2 ^ 30 : Int) : ℚ)) (representable_int (n := 2 ^ 30) (by norm_num)) (q := |(n : ℚ)|) (by exact_mod_cast hnb)
      rw [abs_mul, roundQ_abs]
      push_cast at this
      rw [abs_of_pos (by norm_num : (0 : ℚ) < 100000000)]
      nlinarith
    have he := trunc_round_eq hbig h
    have hr := roundQ_representable (roundQ (n : ℚ) * 100000000)
    rw [he, representable_int_iff] at hr
    obtain ⟨m, j, hm, hj⟩ := hr
    -- divide by 2^8
    by_cases h8 : 8 ≤ j
    · obtain ⟨i, rfl⟩ := Nat.exists_eq_add_of_le h8
      refine ⟨m, i, hm, ?_⟩
      apply mul_right_cancel₀ (by norm_num : (2 : Int) ^ 8 ≠ 0)
      rw [mul_assoc m, ← pow_add, Nat.add_comm i 8, ← hj]
      ring
    · exfalso
      obtain ⟨i, hi⟩ := Nat.exists_eq_add_of_le (not_le.1 h8).le
      have hm' : m = n * 5 ^ 8 * 2 ^ i := by
        apply mul_right_cancel₀ (by positivity : (2 : Int) ^ j ≠ 0)
        rw [← hj, mul_assoc, ← pow_add, Nat.add_comm i j, ← hi]
        ring
      have : |n * 5 ^ 8| ≤ |m| := by
        rw [hm', abs_mul (n * 5 ^ 8)]
        have h1 : (1 : Int) ≤ |(2 : Int) ^ i| := by
          rw [abs_of_pos (by positivity)]
          exact one_le_pow₀ (by norm_num)
        exact le_mul_of_one_le_right (abs_nonneg _) h1
      omega
  · rintro ⟨m, j, hm, hj⟩
    -- n is representable itself
    have hdvd : (2 : Int) ^ j ∣ n := by
      have : (2 : Int) ^ j ∣ n * 5 ^ 8 := ⟨m, by rw [hj]; ring⟩
      refine IsCoprime.dvd_of_dvd_mul_right ?_ this
      exact IsCoprime.pow (⟨-2, 1, by norm_num⟩ : IsCoprime (2 : Int) 5)
    obtain ⟨n', rfl⟩ := hdvd
    have hm' : m = n' * 5 ^ 8 := by
      have h2 : (2 : Int) ^ j ≠ 0 := by positivity
      apply mul_right_cancel₀ h2
      rw [← hj]; ring
    have hn' : |n'| < 2 ^ 53 := by
      rw [hm', abs_mul] at hm
      have := abs_nonneg n'
      norm_num at hm ⊢
      omega
    have hr1 : roundQ (((2 ^ j * n' : Int)) : ℚ) = ((2 ^ j * n' : Int) : ℚ) :=
      roundQ_exact ((representable_int_iff _).2 ⟨n', j, hn', by ring⟩)
    have hr2 : roundQ (((2 ^ j * n' : Int) : ℚ) * 100000000) = ((2 ^ j * n' * 100000000 : Int) : ℚ) := by
      have : ((2 ^ j * n' : Int) : ℚ) * 100000000 = ((2 ^ j * n' * 100000000 : Int) : ℚ) := by push_cast; ring
      rw [this]
      refine roundQ_exact ((representable_int_iff _).2 ⟨m, j + 8, hm, ?_⟩)
      rw [hm']; ring
    rw [hr1, hr2, Int.ceil_intCast, Int.floor_intCast, ite_self]

/-- C31, exactly which whole numbers of units `TryParse` reads exactly: those n for which n·5^8 has at most 53 significant bits and n·10^8 is below 2^1024,
and those that are too large for a float, which `TryParse` reads as ints. -/
theorem C31_whole_iff_partial (P : Parsers) (n : Int) (pos : Bool) (hpos : pos = true → 0 ≤ n) :
    tryParse P (.int n) pos = .ok (some (n * 100000000)) ↔
      2 ^ 1024 - 2 ^ 970 ≤ |n| ∨ (∃ (m : Int) (j : Nat), |m| < 2 ^ 53 ∧ n * 5 ^ 8 = m * 2 ^ j) ∧ |n| * 100000000 < 2 ^ 1024 := by
  have hD : D.toNat = 100000000 := rfl
  have hprod : (∃ (m : Int) (j : Nat), |m| < 2 ^ 53 ∧ n * 5 ^ 8 = m * 2 ^ j) →
      roundQ (n : ℚ) = n ∧ Representable |(n : ℚ) * 100000000| := by
    rintro ⟨m, j, hm, hj⟩
    have hdvd : (2 : Int) ^ j ∣ n := by
      have : (2 : Int) ^ j ∣ n * 5 ^ 8 := ⟨m, by rw [hj]; ring⟩
      refine IsCoprime.dvd_of_dvd_mul_right ?_ this
      exact IsCoprime.pow (⟨-2, 1, by norm_num⟩ : IsCoprime (2 : Int) 5)
    obtain ⟨n', rfl⟩ := hdvd
    have hm' : m = n' * 5 ^ 8 := by
      have h2 : (2 : Int) ^ j ≠ 0 := by positivity
      apply mul_right_cancel₀ h2
      rw [← hj]; ring
    have hn' : |n'| < 2 ^ 53 := by
      rw [hm', abs_mul] at hm
      have := abs_nonneg n'
      norm_num at hm ⊢
      omega
    refine ⟨roundQ_exact ((representable_int_iff _).2 ⟨n', j, hn', by ring⟩), ?_⟩
    have h1 : |((2 ^ j * n' : Int) : ℚ) * 100000000| = ((|m| * 2 ^ (j + 8) : Int) : ℚ) := by
      have e : ((2 ^ j * n' : Int) : ℚ) * 100000000 = ((m * 2 ^ (j + 8) : Int) : ℚ) := by rw [hm']; push_cast; ring
      rw [e, ← Int.cast_abs, abs_mul, abs_of_pos (pow_pos (by norm_num : (0 : Int) < 2) _)]
    rw [h1]
    exact (representable_int_iff _).2 ⟨|m|, j + 8, by rwa [abs_abs], rfl⟩
  by_cases hn : |(n : ℚ)| < floatLimit
  · have hn1 : ¬ 2 ^ 1024 - 2 ^ 970 ≤ |n| := not_le.2 ((abs_lt_limit n).1 hn)
    rw [or_iff_right hn1]
    by_cases hx : |roundQ (n : ℚ) * 100000000| < floatLimit
    · rw [whole_iff_small P n hn hx pos hpos]
      refine ⟨fun h => ⟨h, ?_⟩, fun h => h.1⟩
      rw [(hprod h).1] at hx
      have := hx.trans floatLimit_lt
      rw [abs_mul, ← Int.cast_abs, show |(100000000 : ℚ)| = 100000000 by norm_num] at this
      exact_mod_cast this
    · have hge := not_lt.1 hx
      constructor
      · intro h
        exfalso
        have hx0 : roundQ (n : ℚ) ≠ 0 := by
          intro h0
          rw [h0, zero_mul, abs_zero] at hge
          exact absurd hge (not_le.2 floatLimit_pos)
        have hof : floatOfInt n = .ok (.fin (roundQ (n : ℚ))) := by
          rw [floatOfInt, (ofRat_fin_iff _).1 hn]
        have hpv : parsedVal P (.int n) = .float (.fin (roundQ (n : ℚ))) := by
          simp [parsedVal, floatOf, hof, Parsed.falsy, PyFloat.truthy, hx0]
        unfold tryParse at h
        rw [hpv] at h
        simp only at h
        rw [if_neg, hD, PyFloat.mulPos, (ofRat_fin_iff _).2 (by exact_mod_cast hge)] at h
        · cases h
        · simp only [PyFloat.isNeg, Bool.and_eq_true, decide_eq_true_eq, not_and, not_lt]
          intro hp
          exact roundQ_nonneg (by exact_mod_cast hpos hp)
      · rintro ⟨he, hlt⟩
        exfalso
        obtain ⟨h1, h2⟩ := hprod he
        rw [h1] at hge
        have := representable_limit h2 hge
        rw [abs_mul, ← Int.cast_abs, show |(100000000 : ℚ)| = 100000000 by norm_num] at this
        have h3 : 2 ^ 1024 ≤ |n| * 100000000 := by exact_mod_cast this
        exact absurd hlt (not_lt.2 h3)
  · have hge := not_lt.1 hn
    refine ⟨fun _ => .inl (not_lt.1 fun h => hn ((abs_lt_limit n).2 h)), fun _ => ?_⟩
    have hof : floatOfInt n = .error .overflowError := by
      rw [floatOfInt, (ofRat_fin_iff _).2 hge]
    have hpv : parsedVal P (.int n) = .int n := by
      simp [parsedVal, floatOf, hof, Parsed.falsy, intOf]
    unfold tryParse
    rw [hpv]
    simp only
    rw [if_neg]
    · rfl
    · simp only [Bool.and_eq_true, decide_eq_true_eq, not_and, not_lt]
      exact hpos

example : ∃ (m : Int) (j : Nat), |m| < 2 ^ 53 ∧ (2 ^ 40 : Int) * 5 ^ 8 = m * 2 ^ j := ⟨5 ^ 8, 40, by norm_num, by norm_num⟩

/-! ### C74 -/

/-- C74, what multiplication does: the raw satoshi counts are multiplied (no division by 10^8). -/
theorem C74_mul_raw_partial (a b : Int) : Fixed8.mul a b = a * b := rfl

/-- C74 fails for every nonzero amount: multiplying by one unit does not give the amount back. -/
theorem C74_mul_one_violated (a : Int) (ha : a ≠ 0) : Fixed8.mul a Fixed8.one ≠ a := by
  unfold Fixed8.mul Fixed8.one D
  omega

/-- C74 holds for a product only if one of the factors is zero. -/
theorem C74_mul_iff_partial (a b : Int) : (Fixed8.mul a b : ℚ) / 100000000 = (a / 100000000) * (b / 100000000) ↔ a = 0 ∨ b = 0 := by
  unfold Fixed8.mul
  push_cast
  constructor
  · intro h
    have h1 : (a : ℚ) * b = 0 := by
      field_simp at h
      linarith
    rcases mul_eq_zero.mp h1 with h2 | h2
    · left; exact_mod_cast h2
    · right; exact_mod_cast h2
  · rintro (rfl | rfl) <;> simp

/-- C74 for division: one unit divided by one unit is one satoshi, not one unit. -/
theorem C74_div_one_violated : Fixed8.truediv Fixed8.one Fixed8.one = .ok Fixed8.satoshi := by decide +kernel

/-- C74. Nonnegative powers multiply the raw value repeatedly as well. -/
theorem C74_pow_raw_partial (a : Int) (n : Nat) : Fixed8.pow a n = (List.replicate n a).prod ∧
    Fixed8.pow a (n + 1) = Fixed8.mul (Fixed8.pow a n) a := by
  unfold Fixed8.pow Fixed8.mul
  exact ⟨by rw [List.prod_replicate], pow_succ a n⟩

end Neo.Props
