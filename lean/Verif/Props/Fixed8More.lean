import Verif.Proofs.FloatRange
import Verif.Model.Fixed8
import Verif.Proofs.Float

/-!
# C147, C148: how wrong Floor, Ceil, ToInt and / can be, for all 64-bit amounts
-/

namespace Neo.Props
open Py Fixed8

private theorem hD : (0 : ℚ) < (D : ℚ) := by norm_num [D]

private theorem cast64 {v : Int} (h : |v| ≤ 2 ^ 63) : |(v : ℚ)| ≤ 2 ^ 63 := by
  rw [← Int.cast_abs]; exact_mod_cast h

private theorem div_ok {a b : Int} (ha : |a| ≤ 2 ^ 63) (hb : b ≠ 0) : intTrueDiv a b = .ok (.fin (roundQ ((a : ℚ) / b))) := by
  have hb1 : (1 : ℚ) ≤ |(b : ℚ)| := by rw [← Int.cast_abs]; exact_mod_cast Int.one_le_abs hb
  unfold intTrueDiv
  rw [if_neg hb, ofRat_fin]
  have h1 : (2 : ℚ) ^ 63 ≤ 2 ^ 1000 := by rw [pow_le_pow_iff_right₀ (by norm_num)]; norm_num
  refine le_trans ?_ h1
  rw [abs_div, div_le_iff₀ (by linarith)]
  nlinarith [cast64 ha, abs_nonneg (a : ℚ)]

/-- The float division by one unit: a number between the two whole units around the amount, at most 2^-17 away from the exact
quotient. -/
private theorem quotient (v : Int) (h : |v| ≤ 2 ^ 63) : ∃ r : ℚ, intTrueDiv v D = .ok (.fin r) ∧
    ((v / D : Int) : ℚ) ≤ r ∧ r ≤ ((-((-v) / D) : Int) : ℚ) ∧ r * D ≤ v + 763 ∧ (v : ℚ) ≤ r * D + 763 ∧
    r = roundQ ((v : ℚ) / D) := by
  have hv := cast64 h
  have hq : |(v : ℚ) / D| < 2 ^ (37 : ℤ) := by
    rw [abs_div, abs_of_pos hD, div_lt_iff₀ hD]
    refine lt_of_le_of_lt hv ?_
    norm_num [D]
  have herr := roundQ_error hq (by norm_num)
  rw [abs_le] at herr
  have hsm : (2 : ℚ) ^ ((37 : ℤ) - 54) * D ≤ 763 := by norm_num [D]
  revert herr hsm
  generalize (2 : ℚ) ^ ((37 : ℤ) - 54) = ε
  intro herr hsm
  have hvD : (v : ℚ) / D * D = v := div_mul_cancel₀ _ hD.ne'
  have hD' : D = 100000000 := rfl
  have repr : ∀ n : Int, |n| ≤ 2 ^ 53 → Representable (n : ℚ) := fun n hn => representable_int hn
  rw [abs_le] at h
  refine ⟨_, div_ok (abs_le.2 h) (by decide), ?_, ?_, ?_, ?_, rfl⟩
  · refine le_roundQ (repr _ ?_) ?_
    · rw [abs_le]; rw [hD']; constructor <;> omega
    · rw [le_div_iff₀ hD]
      have : v / D * D ≤ v := by rw [hD']; omega
      exact_mod_cast this
  · refine roundQ_le (repr _ ?_) ?_
    · rw [abs_le]; rw [hD']; constructor <;> omega
    · rw [div_le_iff₀ hD]
      have : v ≤ -((-v) / D) * D := by rw [hD']; omega
      exact_mod_cast this
  · have := mul_le_mul_of_nonneg_right (show roundQ ((v : ℚ) / D) ≤ (v : ℚ) / D + ε by linarith [herr.2]) hD.le
    rw [add_mul, hvD] at this
    linarith
  · have := mul_le_mul_of_nonneg_right (show (v : ℚ) / D ≤ roundQ ((v : ℚ) / D) + ε by linarith [herr.1]) hD.le
    rw [add_mul, hvD] at this
    linarith

private theorem floor_of {v : Int} {q : ℚ} (h : intTrueDiv v D = .ok (.fin q)) : Fixed8.floor v = .ok (⌊q⌋ * D) := by
  unfold Fixed8.floor; rw [h]; rfl

private theorem ceil_of {v : Int} {q : ℚ} (h : intTrueDiv v D = .ok (.fin q)) : Fixed8.ceil v = .ok (⌈q⌉ * D) := by
  unfold Fixed8.ceil; rw [h]; rfl

/-- `int(x)` of a float. -/
private def trunc (r : ℚ) : Int := if r < 0 then ⌈r⌉ else ⌊r⌋

private theorem trunc_neg (x : ℚ) : trunc (-x) = -trunc x := by
  unfold trunc
  rcases lt_trichotomy x 0 with h | h | h
  · rw [if_pos h, if_neg (by linarith), Int.floor_neg]
  · rw [h]; simp
  · rw [if_pos (by linarith), if_neg (by linarith), Int.ceil_neg]

private theorem trunc_mono {x y : ℚ} (h : x ≤ y) : trunc x ≤ trunc y := by
  unfold trunc
  by_cases a : x < 0
  · rw [if_pos a]
    by_cases b : y < 0
    · rw [if_pos b]; exact Int.ceil_le_ceil h
    · rw [if_neg b]
      exact (Int.ceil_le.2 (by exact_mod_cast a.le)).trans (Int.le_floor.2 (by exact_mod_cast not_lt.1 b))
  · rw [if_neg a, if_neg (not_lt.2 ((not_lt.1 a).trans h))]; exact Int.floor_le_floor h

private theorem toInt_of {v : Int} {q : ℚ} (h : intTrueDiv v D = .ok (.fin q)) : Fixed8.toInt v = .ok (trunc q) := by
  unfold Fixed8.toInt; rw [h]; rfl

private theorem truediv_of {a b : Int} {q : ℚ} (h : intTrueDiv a b = .ok (.fin q)) : Fixed8.truediv a b = .ok (trunc q) := by
  unfold Fixed8.truediv; rw [h]; rfl

/-- C147. For every 64-bit amount `Floor`, `Ceil` and `ToInt` succeed; `Floor` is a whole number of units less than one unit below
and at most 763 satoshis above the amount, `Ceil` less than one unit above and at most 763 satoshis below, and `ToInt` is off
in the same way (away from zero by at most 763 satoshis). -/
theorem C147_bounds (v : Int) (h : |v| ≤ 2 ^ 63) :
    ∃ f c n, Fixed8.floor v = .ok f ∧ Fixed8.ceil v = .ok c ∧ Fixed8.toInt v = .ok n ∧
      (100000000 ∣ f ∧ v - 100000000 < f ∧ f ≤ v + 763) ∧
      (100000000 ∣ c ∧ v - 763 ≤ c ∧ c < v + 100000000) ∧
      (0 ≤ v → v - 100000000 < n * 100000000 ∧ n * 100000000 ≤ v + 763) ∧
      (v ≤ 0 → v - 763 ≤ n * 100000000 ∧ n * 100000000 < v + 100000000) := by
  obtain ⟨r, hr, h1, h2, h3, h4, -⟩ := quotient v h
  have hD' : D = 100000000 := rfl
  have hDq : ((D : Int) : ℚ) = 100000000 := by norm_num [D]
  have f1 : v / D ≤ ⌊r⌋ := Int.le_floor.2 h1
  have f2 : ⌊r⌋ * D ≤ v + 763 := by
    have := (mul_le_mul_of_nonneg_right (Int.floor_le r) hD.le).trans h3
    exact_mod_cast this
  have c1 : ⌈r⌉ ≤ -((-v) / D) := Int.ceil_le.2 h2
  have c2 : v ≤ ⌈r⌉ * D + 763 := by
    have := h4.trans (add_le_add_left (mul_le_mul_of_nonneg_right (Int.le_ceil r) hD.le) 763)
    exact_mod_cast this
  have hf := floor_of hr
  have hc := ceil_of hr
  have hn := toInt_of hr
  refine ⟨_, _, _, hf, hc, hn, ⟨Dvd.intro_left _ rfl, ?_, f2⟩, ⟨Dvd.intro_left _ rfl, ?_, ?_⟩, ?_, ?_⟩
  · rw [hD'] at f1 ⊢; omega
  · rw [hD'] at c2 ⊢; omega
  · rw [hD'] at c1 ⊢; omega
  · intro hv
    have : 0 ≤ r := le_trans (by rw [hD']; exact_mod_cast (by omega : 0 ≤ v / 100000000)) h1
    rw [trunc, if_neg (not_lt.2 this)]
    rw [hD'] at f1 f2
    constructor <;> omega
  · intro hv
    have : r ≤ 0 := le_trans h2 (by rw [hD']; exact_mod_cast (by omega : -(-v / 100000000) ≤ 0))
    by_cases h0 : r < 0
    · rw [trunc, if_pos h0]
      rw [hD'] at c1 c2
      constructor <;> omega
    · have h0 : r = 0 := le_antisymm this (not_lt.1 h0)
      rw [trunc, if_neg (by rw [h0]; simp)]
      rw [h0, Int.ceil_zero] at c1 c2
      rw [h0, Int.floor_zero]
      rw [hD'] at c1 c2
      constructor <;> omega

/-- C147. Whole numbers of units are left unchanged. -/
theorem C147_whole (n : Int) (h : |n * 100000000| ≤ 2 ^ 63) :
    Fixed8.floor (n * 100000000) = .ok (n * 100000000) ∧ Fixed8.ceil (n * 100000000) = .ok (n * 100000000) ∧
    Fixed8.toInt (n * 100000000) = .ok n := by
  obtain ⟨r, hr, h1, h2, -⟩ := quotient _ h
  have hD' : D = 100000000 := rfl
  have e : r = n := by
    refine le_antisymm ?_ ?_
    · refine h2.trans_eq ?_
      congr 1
      rw [hD']; omega
    · refine Eq.trans_le ?_ h1
      congr 1
      rw [hD']; omega
  subst e
  refine ⟨?_, ?_, ?_⟩
  · rw [floor_of hr, Int.floor_intCast, hD']
  · rw [ceil_of hr, Int.ceil_intCast, hD']
  · rw [toInt_of hr, trunc, Int.floor_intCast, Int.ceil_intCast, ite_self]

/-- C147. A larger amount never gets a smaller result, and `Ceil` mirrors `Floor`. -/
theorem C147_monotone (v w : Int) (hv : |v| ≤ 2 ^ 63) (hw : |w| ≤ 2 ^ 63) (hle : v ≤ w) :
    (∀ f f', Fixed8.floor v = .ok f → Fixed8.floor w = .ok f' → f ≤ f') ∧
    (∀ c c', Fixed8.ceil v = .ok c → Fixed8.ceil w = .ok c' → c ≤ c') ∧
    (∀ n n', Fixed8.toInt v = .ok n → Fixed8.toInt w = .ok n' → n ≤ n') ∧
    (∀ f, Fixed8.floor v = .ok f → Fixed8.ceil (-v) = .ok (-f)) := by
  obtain ⟨r, hr, -, -, -, -, er⟩ := quotient v hv
  obtain ⟨r', hr', -, -, -, -, er'⟩ := quotient w hw
  obtain ⟨r'', hr'', -, -, -, -, er''⟩ := quotient (-v) (by rwa [abs_neg])
  have hrr : r ≤ r' := by
    rw [er, er']
    exact roundQ_mono (div_le_div_of_nonneg_right (by exact_mod_cast hle) hD.le)
  have hneg : r'' = -r := by
    rw [er'', er, Int.cast_neg, neg_div, roundQ_neg]
  have hDpos : (0 : Int) ≤ D := by decide
  refine ⟨?_, ?_, ?_, ?_⟩
  · intro f f' h1 h2
    rw [floor_of hr] at h1
    rw [floor_of hr'] at h2
    cases h1; cases h2
    exact Int.mul_le_mul_of_nonneg_right (Int.floor_le_floor hrr) hDpos
  · intro f f' h1 h2
    rw [ceil_of hr] at h1
    rw [ceil_of hr'] at h2
    cases h1; cases h2
    exact Int.mul_le_mul_of_nonneg_right (Int.ceil_le_ceil hrr) hDpos
  · intro f f' h1 h2
    rw [toInt_of hr] at h1
    rw [toInt_of hr'] at h2
    cases h1; cases h2
    exact trunc_mono hrr
  · intro f h1
    rw [floor_of hr] at h1
    cases h1
    rw [ceil_of hr'', hneg, Int.ceil_neg, neg_mul]

/-- A 64-bit amount (C147, C148), one satoshi below 2^36 + 1 units, whose `Floor` is above it. -/
example : |((2 ^ 36 + 1) * 100000000 - 1 : Int)| ≤ 2 ^ 63 ∧ Fixed8.floor ((2 ^ 36 + 1) * 100000000 - 1) = .ok ((2 ^ 36 + 1) * 100000000) :=
  ⟨by decide, by decide +kernel⟩

/-! ## C148 -/

private theorem trunc_spec (r : ℚ) : |(trunc r : ℚ) - r| < 1 ∧ |(trunc r : ℚ)| ≤ |r| := by
  unfold trunc
  have h1 := Int.floor_le r
  have h2 := Int.lt_floor_add_one r
  have h3 := Int.le_ceil r
  have h4 := Int.ceil_lt_add_one r
  by_cases h : r < 0
  · rw [if_pos h]
    have h5 : ((⌈r⌉ : Int) : ℚ) ≤ 0 := by
      have : ⌈r⌉ ≤ 0 := Int.ceil_le.2 (by exact_mod_cast h.le)
      exact_mod_cast this
    rw [abs_lt, abs_of_nonpos h5, abs_of_neg h]
    exact ⟨⟨by linarith, by linarith⟩, by linarith⟩
  · rw [if_neg h]
    have h5 : (0 : ℚ) ≤ ((⌊r⌋ : Int) : ℚ) := by
      have : 0 ≤ ⌊r⌋ := Int.le_floor.2 (by exact_mod_cast not_lt.1 h)
      exact_mod_cast this
    rw [abs_lt, abs_of_nonneg h5, abs_of_nonneg (not_lt.1 h)]
    exact ⟨⟨by linarith, by linarith⟩, by linarith⟩

/-- C148. For all 64-bit amounts `a` and non-zero `b`, the result of `/` differs from the exact quotient by less than one
plus 1024/|b|. -/
theorem C148_error (a b : Int) (ha : |a| ≤ 2 ^ 63) (hb : b ≠ 0) :
    ∃ r, Fixed8.truediv a b = .ok r ∧ |(r : ℚ) - (a : ℚ) / b| < 1 + 1024 / |(b : ℚ)| := by
  have hb1 : (1 : ℚ) ≤ |(b : ℚ)| := by rw [← Int.cast_abs]; exact_mod_cast Int.one_le_abs hb
  have hdiv := div_ok ha hb
  refine ⟨_, truediv_of hdiv, ?_⟩
  set q : ℚ := (a : ℚ) / b with hq
  have h1 := (trunc_spec (roundQ q)).1
  by_cases hz : a = 0
  · have : q = 0 := by rw [hq, hz]; simp
    rw [this, roundQ_zero]
    simp only [trunc, lt_irrefl, if_false, Int.floor_zero, Int.cast_zero, sub_zero, abs_zero]
    positivity
  have hrel := roundQ_rel q
  have hqa : |q| ≤ 2 ^ 63 / |(b : ℚ)| := by
    rw [hq, abs_div]
    exact div_le_div_of_nonneg_right (cast64 ha) (by linarith)
  -- either the quotient is below 1/2 (the result is 0), or the relative error counts
  by_cases hhalf : |q| < 1 / 2
  · have hr : |roundQ q| ≤ 1 / 2 := by
      rw [roundQ_abs]
      refine roundQ_le ⟨1, -1, by decide, by decide, by norm_num⟩ hhalf.le
    have h0 : trunc (roundQ q) = 0 := by
      have h2 := (trunc_spec (roundQ q)).2
      have h3 : |(trunc (roundQ q) : ℚ)| < 1 := by linarith
      rw [← Int.cast_abs] at h3
      have h4 : |trunc (roundQ q)| < 1 := by exact_mod_cast h3
      exact Int.abs_lt_one_iff.1 h4
    rw [h0, Int.cast_zero, zero_sub, abs_neg]
    have : (0 : ℚ) ≤ 1024 / |(b : ℚ)| := by positivity
    linarith
  · have hhalf := not_lt.1 hhalf
    have hmax : max (|q| / 2 ^ 53) (1 / 2 ^ 1000) = |q| / 2 ^ 53 := by
      rw [max_eq_left]
      have h5 : (1 : ℚ) / 2 ^ 1000 ≤ 1 / 2 ^ 54 := by
        apply one_div_le_one_div_of_le (by positivity)
        rw [pow_le_pow_iff_right₀ (by norm_num)]; norm_num
      refine h5.trans ?_
      rw [le_div_iff₀ (by positivity)]
      refine le_trans ?_ hhalf
      norm_num
    rw [hmax] at hrel
    have herr : |roundQ q - q| ≤ 1024 / |(b : ℚ)| := by
      refine hrel.trans ?_
      rw [div_le_iff₀ (by positivity)]
      refine hqa.trans (le_of_eq ?_)
      rw [div_mul_eq_mul_div]
      norm_num
    calc |_ - q| = |(_ - roundQ q) + (roundQ q - q)| := by rw [sub_add_sub_cancel]
      _ ≤ _ := abs_add_le _ _
      _ < _ := add_lt_add_of_lt_of_le h1 herr

/-- C148. `/` never raises for a non-zero divisor, is monotone in the dividend, and changes sign with either argument. -/
theorem C148_monotone (a a' b : Int) (ha : |a| ≤ 2 ^ 63) (ha' : |a'| ≤ 2 ^ 63) (hb : 0 < b) :
    (∀ r r', a ≤ a' → Fixed8.truediv a b = .ok r → Fixed8.truediv a' b = .ok r' → r ≤ r') ∧
    (∀ r, Fixed8.truediv a b = .ok r → Fixed8.truediv (-a) b = .ok (-r) ∧ Fixed8.truediv a (-b) = .ok (-r)) := by
  have hbq : (0 : ℚ) < b := by exact_mod_cast hb
  have h1 := div_ok ha hb.ne'
  have h2 := div_ok ha' hb.ne'
  have h3 := div_ok (a := -a) (by rwa [abs_neg]) hb.ne'
  have h4 := div_ok (b := -b) ha (by omega)
  constructor
  · intro r r' hle e e'
    have hrr : roundQ ((a : ℚ) / b) ≤ roundQ ((a' : ℚ) / b) :=
      roundQ_mono (div_le_div_of_nonneg_right (by exact_mod_cast hle) hbq.le)
    rw [truediv_of h1] at e
    rw [truediv_of h2] at e'
    cases e; cases e'
    exact trunc_mono hrr
  · intro r e
    rw [truediv_of h1] at e
    cases e
    constructor
    · rw [truediv_of h3, Int.cast_neg, neg_div, roundQ_neg, trunc_neg]
    · rw [truediv_of h4, Int.cast_neg, div_neg, roundQ_neg, trunc_neg]

/-- The error bound is not far from what happens: 2^63 - 513 over 1 comes out 511 too small. -/
example : |(2 ^ 63 - 513 : Int)| ≤ 2 ^ 63 ∧ Fixed8.truediv (2 ^ 63 - 513) 1 = .ok (2 ^ 63 - 1024) := ⟨by decide, by decide +kernel⟩

/-! ## C152 -/

private theorem fromFloat_of {q r : ℚ} (h : PyFloat.ofRat (q * (100000000 : Nat)) = .fin r) :
    fromDecimal (.float (.fin q)) = .ok (trunc r) := by
  show ((PyFloat.ofRat (q * ((D.toNat : Nat) : ℚ)))).toInt = _
  rw [show D.toNat = 100000000 from rfl, h]
  rfl

private theorem trunc_close (x : ℚ) : |(trunc x : ℚ) - x| < 1 := by
  unfold trunc
  rw [abs_lt]
  by_cases h : x < 0
  · rw [if_pos h]
    constructor <;> linarith [Int.le_ceil x, Int.ceil_lt_add_one x]
  · rw [if_neg h]
    constructor <;> linarith [Int.floor_le x, Int.lt_floor_add_one x]

private theorem toInt_ok_iff (f : PyFloat) : (∃ v, f.toInt = .ok v) ↔ ∃ q, f = .fin q := by
  cases f with
  | nan => simp [PyFloat.toInt]
  | inf s => simp [PyFloat.toInt]
  | fin q => exact ⟨fun _ => ⟨q, rfl⟩, fun _ => ⟨_, rfl⟩⟩

/-- C152. `FromDecimal` of a float: a nan gives ValueError, an infinity OverflowError; a finite float x gives an amount exactly if
x·10^8 is below 2^1024 - 2^970, where floats end, and OverflowError otherwise. -/
theorem C152_outcome (x : PyFloat) :
    (x = .nan → fromDecimal (.float x) = .error .valueError) ∧
    (∀ b, x = .inf b → fromDecimal (.float x) = .error .overflowError) ∧
    (∀ q : ℚ, x = .fin q → |q * 100000000| < 2 ^ 1024 - 2 ^ 970 → ∃ v, fromDecimal (.float x) = .ok v) ∧
    (∀ q : ℚ, x = .fin q → 2 ^ 1024 - 2 ^ 970 ≤ |q * 100000000| → fromDecimal (.float x) = .error .overflowError) ∧
    (∀ e, fromDecimal (.float x) = .error e → e = .valueError ∧ x = .nan ∨ e = .overflowError) := by
  refine ⟨?_, ?_, ?_, ?_, ?_⟩
  · rintro rfl; rfl
  · rintro b rfl; rfl
  · rintro q rfl hq
    exact ⟨_, fromFloat_of ((ofRat_fin_iff _).1 (by rw [Nat.cast_ofNat]; exact hq))⟩
  · rintro q rfl hq
    show ((PyFloat.ofRat (q * ((D.toNat : Nat) : ℚ)))).toInt = _
    rw [show D.toNat = 100000000 from rfl, (ofRat_fin_iff _).2 (by rw [Nat.cast_ofNat]; exact hq)]
    rfl
  · intro e he
    cases x with
    | nan => left; cases he; exact ⟨rfl, rfl⟩
    | inf b => right; cases he; rfl
    | fin q =>
      right
      change (PyFloat.ofRat (q * ((D.toNat : Nat) : ℚ))).toInt = _ at he
      revert he
      unfold PyFloat.ofRat
      by_cases h : (2 : ℚ) ^ 1024 ≤ |roundQ (q * ((D.toNat : Nat) : ℚ))|
      · rw [if_pos h]; intro he; cases he; rfl
      · rw [if_neg h]; intro he; cases he

/-- C152. The amount made from a finite float x is less than one satoshi plus a relative error of 2^-53 away from x·10^8. -/
theorem C152_error (q : ℚ) (v : Int) (h : fromDecimal (.float (.fin q)) = .ok v) :
    |(v : ℚ) - q * 100000000| < 1 + |q * 100000000| / 2 ^ 53 := by
  have hb : |q * 100000000| < floatLimit := by
    by_contra hq
    have := (C152_outcome (.fin q)).2.2.2.1 q rfl (not_lt.1 hq)
    rw [h] at this
    cases this
  have hv := fromFloat_of ((ofRat_fin_iff _).1 (by rw [Nat.cast_ofNat]; exact hb))
  rw [h] at hv
  have hv := Except.ok.inj hv
  rw [show ((100000000 : Nat) : ℚ) = 100000000 by norm_num] at hv
  clear hb h
  revert hv
  generalize q * 100000000 = y
  intro hv
  subst hv
  have hc := trunc_close (roundQ y)
  have hr := roundQ_rel y
  by_cases hy : |y| < 1 / 2
  · have h0 : |roundQ y| ≤ 1 / 2 := by
      rw [roundQ_abs]
      refine roundQ_le ?_ hy.le
      exact ⟨1, -1, by norm_num, by norm_num, by norm_num⟩
    have ht : trunc (roundQ y) = 0 := by
      rw [abs_le] at h0
      unfold trunc
      by_cases h1 : roundQ y < 0
      · rw [if_pos h1, Int.ceil_eq_zero_iff]
        exact ⟨by linarith [h0.1], h1.le⟩
      · rw [if_neg h1, Int.floor_eq_zero_iff]
        exact ⟨not_lt.1 h1, by linarith [h0.2]⟩
    rw [ht, Int.cast_zero, zero_sub, abs_neg]
    have : 0 ≤ |y| / 2 ^ 53 := by positivity
    linarith
  · have : |roundQ y - y| ≤ |y| / 2 ^ 53 := by
      refine hr.trans (max_le le_rfl ?_)
      have h1 : (1 : ℚ) / 2 ^ 1000 ≤ 1 / 2 ^ 54 := by
        refine one_div_le_one_div_of_le (by positivity) ?_
        rw [pow_le_pow_iff_right₀ (by norm_num)]; norm_num
      refine h1.trans ?_
      rw [div_le_div_iff₀ (by positivity) (by positivity)]
      nlinarith [not_lt.1 hy]
    calc |((trunc (roundQ y) : ℤ) : ℚ) - y| = |(((trunc (roundQ y) : ℤ) : ℚ) - roundQ y) + (roundQ y - y)| := by ring_nf
      _ ≤ |((trunc (roundQ y) : ℤ) : ℚ) - roundQ y| + |roundQ y - y| := abs_add_le _ _
      _ < 1 + |y| / 2 ^ 53 := by linarith

/-- C152. `FromDecimal` of floats is monotone and odd. -/
theorem C152_monotone (q q' : ℚ) (v v' : Int) (h : fromDecimal (.float (.fin q)) = .ok v)
    (h' : fromDecimal (.float (.fin q')) = .ok v') :
    (q ≤ q' → v ≤ v') ∧ fromDecimal (.float (.fin (-q))) = .ok (-v) := by
  have key : ∀ (x : ℚ) (u : Int), fromDecimal (.float (.fin x)) = .ok u →
      u = trunc (roundQ (x * (100000000 : Nat))) ∧ PyFloat.ofRat (x * (100000000 : Nat)) = .fin (roundQ (x * (100000000 : Nat))) := by
    intro x u hu
    have hu' := hu
    change (PyFloat.ofRat (x * ((D.toNat : Nat) : ℚ))).toInt = _ at hu
    rw [show D.toNat = 100000000 from rfl] at hu
    have hf : PyFloat.ofRat (x * (100000000 : Nat)) = .fin (roundQ (x * (100000000 : Nat))) := by
      revert hu
      unfold PyFloat.ofRat
      split
      · intro hu; cases hu
      · intro _; rfl
    have := fromFloat_of hf
    rw [hu'] at this
    exact ⟨Except.ok.inj this, hf⟩
  obtain ⟨e, hf⟩ := key q v h
  obtain ⟨e', hf'⟩ := key q' v' h'
  constructor
  · intro hle
    rw [e, e']
    exact trunc_mono (roundQ_mono (mul_le_mul_of_nonneg_right hle (by norm_num)))
  · have hn : PyFloat.ofRat (-q * (100000000 : Nat)) = .fin (-roundQ (q * (100000000 : Nat))) := by
      rw [neg_mul]
      revert hf
      unfold PyFloat.ofRat
      rw [roundQ_neg, abs_neg]
      split
      · intro hf; cases hf
      · intro _; rfl
    rw [fromFloat_of hn, trunc_neg, e]

/-- C152. If x·10^8 is a whole number up to 2^53, it is the amount. -/
theorem C152_exact (q : ℚ) (n : Int) (hn : |n| ≤ 2 ^ 53) (h : q * 100000000 = n) : fromDecimal (.float (.fin q)) = .ok n := by
  have hb : |(n : ℚ)| ≤ 2 ^ 1000 := by
    have : |(n : ℚ)| ≤ 2 ^ 53 := by rw [← Int.cast_abs]; exact_mod_cast hn
    refine this.trans ?_
    rw [pow_le_pow_iff_right₀ (by norm_num)]; norm_num
  have hf : PyFloat.ofRat (q * (100000000 : Nat)) = .fin (n : ℚ) := by
    rw [show ((100000000 : Nat) : ℚ) = 100000000 by norm_num, h, ofRat_fin hb, roundQ_int hn]
  rw [fromFloat_of hf]
  unfold trunc
  rw [Int.ceil_intCast, Int.floor_intCast, ite_self]

/-- 0.375 is a float and 37500000 satoshis. -/
example : fromDecimal (.float (.fin (3 / 8))) = .ok 37500000 := C152_exact _ _ (by norm_num) (by norm_num)

end Neo.Props
