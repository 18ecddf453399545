import Verif.Props.Fixed8Text
import Verif.Props.Fixed8
import Verif.Props.Fixed8More

/-! # C156, C157: an amount, its text, and the amount read back from the text -/

namespace Neo.Props
open Py Spec Fixed8

/-- What the theorems need of Python's `float(text)` and `int(text)`, for decimal texts such as -12.5, 0.001 or 1e-08: the
first gives the float nearest to the number the text denotes; the second, where it accepts the text, that number. -/
structure Faithful (P : Parsers) : Prop where
  float : ∀ s q, textValue? s = some q → P.float s = .ok (.ofRat q)
  int : ∀ s q n, textValue? s = some q → P.int s = .ok n → (n : ℚ) = q

/-- Such parsers exist. -/
theorem faithful_exists : ∃ P, Faithful P :=
  ⟨⟨fun s => match textValue? s with | some q => .ok (.ofRat q) | none => .error .valueError,
    fun s => match textValue? s with | some q => if (⌊q⌋ : ℚ) = q then .ok ⌊q⌋ else .error .valueError | none => .error .valueError⟩,
    fun s q h => by simp only [h], fun s q n h hn => by
      simp only [h] at hn
      by_cases hq : (⌊q⌋ : ℚ) = q
      · rw [if_pos hq] at hn
        rw [← Except.ok.inj hn, hq]
      · rw [if_neg hq] at hn; cases hn⟩

/-- The number the text of an amount denotes rounds to the same float as the amount. -/
theorem text_rounds (R : Dtoa) (v : Int) (h : |v| < 2 ^ 64) :
    ∃ s t q, Fixed8.toStr R v = .ok s ∧ Fixed8.toNeoJsonStr R v = .ok t ∧ textValue? s = some q ∧ textValue? t = some q ∧
      roundQ q = roundQ ((v : ℚ) / 10 ^ 8) := by
  have hstr := toStr_eq R v h
  have hx := roundQ_exact (roundQ_representable ((v : ℚ) / 10 ^ 8))
  have hval := textValue_reprFin R (roundQ ((v : ℚ) / 10 ^ 8)) hx
  obtain ⟨t, ht, hq⟩ := toNeoJsonStr_value R v _ _ hstr hval
  refine ⟨_, t, _, hstr, ht, hval, hq, ?_⟩
  clear hstr hval ht hq
  generalize roundQ ((v : ℚ) / 10 ^ 8) = x at hx
  by_cases h0 : x = 0
  · rw [if_pos h0, h0, roundQ_zero]
  · rw [if_neg h0]
    by_cases hn : x < 0
    · rw [if_pos hn, roundQ_neg, (R.shortest (-x) (by linarith) (by rw [roundQ_neg, hx])).2.2.1, neg_neg]
    · rw [if_neg hn, (R.shortest x (lt_of_le_of_ne (not_lt.1 hn) (Ne.symm h0)) hx).2.2.1]

private theorem natAbs_neg {v : Int} (h : v < 0) : (v.natAbs : ℚ) = -(v : ℚ) := by
  rw [Nat.cast_natAbs, abs_of_neg h, Int.cast_neg]

private theorem natAbs_pos {v : Int} (h : 0 < v) : (v.natAbs : ℚ) = (v : ℚ) := by
  rw [Nat.cast_natAbs, abs_of_pos h]

private theorem round_zero_iff (v : Int) : roundQ ((v : ℚ) / 10 ^ 8) = 0 ↔ v = 0 := by
  constructor
  · intro h
    by_contra hv
    rcases lt_or_gt_of_ne hv with hn | hp
    · have := roundQ_pos_of v.natAbs (by omega)
      have e : (v.natAbs : ℚ) = -(v : ℚ) := natAbs_neg hn
      rw [e, neg_div, roundQ_neg, h] at this
      linarith
    · have := roundQ_pos_of v.natAbs (by omega)
      have e : (v.natAbs : ℚ) = (v : ℚ) := natAbs_pos hp
      rw [e, h] at this
      linarith
  · rintro rfl
    rw [Int.cast_zero, zero_div, roundQ_zero]

theorem small {v : Int} (h : |v| < 2 ^ 64) : |(v : ℚ) / 10 ^ 8| ≤ 2 ^ 64 := by
  have hq : |(v : ℚ)| < 2 ^ 64 := by rw [← Int.cast_abs]; exact_mod_cast h
  rw [abs_div, abs_of_pos (by norm_num : (0 : ℚ) < 10 ^ 8)]
  exact (div_le_self (abs_nonneg _) (by norm_num)).trans hq.le

theorem small_round {v : Int} (h : |v| < 2 ^ 64) : |roundQ ((v : ℚ) / 10 ^ 8) * 100000000| < floatLimit := by
  have h64 : |roundQ ((v : ℚ) / 10 ^ 8)| ≤ 2 ^ 64 := by
    rw [roundQ_abs]
    exact roundQ_le ⟨1, 64, by norm_num, by norm_num, by norm_num⟩ (small h)
  refine lt_floatLimit (lt_of_le_of_lt (b := 2 ^ 100) ?_ (pow_lt_pow_right₀ (by norm_num) (by norm_num)))
  rw [abs_mul, abs_of_pos (by norm_num : (0 : ℚ) < 100000000)]
  calc |roundQ ((v : ℚ) / 10 ^ 8)| * 100000000 ≤ 2 ^ 64 * 100000000 := mul_le_mul_of_nonneg_right h64 (by norm_num)
    _ ≤ 2 ^ 100 := by norm_num

theorem big (k : ℕ) (hk : k ≤ 1000) {q : ℚ} (h : |q| ≤ 2 ^ k) : |q| ≤ 2 ^ 1000 :=
  h.trans (pow_le_pow_right₀ (by norm_num) hk)

private theorem tryParse_float (P : Parsers) (s : Str) (pos : Bool) (x : ℚ) (hf : P.float s = .ok (.fin x)) (hx : x ≠ 0)
    (hpos : pos = true → 0 ≤ x) (r : Int) (hr : fromDecimal (.float (.fin x)) = .ok r) :
    tryParse P (.str s) pos = .ok (some r) := by
  have hp : parsedVal P (.str s) = .float (.fin x) := by
    unfold parsedVal
    simp only [floatOf, hf]
    rw [if_neg]
    simp only [Parsed.falsy, PyFloat.truthy]
    simpa using hx
  unfold tryParse
  rw [hp]
  simp only
  rw [if_neg]
  · change ((PyFloat.fin x).mulPos D.toNat).toInt = .ok r at hr
    rw [hr]
  · simp only [PyFloat.isNeg, Bool.and_eq_true, decide_eq_true_eq, not_and, not_lt]
    exact hpos

/-- Reading back the text of an amount gives what `FromDecimal` makes of the nearest float. -/
theorem parse_text (P : Parsers) (hP : Faithful P) (R : Dtoa) (v : Int) (h : |v| < 2 ^ 64) (pos : Bool)
    (hpos : pos = true → 0 ≤ v) : ∃ s t r, Fixed8.toStr R v = .ok s ∧ Fixed8.toNeoJsonStr R v = .ok t ∧
      tryParse P (.str s) pos = .ok (some r) ∧ tryParse P (.str t) pos = .ok (some r) ∧
      fromDecimal (.float (.fin (roundQ ((v : ℚ) / 10 ^ 8)))) = .ok r := by
  obtain ⟨s, t, q, hs, ht, hqs, hqt, hr⟩ := text_rounds R v h
  have hbig := big 64 (by norm_num) (small h)
  have hlim : PyFloat.ofRat q = .fin (roundQ ((v : ℚ) / 10 ^ 8)) := by
    have := ofRat_fin hbig
    unfold PyFloat.ofRat at this ⊢
    rw [hr]
    by_cases hc : (2 : ℚ) ^ 1024 ≤ |roundQ ((v : ℚ) / 10 ^ 8)|
    · rw [if_pos hc] at this; cases this
    · rw [if_neg hc]
  have hfs := hP.float s q hqs
  have hft := hP.float t q hqt
  rw [hlim] at hfs hft
  have h63 : |roundQ ((v : ℚ) / 10 ^ 8) * 100000000| < floatLimit := small_round h
  rw [floatLimit] at h63
  obtain ⟨r, hr'⟩ := (C152_outcome (.fin (roundQ ((v : ℚ) / 10 ^ 8)))).2.2.1 _ rfl h63
  by_cases hv : v = 0
  · subst hv
    have h0 : roundQ (((0 : ℤ) : ℚ) / 10 ^ 8) = 0 := (round_zero_iff 0).2 rfl
    rw [h0] at hr hfs hft hr'
    have hq0 : q = 0 := by
      have e : q = ((0 : ℤ) : ℚ) / 10 ^ 8 := by
        obtain ⟨⟨s', hs', hq'⟩, -⟩ := C32_exact_partial R 0 (by norm_num)
        rw [hs] at hs'
        rw [← Except.ok.inj hs', hqs] at hq'
        exact Option.some.inj hq'
      rw [e, Int.cast_zero, zero_div]
    have hr0 : r = 0 := by
      have := C152_exact 0 0 (by norm_num) (by norm_num)
      rw [this] at hr'
      exact (Except.ok.inj hr').symm
    subst hr0
    have zero_case : ∀ u, textValue? u = some q → P.float u = .ok (.fin 0) → tryParse P (.str u) pos = .ok (some 0) := by
      intro u hu hfu
      have hfal : (Parsed.float (.fin 0)).falsy = true := rfl
      have hp : parsedVal P (.str u) = .float (.fin 0) ∨ parsedVal P (.str u) = .int 0 := by
        unfold parsedVal
        simp only [floatOf, hfu, intOf]
        rw [if_pos hfal]
        cases hi : P.int u with
        | error e => left; rfl
        | ok n =>
          right
          have := hP.int u q n hu hi
          rw [hq0] at this
          have : n = 0 := by exact_mod_cast this
          rw [this]
      unfold tryParse
      rcases hp with hp | hp <;> rw [hp]
      · simp only
        rw [if_neg (by simp [PyFloat.isNeg])]
        change ((PyFloat.fin 0).mulPos D.toNat).toInt = .ok 0 at hr'
        rw [hr']
      · simp only
        rw [if_neg (by simp)]
        rfl
    refine ⟨s, t, 0, hs, ht, zero_case s hqs hfs, zero_case t hqt hft, ?_⟩
    rw [h0]
    exact hr'
  · have hx : roundQ ((v : ℚ) / 10 ^ 8) ≠ 0 := fun h0 => hv ((round_zero_iff v).1 h0)
    have hp : pos = true → 0 ≤ roundQ ((v : ℚ) / 10 ^ 8) := fun hpt => by
      have hv0 : (0 : ℚ) ≤ v := by exact_mod_cast hpos hpt
      exact roundQ_nonneg (by positivity)
    exact ⟨s, t, r, hs, ht, tryParse_float P s pos _ hfs hx hp r hr', tryParse_float P t pos _ hft hx hp r hr', hr'⟩

/-- C156 for amounts below 2^52 satoshis (45 million units): `TryParse` of either text of an amount gives the amount, or one
satoshi less in magnitude. -/
theorem C156_satoshi_partial (P : Parsers) (hP : Faithful P) (R : Dtoa) (v : Int) (h : |v| < 2 ^ 52) (pos : Bool)
    (hpos : pos = true → 0 ≤ v) : ∃ s t r, Fixed8.toStr R v = .ok s ∧ Fixed8.toNeoJsonStr R v = .ok t ∧
      tryParse P (.str s) pos = .ok (some r) ∧ tryParse P (.str t) pos = .ok (some r) ∧ (r = v ∨ |r| = |v| - 1 ∧ 0 ≤ r * v) := by
  have h64 : |v| < 2 ^ 64 := h.trans (by norm_num)
  obtain ⟨s, t, r, hs, ht, h1, h2, hr⟩ := parse_text P hP R v h64 pos hpos
  refine ⟨s, t, r, hs, ht, h1, h2, ?_⟩
  have hof := ofRat_fin (big 64 (by norm_num) (small h64))
  rw [← hof] at hr
  rcases le_total 0 v with hv | hv
  · rw [abs_of_nonneg hv] at h ⊢
    obtain ⟨r', hr', hc, h0⟩ := C30_float_partial v hv h
    rw [show (100000000 : ℚ) = 10 ^ 8 by norm_num, hr] at hr'
    have e := Except.ok.inj hr'
    subst e
    rcases hc with hc | hc
    · exact Or.inl hc
    · right
      rw [abs_of_nonneg h0]
      exact ⟨hc, mul_nonneg h0 hv⟩
  · rw [abs_of_nonpos hv] at h ⊢
    obtain ⟨r', hr', hc, h0⟩ := C30_float_negative_partial (-v) (by omega) h
    rw [show (100000000 : ℚ) = 10 ^ 8 by norm_num, Int.cast_neg, neg_div, neg_neg, hr] at hr'
    have e := Except.ok.inj hr'
    subst e
    rcases hc with hc | hc
    · left; omega
    · right
      rw [abs_neg, abs_of_nonneg h0]
      refine ⟨by omega, ?_⟩
      nlinarith

/-- C156 fails: 29 satoshis, written out and read back, are 28. -/
theorem C156_violated (P : Parsers) (hP : Faithful P) (R : Dtoa) (pos : Bool) :
    ∃ s t, Fixed8.toStr R 29 = .ok s ∧ Fixed8.toNeoJsonStr R 29 = .ok t ∧
      tryParse P (.str s) pos = .ok (some 28) ∧ tryParse P (.str t) pos = .ok (some 28) := by
  obtain ⟨s, t, r, hs, ht, h1, h2, hr⟩ := parse_text P hP R 29 (by norm_num) pos (fun _ => by norm_num)
  have hof := ofRat_fin (big 64 (by norm_num) (small (v := 29) (by norm_num)))
  rw [← hof] at hr
  have := C30_float_violated
  rw [show ((29 : ℚ) / 100000000) = ((29 : ℤ) : ℚ) / 10 ^ 8 by norm_num, hr] at this
  have e := Except.ok.inj this
  subst e
  exact ⟨s, t, hs, ht, h1, h2⟩

/-- C156 for the amounts a float holds exactly (up to 2^53 satoshis; among them all multiples of 1/256 unit): read back exactly. -/
theorem C156_exact_partial (P : Parsers) (hP : Faithful P) (R : Dtoa) (v : Int) (h : |v| ≤ 2 ^ 53)
    (hfloat : roundQ ((v : ℚ) / 10 ^ 8) = (v : ℚ) / 10 ^ 8 ∨ (5 ^ 8 ∣ v)) (pos : Bool) (hpos : pos = true → 0 ≤ v) :
    ∃ s t, Fixed8.toStr R v = .ok s ∧ Fixed8.toNeoJsonStr R v = .ok t ∧
      tryParse P (.str s) pos = .ok (some v) ∧ tryParse P (.str t) pos = .ok (some v) := by
  have hx : roundQ ((v : ℚ) / 10 ^ 8) = (v : ℚ) / 10 ^ 8 := by
    rcases hfloat with hf | ⟨k, rfl⟩
    · exact hf
    · refine roundQ_exact ⟨k, -8, ?_, by norm_num, ?_⟩
      · rw [abs_mul, abs_of_pos (by norm_num)] at h
        have := abs_nonneg k
        omega
      · push_cast
        rw [zpow_neg]
        norm_num
        ring
  obtain ⟨s, t, r, hs, ht, h1, h2, hr⟩ := parse_text P hP R v (lt_of_le_of_lt h (by norm_num)) pos hpos
  rw [hx] at hr
  have := C152_exact ((v : ℚ) / 10 ^ 8) v h (by norm_num)
  rw [this] at hr
  have e := Except.ok.inj hr
  subst e
  exact ⟨s, t, hs, ht, h1, h2⟩

/-- C156 for every 64-bit amount: read back up to one satoshi and a relative error of 2^-51, the same from either text. -/
theorem C156_close_partial (P : Parsers) (hP : Faithful P) (R : Dtoa) (v : Int) (h : |v| < 2 ^ 64) (pos : Bool)
    (hpos : pos = true → 0 ≤ v) : ∃ s t r, Fixed8.toStr R v = .ok s ∧ Fixed8.toNeoJsonStr R v = .ok t ∧
      tryParse P (.str s) pos = .ok (some r) ∧ tryParse P (.str t) pos = .ok (some r) ∧
      |(r : ℚ) - v| < 1 + |(v : ℚ)| / 2 ^ 51 := by
  obtain ⟨s, t, r, hs, ht, h1, h2, hr⟩ := parse_text P hP R v h pos hpos
  refine ⟨s, t, r, hs, ht, h1, h2, ?_⟩
  have he := C152_error _ r hr
  clear hr
  by_cases hv : v = 0
  · subst hv
    rw [Int.cast_zero, zero_div, roundQ_zero] at he
    simpa using he
  have hrel : |roundQ ((v : ℚ) / 10 ^ 8) - (v : ℚ) / 10 ^ 8| ≤ |(v : ℚ) / 10 ^ 8| / 2 ^ 53 := by
    refine (roundQ_rel _).trans (max_le le_rfl ?_)
    have hsmall : (1 : ℚ) / 2 ^ 1000 ≤ 1 / 2 ^ 53 / 10 ^ 8 := by
      rw [div_div]
      refine div_le_div_of_nonneg_left (by norm_num) (by positivity) ?_
      calc (2 : ℚ) ^ 53 * 10 ^ 8 ≤ 2 ^ 53 * 2 ^ 30 := by norm_num
        _ = 2 ^ 83 := by norm_num
        _ ≤ 2 ^ 1000 := pow_le_pow_right₀ (by norm_num) (by norm_num)
    refine hsmall.trans ?_
    rw [abs_div, abs_of_pos (by norm_num : (0 : ℚ) < 10 ^ 8), div_right_comm]
    have : (1 : ℚ) ≤ |(v : ℚ)| := by
      rw [← Int.cast_abs]
      exact_mod_cast Int.one_le_abs hv
    gcongr
  generalize roundQ ((v : ℚ) / 10 ^ 8) = x at he hrel
  have h3 : |x * 100000000 - v| ≤ |(v : ℚ)| / 2 ^ 53 := by
    have e1 : x * 100000000 - v = (x - (v : ℚ) / 10 ^ 8) * 10 ^ 8 := by ring
    have e2 : |(v : ℚ)| / 2 ^ 53 = |(v : ℚ) / 10 ^ 8| / 2 ^ 53 * 10 ^ 8 := by
      rw [abs_div, abs_of_pos (by norm_num : (0 : ℚ) < 10 ^ 8)]
      ring
    rw [e1, e2, abs_mul, abs_of_pos (by norm_num : (0 : ℚ) < 10 ^ 8)]
    gcongr
  have h4 : |x * 100000000| ≤ |(v : ℚ)| + |(v : ℚ)| / 2 ^ 53 := by
    calc |x * 100000000| = |(v : ℚ) + (x * 100000000 - v)| := by ring_nf
      _ ≤ |(v : ℚ)| + |x * 100000000 - v| := abs_add_le _ _
      _ ≤ _ := by linarith
  have h5 : |(r : ℚ) - v| ≤ |(r : ℚ) - x * 100000000| + |x * 100000000 - v| := by
    calc |(r : ℚ) - v| = |((r : ℚ) - x * 100000000) + (x * 100000000 - v)| := by ring_nf
      _ ≤ _ := abs_add_le _ _
  have h6 : |x * 100000000| / 2 ^ 53 ≤ (|(v : ℚ)| + |(v : ℚ)| / 2 ^ 53) / 2 ^ 53 := by gcongr
  have h7 : 0 ≤ |(v : ℚ)| := abs_nonneg _
  norm_num at h3 h5 h6 he ⊢
  linarith

/-- C156. Where a positive amount is required, the texts of negative amounts are refused. -/
theorem C156_negative_refused_partial (P : Parsers) (hP : Faithful P) (R : Dtoa) (v : Int) (h : |v| < 2 ^ 64) (hneg : v < 0) :
    ∃ s t, Fixed8.toStr R v = .ok s ∧ Fixed8.toNeoJsonStr R v = .ok t ∧
      tryParse P (.str s) true = .ok none ∧ tryParse P (.str t) true = .ok none := by
  obtain ⟨s, t, q, hs, ht, hqs, hqt, hr⟩ := text_rounds R v h
  have hbig := big 64 (by norm_num) (small h)
  have hlim : PyFloat.ofRat q = .fin (roundQ ((v : ℚ) / 10 ^ 8)) := by
    have := ofRat_fin hbig
    unfold PyFloat.ofRat at this ⊢
    rw [hr]
    by_cases hc : (2 : ℚ) ^ 1024 ≤ |roundQ ((v : ℚ) / 10 ^ 8)|
    · rw [if_pos hc] at this; cases this
    · rw [if_neg hc]
  have hneg' : roundQ ((v : ℚ) / 10 ^ 8) < 0 := by
    have := roundQ_pos_of v.natAbs (by omega)
    have e : (v.natAbs : ℚ) = -(v : ℚ) := natAbs_neg hneg
    rw [e, neg_div, roundQ_neg] at this
    linarith
  have key : ∀ u, textValue? u = some q → tryParse P (.str u) true = .ok none := by
    intro u hu
    have hfu := hP.float u q hu
    rw [hlim] at hfu
    have hp : parsedVal P (.str u) = .float (.fin (roundQ ((v : ℚ) / 10 ^ 8))) := by
      unfold parsedVal
      simp only [floatOf, hfu]
      rw [if_neg]
      simp only [Parsed.falsy, PyFloat.truthy]
      simpa using hneg'.ne
    unfold tryParse
    rw [hp]
    simp only
    rw [if_pos (by simpa [PyFloat.isNeg] using hneg')]
  exact ⟨s, t, hs, ht, key s hqs, key t hqt⟩

/-- The hypotheses hold for some parsers and a float printer; 1.5 units come back exactly. -/
example : ∃ P R, Faithful P ∧ ∃ s t, Fixed8.toStr R 150000000 = .ok s ∧ Fixed8.toNeoJsonStr R 150000000 = .ok t ∧
    tryParse P (.str s) true = .ok (some 150000000) ∧ tryParse P (.str t) true = .ok (some 150000000) := by
  obtain ⟨P, hP⟩ := faithful_exists
  obtain ⟨R⟩ := dtoa_exists
  exact ⟨P, R, hP, C156_exact_partial P hP R 150000000 (by norm_num) (Or.inr (by norm_num)) true (fun _ => by norm_num)⟩

/-! ## C157 -/

/-- What is needed of `decimal.Decimal(text)`: the number the text denotes, with a coefficient made of digits of the text. -/
def DecimalOf (dec : Str → Except Err Dec) : Prop :=
  ∀ s q, textValue? s = some q → ∃ d, dec s = .ok d ∧ d.val = q ∧ d.coeff.natAbs < 10 ^ s.length

private theorem formatShort_length (d : ℕ) (e : ℤ) (hl : (decText d).length ≤ 16) (h1 : -7 ≤ ((decText d).length : ℤ) + e)
    (h2 : ((decText d).length : ℤ) + e ≤ 16) : (formatShort d e).length ≤ 22 := by
  unfold formatShort
  simp only
  by_cases hc : ((decText d).length : ℤ) + e ≤ -4 ∨ ((decText d).length : ℤ) + e > 16
  · rw [if_pos hc]
    have hx : (decText (((decText d).length : ℤ) + e - 1).natAbs).length = 1 := by
      obtain ⟨k, hk⟩ : ∃ k : ℕ, (((decText d).length : ℤ) + e - 1).natAbs = k := ⟨_, rfl⟩
      rw [hk]
      have hk1 : 1 ≤ k := by omega
      have hk9 : k ≤ 9 := by omega
      rw [decText, dif_neg (by omega), Nat.div_eq_of_lt (by omega), decText, dif_pos rfl]
      rfl
    rw [List.length_append, List.length_append, List.length_append, List.length_append, List.length_replicate, hx, List.length_take]
    by_cases h1 : (decText d).length = 1
    · rw [if_pos h1]
      simp only [List.length_nil, List.length_cons]
      omega
    · rw [if_neg h1]
      simp only [List.length_nil, List.length_cons, List.length_drop]
      omega
  · rw [if_neg hc]
    rw [not_or, not_le, not_lt] at hc
    by_cases h0 : ((decText d).length : ℤ) + e ≤ 0
    · rw [if_pos h0, List.length_append, List.length_append, List.length_replicate]
      simp only [List.length_nil, List.length_cons]
      omega
    · rw [if_neg h0]
      by_cases he : 0 ≤ e
      · rw [if_pos he, List.length_append, List.length_append, List.length_replicate]
        simp only [List.length_nil, List.length_cons]
        omega
      · rw [if_neg he, List.length_append, List.length_take, List.length_cons, List.length_drop]
        omega

private theorem short_length (R : Dtoa) (n : ℕ) (hn : 0 < n) (hlt : n < 2 ^ 26 * 10 ^ 8) :
    (formatShort (R.digits (roundQ ((n : ℚ) / 10 ^ 8))) (R.exponent (roundQ ((n : ℚ) / 10 ^ 8)))).length ≤ 22 := by
  have hpos := roundQ_pos_of n hn
  have hsh := R.shortest _ hpos (roundQ_exact (roundQ_representable _))
  have hval := shortest_exact n _ _ hn hlt hsh
  obtain ⟨hd0, -, -, hmin⟩ := hsh
  have hlen := hmin n (-8) hn (by rw [zpow_neg, ← div_eq_mul_inv]; norm_cast)
  generalize R.digits (roundQ ((n : ℚ) / 10 ^ 8)) = d at *
  generalize R.exponent (roundQ ((n : ℚ) / 10 ^ 8)) = e at *
  obtain ⟨-, hge, -⟩ := decText_length n hn
  obtain ⟨hl0, hdge, hdlt⟩ := decText_length d hd0
  have hL : (decText n).length ≤ 16 := by
    by_contra hc
    have : 10 ^ 16 ≤ 10 ^ ((decText n).length - 1) := Nat.pow_le_pow_right (by norm_num) (by omega)
    have := this.trans hge
    omega
  have hnq : (1 : ℚ) ≤ n := by exact_mod_cast hn
  have hnq2 : (n : ℚ) < 10 ^ 16 := by
    have : n < 10 ^ 16 := hlt.trans (by norm_num)
    exact_mod_cast this
  refine formatShort_length d e (hlen.trans hL) ?_ ?_
  · by_contra hc
    have h1 : (d : ℚ) * 10 ^ e < 10 ^ (((decText d).length : ℤ) + e) := by
      rw [zpow_add₀ (by norm_num), zpow_natCast]
      have : (d : ℚ) < ((10 ^ (decText d).length : ℕ) : ℚ) := Nat.cast_lt.2 hdlt
      push_cast at this
      exact mul_lt_mul_of_pos_right this (zpow_pos (by norm_num) e)
    have h2 : (10 : ℚ) ^ (((decText d).length : ℤ) + e) ≤ 10 ^ (-8 : ℤ) := by
      rw [zpow_le_zpow_iff_right₀ (by norm_num)]; omega
    have h3 : (10 : ℚ) ^ (-8 : ℤ) = 1 / 10 ^ 8 := by norm_num
    rw [hval] at h1
    have h4 : (1 : ℚ) / 10 ^ 8 ≤ (n : ℚ) / 10 ^ 8 := by gcongr
    exact absurd (h4.trans_lt (h1.trans_le (h2.trans h3.le))) (lt_irrefl _)
  · by_contra hc
    have h1 : (10 : ℚ) ^ (((decText d).length : ℤ) - 1 + e) ≤ (d : ℚ) * 10 ^ e := by
      rw [zpow_add₀ (by norm_num), show ((decText d).length : ℤ) - 1 = (((decText d).length - 1 : ℕ) : ℤ) by omega, zpow_natCast]
      have : ((10 ^ ((decText d).length - 1) : ℕ) : ℚ) ≤ (d : ℚ) := Nat.cast_le.2 hdge
      push_cast at this
      exact mul_le_mul_of_nonneg_right this (zpow_pos (by norm_num) e).le
    have h2 : (10 : ℚ) ^ (16 : ℤ) ≤ 10 ^ (((decText d).length : ℤ) - 1 + e) := by
      rw [zpow_le_zpow_iff_right₀ (by norm_num)]; omega
    rw [hval] at h1
    have h3 : (n : ℚ) / 10 ^ 8 < 10 ^ 16 := by
      rw [div_lt_iff₀ (by norm_num)]
      linarith
    have h4 : (10 : ℚ) ^ (16 : ℤ) = 10 ^ 16 := by norm_cast
    linarith

/-- The texts of amounts below 2^26 units are at most 23 characters long. -/
private theorem text_length (R : Dtoa) (v : Int) (h : |v| < 2 ^ 26 * 10 ^ 8) : (reprFin R (roundQ ((v : ℚ) / 10 ^ 8))).length ≤ 23 := by
  have hlt : v.natAbs < 2 ^ 26 * 10 ^ 8 := by rw [Int.abs_eq_natAbs] at h; exact_mod_cast h
  unfold reprFin
  rcases lt_trichotomy v 0 with hv | hv | hv
  · have hpos := roundQ_pos_of v.natAbs (by omega)
    have hs := short_length R v.natAbs (by omega) hlt
    rw [natAbs_neg hv, neg_div, roundQ_neg] at hpos hs
    rw [if_neg (by linarith), if_pos (by linarith), List.length_cons]
    omega
  · subst hv
    rw [if_pos ((round_zero_iff 0).2 rfl)]
    norm_num
  · have hpos := roundQ_pos_of v.natAbs (by omega)
    have hs := short_length R v.natAbs (by omega) hlt
    rw [natAbs_pos hv] at hpos hs
    rw [if_neg (by linarith), if_neg (by linarith)]
    omega

/-- C157. Through `Decimal` instead of `TryParse`: for amounts below 2^26 units, `FromDecimal(Decimal(text))` of either text of
an amount is the amount. -/
theorem C157_decimal_roundtrip (dec : Str → Except Err Dec) (hdec : DecimalOf dec) (R : Dtoa) (v : Int)
    (h : |v| < 2 ^ 26 * 10 ^ 8) : ∃ s t d d', Fixed8.toStr R v = .ok s ∧ Fixed8.toNeoJsonStr R v = .ok t ∧
      dec s = .ok d ∧ dec t = .ok d' ∧ fromDecimal (.decimal d) = .ok v ∧ fromDecimal (.decimal d') = .ok v := by
  obtain ⟨⟨s, hs, hqs⟩, t, ht, hqt⟩ := C32_exact_partial R v h
  have hsl : s.length ≤ 23 := by
    have := toStr_eq R v (h.trans (by norm_num))
    rw [hs] at this
    rw [Except.ok.inj this]
    exact text_length R v h
  have htl : t.length ≤ 23 := by
    unfold toNeoJsonStr at ht
    rw [hs] at ht
    simp only at ht
    by_cases hc : s.drop (s.length - 2) = ['.', '0']
    · rw [if_pos hc] at ht
      rw [← Except.ok.inj ht, List.length_take]
      omega
    · rw [if_neg hc] at ht
      rw [← Except.ok.inj ht]
      exact hsl
  have key : ∀ u, u.length ≤ 23 → textValue? u = some ((v : ℚ) / 10 ^ 8) →
      ∃ d, dec u = .ok d ∧ fromDecimal (.decimal d) = .ok v := by
    intro u hul hu
    obtain ⟨d, hd, hval, hc⟩ := hdec u _ hu
    refine ⟨d, hd, C85_decimal d v (hc.trans_le (Nat.pow_le_pow_right (by norm_num) (by omega))) ?_ ?_⟩
    · rw [hval]
      norm_num
    · have h1 : |(v : ℚ)| < 2 ^ 26 * 10 ^ 8 := by rw [← Int.cast_abs]; exact_mod_cast h
      refine h1.trans (lt_of_lt_of_le (b := 10 ^ 16) (by norm_num) (pow_le_pow_right₀ (by norm_num) (by norm_num)))
  obtain ⟨d, hd, h1⟩ := key s hsl hqs
  obtain ⟨d', hd', h2⟩ := key t htl hqt
  exact ⟨s, t, d, d', hs, ht, hd, hd', h1, h2⟩

/-! ### `Decimal` of a text exists -/

private theorem digits_lt (s : List Char) (n : ℕ) (h : digits? s = some n) : n < 10 ^ s.length := by
  have key : ∀ (s : List Char) (a n : ℕ), digitsFrom a s = some n → n < (a + 1) * 10 ^ s.length := by
    intro s
    induction s with
    | nil =>
      intro a n h
      have : a = n := by simpa [digitsFrom] using h
      simp [this]
    | cons c s ih =>
      intro a n h
      cases hc : digit? c with
      | none =>
        exfalso
        have : digitsFrom a (c :: s) = none := by
          unfold digitsFrom
          rw [List.foldl_cons]
          simp only [hc]
          clear ih h hc
          induction s with
          | nil => rfl
          | cons x s ih => rw [List.foldl_cons]; exact ih
        rw [this] at h; cases h
      | some k =>
        have hk : k ≤ 9 := by
          unfold digit? at hc
          by_cases hd : '0' ≤ c ∧ c ≤ '9'
          · rw [if_pos hd] at hc
            have := Option.some.inj hc
            have h9 : c.toNat ≤ '9'.toNat := hd.2
            have : ('9' : Char).toNat = 57 := rfl
            have : ('0' : Char).toNat = 48 := rfl
            omega
          · rw [if_neg hd] at hc; cases hc
        rw [digitsFrom_cons a c s k hc] at h
        have := ih _ _ h
        rw [List.length_cons, pow_succ]
        calc n < (10 * a + k + 1) * 10 ^ s.length := this
          _ ≤ ((a + 1) * 10) * 10 ^ s.length := Nat.mul_le_mul_right _ (by omega)
          _ = _ := by ring
  have := key s 0 n h
  simpa using this

private theorem mantissa_dec (s : List Char) (q : ℚ) (h : mantissa? s = some q) :
    ∃ (n : ℕ) (e : ℤ), (n : ℚ) * 10 ^ e = q ∧ n < 10 ^ s.length := by
  unfold mantissa? at h
  simp only at h
  have hcat := List.takeWhile_append_dropWhile (p := (· != '.')) (l := s)
  have hlen := congrArg List.length hcat
  rw [List.length_append] at hlen
  generalize s.takeWhile (· != '.') = w at *
  generalize s.dropWhile (· != '.') = f at *
  cases f with
  | nil =>
    simp only at h
    by_cases hw : w = []
    · rw [if_pos hw] at h; cases h
    · rw [if_neg hw] at h
      cases hd : digits? w with
      | none => rw [hd] at h; cases h
      | some n =>
        rw [hd] at h
        refine ⟨n, 0, by rw [zpow_zero, mul_one]; exact Option.some.inj h, (digits_lt w n hd).trans_le (Nat.pow_le_pow_right (by norm_num) ?_)⟩
        omega
  | cons c f =>
    simp only at h
    by_cases hw : w = [] ∨ f = []
    · rw [if_pos hw] at h; cases h
    · rw [if_neg hw] at h
      cases hd : digits? (w ++ f) with
      | none => rw [hd] at h; cases h
      | some n =>
        rw [hd] at h
        refine ⟨n, -(f.length : ℤ), ?_, (digits_lt _ n hd).trans_le (Nat.pow_le_pow_right (by norm_num) ?_)⟩
        · rw [zpow_neg, zpow_natCast, ← div_eq_mul_inv]
          exact Option.some.inj h
        · rw [List.length_append]
          rw [List.length_cons] at hlen
          omega

private theorem unsigned_dec (s : List Char) (q : ℚ) (h : unsigned? s = some q) :
    ∃ (n : ℕ) (e : ℤ), (n : ℚ) * 10 ^ e = q ∧ n < 10 ^ s.length := by
  unfold unsigned? at h
  cases hm : mantissa? (s.takeWhile (· != 'e')) with
  | none => rw [hm] at h; cases h
  | some m =>
    rw [hm] at h
    cases he : exponent? (s.dropWhile (· != 'e')) with
    | none => rw [he] at h; cases h
    | some e =>
      rw [he] at h
      obtain ⟨n, e', hn, hlt⟩ := mantissa_dec _ m hm
      refine ⟨n, e' + e, ?_, hlt.trans_le (Nat.pow_le_pow_right (by norm_num) ((List.takeWhile_sublist _).length_le))⟩
      rw [zpow_add₀ (by norm_num), ← mul_assoc, hn]
      exact Option.some.inj h

/-- The contract of `Decimal(text)` can be met. -/
theorem decimalOf_exists : ∃ dec, DecimalOf dec := by
  have key : ∀ s q, textValue? s = some q → ∃ d : Dec, d.val = q ∧ d.coeff.natAbs < 10 ^ s.length := by
    intro s q h
    have pos : ∀ s q, unsigned? s = some q → ∃ d : Dec, d.val = q ∧ d.coeff.natAbs < 10 ^ s.length := by
      intro s q h
      obtain ⟨n, e, hv, hlt⟩ := unsigned_dec s q h
      exact ⟨⟨n, e⟩, by rw [← hv]; rfl, hlt⟩
    cases s with
    | nil => exact pos _ _ h
    | cons c s =>
      by_cases hc : c = '-'
      · subst hc
        rw [textValue?] at h
        cases hu : unsigned? s with
        | none => rw [hu] at h; cases h
        | some m =>
          rw [hu] at h
          obtain ⟨n, e, hv, hlt⟩ := unsigned_dec s m hu
          refine ⟨⟨-n, e⟩, ?_, ?_⟩
          · rw [← Option.some.inj h, ← hv]
            show ((-(n : ℤ) : ℤ) : ℚ) * 10 ^ e = -((n : ℚ) * 10 ^ e)
            push_cast
            ring
          · show (-(n : ℤ)).natAbs < _
            rw [Int.natAbs_neg, Int.natAbs_natCast, List.length_cons, pow_succ]
            omega
      · rw [textValue?] at h
        · exact pos _ _ h
        · rintro u hu
          exact hc (List.cons.inj hu).1
  classical
  refine ⟨fun s => if h : ∃ q, textValue? s = some q then .ok (key s h.choose h.choose_spec).choose else .error .valueError, ?_⟩
  intro s q hq
  have h : ∃ q, textValue? s = some q := ⟨q, hq⟩
  have hspec := (key s h.choose h.choose_spec).choose_spec
  have e : h.choose = q := Option.some.inj (h.choose_spec.symm.trans hq)
  refine ⟨_, dif_pos h, ?_, hspec.2⟩
  rw [hspec.1, e]

/-- 29 satoshis, one of which `TryParse` loses (C156), come back exactly through `Decimal`. -/
example : ∃ dec R s d, DecimalOf dec ∧ Fixed8.toStr R 29 = .ok s ∧ dec s = .ok d ∧ fromDecimal (.decimal d) = .ok 29 := by
  obtain ⟨dec, hdec⟩ := decimalOf_exists
  obtain ⟨R⟩ := dtoa_exists
  obtain ⟨s, t, d, d', hs, -, hd, -, h1, -⟩ := C157_decimal_roundtrip dec hdec R 29 (by norm_num)
  exact ⟨dec, R, s, d, hdec, hs, hd, h1⟩

end Neo.Props
