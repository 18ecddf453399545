import Verif.Proofs.NumberText
import Verif.Props.Fixed8Parse

/-! # C203: the texts `Fixed8.TryParse` accepts -/

namespace Neo.Props
open Py Spec Fixed8

/-- `float(text)` and `int(text)` of CPython. -/
def pyParsers (underscores : Bool) (ascii : Char → Char) : Parsers := ⟨floatOfText underscores ascii, intOfText underscores ascii⟩

/-- What `TryParse` makes of a text that stands for the float `v`: an amount in satoshis or None, or an exception. -/
def Reads (v : PyFloat) (pos : Bool) (out : Except Err (Option Int)) : Prop :=
  match v with
  | .nan => out = .error .valueError
  | .inf neg => out = if pos = true ∧ neg = true then .ok none else .error .overflowError
  | .fin x =>
    if pos = true ∧ x < 0 then out = .ok none
    else if 2 ^ 1024 ≤ |roundQ (x * 10 ^ 8)| then out = .error .overflowError
    else ∃ n : Int, out = .ok (some n) ∧ (|(n : ℚ)| ≤ |roundQ (x * 10 ^ 8)| ∧ |roundQ (x * 10 ^ 8)| < |(n : ℚ)| + 1) ∧ 0 ≤ n * x

private theorem trunc_bounds (y : ℚ) :
    |((if y < 0 then ⌈y⌉ else ⌊y⌋ : ℤ) : ℚ)| ≤ |y| ∧ |y| < |((if y < 0 then ⌈y⌉ else ⌊y⌋ : ℤ) : ℚ)| + 1 := by
  by_cases hy : y < 0
  · rw [if_pos hy, abs_of_neg hy]
    have h1 : ((⌈y⌉ : ℤ) : ℚ) ≤ 0 := by exact_mod_cast Int.ceil_nonpos.2 hy.le
    have h2 := Int.le_ceil y
    have h3 := Int.ceil_lt_add_one y
    rw [abs_of_nonpos h1]
    constructor <;> linarith
  · rw [if_neg hy, abs_of_nonneg (not_lt.1 hy)]
    have h1 : (0 : ℚ) ≤ (⌊y⌋ : ℤ) := by exact_mod_cast Int.floor_nonneg.2 (not_lt.1 hy)
    have h2 := Int.floor_le y
    have h3 := Int.lt_floor_add_one y
    rw [abs_of_nonneg h1]
    exact ⟨h2, h3⟩

private theorem reads_float (v : PyFloat) (pos : Bool) :
    Reads v pos (if (pos && v.isNeg) = true then .ok none
      else match (v.mulPos D.toNat).toInt with | .ok n => .ok (some n) | .error e => .error e) := by
  have hD : ((D.toNat : Nat) : ℚ) = 10 ^ 8 := by rw [show D.toNat = 100000000 from rfl]; norm_num
  cases v with
  | nan => cases pos <;> rfl
  | inf neg => cases pos <;> cases neg <;> rfl
  | fin x =>
    simp only [Reads, PyFloat.isNeg, Bool.and_eq_true, decide_eq_true_eq]
    by_cases h : pos = true ∧ x < 0
    · rw [if_pos h, if_pos h]
    rw [if_neg h, if_neg h, PyFloat.mulPos, hD, PyFloat.ofRat]
    by_cases hb : 2 ^ 1024 ≤ |roundQ (x * 10 ^ 8)|
    · rw [if_pos hb, if_pos hb]; rfl
    · rw [if_neg hb, if_neg hb]
      simp only [PyFloat.toInt]
      refine ⟨_, rfl, trunc_bounds _, ?_⟩
      rcases lt_or_ge x 0 with hx | hx
      · have h0 : roundQ (x * 10 ^ 8) ≤ 0 := by
          have := roundQ_mono (show x * 10 ^ 8 ≤ 0 by nlinarith)
          rwa [roundQ_zero] at this
        clear hb h
        generalize roundQ (x * 10 ^ 8) = y at *
        have : (if y < 0 then ⌈y⌉ else ⌊y⌋) ≤ 0 := by
          by_cases hy : y < 0
          · rw [if_pos hy]; exact Int.ceil_nonpos.2 h0
          · rw [if_neg hy, le_antisymm h0 (not_lt.1 hy)]; simp
        have : ((if y < 0 then ⌈y⌉ else ⌊y⌋ : ℤ) : ℚ) ≤ 0 := by exact_mod_cast this
        nlinarith
      · have h0 : 0 ≤ roundQ (x * 10 ^ 8) := roundQ_nonneg (by positivity)
        clear hb h
        generalize roundQ (x * 10 ^ 8) = y at *
        rw [if_neg (not_lt.2 h0)]
        have : (0 : ℚ) ≤ (⌊y⌋ : ℤ) := by exact_mod_cast Int.floor_nonneg.2 h0
        positivity

private theorem mantissa_spec {s : Str} {m : ℚ} (h : mantissa? s = some m) : ∃ w p f, ∃ n : Nat, s = w ++ p ++ f ∧
    (p = [] ∧ f = [] ∨ p = ['.']) ∧ w ++ f ≠ [] ∧ digits? (w ++ f) = some n ∧ m = n / 10 ^ f.length := by
  unfold mantissa? at h
  have hs := List.takeWhile_append_dropWhile (p := (· != '.')) (l := s)
  cases hd : s.dropWhile (· != '.') with
  | nil =>
    simp only [hd] at h
    by_cases hw : s.takeWhile (· != '.') = []
    · rw [if_pos hw] at h; cases h
    · rw [if_neg hw] at h
      obtain ⟨n', hn', rfl⟩ := Option.map_eq_some_iff.1 h
      obtain ⟨n, hn, hp⟩ := Option.bind_eq_some_iff.1 hn'
      cases Option.some.inj hp
      refine ⟨_, [], [], n, ?_, .inl ⟨rfl, rfl⟩, by simpa using hw, by simpa using hn, by simp⟩
      rw [hd] at hs
      simpa using hs.symm
  | cons c f =>
    simp only [hd] at h
    by_cases hw : s.takeWhile (· != '.') = [] ∨ f = []
    · rw [if_pos hw] at h; cases h
    · rw [if_neg hw] at h
      obtain ⟨n', hn', rfl⟩ := Option.map_eq_some_iff.1 h
      obtain ⟨n, hn, hp⟩ := Option.bind_eq_some_iff.1 hn'
      cases Option.some.inj hp
      have hc : c = '.' := by
        have := List.head?_dropWhile_not (· != '.') s
        rw [hd] at this
        simpa using this
      subst hc
      refine ⟨_, ['.'], f, n, ?_, .inr rfl, by rw [not_or] at hw; simp [hw.2], hn, rfl⟩
      rw [hd] at hs
      simpa using hs.symm

private theorem exponent_spec {e : Str} {x : Int} (h : exponent? e = some x) : ExponentText e x := by
  unfold exponent? at h
  split at h
  · exact .inl ⟨rfl, (Option.some.inj h).symm⟩
  · rename_i d
    by_cases hd : d = []
    · rw [if_pos hd] at h; cases h
    · rw [if_neg hd] at h
      obtain ⟨n', hn', rfl⟩ := Option.map_eq_some_iff.1 h
      obtain ⟨n, hn, hp⟩ := Option.bind_eq_some_iff.1 hn'
      cases Option.some.inj hp
      exact .inr ⟨'e', ['+'], d, false, n, rfl, .inl rfl, .inr (.inl ⟨rfl, rfl⟩), hd, hn, rfl⟩
  · rename_i d
    by_cases hd : d = []
    · rw [if_pos hd] at h; cases h
    · rw [if_neg hd] at h
      obtain ⟨n', hn', rfl⟩ := Option.map_eq_some_iff.1 h
      obtain ⟨n, hn, hp⟩ := Option.bind_eq_some_iff.1 hn'
      cases Option.some.inj hp
      exact .inr ⟨'e', ['-'], d, true, n, rfl, .inl rfl, .inr (.inr ⟨rfl, rfl⟩), hd, hn, rfl⟩
  · cases h

private theorem unsigned_spec {b : Str} {q : ℚ} (h : unsigned? b = some q) : DecimalNumeral b q := by
  unfold unsigned? at h
  have hs := List.takeWhile_append_dropWhile (p := (· != 'e')) (l := b)
  cases hm : mantissa? (b.takeWhile (· != 'e')) with
  | none => simp only [hm] at h; cases h
  | some m =>
    cases he : exponent? (b.dropWhile (· != 'e')) with
    | none => simp only [hm, he] at h; cases h
    | some x =>
      simp only [hm, he] at h
      obtain ⟨w, p, f, n, hw, hp, h0, hn, rfl⟩ := mantissa_spec hm
      refine ⟨w, p, f, _, n, x, ?_, hp, h0, hn, exponent_spec he, (Option.some.inj h).symm⟩
      rw [← hw, hs]

private theorem grouped_self (u : Bool) {s : Str} (h : '_' ∉ s) : Grouped u s s := by
  refine ⟨(List.filter_eq_self.2 fun c hc => ?_).symm, fun a b e => absurd (e ▸ by simp) h⟩
  simp only [bne_iff_ne, ne_eq]
  rintro rfl
  exact h hc

private theorem text_number (u : Bool) {s : Str} {q : ℚ} (h : textValue? s = some q) :
    NumberText u s q ∧ ∀ c ∈ s, isDigit c = true ∨ c ∈ ['.', 'e', 'E', '+', '-'] := by
  have nound : ∀ b : Str, (∀ c ∈ b, isDigit c = true ∨ c ∈ ['.', 'e', 'E', '+', '-']) → '_' ∉ b := by
    intro b hb hm
    exact absurd (hb _ hm) (by decide)
  unfold textValue? at h
  split at h
  · rename_i b
    obtain ⟨r, hr, rfl⟩ := Option.map_eq_some_iff.1 h
    have hb := unsigned_spec hr
    have hm : ∀ c ∈ '-' :: b, isDigit c = true ∨ c ∈ ['.', 'e', 'E', '+', '-'] := by
      intro c hc
      rcases List.mem_cons.1 hc with rfl | hc
      · exact .inr (by decide)
      · exact numeral_mem hb c hc
    exact ⟨⟨[], '-' :: b, ['-'], b, [], true, by simp, by simp [SpaceText], by simp [SpaceText], grouped_self u (nound _ hm),
      .inr (.inr ⟨rfl, rfl⟩), r, hb, rfl⟩, hm⟩
  · have hb := unsigned_spec h
    have hm := numeral_mem hb
    exact ⟨⟨[], s, [], s, [], false, by simp, by simp [SpaceText], by simp [SpaceText], grouped_self u (nound _ hm),
      .inl ⟨rfl, rfl⟩, q, hb, rfl⟩, hm⟩

private theorem ascii_char {c : Char} (h : isDigit c = true ∨ c ∈ ['.', 'e', 'E', '+', '-']) : c.toNat < 128 := by
  rcases h with h | h
  · simp only [isDigit, Bool.and_eq_true, decide_eq_true_eq] at h
    have := h.2
    rw [Char.le_def, UInt32.le_iff_toNat_le] at this
    exact lt_of_le_of_lt this (by decide)
  · simp only [List.mem_cons, List.not_mem_nil, or_false] at h
    rcases h with rfl | rfl | rfl | rfl | rfl <;> decide

/-- CPython's `float(text)` and `int(text)` are faithful: what C31, C156 and the others assume of the parsers holds of them. -/
theorem faithful_py (u : Bool) (f : Char → Char) (hf : ∀ c, c.toNat < 128 → f c = c) : Faithful (pyParsers u f) := by
  have hmap : ∀ s q, textValue? s = some q → s.map f = s := by
    intro s q h
    conv_rhs => rw [← List.map_id s]
    exact List.map_congr_left fun c hc => hf c (ascii_char ((text_number u h).2 c hc))
  constructor
  · intro s q h
    refine (floatOfText_iff u f s _).2 ?_
    rw [hmap s q h]
    exact numberText_float (text_number u h).1
  · intro s q n h hn
    have := intOfText_number hn
    rw [hmap s q h] at this
    exact numberText_unique this (text_number u h).1

private theorem ofRat_zero {n : Int} (h : PyFloat.ofRat (n : ℚ) = .fin 0) : n = 0 := by
  unfold PyFloat.ofRat at h
  have hr : roundQ (n : ℚ) = 0 := by
    by_cases hb : (2 : ℚ) ^ 1024 ≤ |roundQ (n : ℚ)|
    · rw [if_pos hb] at h; cases h
    · rw [if_neg hb] at h; exact PyFloat.fin.inj h
  have h1 : roundQ 1 = 1 := by exact_mod_cast roundQ_int (n := 1) (by norm_num)
  have ha := roundQ_abs (n : ℚ)
  rw [hr, abs_zero] at ha
  by_contra hn
  have : (1 : ℚ) ≤ |(n : ℚ)| := by exact_mod_cast Int.one_le_abs hn
  have := roundQ_mono this
  rw [h1, ← ha] at this
  norm_num at this

private theorem tryParse_eq {u : Bool} {f : Char → Char} {s : Str} {v : PyFloat} (h1 : floatOfText u f s = .ok v) (pos : Bool) :
    tryParse (pyParsers u f) (.str s) pos = if (pos && v.isNeg) = true then .ok none
      else match (v.mulPos D.toNat).toInt with | .ok n => .ok (some n) | .error e => .error e := by
  by_cases h0 : v = .fin 0
  · subst h0
    have hd : (PyFloat.mulPos (.fin 0) D.toNat).toInt = .ok 0 := by
      rw [PyFloat.mulPos, zero_mul, PyFloat.ofRat, roundQ_zero, abs_zero, if_neg (not_le.2 (by positivity))]
      simp [PyFloat.toInt]
    have hp : (pos && PyFloat.isNeg (.fin 0)) = false := by simp [PyFloat.isNeg]
    have hz : tryParse (pyParsers u f) (.str s) pos = .ok (some 0) := by
      cases h2 : intOfText u f s with
      | error e =>
        have hv : parsedVal (pyParsers u f) (.str s) = .float (.fin 0) := by
          simp [parsedVal, floatOf, intOf, pyParsers, h1, h2]
        simp only [tryParse, hv, hp, hd]
        rfl
      | ok n =>
        have hn := numberText_float (intOfText_number h2)
        have hn0 : n = 0 := by
          have e := Except.ok.inj (((floatOfText_iff u f s _).2 hn).symm.trans h1)
          exact ofRat_zero e
        subst hn0
        have hv : parsedVal (pyParsers u f) (.str s) = .int 0 := by
          simp [parsedVal, floatOf, intOf, pyParsers, h1, h2, Parsed.falsy, PyFloat.truthy]
        simp [tryParse, hv]
    rw [hz, hp, if_neg (by simp), hd]
  · have : tryParse (pyParsers u f) (.str s) pos = if (pos && v.isNeg) = true then .ok none
        else match (v.mulPos D.toNat).toInt with | .ok n => .ok (some n) | .error e => .error e := by
      have ht : v.truthy = true := by
        cases v with
        | nan => rfl
        | inf _ => rfl
        | fin x =>
          have : x ≠ 0 := fun e => h0 (e ▸ rfl)
          simp [PyFloat.truthy, this]
      have hv : parsedVal (pyParsers u f) (.str s) = .float v := by
        simp [parsedVal, floatOf, pyParsers, h1, Parsed.falsy, ht]
      simp only [tryParse, hv]
      cases (v.mulPos D.toNat).toInt <;> rfl
    exact this

/-- C203. `u` says whether the Python version allows underscores (3.6 does, 3.5 does not); `f` is what `float` and `int` make of the
single characters first (Unicode digits and blanks; nothing for bytes). A text that does not stand for a number by the grammar of the
library reference gives None; one that does gives the float nearest to the number times 10^8, rounded once more to a float, without
its fraction. -/
theorem C203_texts (u : Bool) (f : Char → Char) (s : Str) (pos : Bool) :
    ((∀ v, ¬ FloatText u (s.map f) v) → tryParse (pyParsers u f) (.str s) pos = .ok none) ∧
    ∀ v, FloatText u (s.map f) v → Reads v pos (tryParse (pyParsers u f) (.str s) pos) := by
  constructor
  · intro h
    cases h1 : floatOfText u f s with
    | ok v => exact absurd ((floatOfText_iff u f s v).1 h1) (h v)
    | error e =>
      cases h2 : intOfText u f s with
      | ok n => exact absurd (numberText_float (intOfText_number h2)) (h _)
      | error e' => exact C86_not_a_number _ _ _ e e' h1 h2
  · intro v hv
    have h1 := (floatOfText_iff u f s v).2 hv
    rw [tryParse_eq h1]
    exact reads_float v pos

/-- A text with blanks, an underscore, a fraction and an exponent: 12500 units. -/
example : tryParse (pyParsers true id) (.str " 1_2.5e3\n".toList) true = .ok (some 1250000000000) := by
  have h1 : floatOfText true id " 1_2.5e3\n".toList = .ok (.ofRat (125 / 10 ^ 1 * 10 ^ (3 : ℤ))) := by rfl
  have h := (C203_texts true id " 1_2.5e3\n".toList true).2 _ ((floatOfText_iff _ _ _ _).1 h1)
  have e1 : roundQ 12500 = 12500 := by exact_mod_cast roundQ_int (n := 12500) (by norm_num)
  have e2 : roundQ (12500 * 10 ^ 8) = 1250000000000 := by
    rw [show (12500 * 10 ^ 8 : ℚ) = ((1250000000000 : ℤ) : ℚ) by norm_num, roundQ_int (by norm_num)]; norm_num
  have big : ∀ z : ℚ, z < 2 ^ 64 → ¬ (2 : ℚ) ^ 1024 ≤ z := fun z hz => not_le.2 (hz.trans_le (pow_le_pow_right₀ (by norm_num) (by norm_num)))
  rw [show (125 / 10 ^ 1 * 10 ^ (3 : ℤ) : ℚ) = 12500 by norm_num, PyFloat.ofRat, e1, if_neg (big _ (by norm_num [abs_of_pos]))] at h
  simp only [Reads] at h
  rw [if_neg (by norm_num), e2, if_neg (big _ (by norm_num [abs_of_pos]))] at h
  obtain ⟨n, hn, ⟨h2, h3⟩, h4⟩ := h
  rw [hn]
  have h0 : (0 : ℚ) ≤ n := by nlinarith
  rw [abs_of_nonneg h0, abs_of_pos (by norm_num)] at h2 h3
  have h2 : n ≤ 1250000000000 := by exact_mod_cast h2
  have h3 : 1250000000000 < n + 1 := by exact_mod_cast h3
  rw [show n = 1250000000000 by omega]

/-- Python 3.5 refuses the same text; a word is refused; infinity raises OverflowError, unless it is negative and refused as such. -/
example : tryParse (pyParsers false id) (.str " 1_2.5e3\n".toList) true = .ok none ∧
    tryParse (pyParsers true id) (.str "12 NEO".toList) true = .ok none ∧
    tryParse (pyParsers true id) (.str "Infinity".toList) true = .error .overflowError ∧
    tryParse (pyParsers true id) (.str "-inf".toList) true = .ok none ∧
    tryParse (pyParsers true id) (.str "nan".toList) false = .error .valueError := by
  refine ⟨by rfl, by rfl, by rfl, by rfl, by rfl⟩

/-- C156 and C31 speak of these parsers: 29 satoshis, written out and read back by CPython, are 28. -/
example (R : Dtoa) : ∃ s, Fixed8.toStr R 29 = .ok s ∧ tryParse (pyParsers true id) (.str s) true = .ok (some 28) := by
  obtain ⟨s, _, h1, _, h2, _⟩ := C156_violated (pyParsers true id) (faithful_py true id fun _ _ => rfl) R true
  exact ⟨s, h1, h2⟩

/-- C203, for the numbers: the amount is the number the text stands for, in satoshis, up to one satoshi and a relative error of
2^-51. -/
theorem C203_numbers (u : Bool) (f : Char → Char) (s : Str) (pos : Bool) (q : ℚ) (h : NumberText u (s.map f) q) (n : Int)
    (hn : tryParse (pyParsers u f) (.str s) pos = .ok (some n)) :
    |(n : ℚ) - q * 10 ^ 8| < 1 + |q| * 10 ^ 8 / 2 ^ 51 := by
  have h1 := (floatOfText_iff u f s _).2 (numberText_float h)
  rw [tryParse_eq h1] at hn
  clear h1 h
  by_cases hp : (pos && (PyFloat.ofRat q).isNeg) = true
  · rw [if_pos hp] at hn; cases hn
  rw [if_neg hp] at hn
  have he : ∃ x, x = roundQ q ∧ |(n : ℚ) - x * 100000000| < 1 + |x * 100000000| / 2 ^ 53 ∧ |(n : ℚ)| ≤ |roundQ (x * 100000000)| := by
    suffices hm : (PyFloat.mulPos (.fin (roundQ q)) D.toNat).toInt = .ok n by
      refine ⟨_, rfl, C152_error _ n hm, ?_⟩
      have hD : ((D.toNat : Nat) : ℚ) = 100000000 := by rw [show D.toNat = 100000000 from rfl]; norm_num
      rw [PyFloat.mulPos, hD, PyFloat.ofRat] at hm
      by_cases hb : (2 : ℚ) ^ 1024 ≤ |roundQ (roundQ q * 100000000)|
      · rw [if_pos hb] at hm; cases hm
      · rw [if_neg hb] at hm
        rw [← Except.ok.inj hm]
        exact (trunc_bounds _).1
    cases hm : ((PyFloat.ofRat q).mulPos D.toNat).toInt with
    | error e => rw [hm] at hn; cases hn
    | ok m =>
      rw [hm] at hn
      have hn := Option.some.inj (Except.ok.inj hn)
      subst hn
      unfold PyFloat.ofRat at hm
      by_cases hb : (2 : ℚ) ^ 1024 ≤ |roundQ q|
      · rw [if_pos hb] at hm; cases hm
      · rw [if_neg hb] at hm; exact hm
  clear hn hp
  obtain ⟨x, hx, he, hn⟩ := he
  by_cases hq : |q| < 2 ^ (-28 : ℤ)
  · have hx' : |x| ≤ 2 ^ (-28 : ℤ) := by
      rw [hx, roundQ_abs]
      exact roundQ_le ⟨1, -28, by norm_num, by norm_num, by norm_num⟩ hq.le
    have h2 : |x * 100000000| < 1 / 2 := by
      rw [abs_mul]
      norm_num at hx' ⊢
      linarith
    have hn0 : n = 0 := by
      have h3 : |roundQ (x * 100000000)| ≤ 1 / 2 := by
        rw [roundQ_abs]
        exact roundQ_le ⟨1, -1, by norm_num, by norm_num, by norm_num⟩ h2.le
      by_contra h0
      have : (1 : ℚ) ≤ |(n : ℚ)| := by exact_mod_cast Int.one_le_abs h0
      linarith
    subst hn0
    rw [Int.cast_zero, zero_sub, abs_neg, abs_mul]
    norm_num at hq ⊢
    have := abs_nonneg q
    linarith
  · have hrel : |x - q| ≤ |q| / 2 ^ 53 := by
      rw [hx]
      refine (roundQ_rel _).trans (max_le le_rfl ?_)
      have : (1 : ℚ) / 2 ^ 1000 ≤ 2 ^ (-28 : ℤ) / 2 ^ 53 := by
        rw [zpow_neg, ← one_div, div_div]
        refine one_div_le_one_div_of_le (by positivity) ?_
        rw [show ((2 : ℚ) ^ (28 : ℤ)) = 2 ^ 28 from zpow_ofNat _ _, ← pow_add]
        exact pow_le_pow_right₀ (by norm_num) (by norm_num)
      refine this.trans ?_
      have := not_lt.1 hq
      gcongr
    clear hx hq
    have h3 : |x * 100000000 - q * 10 ^ 8| ≤ |q| * 10 ^ 8 / 2 ^ 53 := by
      rw [show x * 100000000 - q * 10 ^ 8 = (x - q) * 10 ^ 8 by ring, abs_mul, abs_of_pos (by norm_num : (0 : ℚ) < 10 ^ 8), mul_div_right_comm]
      gcongr
    have h4 : |x * 100000000| ≤ |q| * 10 ^ 8 + |q| * 10 ^ 8 / 2 ^ 53 := by
      have e : |q| * 10 ^ 8 = |q * 10 ^ 8| := by rw [abs_mul, abs_of_pos (by norm_num : (0 : ℚ) < 10 ^ 8)]
      calc |x * 100000000| = |q * 10 ^ 8 + (x * 100000000 - q * 10 ^ 8)| := by ring_nf
        _ ≤ |q * 10 ^ 8| + |x * 100000000 - q * 10 ^ 8| := abs_add_le _ _
        _ ≤ _ := by rw [← e]; linarith
    have h5 := abs_sub_le (n : ℚ) (x * 100000000) (q * 10 ^ 8)
    have h6 : 0 ≤ |q| * 10 ^ 8 := by positivity
    generalize |q| * 10 ^ 8 = a at *
    generalize |x * 100000000| = b at *
    have : b / 2 ^ 53 ≤ (a + a / 2 ^ 53) / 2 ^ 53 := by gcongr
    have h7 : (a + a / 2 ^ 53) / 2 ^ 53 + a / 2 ^ 53 ≤ a / 2 ^ 51 := by
      norm_num
      linarith
    generalize |(n : ℚ) - q * 10 ^ 8| = c at *
    generalize |(n : ℚ) - x * 100000000| = d at *
    generalize |x * 100000000 - q * 10 ^ 8| = e at *
    generalize a / 2 ^ 51 = a1 at *
    generalize a / 2 ^ 53 = a2 at *
    generalize b / 2 ^ 53 = a3 at *
    linarith

/-- The hypotheses of `C203_numbers` for a text. -/
example : NumberText true (("-3.25".toList : Str).map id) (-(325 / 10 ^ 2 * 10 ^ (0 : ℤ))) :=
  ⟨[], "-3.25".toList, ['-'], "3.25".toList, [], true, rfl, by simp [SpaceText], by simp [SpaceText], (ungroupIf_iff true _ _ (by decide)).1 rfl,
    .inr (.inr ⟨rfl, rfl⟩), _, (scanNumber_iff _ _).1 rfl, rfl⟩

end Neo.Props
