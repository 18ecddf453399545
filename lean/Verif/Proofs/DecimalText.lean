import Verif.Py.FloatText
import Verif.Spec.DecimalText
import Verif.Proofs.Float

/-! The number the output of `formatShort` denotes. -/

namespace Py
open Spec

/-- A decimal digit. -/
def IsDig (c : Char) : Prop := ∃ d, digit? c = some d

theorem digit_ofNat (k : Nat) (h : k < 10) : digit? (Char.ofNat (48 + k)) = some k := by
  have : ∀ k : Fin 10, digit? (Char.ofNat (48 + k.val)) = some k.val := by decide
  exact this ⟨k, h⟩

theorem isDig_ne {c : Char} (h : IsDig c) : c ≠ '.' ∧ c ≠ 'e' ∧ c ≠ '-' := by
  obtain ⟨d, hd⟩ := h
  refine ⟨?_, ?_, ?_⟩ <;> rintro rfl
  · rw [show digit? '.' = none by decide] at hd; cases hd
  · rw [show digit? 'e' = none by decide] at hd; cases hd
  · rw [show digit? '-' = none by decide] at hd; cases hd

/-- `digits?` with a start value. -/
def digitsFrom (a : Nat) (s : List Char) : Option Nat :=
  s.foldl (fun acc c => match acc, digit? c with | some a, some d => some (10 * a + d) | _, _ => none) (some a)

theorem digits_eq (s : List Char) : digits? s = digitsFrom 0 s := rfl

theorem foldl_none (s : List Char) :
    s.foldl (fun acc c => match acc, digit? c with | some a, some d => some (10 * a + d) | _, _ => none) (none : Option Nat) = none := by
  induction s with
  | nil => rfl
  | cons c s ih => exact ih

theorem digitsFrom_append (a : Nat) (s t : List Char) : digitsFrom a (s ++ t) = (digitsFrom a s).bind fun b => digitsFrom b t := by
  rw [digitsFrom, List.foldl_append]
  show List.foldl _ (digitsFrom a s) t = _
  cases digitsFrom a s with
  | none => exact foldl_none t
  | some b => rfl

theorem digitsFrom_cons (a : Nat) (c : Char) (s : List Char) (d : Nat) (h : digit? c = some d) :
    digitsFrom a (c :: s) = digitsFrom (10 * a + d) s := by
  rw [digitsFrom, List.foldl_cons, h]
  rfl

theorem isDig_of_digitsFrom : ∀ (s : List Char) (a b : Nat), digitsFrom a s = some b → ∀ c ∈ s, IsDig c
  | [], _, _, _, _, hc => by cases hc
  | x :: s, a, b, h, c, hc => by
    cases hx : digit? x with
    | none =>
      rw [digitsFrom, List.foldl_cons, hx] at h
      rw [show (match some a, (none : Option Nat) with | some a, some d => some (10 * a + d) | _, _ => none) = (none : Option Nat) from rfl,
        foldl_none] at h
      cases h
    | some d =>
      rw [digitsFrom_cons a x s d hx] at h
      rcases List.mem_cons.1 hc with rfl | hc
      · exact ⟨d, hx⟩
      · exact isDig_of_digitsFrom s _ b h c hc

theorem digitsFrom_decText (a n : Nat) : digitsFrom a (decText n) = some (a * 10 ^ (decText n).length + n) := by
  induction n using Nat.strong_induction_on with
  | _ n ih =>
    by_cases h : n = 0
    · subst h
      rw [decText]
      simp [digitsFrom]
    · rw [decText, dif_neg h, digitsFrom_append, ih (n / 10) (by omega)]
      simp only [Option.bind_some]
      rw [digitsFrom_cons _ _ _ _ (digit_ofNat (n % 10) (by omega)), digitsFrom, List.foldl_nil, List.length_append,
        List.length_singleton, pow_succ]
      congr 1
      have := Nat.div_add_mod n 10
      ring_nf
      ring_nf at this
      omega

theorem digitsFrom_zeros (a k : Nat) : digitsFrom a (List.replicate k '0') = some (a * 10 ^ k) := by
  induction k generalizing a with
  | zero => simp [digitsFrom]
  | succ k ih =>
    rw [List.replicate_succ, digitsFrom_cons _ _ _ 0 (by decide), ih, pow_succ]
    congr 1
    ring

theorem decText_length (n : Nat) (h : 0 < n) : 0 < (decText n).length ∧ 10 ^ ((decText n).length - 1) ≤ n ∧ n < 10 ^ (decText n).length := by
  induction n using Nat.strong_induction_on with
  | _ n ih =>
    rw [decText, dif_neg (by omega), List.length_append, List.length_singleton]
    by_cases h0 : n / 10 = 0
    · rw [h0, decText, dif_pos rfl]
      simp
      omega
    · obtain ⟨h1, h2, h3⟩ := ih (n / 10) (by omega) (by omega)
      refine ⟨by omega, ?_, ?_⟩
      · rw [show (decText (n / 10)).length + 1 - 1 = ((decText (n / 10)).length - 1) + 1 by omega, pow_succ]
        omega
      · rw [pow_succ]
        omega

theorem decText_isDig (n : Nat) : ∀ c ∈ decText n, IsDig c := isDig_of_digitsFrom _ 0 _ (digitsFrom_decText 0 n)

theorem zeros_isDig (k : Nat) : ∀ c ∈ List.replicate k '0', IsDig c := isDig_of_digitsFrom _ 0 _ (digitsFrom_zeros 0 k)

theorem takeWhile_split {p : Char → Bool} {s : List Char} {c : Char} {t : List Char} (hs : ∀ x ∈ s, p x = true) (hc : p c = false) :
    (s ++ c :: t).takeWhile p = s ∧ (s ++ c :: t).dropWhile p = c :: t := by
  induction s with
  | nil => simp [hc]
  | cons x s ih =>
    have hx := hs x (by simp)
    obtain ⟨h1, h2⟩ := ih (fun y hy => hs y (by simp [hy]))
    simp [hx, h1, h2]

theorem takeWhile_all {p : Char → Bool} {s : List Char} (hs : ∀ x ∈ s, p x = true) : s.takeWhile p = s ∧ s.dropWhile p = [] := by
  induction s with
  | nil => simp
  | cons x s ih =>
    have hx := hs x (by simp)
    obtain ⟨h1, h2⟩ := ih (fun y hy => hs y (by simp [hy]))
    simp [hx, h1, h2]

/-- digits '.' digits -/
theorem mantissa_point {ip fp : List Char} {n : Nat} (h : digits? (ip ++ fp) = some n) (hi : ip ≠ []) (hf : fp ≠ []) :
    mantissa? (ip ++ '.' :: fp) = some ((n : ℚ) / 10 ^ fp.length) := by
  have hd := isDig_of_digitsFrom _ 0 n h
  obtain ⟨h1, h2⟩ := takeWhile_split (p := (· != '.')) (s := ip) (c := '.') (t := fp)
    (fun x hx => by simpa using (isDig_ne (hd x (by simp [hx]))).1) (by simp)
  rw [mantissa?, h1, h2]
  simp only
  rw [if_neg (by tauto), h]
  rfl

theorem mantissa_whole {ip : List Char} {n : Nat} (h : digits? ip = some n) (hi : ip ≠ []) : mantissa? ip = some (n : ℚ) := by
  have hd := isDig_of_digitsFrom _ 0 n h
  obtain ⟨h1, h2⟩ := takeWhile_all (p := (· != '.')) (s := ip) (fun x hx => by simpa using (isDig_ne (hd x hx)).1)
  rw [mantissa?, h1, h2]
  simp only
  rw [if_neg hi, h]
  rfl

theorem mantissa_no_e {s : List Char} {q : ℚ} (h : mantissa? s = some q) : ∀ c ∈ s, c ≠ 'e' ∧ c ≠ '-' := by
  intro c hc
  unfold mantissa? at h
  have hsplit := List.takeWhile_append_dropWhile (p := (· != '.')) (l := s)
  cases hd : s.dropWhile (· != '.') with
  | nil =>
    rw [hd] at h hsplit
    simp only at h
    by_cases hw : s.takeWhile (· != '.') = []
    · rw [if_pos hw] at h; cases h
    · rw [if_neg hw] at h
      cases hn : digits? (s.takeWhile (· != '.')) with
      | none => rw [hn] at h; cases h
      | some n =>
        have := isDig_of_digitsFrom _ 0 n hn
        rw [List.append_nil] at hsplit
        rw [hsplit] at this
        exact (isDig_ne (this c hc)).2
  | cons x fp =>
    rw [hd] at h hsplit
    simp only at h
    by_cases hw : s.takeWhile (· != '.') = [] ∨ fp = []
    · rw [if_pos hw] at h; cases h
    · rw [if_neg hw] at h
      have hx : x = '.' := by
        have := List.head?_dropWhile_not (· != '.') s
        rw [hd] at this
        simpa using this
      subst hx
      cases hn : digits? (s.takeWhile (· != '.') ++ fp) with
      | none => rw [hn] at h; cases h
      | some n =>
        have := isDig_of_digitsFrom _ 0 n hn
        rw [← hsplit] at hc
        rcases List.mem_append.1 hc with hc | hc
        · exact (isDig_ne (this c (List.mem_append_left _ hc))).2
        · rcases List.mem_cons.1 hc with rfl | hc
          · exact ⟨by decide, by decide⟩
          · exact (isDig_ne (this c (List.mem_append_right _ hc))).2

theorem unsigned_plain {s : List Char} {q : ℚ} (h : mantissa? s = some q) : unsigned? s = some q := by
  obtain ⟨h1, h2⟩ := takeWhile_all (p := (· != 'e')) (s := s) (fun x hx => by simpa using (mantissa_no_e h x hx).1)
  rw [unsigned?, h1, h2, h]
  simp [exponent?]

theorem unsigned_exp {s xs : List Char} {q : ℚ} {n : Nat} (neg : Bool) (h : mantissa? s = some q) (hx : digits? xs = some n)
    (hxs : xs ≠ []) : unsigned? (s ++ 'e' :: (if neg then '-' else '+') :: xs) = some (q * 10 ^ (if neg then -(n : ℤ) else n)) := by
  obtain ⟨h1, h2⟩ := takeWhile_split (p := (· != 'e')) (s := s) (c := 'e') (t := (if neg then '-' else '+') :: xs)
    (fun x hx => by simpa using (mantissa_no_e h x hx).1) (by simp)
  rw [unsigned?, h1, h2, h]
  cases neg with
  | true =>
    rw [if_pos rfl, if_pos rfl, exponent?, if_neg hxs, hx]
    rfl
  | false =>
    rw [if_neg (by decide), if_neg (by decide), exponent?, if_neg hxs, hx]
    rfl

/-- The text `formatShort` makes denotes d·10^e, and begins with a digit. -/
theorem formatShort_value (d : Nat) (e : Int) (hd : 0 < d) :
    unsigned? (formatShort d e) = some ((d : ℚ) * 10 ^ e) ∧ ∃ c s, formatShort d e = c :: s ∧ IsDig c := by
  obtain ⟨hl, -, -⟩ := decText_length d hd
  have hdig := decText_isDig d
  have hval : digits? (decText d) = some d := by rw [digits_eq, digitsFrom_decText]; simp
  have hne : decText d ≠ [] := by intro h; rw [h] at hl; exact absurd hl (by simp)
  have h10 : (10 : ℚ) ≠ 0 := by norm_num
  have hhead : ∃ c s, decText d = c :: s ∧ IsDig c := by
    cases h : decText d with
    | nil => exact absurd h hne
    | cons c s => exact ⟨c, s, rfl, hdig c (by rw [h]; simp)⟩
  rw [formatShort]
  simp only
  by_cases hexp : ((decText d).length : Int) + e ≤ -4 ∨ ((decText d).length : Int) + e > 16
  · rw [if_pos hexp]
    have hm : mantissa? ((decText d).take 1 ++ (if (decText d).length = 1 then [] else '.' :: (decText d).drop 1)) =
        some ((d : ℚ) / 10 ^ ((decText d).length - 1)) := by
      by_cases h1 : (decText d).length = 1
      · rw [if_pos h1, List.append_nil, List.take_of_length_le h1.le, mantissa_whole hval hne, h1]
        simp
      · rw [if_neg h1, mantissa_point (n := d), List.length_drop]
        · rw [List.take_append_drop]; exact hval
        · intro h; rw [List.take_eq_nil_iff] at h; rcases h with h | h <;> [omega; exact hne h]
        · intro h; rw [List.drop_eq_nil_iff] at h; omega
    have hx0 : ((decText d).length : Int) + e - 1 ≠ 0 := by omega
    have hx : digits? (List.replicate (2 - (decText (((decText d).length : Int) + e - 1).natAbs).length) '0' ++
        decText (((decText d).length : Int) + e - 1).natAbs) = some (((decText d).length : Int) + e - 1).natAbs := by
      rw [digits_eq, digitsFrom_append, digitsFrom_zeros]
      simp only [Option.bind_some]
      rw [digitsFrom_decText]
      simp
    have hxs : List.replicate (2 - (decText (((decText d).length : Int) + e - 1).natAbs).length) '0' ++
        decText (((decText d).length : Int) + e - 1).natAbs ≠ [] := by
      intro h
      have := (decText_length (((decText d).length : Int) + e - 1).natAbs (by omega)).1
      rw [(List.append_eq_nil_iff.1 h).2] at this
      exact absurd this (by simp)
    constructor
    · have := unsigned_exp (decide (((decText d).length : Int) + e - 1 < 0)) hm hx hxs
      simp only [decide_eq_true_eq] at this
      rw [List.append_assoc, List.cons_append, List.cons_append, List.nil_append]
      rw [this]
      congr 1
      have he : (if ((decText d).length : Int) + e - 1 < 0 then -((((decText d).length : Int) + e - 1).natAbs : Int) else
          ((((decText d).length : Int) + e - 1).natAbs : Int)) = ((decText d).length - 1 : Nat) + e := by
        split <;> omega
      rw [he, zpow_add₀ h10, zpow_natCast]
      field_simp
    · obtain ⟨c, s, h, hc⟩ := hhead
      exact ⟨c, _, by rw [h]; rfl, hc⟩
  · rw [if_neg hexp]
    by_cases h0 : ((decText d).length : Int) + e ≤ 0
    · rw [if_pos h0]
      constructor
      · refine unsigned_plain ?_
        have := mantissa_point (ip := ['0']) (fp := List.replicate (-(((decText d).length : Int) + e)).toNat '0' ++ decText d) (n := d) ?_
          (by simp) (by simp [hne])
        · rw [show ['0', '.'] ++ List.replicate (-(((decText d).length : Int) + e)).toNat '0' ++ decText d =
            ['0'] ++ '.' :: (List.replicate (-(((decText d).length : Int) + e)).toNat '0' ++ decText d) by simp, this]
          congr 1
          rw [List.length_append, List.length_replicate, show (-(((decText d).length : Int) + e)).toNat + (decText d).length = (-e).toNat by omega]
          have he : e = -((-e).toNat : Int) := by omega
          conv_rhs => rw [he, zpow_neg, zpow_natCast]
          rw [div_eq_mul_inv]
        · rw [digits_eq, List.singleton_append, digitsFrom_cons _ _ _ 0 (by decide), digitsFrom_append, digitsFrom_zeros]
          simp only [Option.bind_some]
          rw [digitsFrom_decText]
          simp
      · exact ⟨'0', _, rfl, 0, by decide⟩
    · rw [if_neg h0]
      by_cases h1 : 0 ≤ e
      · rw [if_pos h1]
        constructor
        · refine unsigned_plain ?_
          have := mantissa_point (ip := decText d ++ List.replicate e.toNat '0') (fp := ['0']) (n := d * 10 ^ e.toNat * 10) ?_
            (by simp [hne]) (by simp)
          · rw [this]
            congr 1
            have he : e = (e.toNat : Int) := by omega
            conv_rhs => rw [he, zpow_natCast]
            push_cast
            simp
          · rw [digits_eq, digitsFrom_append, digitsFrom_append, digitsFrom_decText]
            simp only [Option.bind_some]
            rw [digitsFrom_zeros]
            simp only [Option.bind_some]
            rw [digitsFrom_cons _ _ _ 0 (by decide), digitsFrom, List.foldl_nil]
            congr 1
            ring
        · obtain ⟨c, s, h, hc⟩ := hhead
          exact ⟨c, _, by rw [h]; rfl, hc⟩
      · rw [if_neg h1]
        constructor
        · refine unsigned_plain ?_
          rw [mantissa_point (n := d), List.length_drop]
          · congr 1
            rw [show (decText d).length - (((decText d).length : Int) + e).toNat = (-e).toNat by omega]
            have he : e = -((-e).toNat : Int) := by omega
            conv_rhs => rw [he, zpow_neg, zpow_natCast]
            rw [div_eq_mul_inv]
          · rw [List.take_append_drop]; exact hval
          · intro h; rw [List.take_eq_nil_iff] at h; rcases h with h | h <;> [omega; exact hne h]
          · intro h; rw [List.drop_eq_nil_iff] at h; omega
        · obtain ⟨c, s, h, hc⟩ := hhead
          refine ⟨c, s.take ((((decText d).length : Int) + e).toNat - 1) ++ '.' :: (decText d).drop (((decText d).length : Int) + e).toNat, ?_, hc⟩
          rw [← List.cons_append]
          congr 1
          conv_lhs => rw [h]
          obtain ⟨k, hk⟩ : ∃ k, (((decText d).length : Int) + e).toNat = k + 1 := ⟨(((decText d).length : Int) + e).toNat - 1, by omega⟩
          rw [← h, hk, h]
          rfl

theorem textValue_digit {c : Char} {s : List Char} (hc : IsDig c) : textValue? (c :: s) = unsigned? (c :: s) := by
  rw [textValue?]
  rintro t ht
  exact absurd (List.cons.inj ht).1 (isDig_ne hc).2.2

end Py
