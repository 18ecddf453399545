import Verif.Proofs.Bytes
import Verif.Proofs.Utf8
import Verif.Spec.Hex
import Mathlib.Data.Nat.Digits.Lemmas

/-! Hexadecimal text against the independent notion of a hexadecimal numeral. -/

namespace Py
open Spec

theorem leNumber_eq (d : Bytes) : leNumber d = leToNat d := by
  unfold leNumber
  induction d with
  | nil => rfl
  | cons b bs ih => simp [Nat.ofDigits_cons, leToNat, ih]

theorem leNumber_inj {a b : Bytes} (hl : a.length = b.length) (h : leNumber a = leNumber b) : a = b := by
  rw [leNumber_eq, leNumber_eq] at h; exact leToNat_inj hl h

theorem leNumber_lt (a : Bytes) : leNumber a < 256 ^ a.length := by rw [leNumber_eq]; exact leToNat_lt a

theorem char_eq_ofNat (c : Char) : c = Char.ofNat c.toNat := by simp

theorem digit_none_of_ge (c : Char) (h : ¬ c.toNat < 128) : digit c = none := by
  unfold digit
  split <;> first | rfl | (exfalso; revert h; decide)

theorem hexValChar_eq_digit (c : Char) : hexValChar c = digit c := by
  by_cases h : c.toNat < 128
  · have : ∀ n, n < 128 → hexValChar (Char.ofNat n) = digit (Char.ofNat n) := by decide
    rw [char_eq_ofNat c]; exact this _ h
  · rw [digit_none_of_ge c h]; unfold hexValChar; rw [if_neg h]

theorem hexSpace_not_digit (c : Char) (h : isHexSpace c = true) : digit c = none := by
  by_cases hc : c.toNat < 128
  · have : ∀ n, n < 128 → isHexSpace (Char.ofNat n) = true → digit (Char.ofNat n) = none := by decide
    rw [char_eq_ofNat c] at h ⊢; exact this _ hc h
  · exact digit_none_of_ge c hc

theorem digit_lt {c : Char} {n : Nat} (h : digit c = some n) : n < 16 := by
  unfold digit at h
  split at h <;> first | (cases h; decide) | (cases h)

theorem hexNumber_cons2 (a b : Char) (rest : List Char) (x y : Nat) (ha : digit a = some x) (hb : digit b = some y) :
    hexNumber (a :: b :: rest) = hexNumber rest + 16 ^ rest.length * (16 * x + y) := by
  unfold hexNumber
  rw [List.reverse_cons, List.reverse_cons, List.append_assoc, List.map_append, Nat.ofDigits_append]
  simp [ha, hb, Nat.ofDigits_cons]
  omega

theorem fromHex_le {s : Str} {d : Bytes} (h : fromHex s = .ok d) : 2 * d.length ≤ s.length := by
  fun_induction fromHex s generalizing d with
  | case1 => simp at h; subst h; simp
  | case2 c hc => simp at h; subst h; simp
  | case3 c hc => simp at h
  | case4 a b rest ha ih => have := ih h; simp at this ⊢; omega
  | case5 a b rest ha x y hy hx r hr ih =>
    simp only [Except.ok.injEq] at h; subst h
    have := ih hr
    simp; omega
  | case6 => simp at h
  | case7 => simp at h

/-- When no character is spent on white space, the text is all digits. -/
theorem fromHex_tight {s : Str} {d : Bytes} (h : fromHex s = .ok d) (hl : s.length = 2 * d.length) :
    AllHex s ∧ leToNat d.reverse = hexNumber s := by
  fun_induction fromHex s generalizing d with
  | case1 => simp at h; subst h; exact ⟨by simp [AllHex], rfl⟩
  | case2 c hc => simp at h; subst h; simp at hl
  | case3 c hc => simp at h
  | case4 a b rest ha ih => have := fromHex_le h; simp at this hl; omega
  | case5 a b rest ha x y hy hx r hr ih =>
    simp only [Except.ok.injEq] at h; subst h
    rw [hexValChar_eq_digit] at hx hy
    simp at hl
    obtain ⟨h1, h2⟩ := ih hr (by omega)
    refine ⟨?_, ?_⟩
    · intro c hc
      simp only [List.mem_cons] at hc
      rcases hc with rfl | rfl | hc
      · simp [hx]
      · simp [hy]
      · exact h1 c hc
    · rw [hexNumber_cons2 a b rest x y hx hy, List.reverse_cons, leToNat_append, h2, List.length_reverse]
      have hx' := digit_lt hx
      have hy' := digit_lt hy
      have : rest.length = 2 * r.length := by omega
      rw [this, Nat.pow_mul]
      simp only [leToNat, UInt8.toNat_ofNat', Nat.reducePow]
      rw [Nat.mod_eq_of_lt (by omega)]
      simp
  | case6 => simp at h
  | case7 => simp at h

theorem fromHex_of_allHex {s : Str} (n : Nat) (hl : s.length = 2 * n) (h : AllHex s) :
    ∃ d, fromHex s = .ok d ∧ d.length = n := by
  induction n generalizing s with
  | zero =>
    have : s = [] := List.length_eq_zero_iff.mp (by omega)
    subst this
    exact ⟨[], by simp [fromHex], rfl⟩
  | succ n ih =>
    match s, hl, h with
    | [], hl, _ => simp at hl
    | [_], hl, _ => simp at hl; omega
    | a :: b :: rest, hl, h =>
      obtain ⟨d, hd, hdl⟩ := ih (s := rest) (by simp at hl; omega) (fun c hc => h c (by simp [hc]))
      obtain ⟨x, hx⟩ := Option.isSome_iff_exists.mp (h a (by simp))
      obtain ⟨y, hy⟩ := Option.isSome_iff_exists.mp (h b (by simp))
      refine ⟨UInt8.ofNat (16 * x + y) :: d, ?_, by simp [hdl]⟩
      have hsp : isHexSpace a = false := by
        cases hs : isHexSpace a with
        | false => rfl
        | true => rw [hexSpace_not_digit a hs] at hx; simp at hx
      rw [fromHex]
      simp [hsp, hexValChar_eq_digit, hx, hy, hd]

/-! `bytes.hex()` -/

theorem hexStr_length (d : Bytes) : (hexStr d).length = 2 * d.length := by simp [hexStr, asciiStr, hexlify_length]

theorem asciiDigit (n : Nat) (h : n < 16) : digit (Char.ofNat (hexDigit n).toNat) = some n := by
  have : ∀ m, m < 16 → digit (Char.ofNat (hexDigit m).toNat) = some m := by decide
  exact this n h

theorem hexStr_cons (b : UInt8) (d : Bytes) :
    hexStr (b :: d) = Char.ofNat (hexDigit (b.toNat / 16)).toNat :: Char.ofNat (hexDigit (b.toNat % 16)).toNat :: hexStr d := rfl

theorem hexStr_allHex (d : Bytes) : AllHex (hexStr d) := by
  induction d with
  | nil => simp [AllHex, hexStr, hexlify, asciiStr]
  | cons b d ih =>
    have hb := b.toNat_lt
    intro c hc
    rw [hexStr_cons] at hc
    simp only [List.mem_cons] at hc
    rcases hc with rfl | rfl | hc
    · rw [asciiDigit _ (by omega)]; rfl
    · rw [asciiDigit _ (by omega)]; rfl
    · exact ih c hc

theorem hexStr_number (d : Bytes) : hexNumber (hexStr d) = leToNat d.reverse := by
  induction d with
  | nil => rfl
  | cons b d ih =>
    have hb := b.toNat_lt
    rw [hexStr_cons, hexNumber_cons2 _ _ _ _ _ (asciiDigit (b.toNat / 16) (by omega)) (asciiDigit (b.toNat % 16) (by omega)),
      ih, List.reverse_cons, leToNat_append, List.length_reverse, hexStr_length, Nat.pow_mul]
    simp only [leToNat, Nat.reducePow]
    congr 2
    omega

theorem hexStr_inj {a b : Bytes} (h : hexStr a = hexStr b) : a = b :=
  hexlify_inj (asciiStr_inj (hexlify_ascii a) (hexlify_ascii b) h)

/-- Numerals of equal length over lower-case digits are determined by their number. -/
theorem lowerHex_digit (c : Char) : digit ((lowerHex [c]).headD '0') = digit c := by
  unfold lowerHex
  simp only [List.map_cons, List.map_nil, List.headD_cons]
  split <;> rfl

/-- `bytes.hex()` only uses lower-case digits. -/
theorem lowerHex_hexStr (d : Bytes) : lowerHex (hexStr d) = hexStr d := by
  have key : ∀ n, n < 16 → lowerHex [Char.ofNat (hexDigit n).toNat] = [Char.ofNat (hexDigit n).toNat] := by decide
  induction d with
  | nil => rfl
  | cons b d ih =>
    have hb := b.toNat_lt
    have k1 := key (b.toNat / 16) (by omega)
    have k2 := key (b.toNat % 16) (by omega)
    rw [hexStr_cons]
    unfold lowerHex at k1 k2 ih ⊢
    simp only [List.map_cons, List.map_nil, List.cons.injEq, and_true] at k1 k2 ⊢
    exact ⟨k1, k2, ih⟩

theorem lower_char_of_digit {c : Char} {n : Nat} (h : digit c = some n) :
    lowerHex [c] = [Char.ofNat (hexDigit n).toNat] := by
  unfold digit at h
  split at h <;> first | (cases h; decide) | (cases h)

/-- The lower-case form of a numeral spelling the bytes `d` (as `fromhex` reads it) is `d.hex()`. -/
theorem hexStr_of_fromHex {s : Str} {d : Bytes} (h : fromHex s = .ok d) (hl : s.length = 2 * d.length) :
    hexStr d = lowerHex s := by
  fun_induction fromHex s generalizing d with
  | case1 => simp at h; subst h; rfl
  | case2 c hc => simp at h; subst h; simp at hl
  | case3 c hc => simp at h
  | case4 a b rest ha ih => have := fromHex_le h; simp at this hl; omega
  | case5 a b rest ha x y hy hx r hr ih =>
    simp only [Except.ok.injEq] at h; subst h
    rw [hexValChar_eq_digit] at hx hy
    simp at hl
    have h1 := ih hr (by omega)
    have hx' := digit_lt hx
    have hy' := digit_lt hy
    have lx := lower_char_of_digit hx
    have ly := lower_char_of_digit hy
    have hv : (UInt8.ofNat (16 * x + y)).toNat = 16 * x + y := by
      simp only [UInt8.toNat_ofNat']; omega
    rw [hexStr_cons, hv, show (16 * x + y) / 16 = x by omega, show (16 * x + y) % 16 = y by omega, h1]
    unfold lowerHex at lx ly ⊢
    simp only [List.map_cons, List.map_nil, List.cons.injEq, and_true] at lx ly
    rw [List.map_cons, List.map_cons, lx, ly]
  | case6 => simp at h
  | case7 => simp at h

theorem fromHex_hexStr (d : Bytes) : fromHex (hexStr d) = .ok d := by
  obtain ⟨d', h, hl⟩ := fromHex_of_allHex d.length (hexStr_length d) (hexStr_allHex d)
  have h2 := hexStr_of_fromHex h (by rw [hexStr_length, hl])
  rw [lowerHex_hexStr] at h2
  rw [h, hexStr_inj h2]

end Py
