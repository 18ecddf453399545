import Verif.Props.Floats
import Verif.Spec.IeeeWord

/-!
# C193: floats and doubles on the stream are IEEE-754 words; the default byte order is '<'
-/

namespace Neo.Props
open Py Spec Writer Reader

private theorem word_bits (f : FloatFmt) {neg : Bool} {E F : ℕ} {bs : Bytes} (h : IsWord f.mant f.expBits neg E F bs)
    (hfull : 8 * f.size = 1 + f.expBits + f.mant) :
    bs.length = f.size ∧ leToNat bs = f.assemble neg E F := by
  obtain ⟨_, _, hl, hd⟩ := h
  refine ⟨by omega, ?_⟩
  rw [← ofDigits_eq_leToNat, hd, FloatFmt.assemble, Nat.add_comm f.expBits]

private theorem word_decode (f : FloatFmt) {neg : Bool} {E F : ℕ} {bs : Bytes} (h : IsWord f.mant f.expBits neg E F bs)
    (hfull : 8 * f.size = 1 + f.expBits + f.mant) :
    f.decode (leToNat bs) = if E = 2 ^ f.expBits - 1 then if F = 0 then .inf neg else .nan
      else .fin neg (wordMagnitude f.mant f.bias E F) := by
  rw [(word_bits f h hfull).2, f.decode_assemble neg E F h.1 h.2.1]
  have hne : (2 : ℚ) ≠ 0 := by norm_num
  by_cases h1 : E = 2 ^ f.expBits - 1
  · rw [if_pos h1, if_pos h1]
  · rw [if_neg h1, if_neg h1]
    unfold wordMagnitude FloatFmt.minExp
    by_cases h2 : E = 0
    · rw [if_pos h2, if_pos h2, zpow_sub₀ hne, zpow_natCast]
      congr 1
      ring
    · rw [if_neg h2, if_neg h2, show (1 - f.bias - (f.mant : ℤ) + ((E - 1 : ℕ) : ℤ)) = (E : ℤ) - f.bias - (f.mant : ℤ) by omega,
        zpow_sub₀ hne _ (f.mant : ℤ), zpow_natCast]
      have : (2 : ℚ) ^ f.mant ≠ 0 := pow_ne_zero _ hne
      congr 1
      push_cast
      field_simp

private theorem yields_unique {rd : IOM α} {bs : Bytes} {v w : α} (h : Yields rd bs v) (h' : Yields rd bs w) : v = w := by
  have a := h [] []
  rw [h' [] []] at a
  injection a with a
  injection a with a
  exact a.symm

private theorem arrange_big (bs : Bytes) : Endian.big.arrange bs.reverse = bs := by simp [Endian.arrange]

/-- The number, infinity or NaN that the word with these fields stands for. -/
def wordValue (mant expBits : ℕ) (bias : ℤ) (neg : Bool) (expo frac : ℕ) : FloatVal :=
  if expo = 2 ^ expBits - 1 then if frac = 0 then .inf neg else .nan
  else .fin neg (wordMagnitude mant bias expo frac)

/-- C193. Four bytes are read by ReadFloat as the IEEE-754 binary32 word they are (sign, 8 bits of exponent with bias 127, 23
bits of fraction), least significant byte first unless '>' is asked for; and WriteFloat of that number, if it is no NaN, writes these bytes
and returns 4. -/
theorem C193_float_layout (neg : Bool) (expo frac : ℕ) (bs : Bytes) (h : IsWord 23 8 neg expo frac bs) :
    Yields readFloat bs (wordValue 23 8 127 neg expo frac) ∧
    Yields (readFloat .big) bs.reverse (wordValue 23 8 127 neg expo frac) ∧
    (¬ (expo = 255 ∧ frac ≠ 0) →
      Appends (writeFloat (.float (wordValue 23 8 127 neg expo frac))) 4 bs ∧
      Appends (writeFloat (.float (wordValue 23 8 127 neg expo frac)) .big) 4 bs.reverse) := by
  have hfull : 8 * FloatFmt.binary32.size = 1 + FloatFmt.binary32.expBits + FloatFmt.binary32.mant := rfl
  have hd : FloatFmt.binary32.decode (leToNat bs) = wordValue 23 8 127 neg expo frac := word_decode .binary32 h hfull
  have hl : bs.length = 4 := (word_bits .binary32 h hfull).1
  have hlr : bs.reverse.length = 4 := by simpa using hl
  have y1 := readFloat_inv .binary32 (Or.inl rfl) .little bs hl
  have y2 := readFloat_inv .binary32 (Or.inl rfl) .big bs.reverse hlr
  rw [arrange_big, hd] at y2
  rw [show Endian.little.arrange bs = bs from rfl, hd] at y1
  refine ⟨y1, y2, fun hn => ?_⟩
  have hv : wordValue 23 8 127 neg expo frac ≠ .nan := by
    unfold wordValue
    by_cases h1 : expo = 2 ^ 8 - 1
    · rw [if_pos h1]
      by_cases h2 : frac = 0
      · rw [if_pos h2]; exact fun h => by cases h
      · exact absurd ⟨h1, h2⟩ hn
    · rw [if_neg h1]; exact fun h => by cases h
  obtain ⟨v, a1, a2⟩ := C107_float_read_write .little bs hl
  obtain ⟨w, b1, b2⟩ := C107_float_read_write .big bs.reverse hlr
  have e1 := yields_unique a1 y1
  have e2 := yields_unique b1 y2
  subst e1 e2
  exact ⟨a2 hv, b2 hv⟩

/-- C193. Eight bytes are read by ReadDouble as the binary64 word they are (sign, 11 bits of exponent with bias 1023, 52 bits
of fraction), least significant byte first unless '>' is asked for; WriteDouble of that number, if it is no NaN, writes these bytes
and returns 8. -/
theorem C193_double_layout (neg : Bool) (expo frac : ℕ) (bs : Bytes) (h : IsWord 52 11 neg expo frac bs) :
    Yields readDoubleVal bs (wordValue 52 11 1023 neg expo frac) ∧
    Yields (readDoubleVal .big) bs.reverse (wordValue 52 11 1023 neg expo frac) ∧
    (¬ (expo = 2047 ∧ frac ≠ 0) →
      Appends (writeDoubleOf (.float (wordValue 52 11 1023 neg expo frac))) 8 bs ∧
      Appends (writeDoubleOf (.float (wordValue 52 11 1023 neg expo frac)) .big) 8 bs.reverse) := by
  have hfull : 8 * FloatFmt.binary64.size = 1 + FloatFmt.binary64.expBits + FloatFmt.binary64.mant := rfl
  have hd : FloatFmt.binary64.decode (leToNat bs) = wordValue 52 11 1023 neg expo frac := word_decode .binary64 h hfull
  have hl : bs.length = 8 := (word_bits .binary64 h hfull).1
  have hlr : bs.reverse.length = 8 := by simpa using hl
  have y1 := readFloat_inv .binary64 (Or.inr rfl) .little bs hl
  have y2 := readFloat_inv .binary64 (Or.inr rfl) .big bs.reverse hlr
  rw [arrange_big, hd] at y2
  rw [show Endian.little.arrange bs = bs from rfl, hd] at y1
  refine ⟨y1, y2, fun hn => ?_⟩
  have hv : wordValue 52 11 1023 neg expo frac ≠ .nan := by
    unfold wordValue
    by_cases h1 : expo = 2 ^ 11 - 1
    · rw [if_pos h1]
      by_cases h2 : frac = 0
      · rw [if_pos h2]; exact fun h => by cases h
      · exact absurd ⟨h1, h2⟩ hn
    · rw [if_neg h1]; exact fun h => by cases h
  obtain ⟨v, a1, a2⟩ := C107_double_read_write .little bs hl
  obtain ⟨w, b1, b2⟩ := C107_double_read_write .big bs.reverse hlr
  have e1 := yields_unique a1 y1
  have e2 := yields_unique b1 y2
  subst e1 e2
  exact ⟨a2 hv, b2 hv⟩

private theorem word_exists (f : FloatFmt) (hfull : 8 * f.size = 1 + f.expBits + f.mant) (bs : Bytes) (hl : bs.length = f.size) :
    ∃ neg expo frac, IsWord f.mant f.expBits neg expo frac bs := by
  have hlt : leToNat bs < 2 ^ (1 + f.expBits + f.mant) := by
    have := leToNat_lt bs
    rwa [hl, show (256 : ℕ) = 2 ^ 8 by rfl, ← pow_mul, hfull] at this
  have hself := f.assemble_self _ hlt
  refine ⟨decide (leToNat bs / 2 ^ (f.mant + f.expBits) % 2 = 1), leToNat bs / 2 ^ f.mant % 2 ^ f.expBits, leToNat bs % 2 ^ f.mant,
    Nat.mod_lt _ (by positivity), Nat.mod_lt _ (by positivity), by omega, ?_⟩
  rw [ofDigits_eq_leToNat, Nat.add_comm f.expBits]
  exact hself

/-- C193. Every four bytes are such a word, and every eight; so the two theorems above say what is read from any stream. -/
theorem C193_every_word (bs : Bytes) :
    (bs.length = 4 → ∃ neg expo frac, IsWord 23 8 neg expo frac bs) ∧
    (bs.length = 8 → ∃ neg expo frac, IsWord 52 11 neg expo frac bs) :=
  ⟨word_exists .binary32 rfl bs, word_exists .binary64 rfl bs⟩

/-- C193. A NaN given to WriteDouble as a bit pattern, and every other float, keeps all its 64 bits: without a byte order the
eight bytes are the base-256 digits of the word, least significant first. -/
theorem C193_double_bits (bits : UInt64) :
    ∃ bs : Bytes, bs.length = 8 ∧ Nat.ofDigits 256 (bs.map UInt8.toNat) = bits.toNat ∧
      Appends (writeDouble bits) 8 bs ∧ Appends (writeDouble bits .big) 8 bs.reverse ∧
      Yields readDouble bs bits ∧ Yields (readDouble .big) bs.reverse bits := by
  have hb : leToNat (natToLE 8 bits.toNat) = bits.toNat := leToNat_natToLE_of_lt (by have := bits.toNat_lt; omega)
  have hl : (natToLE 8 bits.toNat).length = 8 := natToLE_length _ _
  have w1 : Appends (writeDouble bits) 8 (natToLE 8 bits.toNat) := by
    have := appends_writeBytes_raw (natToLE 8 bits.toNat)
    rwa [hl] at this
  have w2 : Appends (writeDouble bits .big) 8 (natToLE 8 bits.toNat).reverse := by
    have := appends_writeBytes_raw (natToLE 8 bits.toNat).reverse
    rwa [List.length_reverse, hl] at this
  obtain ⟨b1, -, a1, y1⟩ := C21_double_roundtrip bits .little
  obtain ⟨b2, -, a2, y2⟩ := C21_double_roundtrip bits .big
  rw [(a1.unique w1).2] at y1
  rw [(a2.unique w2).2] at y2
  exact ⟨_, hl, by rw [ofDigits_eq_leToNat, hb], w1, w2, y1, y2⟩

/-- -6.5 = -(1 + 5/8) · 2^2 is the word 0xC0D00000. -/
example : IsWord 23 8 true 129 5242880 [0x00, 0x00, 0xD0, 0xC0] ∧ wordValue 23 8 127 true 129 5242880 = .fin true (13 / 2) := by
  refine ⟨⟨by decide, by decide, by decide, by decide⟩, ?_⟩
  unfold wordValue wordMagnitude
  norm_num

/-- The smallest positive double. -/
example : IsWord 52 11 false 0 1 [1, 0, 0, 0, 0, 0, 0, 0] ∧ wordValue 52 11 1023 false 0 1 = .fin false (1 / 2 ^ 52 * 2 ^ (1 - 1023 : ℤ)) := by
  refine ⟨⟨by decide, by decide, by decide, by decide⟩, ?_⟩
  unfold wordValue wordMagnitude
  rw [if_neg (by decide), if_pos rfl, Nat.cast_one]

end Neo.Props
