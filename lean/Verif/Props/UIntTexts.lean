import Verif.Props.UInt

/-! # C198: the text forms of a UInt160 or UInt256 -/

namespace Neo.Props
open Py Spec UInt

private theorem lower_digit : ∀ n < 16, lowerHex [Char.ofNat (hexDigit n).toNat] = [Char.ofNat (hexDigit n).toNat] := by decide

private theorem encode_digit : ∀ n < 16, utf8 [Char.ofNat (hexDigit n).toNat] =
    [UInt8.ofNat (Char.ofNat (hexDigit n).toNat).toNat] := by decide +kernel

private theorem lowerHex_append (s t : Str) : lowerHex (s ++ t) = lowerHex s ++ lowerHex t := by simp [lowerHex]

private theorem hexStr_cons' (b : UInt8) (d : Bytes) :
    hexStr (b :: d) = [Char.ofNat (hexDigit (b.toNat / 16)).toNat] ++ [Char.ofNat (hexDigit (b.toNat % 16)).toNat] ++ hexStr d := rfl

private theorem lowerHex_hexStr (d : Bytes) : lowerHex (hexStr d) = hexStr d := by
  induction d with
  | nil => rfl
  | cons b d ih =>
    have hb := b.toNat_lt
    rw [hexStr_cons', lowerHex_append, lowerHex_append, ih, lower_digit _ (by omega), lower_digit _ (Nat.mod_lt _ (by decide))]

private theorem utf8_hexStr (d : Bytes) : utf8 (hexStr d) = (hexStr d).map fun c => UInt8.ofNat c.toNat := by
  induction d with
  | nil => rfl
  | cons b d ih =>
    have hb := b.toNat_lt
    rw [hexStr_cons', utf8_append, utf8_append, ih, encode_digit _ (by omega), encode_digit _ (Nat.mod_lt _ (by decide))]
    simp

/-- C198, what each of the text forms of the contents `d` is: two lower-case hexadecimal digits per byte that denote the number with
these bytes, least significant first (`ToString`, `str()`; after `0x` in `To0xString`; in ASCII in `ToBytes`) or most significant first
(`ToString2`). -/
theorem C198_texts (d : Bytes) :
    (hexNumber (toStr d) = leNumber d ∧ (toStr d).length = 2 * d.length ∧ AllHex (toStr d) ∧ lowerHex (toStr d) = toStr d) ∧
    (hexNumber (toStr2 d) = beNumber d ∧ (toStr2 d).length = 2 * d.length ∧ AllHex (toStr2 d) ∧ lowerHex (toStr2 d) = toStr2 d) ∧
    to0xStr d = ['0', 'x'] ++ toStr d ∧
    toBytes d = (toStr d).map (fun c => UInt8.ofNat c.toNat) := by
  refine ⟨⟨?_, ?_, hexStr_allHex _, lowerHex_hexStr _⟩, ⟨?_, ?_, hexStr_allHex _, lowerHex_hexStr _⟩, rfl, utf8_hexStr _⟩
  · rw [toStr, hexStr_number, List.reverse_reverse, leNumber_eq]
  · rw [toStr, hexStr_length, List.length_reverse]
  · rw [toStr2, hexStr_number, beNumber, leNumber_eq]
  · rw [toStr2, hexStr_length]

/-- C198, each text form determines the contents; `bytearray.fromhex` of `ToString2` is the contents, and `ToString2` of the
reversed contents is `ToString`. -/
theorem C198_determine (a b : Bytes) :
    (toStr a = toStr b → a = b) ∧ (toStr2 a = toStr2 b → a = b) ∧ (to0xStr a = to0xStr b → a = b) ∧
    (toBytes a = toBytes b → a = b) ∧ fromHex (toStr2 a) = .ok a ∧ toStr2 a.reverse = toStr a := by
  have h1 : ∀ {a b}, toStr a = toStr b → a = b := fun h => C33_toString_injective _ _ h
  refine ⟨h1, fun h => hexStr_inj h, fun h => h1 (List.append_cancel_left h), fun h => h1 (utf8_inj h), ?_, rfl⟩
  obtain ⟨d, hd, hl⟩ := fromHex_of_allHex (s := toStr2 a) a.length (by rw [toStr2, hexStr_length]) (hexStr_allHex a)
  rw [hd]
  have := hexStr_of_fromHex hd (by rw [hl, toStr2, hexStr_length])
  rw [toStr2, lowerHex_hexStr] at this
  rw [hexStr_inj this]

/-- The four forms for the bytes 01 0a. -/
example : toStr [0x01, 0x0a] = "0a01".toList ∧ toStr2 [0x01, 0x0a] = "010a".toList ∧ to0xStr [0x01, 0x0a] = "0x0a01".toList ∧
    toBytes [0x01, 0x0a] = [0x30, 0x61, 0x30, 0x31] := by decide +kernel

end Neo.Props
