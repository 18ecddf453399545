import Verif.Spec.IntKind
import Verif.Proofs.VarInt
import Mathlib.Data.Nat.Digits.Lemmas

/-!
# C01, C02: fixed-width integers; C19: Fixed8; C21: bool, char, double; C22: swap32
-/

namespace Neo.Props
open Py Spec Writer Reader

/-- The writer method for each integer kind. -/
def writeKind : IntKind → Val → Endian → IOM Nat
  | .i8, v, e => writeInt8 v e
  | .u8, v, e => writeUInt8 v e
  | .i16, v, e => writeInt16 v e
  | .u16, v, e => writeUInt16 v e
  | .i32, v, e => writeInt32 v e
  | .u32, v, e => writeUInt32 v e
  | .i64, v, e => writeInt64 v e
  | .u64, v, e => writeUInt64 v e

/-- The reader method for each integer kind. -/
def readKind : IntKind → Endian → IOM Int
  | .i8, e => readInt8 e
  | .u8, e => readUInt8 e
  | .i16, e => readInt16 e
  | .u16, e => readUInt16 e
  | .i32, e => readInt32 e
  | .u32, e => readUInt32 e
  | .i64, e => readInt64 e
  | .u64, e => readUInt64 e

theorem kind_core (k : IntKind) : ∃ c signed, fmtOfChar c = some (.intFmt signed k.bytes) ∧ k.bytes ≤ 8 ∧
    (∀ v e, writeKind k v e = packInt c e v) ∧ (∀ e, readKind k e = unpackInt c e k.bytes) ∧
    (∀ n, inRange signed k.bytes n ↔ k.min ≤ n ∧ n ≤ k.max) := by
  cases k
  · exact ⟨'b', true, rfl, by decide, fun _ _ => rfl, fun _ => rfl, fun n => by
      simp only [inRange, IntKind.bytes, IntKind.min, IntKind.max, if_true]; omega⟩
  · exact ⟨'B', false, rfl, by decide, fun _ _ => rfl, fun _ => rfl, fun n => by
      simp only [inRange, IntKind.bytes, IntKind.min, IntKind.max, Bool.false_eq_true, if_false]; omega⟩
  · exact ⟨'h', true, rfl, by decide, fun _ _ => rfl, fun _ => rfl, fun n => by
      simp only [inRange, IntKind.bytes, IntKind.min, IntKind.max, if_true]; omega⟩
  · exact ⟨'H', false, rfl, by decide, fun _ _ => rfl, fun _ => rfl, fun n => by
      simp only [inRange, IntKind.bytes, IntKind.min, IntKind.max, Bool.false_eq_true, if_false]; omega⟩
  · exact ⟨'i', true, rfl, by decide, fun _ _ => rfl, fun _ => rfl, fun n => by
      simp only [inRange, IntKind.bytes, IntKind.min, IntKind.max, if_true]; omega⟩
  · exact ⟨'I', false, rfl, by decide, fun _ _ => rfl, fun _ => rfl, fun n => by
      simp only [inRange, IntKind.bytes, IntKind.min, IntKind.max, Bool.false_eq_true, if_false]; omega⟩
  · exact ⟨'q', true, rfl, by decide, fun _ _ => rfl, fun _ => rfl, fun n => by
      simp only [inRange, IntKind.bytes, IntKind.min, IntKind.max, if_true]; omega⟩
  · exact ⟨'Q', false, rfl, by decide, fun _ _ => rfl, fun _ => rfl, fun n => by
      simp only [inRange, IntKind.bytes, IntKind.min, IntKind.max, Bool.false_eq_true, if_false]; omega⟩

/-- C01. An in-range value (of int or any subclass of int) written with one of the eight methods, in either byte order,
appends exactly the width and is read back by the matching method, which moves exactly past those bytes. -/
theorem C01_int_roundtrip (k : IntKind) (e : Endian) (v : Val) (n : Int) (hv : v.index? = some n)
    (hlo : k.min ≤ n) (hhi : n ≤ k.max) :
    ∃ bs, bs.length = k.bytes ∧ Appends (writeKind k v e) k.bytes bs ∧ Yields (readKind k e) bs n := by
  obtain ⟨c, signed, hc, h8, hw, hr, hrange⟩ := kind_core k
  have hin := (hrange n).mpr ⟨hlo, hhi⟩
  refine ⟨_, ?_, by rw [hw]; exact appends_int hc hv e hin, by rw [hr]; exact yields_int hc h8 e hin⟩
  simp [natToLE_length]

example : (IntKind.i16).min ≤ -300 ∧ -300 ≤ (IntKind.i16).max ∧ (Val.bigInteger (-300)).index? = some (-300) := by decide

/-- C01. An out-of-range value, or an argument that is no integer, raises `struct.error` and writes nothing. -/
theorem C01_int_rejected (k : IntKind) (e : Endian) (v : Val)
    (h : ∀ n, v.index? = some n → ¬ (k.min ≤ n ∧ n ≤ k.max)) : RaisesCleanly (writeKind k v e) .structError := by
  obtain ⟨c, signed, hc, h8, hw, hr, hrange⟩ := kind_core k
  rw [hw]
  apply packInt_raises
  cases hv : v.index? with
  | none => simp [structPackInt, hc, hv]
  | some n => exact structPack_err hc hv (fun hin => h n hv ((hrange n).mp hin))

example : ∀ n, (Val.int 70000).index? = some n → ¬ ((IntKind.u16).min ≤ n ∧ n ≤ (IntKind.u16).max) := by
  intro n h; cases h; decide

theorem ofDigits_eq_leToNat (bs : Bytes) : Nat.ofDigits 256 (bs.map UInt8.toNat) = leToNat bs := by
  induction bs with
  | nil => rfl
  | cons b bs ih => simp [Nat.ofDigits_cons, leToNat, ih]

/-- C02. What is appended is the two's complement of the value, least significant byte first for `'<'` and the exact
reverse for `'>'`, and the returned count is the width. -/
theorem C02_int_layout (k : IntKind) (v : Val) (n : Int) (hv : v.index? = some n) (hlo : k.min ≤ n) (hhi : n ≤ k.max) :
    ∃ bs, TwosComplementLE k.bytes n bs ∧ Appends (writeKind k v .little) k.bytes bs ∧
      Appends (writeKind k v .big) k.bytes bs.reverse := by
  obtain ⟨c, signed, hc, h8, hw, hr, hrange⟩ := kind_core k
  have hin := (hrange n).mpr ⟨hlo, hhi⟩
  refine ⟨natToLE k.bytes (n % 256 ^ k.bytes).toNat, ⟨natToLE_length _ _, ?_⟩, ?_, ?_⟩
  · rw [ofDigits_eq_leToNat]
    have hp := pow256_pos k.bytes
    have h0 := Int.emod_nonneg n (Int.ne_of_gt hp)
    have h1 := Int.emod_lt_of_pos n hp
    have hcast := cast_pow256 k.bytes
    rw [leToNat_natToLE_of_lt (by omega)]
    omega
  · rw [hw]; exact appends_int hc hv .little hin
  · rw [hw]; exact appends_int hc hv .big hin

/-- The specification used in C02 determines the bytes. -/
theorem C02_layout_unique (w : Nat) (n : Int) (a b : Bytes) (ha : TwosComplementLE w n a) (hb : TwosComplementLE w n b) :
    a = b := by
  obtain ⟨la, ea⟩ := ha
  obtain ⟨lb, eb⟩ := hb
  rw [ofDigits_eq_leToNat] at ea eb
  exact leToNat_inj (la.trans lb.symm) (by omega)

example : TwosComplementLE 2 (-2) [0xfe, 0xff] := ⟨rfl, by decide⟩

/-- C19. Every 64-bit amount is written in eight bytes and read back. -/
theorem C19_fixed8_roundtrip (x : Int) (hlo : -9223372036854775808 ≤ x) (hhi : x ≤ 9223372036854775807) :
    ∃ bs, bs.length = 8 ∧ Appends (writeFixed8 x) 8 bs ∧ Yields readFixed8 bs x :=
  C01_int_roundtrip .i64 .little (.int x) x rfl hlo hhi

/-- C19. Any other amount raises and writes nothing. -/
theorem C19_fixed8_rejected (x : Int) (h : x < -9223372036854775808 ∨ 9223372036854775807 < x) :
    RaisesCleanly (writeFixed8 x) .structError := by
  apply C01_int_rejected .i64 .little (.int x)
  intro n hn
  cases hn
  simp only [IntKind.min, IntKind.max]; omega

example : (-9223372036854775808 : Int) ≤ -5 ∧ (-5 : Int) ≤ 9223372036854775807 := by decide

/-- C21. Booleans: the truth value of whatever was written is read back; one byte. -/
theorem C21_bool_roundtrip (v : Val) :
    ∃ bs, bs.length = 1 ∧ Appends (writeBool v) 1 bs ∧ Yields readBool bs (truthy v) := by
  refine ⟨[if truthy v then 1 else 0], rfl, appends_writeBytes_raw _, ?_⟩
  have h1 : (1 : Int) ≤ maxsize := by decide
  intro pre post
  unfold readBool
  rw [IOM.bind_ok (read_apply 1 _ h1)]
  cases truthy v <;> simp [IOM.pure_apply]

/-- C21. Which values are read back as False: exactly None, False, zero (as int or BigInteger) and the empty bytes, bytearray
and text. -/
theorem C21_bool_false (v : Val) : (∃ bs, Appends (writeBool v) 1 bs ∧ Yields readBool bs false) ↔
    v = .none ∨ v = .bool false ∨ v = .int 0 ∨ v = .bigInteger 0 ∨ v = .bytes [] ∨ v = .bytearray [] ∨ v = .str [] := by
  have key : truthy v = false ↔
      v = .none ∨ v = .bool false ∨ v = .int 0 ∨ v = .bigInteger 0 ∨ v = .bytes [] ∨ v = .bytearray [] ∨ v = .str [] := by
    cases v <;> simp [truthy]
  rw [← key]
  obtain ⟨bs, -, h2, h3⟩ := C21_bool_roundtrip v
  constructor
  · rintro ⟨bs', h2', h3'⟩
    have e : bs = bs' := by
      have a := h2 []
      have b := h2' []
      rw [a] at b
      simpa using (congrArg (fun r => r.2.buf) b)
    subst e
    have a := h3 [] []
    have b := h3' [] []
    rw [a] at b
    simpa using congrArg Prod.fst b
  · intro h
    rw [h] at h3
    exact ⟨bs, h2, h3⟩

/-- C21. Characters: a one-byte bytes object is read back; one byte. -/
theorem C21_char_roundtrip (b : UInt8) :
    Appends (writeChar (.bytes [b])) 1 [b] ∧ Yields readChar [b] [b] := by
  refine ⟨appends_writeBytes_raw _, ?_⟩
  have h1 : (1 : Int) ≤ maxsize := by decide
  intro pre post
  unfold readChar
  rw [IOM.bind_ok (read_apply 1 _ h1)]
  simp [IOM.pure_apply]

/-- C21. Doubles: every bit pattern is read back unchanged, in each byte order; eight bytes. -/
theorem C21_double_roundtrip (bits : UInt64) (e : Endian) :
    ∃ bs, bs.length = 8 ∧ Appends (writeDouble bits e) 8 bs ∧ Yields (readDouble e) bs bits := by
  have hl : (e.arrange (natToLE 8 bits.toNat)).length = 8 := by simp [natToLE_length]
  refine ⟨e.arrange (natToLE 8 bits.toNat), hl, ?_, ?_⟩
  · have := appends_writeBytes_raw (e.arrange (natToLE 8 bits.toNat))
    rwa [hl] at this
  · have h8 : (8 : Int) ≤ maxsize := by decide
    have hb : leToNat (natToLE 8 bits.toNat) = bits.toNat := leToNat_natToLE_of_lt (by have := bits.toNat_lt; omega)
    have := yields_bind (f := fun bs : Bytes => if bs.length = 8 then (pure (UInt64.ofNat (leToNat (e.arrange bs))) : IOM UInt64)
        else IOM.raise .structError) (yields_read _ 8 (by rw [hl]; rfl) h8) (v' := bits) (b' := []) (by
      rw [if_pos hl, Endian.arrange_arrange, hb]
      have : UInt64.ofNat bits.toNat = bits := by simp
      rw [this]; exact yields_pure _)
    simpa [readDouble] using this

/-- C21. ReadByte never raises: it returns the next byte's value and moves past it, or 0 at the end of the stream
without moving. -/
theorem C21_readByte_total (s : Stream) :
    readByte s = match s.buf[s.pos]? with
      | some b => (.ok (b.toNat : Int), { s with pos := s.pos + 1 })
      | none => (.ok 0, s) := by
  cases h : s.buf[s.pos]? with
  | none => exact readByte_eof (List.getElem?_eq_none_iff.mp h)
  | some b => exact readByte_some h

private theorem swap32_of_pack (v : Val) (bs : Bytes) (h : structPackInt 'I' .big v = .ok bs) :
    swap32 v = structUnpackInt 'I' .little bs := by
  rw [swap32.eq_1]
  split
  · rename_i h'
    rw [h] at h'
    cases h'
    exact Eq.refl _
  · rename_i h'
    rw [h] at h'
    cases h'

private theorem unpackI_little (bs : Bytes) (h : bs.length = 4) :
    structUnpackInt 'I' .little bs = .ok (leToNat bs) := by
  simp only [structUnpackInt, fmtOfChar, h, if_true, intFromBytes, Endian.arrange,
    Bool.false_and, Bool.false_eq_true, if_false]

private theorem swap32_nat (n : Nat) (h : n < 256 ^ 4) :
    swap32 (.int n) = .ok (leToNat (natToLE 4 n).reverse : Nat) := by
  have hpk : structPackInt 'I' .big (.int n) = .ok (natToLE 4 n).reverse :=
    structPack_nat (c := 'I') rfl .big rfl h
  rw [swap32_of_pack _ _ hpk]
  exact unpackI_little _ (by rw [List.length_reverse, natToLE_length])

private theorem swap32_bytes (x y z w : UInt8) :
    swap32 (.int (leToNat [x, y, z, w])) = .ok (leToNat [w, z, y, x]) := by
  have hlt := leToNat_lt [x, y, z, w]
  have h := swap32_nat _ hlt
  have hd : natToLE 4 (leToNat [x, y, z, w]) = [x, y, z, w] := natToLE_leToNat [x, y, z, w]
  rw [hd] at h
  exact h

/-- C22. swap32 reverses the four base-256 digits of a 32-bit value. -/
theorem C22_swap32_reverses (a b c d : Nat) (ha : a < 256) (hb : b < 256) (hc : c < 256) (hd : d < 256) :
    swap32 (.int (a + 256 * b + 65536 * c + 16777216 * d : Nat)) =
      .ok (d + 256 * c + 65536 * b + 16777216 * a : Nat) := by
  have h := swap32_bytes (UInt8.ofNat a) (UInt8.ofNat b) (UInt8.ofNat c) (UInt8.ofNat d)
  have key : ∀ p q r t : Nat, p < 256 → q < 256 → r < 256 → t < 256 →
      leToNat [UInt8.ofNat p, UInt8.ofNat q, UInt8.ofNat r, UInt8.ofNat t] = p + 256 * q + 65536 * r + 16777216 * t := by
    intro p q r t hp hq hr ht
    simp only [leToNat, UInt8.toNat_ofNat']
    omega
  rw [key a b c d ha hb hc hd, key d c b a hd hc hb ha] at h
  exact h

/-- C22. swap32 is its own inverse on 32-bit values. -/
theorem C22_swap32_involution (n : Nat) (h : n < 2 ^ 32) :
    ∃ m : Nat, swap32 (.int n) = .ok m ∧ m < 2 ^ 32 ∧ swap32 (.int m) = .ok n := by
  obtain ⟨a, b, c, d, ha, hb, hc, hd, rfl⟩ : ∃ a b c d : Nat, a < 256 ∧ b < 256 ∧ c < 256 ∧ d < 256 ∧
      n = a + 256 * b + 65536 * c + 16777216 * d :=
    ⟨n % 256, n / 256 % 256, n / 256 / 256 % 256, n / 256 / 256 / 256, by omega, by omega, by omega, by omega, by omega⟩
  exact ⟨_, C22_swap32_reverses a b c d ha hb hc hd, by omega, C22_swap32_reverses d c b a hd hc hb ha⟩

/-- C22. Outside 32 bits swap32 raises. -/
theorem C22_swap32_rejects (n : Int) (h : n < 0 ∨ 4294967296 ≤ n) : swap32 (.int n) = .error .structError := by
  have h' := structPack_err (c := 'I') (w := 4) (signed := false) rfl (e := .big) (v := .int n) rfl (n := n)
    (by simp only [inRange, Bool.false_eq_true, if_false]; omega)
  rw [swap32.eq_1]
  split
  · rename_i h''
    rw [h'] at h''
    cases h''
  · rename_i h''
    rw [h'] at h''
    cases h''
    exact Eq.refl _

example : swap32 (.int 123) = .ok 2063597568 := by decide

end Neo.Props
