import Verif.Spec.Layout
import Verif.Props.Records
import Verif.Props.PublicKey

/-!
# C196: the layout of what the composite writer methods write
-/

namespace Neo.Props
open Py Spec Writer Reader EC Spec.EC

private theorem twos_nat {w n : Nat} (h : n < 256 ^ w) : TwosComplementLE w n (natToLE w n) := by
  refine ⟨natToLE_length _ _, ?_⟩
  rw [ofDigits_eq_leToNat, leToNat_natToLE_of_lt h, Int.emod_eq_of_lt (by omega) (by exact_mod_cast h)]

private theorem varIntBytes_spec {n : Nat} (h : n < 2 ^ 64) : IsVarInt n (varIntBytes .little n) := by
  unfold varIntBytes
  by_cases h1 : n < 0xfd
  · rw [if_pos h1]
    exact .inl ⟨h1, UInt8.ofNat n, by simp; omega, rfl⟩
  · rw [if_neg h1]
    by_cases h2 : n ≤ 0xffff
    · rw [if_pos h2]
      exact .inr (.inl ⟨by omega, h2, _, twos_nat (by omega), rfl⟩)
    · rw [if_neg h2]
      by_cases h3 : n ≤ 0xffffffff
      · rw [if_pos h3]
        exact .inr (.inr (.inl ⟨by omega, h3, _, twos_nat (by omega), rfl⟩))
      · rw [if_neg h3]
        exact .inr (.inr (.inr ⟨by omega, by omega, _, twos_nat (by omega), rfl⟩))

private theorem isVarInt_lt {n : Nat} {bs : Bytes} (h : IsVarInt n bs) : n < 2 ^ 64 := by
  rcases h with h | h | h | h <;> omega

/-- The protocol has one form for each number. -/
theorem C196_varint_unique {n : Nat} {a b : Bytes} (ha : IsVarInt n a) (hb : IsVarInt n b) : a = b := by
  rcases ha with ⟨h1, x, hx, rfl⟩ | ⟨h1, h1', x, hx, rfl⟩ | ⟨h1, h1', x, hx, rfl⟩ | ⟨h1, h1', x, hx, rfl⟩ <;>
    rcases hb with ⟨h2, y, hy, rfl⟩ | ⟨h2, h2', y, hy, rfl⟩ | ⟨h2, h2', y, hy, rfl⟩ | ⟨h2, h2', y, hy, rfl⟩ <;>
    first
    | omega
    | (rw [C02_layout_unique _ _ _ _ hx hy])
    | (rw [UInt8.toNat_inj.mp (hx.trans hy.symm)])

private theorem isVarInt_iff {n : Nat} (bs : Bytes) : IsVarInt n bs ↔ n < 2 ^ 64 ∧ bs = varIntBytes .little n :=
  ⟨fun h => ⟨isVarInt_lt h, C196_varint_unique h (varIntBytes_spec (isVarInt_lt h))⟩, fun ⟨h, e⟩ => e ▸ varIntBytes_spec h⟩

/-- C196. WriteVarInt (without a byte order) writes the variable-length integer of the protocol, and nothing else is one. -/
theorem C196_varint (n : Nat) (bs : Bytes) : IsVarInt n bs ↔ ∃ r, Appends (writeVarInt (.int n)) r bs := by
  rw [isVarInt_iff]
  constructor
  · rintro ⟨h, rfl⟩; exact ⟨_, appends_writeVarInt .little n h⟩
  · rintro ⟨r, h⟩
    by_cases hn : n < 2 ^ 64
    · exact ⟨hn, (h.unique (appends_writeVarInt .little n hn)).2⟩
    · exfalso
      have := h []
      rw [C05_varint_too_large_violated (.int n) n rfl (by omega) .little []] at this
      cases this

/-- C196. WriteVarBytes writes the length and the bytes, of a `bytes` object (in both models of the method) and of a bytearray. -/
theorem C196_varbytes (b p : Bytes) (h : IsVarInt b.length p) :
    Appends (writeVarBytes b) b.length (p ++ b) ∧ Appends (writeVarBytesOf (.bytes b)) b.length (p ++ b) ∧
    Appends (writeVarBytesOf (.bytearray b)) b.length (p ++ b) := by
  obtain ⟨hl, rfl⟩ := (isVarInt_iff _).mp h
  exact ⟨appends_writeVarBytes b hl, appends_writeVarBytes b hl, appends_writeVarBytes b hl⟩

/-- C196. WriteVarString writes the length in bytes and the UTF-8 bytes of a text, or the bytes it is given. -/
theorem C196_varstring (s : Str) (b p : Bytes) :
    (IsVarInt (utf8 s).length p → Appends (writeVarString (.str s)) () (p ++ utf8 s)) ∧
    (IsVarInt b.length p → Appends (writeVarString (.bytes b)) () (p ++ b) ∧ Appends (writeVarString (.bytearray b)) () (p ++ b)) := by
  refine ⟨fun h => ?_, fun h => ?_⟩
  · obtain ⟨hl, rfl⟩ := (isVarInt_iff _).mp h
    exact appends_writeVarStringBytes _ hl
  · obtain ⟨hl, rfl⟩ := (isVarInt_iff _).mp h
    exact ⟨appends_writeVarStringBytes _ hl, appends_writeVarStringBytes _ hl⟩

/-- C196. WriteSerializableArray writes the number of items and what the items write, in order; for None one zero byte, which is
the empty array. -/
theorem C196_array (ser : α → IOM Unit) (enc : α → Bytes) (xs : List α) (h : ∀ x ∈ xs, Appends (ser x) () (enc x)) (p : Bytes)
    (hp : IsVarInt xs.length p) :
    Appends (writeSerializableArray ser (some xs)) () (p ++ (xs.map enc).flatten) ∧ Appends (writeSerializableArray ser none) () [0] ∧
      IsVarInt 0 [0] := by
  obtain ⟨hl, rfl⟩ := (isVarInt_iff _).mp hp
  refine ⟨?_, appends_writeByte_int 0 (by omega), .inl ⟨by decide, 0, rfl, rfl⟩⟩
  rw [← List.flatMap_def]
  exact appends_array xs hl h

/-- C17. WriteHashes of hex texts of hashes, none of which reads as hexadecimal text, writes their number and the hashes, each with
its bytes in reverse order. -/
theorem C17_hashes_layout_partial (ds : List Bytes) (hhex : ∀ d ∈ ds, ¬ HexText d) (p : Bytes) (hp : IsVarInt ds.length p) :
    Appends (writeHashes (ds.map fun d => .str (hexStr d))) () (p ++ (ds.map List.reverse).flatten) := by
  obtain ⟨hl, rfl⟩ := (isVarInt_iff _).mp hp
  have := appends_bind (appends_writeVarInt .little ds.length hl)
    (f := fun _ => writeReversedHex (ds.map fun d => .str (hexStr d))) (appends_reversedHex ds hhex)
  rw [← List.flatMap_def]
  simpa [writeHashes] using this

/-- C10. WriteFixedString of a text whose UTF-8 bytes do not read as hexadecimal text writes these bytes and fills up with zeros. -/
theorem C10_layout_partial (s : Str) (n : Nat) (hlen : (utf8 s).length ≤ n) (hhex : ¬ HexText (utf8 s)) :
    Appends (writeFixedString s n) () (utf8 s ++ List.replicate (n - (utf8 s).length) 0) := by
  have := appends_bind (f := fun _ => writeZeros (n - (utf8 s).length)) (C11_writeBytes_exact_partial (utf8 s) hhex).1 (appends_writeZeros _)
  have hk : ((n : Int) - ((utf8 s).length : Int)).toNat = n - (utf8 s).length := by omega
  simp only [writeFixedString]
  rw [if_neg (by omega), hk]
  exact this

example : (utf8 ['x', 'y']).length ≤ 5 ∧ ¬ HexText (utf8 ['x', 'y']) := by
  refine ⟨by decide, fun h => ?_⟩
  exact absurd (h.2 0x78 (by decide)) (by unfold IsHexDigit; decide)

/-- C21. WriteBool writes the byte 1 for what is true and 0 for what is not; ReadBool takes every byte but 0 as True. -/
theorem C21_bool_layout (v : Val) (b : UInt8) :
    Appends (writeBool v) 1 [if v = .none ∨ v = .bool false ∨ v = .int 0 ∨ v = .bigInteger 0 ∨ v = .bytes [] ∨ v = .bytearray [] ∨
      v = .str [] then 0 else 1] ∧
    Yields readBool [b] (decide (b ≠ 0)) := by
  constructor
  · have h : ∀ c : Prop, [Decidable c] → (truthy v = false ↔ c) → Appends (writeBool v) 1 [if c then 0 else 1] := by
      intro c _ hc
      have := appends_writeBytes_raw [if truthy v then 1 else 0]
      cases ht : truthy v with
      | false => rw [if_pos (hc.mp ht)]; rw [ht] at this; unfold writeBool; rw [ht]; exact this
      | true =>
        rw [if_neg (fun h => by rw [hc.mpr h] at ht; cases ht)]; rw [ht] at this; unfold writeBool; rw [ht]; exact this
    apply h
    cases v <;> simp [truthy]
  · have h1 : (1 : Int) ≤ maxsize := by decide
    intro pre post
    unfold readBool
    rw [IOM.bind_ok (read_apply 1 _ h1)]
    by_cases hb : b = 0 <;> simp [IOM.pure_apply, hb]

/-- C196. WriteFixed8 writes eight bytes of two's complement, least significant first. -/
theorem C196_fixed8 (x : Int) (hlo : -2 ^ 63 ≤ x) (hhi : x < 2 ^ 63) (bs : Bytes) :
    TwosComplementLE 8 x bs → Appends (writeFixed8 x) 8 bs := by
  intro h
  obtain ⟨bs', h', ha, -⟩ := C02_int_layout .i64 (.int x) x rfl (by simp only [IntKind.min]; omega) (by simp only [IntKind.max]; omega)
  rw [C02_layout_unique 8 x bs bs' h h']
  exact ha

/-- C196. A public key is written in its compressed form; the point at infinity as one zero byte. -/
theorem C196_public_key (P : Pt) (ho : OnCurve secp256r1Curve P) (hr : Reduced secp256r1Curve P) :
    (P ≠ zero → ∀ ba, IsCompressed P ba → Appends (serialize secp256r1Curve P) () ba) ∧
    (P = zero → Appends (serialize secp256r1Curve P) () [0]) := by
  refine ⟨fun h0 ba hba => ?_, fun h0 => ?_⟩
  · have := Fact.mk p256_prime
    have hi := isInfinity_of_onCurve p256_proper ho h0
    obtain ⟨ba', h1, h2, _, h4⟩ := encode_p256 ho h0 hr true
    obtain rfl : ba' = ba := by
      obtain ⟨x, rfl, hx, hpx⟩ := h2
      obtain ⟨y, rfl, hy, hpy⟩ := hba
      rw [beNumber_inj (hx.trans hy.symm) (by exact_mod_cast hpx.symm.trans hpy)]
    rw [serialize, if_neg (by rw [hi]; decide), h1]
    intro pre
    exact appends_bind (appends_writeBytes_hexText (unhexlify_hexlify ba')) (appends_pure ()) pre |>.trans (by rw [List.append_nil])
  · subst h0
    have hi : isInfinity secp256r1Curve zero = true := by decide +kernel
    rw [serialize, if_pos hi, Writer.writeByte]
    exact appends_bind (appends_write _) (appends_pure _)

example : IsVarInt 0xfd [0xfd, 0xfd, 0x00] ∧ IsVarInt 70000 [0xfe, 0x70, 0x11, 0x01, 0x00] := by
  refine ⟨.inr (.inl ⟨by decide, by decide, _, ⟨rfl, by decide⟩, rfl⟩), .inr (.inr (.inl ⟨by decide, by decide, _, ⟨rfl, by decide⟩, rfl⟩))⟩

example : TwosComplementLE 8 (-2) [0xfe, 0xff, 0xff, 0xff, 0xff, 0xff, 0xff, 0xff] := ⟨rfl, by decide⟩

end Neo.Props
