import Verif.Model.Fixed8
import Verif.Props.UInt
import Verif.Props.PublicKey
import Verif.Props.Layout

/-! # C197: Size is the number of bytes Serialize writes -/

namespace Neo.Props
open Py Spec Writer EC Spec.EC

/-- C197 for amounts: what WriteFixed8 writes, if anything, has `Size()` bytes, and that number is what it returns. -/
theorem C197_fixed8 (v : Int) :
    (∃ bs, bs.length = Fixed8.size v ∧ Appends (writeFixed8 v) (Fixed8.size v) bs) ∨ RaisesCleanly (writeFixed8 v) .structError := by
  by_cases h : -9223372036854775808 ≤ v ∧ v ≤ 9223372036854775807
  · obtain ⟨bs, hl, ha, -⟩ := C19_fixed8_roundtrip v h.1 h.2
    exact .inl ⟨bs, hl, ha⟩
  · exact .inr (C19_fixed8_rejected v (by omega))

/-- C197 for hashes: Serialize writes some bytes without raising, and they are `Size` many exactly if the contents do not read as
hexadecimal text (which is written unhexed: half as many bytes). -/
theorem C197_uint_iff_partial (d : Bytes) :
    ∃ bs, Appends (uintSerialize d) () bs ∧ (bs.length = UInt.size d ↔ d = [] ∨ ¬ HexText d) := by
  by_cases hx : HexText d
  · by_cases hne : d = []
    · subst hne
      have h := appends_bind (f := fun _ => (pure () : IOM Unit))
        (appends_writeBytearray_hexText (b := []) (unhexlify_hexlify [])) (appends_pure ())
      exact ⟨[], by simpa [uintSerialize] using h, by simp [UInt.size]⟩
    · obtain ⟨r, h1, h2⟩ := appends_uintSerialize_hex d hx hne
      have hpos : 0 < d.length := List.length_pos_iff.mpr hne
      refine ⟨r, h2, ?_⟩
      unfold UInt.size
      constructor
      · intro h; omega
      · rintro (h | h)
        · exact absurd h hne
        · exact absurd hx h
  · exact ⟨d, appends_uintSerialize d hx, by simp [UInt.size, hx]⟩

/-- C197 for hashes of 20 or 32 bytes that are hexadecimal digits in ASCII: `Size` is twice what Serialize writes. -/
theorem C197_uint_violated (d : Bytes) (hx : HexText d) (hne : d ≠ []) :
    ∃ bs, Appends (uintSerialize d) () bs ∧ UInt.size d = 2 * bs.length ∧ bs.length ≠ UInt.size d := by
  obtain ⟨r, h1, h2⟩ := appends_uintSerialize_hex d hx hne
  have hpos : 0 < d.length := List.length_pos_iff.mpr hne
  exact ⟨r, h2, h1.symm, by unfold UInt.size; omega⟩

/-- C197 for public keys, with or without `compress=False`: Serialize writes some bytes without raising, and they are `Size()` many
exactly if the point is infinity or the compressed form is asked for. -/
theorem C197_point_iff_partial (P : Pt) (ho : OnCurve secp256r1Curve P) (hr : Reduced secp256r1Curve P) (compress : Bool) :
    ∃ bs, Appends (serialize secp256r1Curve P compress) () bs ∧
      (bs.length = size secp256r1Curve P ↔ P = zero ∨ compress = true) := by
  have := Fact.mk p256_prime
  by_cases h0 : P = zero
  · subst h0
    have hi : isInfinity secp256r1Curve zero = true := by decide +kernel
    refine ⟨[0], ?_, by rw [size, if_pos hi]; simp⟩
    rw [serialize, if_pos hi, Writer.writeByte]
    exact appends_bind (appends_write _) (appends_pure _)
  · have hi := isInfinity_of_onCurve p256_proper ho h0
    obtain ⟨ba, h1, _, _, h4⟩ := encode_p256 ho h0 hr compress
    refine ⟨ba, ?_, ?_⟩
    · rw [serialize, if_neg (by rw [hi]; decide), h1]
      intro pre
      exact appends_bind (appends_writeBytes_hexText (unhexlify_hexlify ba)) (appends_pure ()) pre |>.trans (by rw [List.append_nil])
    · have hs : size secp256r1Curve P = 33 := by rw [size, if_neg (by rw [hi]; decide)]
      rw [h4, hs]
      cases compress <;> simp [h0]

/-- C197: every finite public key serialised with `compress=False` takes 65 bytes where `Size()` says 33. -/
theorem C197_point_violated (P : Pt) (ho : OnCurve secp256r1Curve P) (hr : Reduced secp256r1Curve P) (h0 : P ≠ zero) :
    ∃ bs, Appends (serialize secp256r1Curve P false) () bs ∧ bs.length = 65 ∧ size secp256r1Curve P = 33 := by
  have := Fact.mk p256_prime
  have hi := isInfinity_of_onCurve p256_proper ho h0
  obtain ⟨ba, h1, _, _, h4⟩ := encode_p256 ho h0 hr false
  refine ⟨ba, ?_, by rw [h4]; rfl, by rw [size, if_neg (by rw [hi]; decide)]⟩
  rw [serialize, if_neg (by rw [hi]; decide), h1]
  intro pre
  exact appends_bind (appends_writeBytes_hexText (unhexlify_hexlify ba)) (appends_pure ()) pre |>.trans (by rw [List.append_nil])

/-- A hash that reads as hexadecimal text, and one that does not. -/
example : HexText (List.replicate 20 0x30) ∧ ¬ HexText (List.replicate 20 0) := by
  refine ⟨⟨by decide, ?_⟩, fun h => absurd (h.2 0 (by simp)) (by unfold IsHexDigit; decide)⟩
  intro c hc
  rw [List.eq_of_mem_replicate hc]
  unfold IsHexDigit
  decide

example : OnCurve secp256r1Curve secp256r1.G ∧ Reduced secp256r1Curve secp256r1.G ∧ secp256r1.G ≠ zero :=
  ⟨Or.inr (by decide +kernel), by unfold Reduced; decide +kernel, by decide +kernel⟩

end Neo.Props
