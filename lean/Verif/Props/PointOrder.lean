import Verif.Props.PublicKey

/-! # C192: the byte order option of `encode_point` -/

namespace Neo.Props
open Py Neo.EC Spec Spec.EC

/-- The 32 bytes of a coordinate, most significant first. -/
def IsCoordinate (v : Int) (b : Bytes) : Prop := b.length = 32 ∧ v = beNumber b

theorem coordinate_bytes {v : Int} (h0 : 0 ≤ v) (h1 : v < 2 ^ 256) :
    ∃ b, IsCoordinate v b ∧ intToBytes v 32 .little false = .ok b.reverse ∧ intToBytes v 32 .big false = .ok b := by
  obtain ⟨xb, hxb, hxl, hxn⟩ := intToBytes_beNumber h0 h1
  refine ⟨xb.reverse, ⟨by rw [List.length_reverse, hxl], hxn⟩, by rw [hxb, List.reverse_reverse], ?_⟩
  have h2 : v < 256 ^ 32 := by omega
  unfold intToBytes at hxb ⊢
  rw [if_neg (by decide), if_neg (by omega), if_pos h2] at hxb ⊢
  simp only [Endian.arrange, Except.ok.injEq] at hxb ⊢
  rw [hxb]

private theorem lt256 : (secp256r1Curve.p : Int) < 2 ^ 256 := by decide +kernel
private theorem byteLen : expectedByteLen secp256r1Curve = 32 := by decide +kernel

/-- C192 fails: the order of the coordinates' bytes is the opposite of the one named. With `endian='little'` (the default) the most
significant byte comes first, with `endian='big'` the least significant one. -/
theorem C192_opposite_order_violated (P : Pt) (ho : OnCurve secp256r1Curve P) (h0 : P ≠ zero) (hr : Reduced secp256r1Curve P) :
    ∃ xb yb, IsCoordinate P.x xb ∧ IsCoordinate P.y yb ∧
      encodePoint secp256r1Curve P true .little = .ok (hexlify ((if P.y % 2 = 0 then 2 else 3) :: xb)) ∧
      encodePoint secp256r1Curve P true .big = .ok (hexlify ((if P.y % 2 = 0 then 2 else 3) :: xb.reverse)) ∧
      encodePoint secp256r1Curve P false .little = .ok (hexlify (4 :: (xb ++ yb))) ∧
      encodePoint secp256r1Curve P false .big = .ok (hexlify (4 :: (xb.reverse ++ yb.reverse))) := by
  have := Fact.mk p256_prime
  obtain ⟨hx0, hx1, hy0, hy1⟩ := hr
  have hi := isInfinity_of_onCurve p256_proper ho h0
  obtain ⟨xb, hx, hxl, hxb⟩ := coordinate_bytes hx0 (hx1.trans lt256)
  obtain ⟨yb, hy, hyl, hyb⟩ := coordinate_bytes hy0 (hy1.trans lt256)
  refine ⟨xb, yb, hx, hy, ?_, ?_, ?_, ?_⟩
  · rw [encodePoint, hi, hxl]; simp
  · rw [encodePoint, hi, hxb]; simp
  · rw [encodePoint, hi, hxl, hyl]; simp
  · rw [encodePoint, hi, hxb, hyb]; simp

/-- C192, the round trip: with `endian='big'` the encoding is that of another point, if of any, unless the bytes of the coordinates it
holds read the same backwards. -/
theorem C192_round_trip_iff_partial (P : Pt) (ho : OnCurve secp256r1Curve P) (h0 : P ≠ zero) (hr : Reduced secp256r1Curve P)
    (compressed : Bool) (e : Endian) (xb yb : Bytes) (hx : IsCoordinate P.x xb) (hy : IsCoordinate P.y yb) :
    (∃ t, encodePoint secp256r1Curve P compressed e = .ok t ∧ decodeFromHex secp256r1Curve (.bytes t) = .ok P) ↔
      e = .little ∨ (xb.reverse = xb ∧ (compressed = true ∨ yb.reverse = yb)) := by
  have := Fact.mk p256_prime
  obtain ⟨xb', yb', hx', hy', hcl, hcb, hul, hub⟩ := C192_opposite_order_violated P ho h0 hr
  have ex : xb' = xb := beNumber_inj (hx'.1.trans hx.1.symm) (by have := hx'.2; have := hx.2; omega)
  have ey : yb' = yb := beNumber_inj (hy'.1.trans hy.1.symm) (by have := hy'.2; have := hy.2; omega)
  subst ex ey
  obtain ⟨bc, hbc, _, hdc, _⟩ := C66_hex_round_trip_partial P ho h0 hr true
  obtain ⟨bu, hbu, _, hdu, _⟩ := C66_hex_round_trip_partial P ho h0 hr false
  have hlc : decodeFromHex secp256r1Curve (.bytes (hexlify ((if P.y % 2 = 0 then 2 else 3) :: xb'))) = .ok P := by
    rw [hcl] at hbc; rwa [Except.ok.inj hbc]
  have hlu : decodeFromHex secp256r1Curve (.bytes (hexlify (4 :: (xb' ++ yb')))) = .ok P := by
    rw [hul] at hbu; rwa [Except.ok.inj hbu]
  have hy0 : P.y ≠ 0 := by
    intro hy
    have he := ho.resolve_left h0
    rw [hy, zero_pow (by norm_num), zero_sub, Int.dvd_neg] at he
    exact P256.no_two_torsion P.x he
  have dec : ∀ b Q, decodeFromHex secp256r1Curve (.bytes (hexlify b)) = .ok Q → decodeBytes secp256r1Curve b = .ok Q := by
    intro b Q h
    rwa [decodeFromHex, if_pos rfl, unhexlifyVal, unhexlify_hexlify] at h
  cases e with
  | little =>
    refine iff_of_true ?_ (.inl rfl)
    cases compressed with
    | true => exact ⟨_, hcl, hlc⟩
    | false => exact ⟨_, hul, hlu⟩
  | big =>
    cases compressed with
    | true =>
      constructor
      · rintro ⟨t, ht, hd⟩
        rw [hcb] at ht
        rw [← Except.ok.inj ht] at hd
        refine .inr ⟨?_, .inl rfl⟩
        rcases decode_inv byteLen (by decide +kernel) (dec _ _ hd) with h | ⟨_, h⟩ | ⟨_, _, h, _⟩
        · exact absurd h.2 h0
        · obtain ⟨b, hb, hl, hn⟩ := h hy0
          rw [List.cons.injEq] at hb
          exact beNumber_inj (by rw [List.length_reverse]) (by rw [hb.2]; have := hx.2; omega)
        · rw [List.cons.injEq] at h
          have := h.1
          split at this <;> exact absurd this (by decide)
      · rintro (h | ⟨h, _⟩)
        · exact absurd h (by decide)
        · refine ⟨_, hcb, ?_⟩
          rw [h]; exact hlc
    | false =>
      constructor
      · rintro ⟨t, ht, hd⟩
        rw [hub] at ht
        rw [← Except.ok.inj ht] at hd
        rcases decode_inv byteLen (by decide +kernel) (dec _ _ hd) with h | ⟨_, h⟩ | ⟨b, b', h, hl, hl', hn, hn'⟩
        · exact absurd h.2 h0
        · obtain ⟨b, hb, _⟩ := h hy0
          rw [List.cons.injEq] at hb
          have := hb.1
          split at this <;> exact absurd this (by decide)
        · rw [List.cons.injEq] at h
          obtain ⟨h1, h2⟩ := List.append_inj h.2 (by rw [List.length_reverse, hx.1, hl])
          refine .inr ⟨?_, .inr ?_⟩
          · exact beNumber_inj (by rw [List.length_reverse]) (by rw [h1]; have := hx.2; omega)
          · exact beNumber_inj (by rw [List.length_reverse]) (by rw [h2]; have := hy.2; omega)
      · rintro (h | ⟨h, h' | h'⟩)
        · exact absurd h (by decide)
        · exact absurd h' (by decide)
        · refine ⟨_, hub, ?_⟩
          rw [h, h']; exact hlu

/-- The generator: what `endian='big'` gives is not its encoding. -/
example : OnCurve secp256r1Curve secp256r1.G ∧ secp256r1.G ≠ zero ∧ Reduced secp256r1Curve secp256r1.G ∧
    (∃ xb, IsCoordinate secp256r1.G.x xb ∧ xb.reverse ≠ xb) := by
  have := Fact.mk p256_prime
  refine ⟨(onCurve_iff _).2 (by decide +kernel), by decide +kernel, by unfold Reduced; decide +kernel, ?_⟩
  refine ⟨(natToLE 32 secp256r1.G.x.toNat).reverse, ⟨by decide +kernel, by decide +kernel⟩, by decide +kernel⟩

end Neo.Props
