import Verif.Proofs.ECEncode

/-! Properties C66-C69, C76-C78: encoding, decoding and ordering of public keys on secp256r1. -/

namespace Neo.Props
open Py Neo.EC Spec Spec.EC

private theorem p256_len : expectedByteLen secp256r1Curve = 32 := by decide +kernel
private theorem p256_mod4 : secp256r1Curve.p % 4 = 3 := by decide +kernel
private theorem p256_lt : (secp256r1Curve.p : Int) < 2 ^ 256 := by decide +kernel
private theorem p256_ne2 : secp256r1Curve.p ≠ 2 := by decide +kernel

private theorem hex_of_unhex {s : Val} {b : Bytes} (h : unhexlifyVal s = .ok b) :
    decodeFromHex secp256r1Curve s = decodeBytes secp256r1Curve b := by
  unfold decodeFromHex
  rw [if_pos rfl, h]

private theorem finite_eq {P : Pt} (ho : OnCurve secp256r1Curve P) (h0 : P ≠ zero) :
    (secp256r1Curve.p : ℤ) ∣ P.y ^ 2 - (P.x ^ 3 + secp256r1Curve.a * P.x + secp256r1Curve.b) :=
  ho.resolve_left h0

private theorem y_ne_zero {P : Pt} (he : (secp256r1Curve.p : ℤ) ∣ P.y ^ 2 - (P.x ^ 3 + secp256r1Curve.a * P.x + secp256r1Curve.b)) :
    P.y ≠ 0 := by
  intro hy
  rw [hy, zero_pow (by norm_num), zero_sub, Int.dvd_neg] at he
  exact P256.no_two_torsion P.x he

private theorem finite_y {P : Pt} (ho : OnCurve secp256r1Curve P) (h0 : P ≠ zero) : P.y ≠ 0 := y_ne_zero (finite_eq ho h0)

theorem encode_p256 {P : Pt} (ho : OnCurve secp256r1Curve P) (h0 : P ≠ zero) (hr : Reduced secp256r1Curve P)
    (compressed : Bool) :
    ∃ ba, encodePoint secp256r1Curve P compressed = .ok (hexlify ba) ∧
      (if compressed then IsCompressed P ba else IsUncompressed P ba) ∧ decodeBytes secp256r1Curve ba = .ok P ∧
      ba.length = if compressed then 33 else 65 := by
  have := Fact.mk p256_prime
  obtain ⟨hx0, hx1, hy0, hy1⟩ := hr
  obtain ⟨ba, h1, h2⟩ := encodePoint_spec (isInfinity_of_onCurve p256_proper ho h0) hx0 (hx1.trans p256_lt) hy0
    (hy1.trans p256_lt) compressed
  refine ⟨ba, h1, h2, ?_, ?_⟩
  · cases compressed with
    | true => exact decode_compressed p256_len p256_mod4 h2 hy0 hy1 (finite_eq ho h0)
    | false => exact decode_uncompressed p256_len h2
  · cases compressed with
    | true =>
      obtain ⟨xb, rfl, hx, _⟩ := h2
      rw [List.length_cons, hx]; rfl
    | false =>
      obtain ⟨xb, yb, rfl, hx, hy, _⟩ := h2
      rw [List.length_cons, List.length_append, hx, hy]; rfl

/-! ## C66: round trips -/

/-- C66 for finite points, both forms: `encode_point` gives the hex text of the SEC 1 encoding, and `decode_from_hex` of that
text (as bytes or as str) is the point again. -/
theorem C66_hex_round_trip_partial (P : Pt) (ho : OnCurve secp256r1Curve P) (h0 : P ≠ zero) (hr : Reduced secp256r1Curve P)
    (compressed : Bool) :
    ∃ ba, encodePoint secp256r1Curve P compressed = .ok (hexlify ba) ∧
      (if compressed then IsCompressed P ba else IsUncompressed P ba) ∧
      decodeFromHex secp256r1Curve (.bytes (hexlify ba)) = .ok P ∧
      decodeFromHex secp256r1Curve (.str (hexStr ba)) = .ok P ∧
      decodeSecp256r1 (.bytes (hexlify ba)) = .ok P := by
  have := Fact.mk p256_prime
  obtain ⟨ba, h1, h2, h3, _⟩ := encode_p256 ho h0 hr compressed
  have h4 : decodeFromHex secp256r1Curve (.bytes (hexlify ba)) = .ok P := by
    rw [decodeFromHex, if_pos rfl, unhexlifyVal, unhexlify_hexlify]
    exact h3
  refine ⟨ba, h1, h2, h4, ?_, ?_⟩
  · rw [hexStr, hex_of_unhex (unhexlifyVal_hexStr _)]
    exact h3
  · rw [decodeSecp256r1, h4]
    simp only [if_true]
    rw [if_pos ((onCurve_iff P).1 ho)]

/-- C98, streams: `Serialize` followed by `Deserialize_Secp256r1` gives back every point, Infinity included, and the bytes
written and read are `Size()` many. -/
theorem C98_serialize (P : Pt) (ho : OnCurve secp256r1Curve P) (hr : Reduced secp256r1Curve P) :
    ∃ bs, Appends (serialize secp256r1Curve P) () bs ∧ Yields deserializeSecp256r1 bs P ∧
      bs.length = size secp256r1Curve P ∧ (bs.length = if P = zero then 1 else 33) := by
  have := Fact.mk p256_prime
  by_cases h0 : P = zero
  · subst h0
    have hi : isInfinity secp256r1Curve zero = true := by decide +kernel
    refine ⟨[0], ?_, ?_, ?_, by rw [if_pos rfl]; rfl⟩
    · rw [serialize, if_pos hi, Writer.writeByte]
      exact appends_bind (appends_write _) (appends_pure _)
    · have : Yields (deserializeSecp256r1) ([0] ++ []) zero := by
        rw [deserializeSecp256r1, decodeFromReader]
        refine yields_bind (yields_readByte 0) ?_
        rw [if_pos (by decide)]
        exact yields_pure _
      exact this
    · rw [size, if_pos hi]; rfl
  · have hi := isInfinity_of_onCurve p256_proper ho h0
    obtain ⟨ba, h1, h2, _, h4⟩ := encode_p256 ho h0 hr true
    refine ⟨ba, ?_, ?_, ?_, ?_⟩
    · rw [serialize, if_neg (by rw [hi]; decide), h1]
      intro pre
      exact appends_bind (appends_writeBytes_hexText (unhexlify_hexlify ba)) (appends_pure ()) pre |>.trans (by rw [List.append_nil])
    · obtain ⟨xb, rfl, hx, hpx⟩ := h2
      have hX : ((leToNat (xb.reverse ++ [0]) : Nat) : Int) = P.x := by rw [leToNat_snoc_zero, ← beNumber_le, hpx]
      have key := decompress_complete p256_mod4 hr.2.2.1 hr.2.2.2 (finite_eq ho h0)
      have hpar : (((if P.y % 2 = 0 then 2 else 3 : UInt8).toNat : Nat) : Int) % 2 = P.y % 2 := by
        split
        · next h => rw [h]; rfl
        · next h => rw [show P.y % 2 = 1 by omega]; rfl
      rw [deserializeSecp256r1, decodeFromReader]
      refine yields_bind (b := [if P.y % 2 = 0 then 2 else 3]) (b' := xb) (yields_readByte _) ?_
      rw [if_neg (by split <;> decide), if_pos (by split <;> decide)]
      have : Yields (Reader.readBytes 32) xb xb := yields_read xb 32 (by rw [hx]; rfl) (by decide)
      have h5 := yields_bind (b' := []) this (f := fun data => IOM.lift (decompressFromCurve secp256r1Curve
        (leToNat (data.reverse ++ [0]) : Nat) (((if P.y % 2 = 0 then 2 else 3 : UInt8).toNat : Nat) % 2 : Int))) (v' := P) (by
          rw [hX, hpar]
          exact yields_lift key)
      rw [List.append_nil] at h5
      exact h5
    · rw [h4, size, hi]; rfl
    · rw [h4, if_neg h0]; rfl

/-- C98, uniqueness: distinct points have distinct encodings, in each form, Infinity included. -/
theorem C98_injective (P Q : Pt) (hP : OnCurve secp256r1Curve P) (hQ : OnCurve secp256r1Curve Q)
    (hPr : Reduced secp256r1Curve P) (hQr : Reduced secp256r1Curve Q) (compressed : Bool)
    (h : encodePoint secp256r1Curve P compressed = encodePoint secp256r1Curve Q compressed) : P = Q := by
  have hz : encodePoint secp256r1Curve zero compressed = .ok [0] := by
    rw [encodePoint, if_pos (by decide +kernel)]
  by_cases hP0 : P = zero
  · by_cases hQ0 : Q = zero
    · rw [hP0, hQ0]
    · obtain ⟨ba, h1, _, _, h4⟩ := encode_p256 hQ hQ0 hQr compressed
      rw [hP0, hz, h1] at h
      have := congrArg List.length (Except.ok.inj h)
      rw [hexlify_length, h4] at this
      split at this <;> simp at this
  · obtain ⟨ba, h1, _, h3, h4⟩ := encode_p256 hP hP0 hPr compressed
    by_cases hQ0 : Q = zero
    · rw [hQ0, hz, h1] at h
      have := congrArg List.length (Except.ok.inj h)
      rw [hexlify_length, h4] at this
      split at this <;> simp at this
    · obtain ⟨bb, k1, _, k3, _⟩ := encode_p256 hQ hQ0 hQr compressed
      rw [h1, k1] at h
      rw [hexlify_inj (Except.ok.inj h), k3] at h3
      exact (Except.ok.inj h3).symm

/-- C66 fails for Infinity: its encoding is the raw byte 0, not hex text, so `decode_from_hex` of it raises
`binascii.Error` (it is accepted only with `unhex=False`). -/
theorem C66_infinity_violated (compressed : Bool) :
    encodePoint secp256r1Curve zero compressed = .ok [0] ∧
    decodeFromHex secp256r1Curve (.bytes [0]) = .error .binasciiError ∧
    decodeFromHex secp256r1Curve (.bytes [0]) false = .ok zero := by
  refine ⟨?_, rfl, rfl⟩
  rw [encodePoint, if_pos (by decide +kernel)]

/-- C66 fails for `Serialize(writer, compress=False)`: it writes 65 bytes (not `Size()`), which `Deserialize_Secp256r1` always
rejects with `NotImplementedError`. -/
theorem C66_uncompressed_stream_violated (P : Pt) (ho : OnCurve secp256r1Curve P) (h0 : P ≠ zero)
    (hr : Reduced secp256r1Curve P) :
    ∃ bs, Appends (serialize secp256r1Curve P false) () bs ∧ bs.length = 65 ∧ size secp256r1Curve P = 33 ∧
      ∀ pre post, (deserializeSecp256r1 ⟨pre ++ bs ++ post, pre.length⟩).1 = .error .notImplemented := by
  have := Fact.mk p256_prime
  have hi := isInfinity_of_onCurve p256_proper ho h0
  obtain ⟨ba, h1, h2, _, h4⟩ := encode_p256 ho h0 hr false
  refine ⟨ba, ?_, h4, by rw [size, hi]; rfl, ?_⟩
  · rw [serialize, if_neg (by rw [hi]; decide), h1]
    intro pre
    exact appends_bind (appends_writeBytes_hexText (unhexlify_hexlify ba)) (appends_pure ()) pre |>.trans (by rw [List.append_nil])
  · obtain ⟨xb, yb, rfl, _⟩ := h2
    intro pre post
    rw [deserializeSecp256r1, decodeFromReader]
    have hb := yields_readByte 4 pre (xb ++ yb ++ post)
    have hs : pre ++ 4 :: (xb ++ yb) ++ post = pre ++ [4] ++ (xb ++ yb ++ post) := by simp
    rw [hs]
    refine (congrArg Prod.fst (IOM.bind_ok hb)).trans ?_
    rw [if_neg (by decide), if_neg (by decide), if_pos (by decide)]
    rfl

/-- The base point: it is on the curve and reduced, so all of the above applies. -/
example : OnCurve secp256r1Curve secp256r1.G ∧ secp256r1.G ≠ zero ∧ Reduced secp256r1Curve secp256r1.G :=
  ⟨Or.inr (by decide +kernel), by decide +kernel, by unfold Reduced; decide +kernel⟩

/-! ## C67: decoded keys are on the curve -/

/-- C67: whatever the argument, with its check `decode_secp256r1` returns only points of the curve (or Infinity). -/
theorem C67_decode_on_curve (s : Val) (unhex : Bool) (P : Pt) (h : decodeSecp256r1 s unhex = .ok P) :
    OnCurve secp256r1Curve P := by
  have := Fact.mk p256_prime
  rw [decodeSecp256r1] at h
  cases hd : decodeFromHex secp256r1Curve s unhex with
  | error e => rw [hd] at h; cases h
  | ok Q =>
    rw [hd] at h
    simp only [if_true] at h
    by_cases hc : isOnCurve secp256r1Curve Q = true
    · rw [if_pos hc] at h
      cases h
      exact (onCurve_iff P).2 hc
    · rw [if_neg hc] at h; cases h

/-- C67, streams: whatever the stream, `Deserialize_Secp256r1` returns only points of the curve (or Infinity). -/
theorem C67_deserialize_on_curve (s s' : Py.Stream) (P : Pt) (h : deserializeSecp256r1 s = (.ok P, s')) :
    OnCurve secp256r1Curve P := by
  have := Fact.mk p256_prime
  rw [deserializeSecp256r1, decodeFromReader] at h
  rcases hb : Reader.readByte s with ⟨r, s1⟩
  cases r with
  | error e =>
    rw [IOM.bind_err hb] at h
    cases h
  | ok f =>
    rw [IOM.bind_ok hb] at h
    by_cases hf0 : f = 0
    · rw [if_pos hf0] at h
      cases h
      exact Or.inl rfl
    rw [if_neg hf0] at h
    by_cases hf2 : f = 2 ∨ f = 3
    · rw [if_pos hf2] at h
      rcases hr : Reader.readBytes 32 s1 with ⟨r, s2⟩
      cases r with
      | error e => rw [IOM.bind_err hr] at h; cases h
      | ok d =>
        rw [IOM.bind_ok hr] at h
        rw [IOM.lift_apply] at h
        exact Or.inr (decompress_sound (Prod.mk.inj h).1).2.1
    rw [if_neg hf2] at h
    by_cases hf4 : f = 4 ∨ f = 6 ∨ f = 7
    · rw [if_pos hf4] at h; cases h
    · rw [if_neg hf4] at h; cases h

/-- C67, exactly what is accepted: given bytes, `decode_secp256r1` returns P if and only if they start with 00 and P is
Infinity, or are a SEC 1 encoding of P, compressed or uncompressed, with P on the curve; everything else raises. -/
theorem C67_accepts_iff (ba : Bytes) (P : Pt) :
    decodeSecp256r1 (.bytes ba) false = .ok P ↔
      (ba.head? = some 0 ∧ P = zero) ∨
      (OnCurve secp256r1Curve P ∧ P ≠ zero ∧ 0 ≤ P.y ∧ P.y < secp256r1Curve.p ∧ IsCompressed P ba) ∨
      (OnCurve secp256r1Curve P ∧ IsUncompressed P ba) := by
  have := Fact.mk p256_prime
  have hd : ∀ Q, decodeFromHex secp256r1Curve (.bytes ba) false = .ok Q ↔ decodeBytes secp256r1Curve ba = .ok Q :=
    fun Q => Iff.rfl
  have hfull : decodeSecp256r1 (.bytes ba) false = .ok P ↔ decodeBytes secp256r1Curve ba = .ok P ∧ OnCurve secp256r1Curve P := by
    constructor
    · intro h
      have ho := C67_decode_on_curve _ _ _ h
      refine ⟨?_, ho⟩
      rw [decodeSecp256r1] at h
      cases hdd : decodeFromHex secp256r1Curve (.bytes ba) false with
      | error e => rw [hdd] at h; cases h
      | ok Q =>
        rw [hdd] at h
        simp only [if_true] at h
        split at h
        · cases h; exact (hd _).1 hdd
        · cases h
    · rintro ⟨h, ho⟩
      rw [decodeSecp256r1, (hd _).2 h]
      simp only [if_true]
      rw [if_pos ((onCurve_iff P).1 ho)]
  rw [hfull]
  constructor
  · rintro ⟨h, ho⟩
    rcases decode_inv p256_len p256_ne2 h with h1 | ⟨⟨h1, h2, h3⟩, h4⟩ | h1
    · exact Or.inl h1
    · refine Or.inr (Or.inl ⟨ho, ?_, h2, h3, h4 (y_ne_zero h1)⟩)
      rintro rfl
      exact y_ne_zero h1 rfl
    · exact Or.inr (Or.inr ⟨ho, h1⟩)
  · rintro (⟨h1, rfl⟩ | ⟨ho, h0, h1, h2, h3⟩ | ⟨ho, h1⟩)
    · refine ⟨?_, Or.inl rfl⟩
      cases ba with
      | nil => cases h1
      | cons f r =>
        cases h1
        rw [decodeBytes, if_pos rfl]
    · exact ⟨decode_compressed p256_len p256_mod4 h3 h1 h2 (finite_eq ho h0), ho⟩
    · exact ⟨decode_uncompressed p256_len h1, ho⟩

/-- Without the check, an uncompressed encoding is returned whether on the curve or not. -/
example : decodeSecp256r1 (.bytes (4 :: (List.replicate 63 0 ++ [1]))) false false = .ok ⟨0, 1⟩ ∧
    decodeSecp256r1 (.bytes (4 :: (List.replicate 63 0 ++ [1]))) false true = .error .exc := by decide +kernel

/-! ## C77: one encoding per point -/

/-- C77 fails: x coordinates are not reduced, so the encodings of x = 5 and of x = 5 + p are both accepted and give equal
points (`==`). -/
theorem C77_noncanonical_violated :
    ∃ ba bb P Q, ba ≠ bb ∧ ba.length = 33 ∧ bb.length = 33 ∧ decodeSecp256r1 (.bytes ba) false = .ok P ∧
      decodeSecp256r1 (.bytes bb) false = .ok Q ∧ ptEq secp256r1Curve P Q = true ∧ OnCurve secp256r1Curve P := by
  have := Fact.mk p256_prime
  have hy : (secp256r1Curve.p : ℤ) ∣ (31468013646237722594854082025316614106172411895747863909393730389177298123724 : ℤ) ^ 2 -
    ((5 : Int) ^ 3 + secp256r1Curve.a * 5 + secp256r1Curve.b) := by decide +kernel
  have hy' : (secp256r1Curve.p : ℤ) ∣ (31468013646237722594854082025316614106172411895747863909393730389177298123724 : ℤ) ^ 2 -
    ((5 + secp256r1Curve.p : Int) ^ 3 + secp256r1Curve.a * (5 + secp256r1Curve.p) + secp256r1Curve.b) := by decide +kernel
  refine ⟨2 :: (natToLE 32 5).reverse, 2 :: (natToLE 32 (5 + secp256r1Curve.p)).reverse,
    ⟨5, 31468013646237722594854082025316614106172411895747863909393730389177298123724⟩,
    ⟨5 + secp256r1Curve.p, 31468013646237722594854082025316614106172411895747863909393730389177298123724⟩,
    by decide +kernel, by decide +kernel, by decide +kernel, ?_, ?_, by decide +kernel, Or.inr hy⟩
  · refine (C67_accepts_iff _ _).2 (Or.inr (Or.inl ⟨Or.inr hy, by decide +kernel, by decide +kernel, by decide +kernel,
      (natToLE 32 5).reverse, by decide +kernel, by decide +kernel, by decide +kernel⟩))
  · refine (C67_accepts_iff _ _).2 (Or.inr (Or.inl ⟨Or.inr hy', by decide +kernel, by decide +kernel, by decide +kernel,
      (natToLE 32 (5 + secp256r1Curve.p)).reverse, by decide +kernel, by decide +kernel, ?_⟩))
    rw [beNumber_le]
    decide +kernel

/-- C77 holds for reduced x (and y): two accepted encodings of the same form with reduced coordinates that give equal points
are the same bytes. -/
theorem C77_canonical_partial (ba bb : Bytes) (P Q : Pt) (hl : ba.length = bb.length) (hP0 : P ≠ zero) (hQ0 : Q ≠ zero)
    (hP : decodeSecp256r1 (.bytes ba) false = .ok P) (hQ : decodeSecp256r1 (.bytes bb) false = .ok Q)
    (hPr : Reduced secp256r1Curve P) (hQr : Reduced secp256r1Curve Q) (h : ptEq secp256r1Curve P Q = true) : ba = bb := by
  have := Fact.mk p256_prime
  have hPQ : P = Q := by
    rw [ptEq_iff, ZMod.intCast_eq_intCast_iff', ZMod.intCast_eq_intCast_iff', Int.emod_eq_of_lt hPr.1 hPr.2.1,
      Int.emod_eq_of_lt hQr.1 hQr.2.1, Int.emod_eq_of_lt hPr.2.2.1 hPr.2.2.2, Int.emod_eq_of_lt hQr.2.2.1 hQr.2.2.2] at h
    cases P; cases Q
    simp only at h
    rw [h.1, h.2]
  subst hPQ
  have hlen : ∀ b, IsCompressed P b → b.length = 33 := by
    rintro b ⟨xb, rfl, hx, _⟩
    rw [List.length_cons, hx]
  have hlen' : ∀ b, IsUncompressed P b → b.length = 65 := by
    rintro b ⟨xb, yb, rfl, hx, hy, _⟩
    rw [List.length_cons, List.length_append, hx, hy]
  rcases (C67_accepts_iff _ _).1 hP with ⟨_, h1⟩ | ⟨_, _, _, _, h1⟩ | ⟨_, h1⟩
  · exact absurd h1 hP0
  · rcases (C67_accepts_iff _ _).1 hQ with ⟨_, h2⟩ | ⟨_, _, _, _, h2⟩ | ⟨_, h2⟩
    · exact absurd h2 hP0
    · obtain ⟨xb, rfl, hx, hpx⟩ := h1
      obtain ⟨xb', rfl, hx', hpx'⟩ := h2
      rw [hpx] at hpx'
      rw [beNumber_inj (hx.trans hx'.symm) (by exact_mod_cast hpx')]
    · rw [hlen _ h1, hlen' _ h2] at hl
      exact absurd hl (by decide)
  · rcases (C67_accepts_iff _ _).1 hQ with ⟨_, h2⟩ | ⟨_, _, _, _, h2⟩ | ⟨_, h2⟩
    · exact absurd h2 hP0
    · rw [hlen' _ h1, hlen _ h2] at hl
      exact absurd hl (by decide)
    · obtain ⟨xb, yb, rfl, hx, hy, hpx, hpy⟩ := h1
      obtain ⟨xb', yb', rfl, hx', hy', hpx', hpy'⟩ := h2
      rw [hpx] at hpx'
      rw [hpy] at hpy'
      rw [beNumber_inj (hx.trans hx'.symm) (by exact_mod_cast hpx'), beNumber_inj (hy.trans hy'.symm) (by exact_mod_cast hpy')]

/-! ## C78: truncated keys -/

/-- C78 fails: at the end of the stream `Deserialize_Secp256r1` returns Infinity instead of raising, and a key cut off after
its first byte is completed with fewer than 32 bytes: the single byte 02 decodes to the point with x = 0. -/
theorem C78_truncated_violated :
    (∀ s : Py.Stream, s.buf.length ≤ s.pos → deserializeSecp256r1 s = (.ok zero, s)) ∧
    (∀ pre : Bytes, ∃ P, P ≠ zero ∧ (deserializeSecp256r1 ⟨pre ++ [2], pre.length⟩).1 = .ok P) := by
  have := Fact.mk p256_prime
  constructor
  · intro s hs
    rw [deserializeSecp256r1, decodeFromReader]
    refine (IOM.bind_ok (readByte_eof hs)).trans ?_
    rw [if_pos rfl]
    rfl
  · intro pre
    have hy : (secp256r1Curve.p : ℤ) ∣ (46263761741508638697010950048709651021688891777877937875096931459006746039284 : ℤ) ^ 2 -
      ((0 : Int) ^ 3 + secp256r1Curve.a * 0 + secp256r1Curve.b) := by decide +kernel
    refine ⟨⟨0, 46263761741508638697010950048709651021688891777877937875096931459006746039284⟩, by decide +kernel, ?_⟩
    rw [deserializeSecp256r1, decodeFromReader]
    have hb := yields_readByte 2 pre []
    rw [List.append_nil] at hb
    refine (congrArg Prod.fst (IOM.bind_ok hb)).trans ?_
    rw [if_neg (by decide), if_pos (by decide)]
    have hr := read_nat_apply 32 ⟨pre ++ [2], (pre ++ [2]).length⟩ (by decide)
    refine (congrArg Prod.fst (IOM.bind_ok hr)).trans ?_
    rw [IOM.lift_apply]
    simp only [List.drop_length, List.take_nil]
    exact decompress_complete p256_mod4 (by decide +kernel) (by decide +kernel) hy

/-! ## C68: `FromBytes_Secp256r1` -/

/-- C68 for 96- and 104-byte keys: the 64 bytes after the first 0 (8) are read as the two coordinates, and every other length
not mentioned in C68 gives None. -/
theorem C68_embedded_partial (b : Bytes) (h : b.length = 96 ∨ b.length = 104) :
    ∃ P, fromBytesSecp256r1 b = .ok (some P) ∧ IsUncompressed P (4 :: (b.drop (b.length - 96)).take 64) := by
  have hu : ∀ d : Bytes, d.length = 64 → ∃ P, IsUncompressed P (4 :: d) := by
    intro d hd
    refine ⟨⟨beNumber (d.take 32), beNumber (d.drop 32)⟩, d.take 32, d.drop 32, ?_, ?_, ?_, rfl, rfl⟩
    · rw [List.take_append_drop]
    · rw [List.length_take]; omega
    · rw [List.length_drop]; omega
  obtain ⟨P, hP⟩ := hu ((b.drop (b.length - 96)).take 64) (by rw [List.length_take, List.length_drop]; omega)
  refine ⟨P, ?_, hP⟩
  rw [fromBytesSecp256r1]
  simp only
  rw [if_neg (by omega), if_neg (by omega), if_pos h, decodeSecp256r1]
  have : decodeFromHex secp256r1Curve (.bytearray (4 :: (b.drop (b.length - 96)).take 64)) false = .ok P :=
    decode_uncompressed p256_len hP
  rw [this]
  rfl

/-- C68 fails for all other documented lengths: 33- and 65-byte keys always raise `binascii.Error` (they are passed on to be
unhexlified, and their length is odd), 64- and 72-byte keys always raise `TypeError`. -/
theorem C68_lengths_violated (b : Bytes) :
    (b.length = 33 ∨ b.length = 65 → fromBytesSecp256r1 b = .error .binasciiError) ∧
    (b.length = 64 ∨ b.length = 72 → fromBytesSecp256r1 b = .error .typeError) ∧
    (b.length ∉ [33, 65, 64, 72, 96, 104] → fromBytesSecp256r1 b = .ok none) := by
  refine ⟨?_, ?_, ?_⟩
  · intro h
    have hu : unhexlify b = .error .binasciiError := by
      refine unhexlify_not_hexLike ?_
      rw [hexLike_false_iff]
      rintro ⟨h1, _⟩
      omega
    rw [fromBytesSecp256r1]
    simp only
    rw [if_pos h, decodeSecp256r1, decodeFromHex, if_pos rfl, unhexlifyVal, hu]
    rfl
  · intro h
    rw [fromBytesSecp256r1]
    simp only
    rw [if_neg (by omega), if_pos h]
  · intro h
    simp only [List.mem_cons, List.not_mem_nil, or_false, not_or] at h
    rw [fromBytesSecp256r1]
    simp only
    rw [if_neg (by omega), if_neg (by omega), if_neg (by omega)]

/-- C68 for texts: no text is decoded.  Hex text of a key (66 or 130 characters) gives None, texts of the documented lengths raise, and so does every
object that is neither text nor bytes. -/
theorem C68_text_violated (v : Val) (hb : ∀ b, v ≠ .bytes b ∧ v ≠ .bytearray b) :
    (∃ e, fromBytesSecp256r1Val v = .error e) ∨
    (∃ s : Str, v = .str s ∧ s.length ∉ [33, 65, 64, 72, 96, 104] ∧ fromBytesSecp256r1Val v = .ok none) := by
  have hodd : ∀ s : Str, s.length % 2 = 1 → ∃ e, unhexlifyVal (.str s) = .error e := by
    intro s hs
    rw [unhexlifyVal]
    cases ha : asciiBytes? s with
    | none => exact ⟨_, rfl⟩
    | some b =>
      refine ⟨.binasciiError, unhexlify_not_hexLike ?_⟩
      rw [hexLike_false_iff]
      rintro ⟨h1, _⟩
      unfold asciiBytes? at ha
      split at ha
      · cases ha
        rw [List.length_map] at h1
        omega
      · cases ha
  cases v with
  | str s =>
    by_cases h1 : s.length = 33 ∨ s.length = 65
    · obtain ⟨e, he⟩ := hodd s (by omega)
      refine Or.inl ⟨e, ?_⟩
      rw [fromBytesSecp256r1Val]
      simp only
      rw [if_pos h1, decodeSecp256r1, decodeFromHex, if_pos rfl, he]
      rfl
    · by_cases h2 : s.length = 64 ∨ s.length = 72
      · left
        have hu : ∀ t : Str, ∃ e, decodeFromHex secp256r1Curve (.str (['3', '0', '3', '4'] ++ t)) = .error e := by
          intro t
          rw [decodeFromHex, if_pos rfl]
          cases hc : unhexlifyVal (.str (['3', '0', '3', '4'] ++ t)) with
          | error e => exact ⟨e, rfl⟩
          | ok b =>
            rw [unhexlifyVal] at hc
            unfold asciiBytes? at hc
            split at hc
            · rename_i ba ha
              split at ha
              · cases ha
                change unhexlify (51 :: 48 :: 51 :: 52 :: t.map fun c => UInt8.ofNat c.toNat) = .ok b at hc
                have e1 : hexVal 51 = some 3 := by decide
                have e2 : hexVal 48 = some 0 := by decide
                have e3 : hexVal 52 = some 4 := by decide
                rw [unhexlify, unhexlify] at hc
                simp only [e1, e2, e3] at hc
                cases hr : unhexlify (t.map fun c => UInt8.ofNat c.toNat) with
                | error e => rw [hr] at hc; cases hc
                | ok r =>
                  rw [hr] at hc
                  cases hc
                  exact ⟨.exc, rfl⟩
              · cases ha
            · cases hc
        obtain ⟨e, he⟩ := hu (s.drop (s.length - 64))
        refine ⟨e, ?_⟩
        rw [fromBytesSecp256r1Val]
        simp only
        rw [if_neg h1, if_pos h2, decodeSecp256r1, he]
        rfl
      · by_cases h3 : s.length = 96 ∨ s.length = 104
        · refine Or.inl ⟨.typeError, ?_⟩
          rw [fromBytesSecp256r1Val]
          simp only
          rw [if_neg h1, if_neg h2, if_pos h3]
        · refine Or.inr ⟨s, rfl, ?_, ?_⟩
          · simp only [List.mem_cons, List.not_mem_nil, or_false, not_or]
            omega
          · rw [fromBytesSecp256r1Val]
            simp only
            rw [if_neg h1, if_neg h2, if_neg h3]
  | bytes b => exact absurd rfl (hb b).1
  | bytearray b => exact absurd rfl (hb b).2
  | _ => exact Or.inl ⟨.typeError, rfl⟩

/-- The hex text of the generator's compressed encoding gives None. -/
example : fromBytesSecp256r1Val (.str "036b17d1f2e12c4247f8bce6e563a440f277037d812deb33a0f4a13945d898c296".toList) = .ok none := by
  rw [fromBytesSecp256r1Val]
  rfl

example : ∃ P, fromBytesSecp256r1 (List.replicate 96 7) = .ok (some P) ∧ P.x = P.y :=
  ⟨⟨beNumber (List.replicate 32 7), beNumber (List.replicate 32 7)⟩, by decide +kernel, rfl⟩

/-! ## C69: order -/

private theorem reduced_eq {P Q : Pt} (hP : Reduced secp256r1Curve P) (hQ : Reduced secp256r1Curve Q) :
    ptEq secp256r1Curve P Q = true ↔ P = Q := by
  have := Fact.mk p256_prime
  rw [ptEq_iff, ZMod.intCast_eq_intCast_iff', ZMod.intCast_eq_intCast_iff', Int.emod_eq_of_lt hP.1 hP.2.1,
    Int.emod_eq_of_lt hQ.1 hQ.2.1, Int.emod_eq_of_lt hP.2.2.1 hP.2.2.2, Int.emod_eq_of_lt hQ.2.2.1 hQ.2.2.2]
  cases P; cases Q
  simp

theorem lt_iff {P Q : Pt} (hP : Reduced secp256r1Curve P) (hQ : Reduced secp256r1Curve Q) :
    lt secp256r1Curve P Q = true ↔ P.x < Q.x := by
  rw [lt]
  by_cases h : ptEq secp256r1Curve Q P = true
  · rw [if_pos h]
    rw [reduced_eq hQ hP] at h
    simp [h]
  · rw [if_neg h]
    split_ifs with h1 h2 h3 <;> simp <;> omega

private theorem le_iff {P Q : Pt} (hP : Reduced secp256r1Curve P) (hQ : Reduced secp256r1Curve Q) :
    le secp256r1Curve P Q = true ↔ P = Q ∨ P.x < Q.x := by
  rw [le]
  by_cases h : ptEq secp256r1Curve Q P = true
  · rw [if_pos h]
    rw [reduced_eq hQ hP] at h
    simp [h]
  · rw [if_neg h, lt_iff hP hQ]
    rw [reduced_eq hQ hP] at h
    constructor
    · exact Or.inr
    · rintro (rfl | h')
      · exact absurd rfl h
      · exact h'

private theorem gt_iff {P Q : Pt} (hP : Reduced secp256r1Curve P) (hQ : Reduced secp256r1Curve Q) :
    gt secp256r1Curve P Q = true ↔ Q.x < P.x := by
  rw [gt]
  by_cases h : ptEq secp256r1Curve Q P = true
  · rw [if_pos h]
    rw [reduced_eq hQ hP] at h
    simp [h]
  · rw [if_neg h]
    split_ifs with h1 h2 h3 <;> simp <;> omega

private theorem ge_iff {P Q : Pt} (hP : Reduced secp256r1Curve P) (hQ : Reduced secp256r1Curve Q) :
    ge secp256r1Curve P Q = true ↔ P = Q ∨ Q.x < P.x := by
  rw [ge]
  by_cases h : ptEq secp256r1Curve Q P = true
  · rw [if_pos h]
    rw [reduced_eq hQ hP] at h
    simp [h]
  · rw [if_neg h, gt_iff hP hQ]
    rw [reduced_eq hQ hP] at h
    constructor
    · exact Or.inr
    · rintro (rfl | h')
      · exact absurd rfl h
      · exact h'

/-- C99, what is true: on reduced points the comparisons are a partial order consistent with `==`, in which only points with
the same x are incomparable. -/
theorem C99_partial_order (P Q R : Pt) (hP : Reduced secp256r1Curve P) (hQ : Reduced secp256r1Curve Q)
    (hR : Reduced secp256r1Curve R) :
    le secp256r1Curve P P = true ∧
    (le secp256r1Curve P Q = true → le secp256r1Curve Q P = true → P = Q) ∧
    (le secp256r1Curve P Q = true → le secp256r1Curve Q R = true → le secp256r1Curve P R = true) ∧
    (lt secp256r1Curve P Q = true ↔ le secp256r1Curve P Q = true ∧ ptEq secp256r1Curve P Q = false) ∧
    (gt secp256r1Curve P Q = true ↔ lt secp256r1Curve Q P = true) ∧
    (ge secp256r1Curve P Q = true ↔ le secp256r1Curve Q P = true) ∧
    (le secp256r1Curve P Q = true ∨ le secp256r1Curve Q P = true ↔ P = Q ∨ P.x ≠ Q.x) := by
  rw [le_iff hP hP, le_iff hP hQ, le_iff hQ hP, le_iff hQ hR, le_iff hP hR, lt_iff hP hQ, gt_iff hP hQ, lt_iff hQ hP,
    ge_iff hP hQ, Bool.eq_false_iff, ne_eq, reduced_eq hP hQ]
  refine ⟨Or.inl rfl, ?_, ?_, ?_, Iff.rfl, ?_, ?_⟩
  · rintro (h | h) (h' | h')
    · exact h
    · exact h
    · exact h'.symm
    · omega
  · rintro (rfl | h) (rfl | h')
    · exact Or.inl rfl
    · exact Or.inr h'
    · exact Or.inr h
    · exact Or.inr (h.trans h')
  · constructor
    · intro h
      refine ⟨Or.inr h, ?_⟩
      rintro rfl
      omega
    · rintro ⟨h | h, hn⟩
      · exact absurd h hn
      · exact h
  · constructor
    · rintro (h | h)
      · exact Or.inl h.symm
      · exact Or.inr h
    · rintro (h | h)
      · exact Or.inl h.symm
      · exact Or.inr h
  · constructor
    · rintro ((h | h) | (h | h))
      · exact Or.inl h
      · exact Or.inr (by omega)
      · exact Or.inl h.symm
      · exact Or.inr (by omega)
    · rintro (h | h)
      · exact Or.inl (Or.inl h)
      · rcases lt_or_gt_of_ne h with h | h
        · exact Or.inl (Or.inr h)
        · exact Or.inr (Or.inr h)

/-- C69 fails: every finite point of the curve and its negative are different points neither of which is `<=` the other. -/
theorem C69_total_violated (P : Pt) (ho : OnCurve secp256r1Curve P) (h0 : P ≠ zero) (hr : Reduced secp256r1Curve P) :
    OnCurve secp256r1Curve (neg secp256r1Curve P) ∧ Reduced secp256r1Curve (neg secp256r1Curve P) ∧
    ptEq secp256r1Curve P (neg secp256r1Curve P) = false ∧
    le secp256r1Curve P (neg secp256r1Curve P) = false ∧ le secp256r1Curve (neg secp256r1Curve P) P = false ∧
    ge secp256r1Curve P (neg secp256r1Curve P) = false ∧ ge secp256r1Curve (neg secp256r1Curve P) P = false := by
  have := Fact.mk p256_prime
  have hy := finite_y ho h0
  have hr' : Reduced secp256r1Curve (neg secp256r1Curve P) := by
    obtain ⟨h1, h2, h3, h4⟩ := hr
    refine ⟨h1, h2, ?_, ?_⟩
    · show 0 ≤ (secp256r1Curve.p : Int) - P.y
      omega
    · show (secp256r1Curve.p : Int) - P.y < secp256r1Curve.p
      omega
  have hodd : (secp256r1Curve.p : Int) % 2 = 1 := by decide +kernel
  have hne : P ≠ neg secp256r1Curve P := by
    intro h
    have : P.y = (secp256r1Curve.p : Int) - P.y := congrArg Pt.y h
    omega
  have hx : (neg secp256r1Curve P).x = P.x := rfl
  obtain ⟨A, hA⟩ := exists_denotes p256_proper ho
  refine ⟨denotes_onCurve (denotes_neg p256_proper hA (by rintro rfl; exact h0 hA)), hr', ?_, ?_, ?_, ?_, ?_⟩
  · rw [Bool.eq_false_iff, ne_eq, reduced_eq hr hr']; exact hne
  · rw [Bool.eq_false_iff, ne_eq, le_iff hr hr', hx]
    rintro (h | h)
    · exact hne h
    · omega
  · rw [Bool.eq_false_iff, ne_eq, le_iff hr' hr, hx]
    rintro (h | h)
    · exact hne h.symm
    · omega
  · rw [Bool.eq_false_iff, ne_eq, ge_iff hr hr', hx]
    rintro (h | h)
    · exact hne h
    · omega
  · rw [Bool.eq_false_iff, ne_eq, ge_iff hr' hr, hx]
    rintro (h | h)
    · exact hne h.symm
    · omega

/-! ## C76: text form -/

/-- C76 fails for every finite point: `ToString()` is the hex text of the hex text of the encoding (132 characters), and
`decode_from_hex` of it always raises. -/
theorem C76_double_hex_violated (P : Pt) (ho : OnCurve secp256r1Curve P) (h0 : P ≠ zero) (hr : Reduced secp256r1Curve P) :
    ∃ ba, IsCompressed P ba ∧ toString secp256r1Curve P = .ok (hexStr (hexlify ba)) ∧
      toBytes secp256r1Curve P = .ok (hexlify (hexlify ba)) ∧ (hexStr (hexlify ba)).length = 132 ∧
      decodeFromHex secp256r1Curve (.str (hexStr (hexlify ba))) = .error .exc ∧
      decodeFromHex secp256r1Curve (.bytes (hexlify (hexlify ba))) = .error .exc := by
  obtain ⟨ba, h1, h2, h3, h4⟩ := encode_p256 ho h0 hr true
  have h2' : IsCompressed P ba := h2
  have hbad : decodeBytes secp256r1Curve (hexlify ba) = .error .exc := by
    obtain ⟨xb, rfl, _⟩ := h2'
    rw [hexlify]
    split
    · rfl
    · rfl
  refine ⟨ba, h2, ?_, ?_, ?_, ?_, ?_⟩
  · rw [EC.toString, h1]
  · rw [toBytes, h1]
  · rw [hexStr_length, hexlify_length, h4]; rfl
  · rw [hexStr, hex_of_unhex (unhexlifyVal_hexStr _)]
    exact hbad
  · rw [decodeFromHex, if_pos rfl, unhexlifyVal, unhexlify_hexlify]
    exact hbad

/-- C76, what is true: the text determines the point (it is the encoding, twice hexlified; undoing one layer gives a text that
decodes to the point), and it round-trips for Infinity. -/
theorem C76_text_partial :
    (∀ P, OnCurve secp256r1Curve P → P ≠ zero → Reduced secp256r1Curve P →
      ∃ t b, toString secp256r1Curve P = .ok t ∧ unhexlifyVal (.str t) = .ok b ∧
        decodeFromHex secp256r1Curve (.bytes b) = .ok P) ∧
    (∃ t, toString secp256r1Curve zero = .ok t ∧ decodeFromHex secp256r1Curve (.str t) = .ok zero) := by
  constructor
  · intro P ho h0 hr
    obtain ⟨ba, h1, h2, h3, h4⟩ := encode_p256 ho h0 hr true
    refine ⟨hexStr (hexlify ba), hexlify ba, by rw [EC.toString, h1], ?_, ?_⟩
    · rw [hexStr, unhexlifyVal_hexStr]
    · rw [decodeFromHex, if_pos rfl, unhexlifyVal, unhexlify_hexlify]
      exact h3
  · exact ⟨"00".toList, by decide +kernel, by decide +kernel⟩

/-! ## C79: `decompress` -/

/-- C79 for small fields: for every odd prime p < 2^52 not congruent 1 mod 8, `decompress(x, flag)` of the x of a point of the
curve with y ≠ 0 is that point or its negative, with the parity asked for. -/
theorem C79_decompress_partial (c : Curve) (hprime : c.p.Prime) (hp : c.p < 2 ^ 52)
    (h8 : c.p % 8 = 3 ∨ c.p % 8 = 5 ∨ c.p % 8 = 7) (x y flag : Int) (hf : flag = 0 ∨ flag = 1)
    (hy : ¬ (c.p : Int) ∣ y) (he : (c.p : Int) ∣ y ^ 2 - (x ^ 3 + c.a * x + c.b)) :
    ∃ P, decompress c x flag = .ok P ∧ P.x = x ∧ OnCurve c P ∧ P.y % 2 = flag ∧ 0 < P.y ∧ P.y < c.p := by
  have := Fact.mk hprime
  have he' : (y : ZMod c.p) ^ 2 = x ^ 3 + c.a * x + c.b := by
    have := (ZMod.intCast_zmod_eq_zero_iff_dvd _ _).2 he
    push_cast at this
    exact sub_eq_zero.1 this
  have hy0 : (y : ZMod c.p) ≠ 0 := by rwa [ne_eq, ZMod.intCast_zmod_eq_zero_iff_dvd]
  have hv : ¬ (c.p : Int) ∣ rhs c x := by
    rw [← ZMod.intCast_zmod_eq_zero_iff_dvd, cast_rhs, ← he']
    exact pow_ne_zero _ hy0
  obtain ⟨r, h1, h2, h3, h4, h5⟩ := C75_sqrt_partial c.p hprime hp h8 (rhs c x) hv ⟨y, by
    rw [← ZMod.intCast_eq_intCast_iff, cast_rhs, ← he', pow_two, Int.cast_mul]⟩ flag hf
  refine ⟨⟨x, r⟩, by rw [decompress, h1], rfl, Or.inr ?_, h3, h4, h5⟩
  rw [← ZMod.intCast_zmod_eq_zero_iff_dvd]
  have := (ZMod.intCast_eq_intCast_iff _ _ _).2 h2
  rw [cast_rhs] at this
  push_cast at this ⊢
  rw [pow_two, this, sub_self]

/-- C79 fails on secp256r1: decompressing the x of the base point, with either flag, gives a pair that is not on the curve. -/
theorem C79_decompress_violated (flag : Int) :
    ∃ P, decompress secp256r1Curve secp256r1.G.x flag = .ok P ∧ ¬ OnCurve secp256r1Curve P := by
  have := Fact.mk p256_prime
  obtain ⟨r, hr, hsq⟩ := p256_fSqrt (rhs secp256r1Curve secp256r1.G.x) flag (by decide +kernel)
  refine ⟨⟨secp256r1.G.x, r⟩, by rw [decompress, hr], ?_⟩
  rintro (h | h)
  · have hx : secp256r1.G.x = 0 := congrArg Pt.x h
    exact absurd hx (by decide +kernel)
  · rw [← ZMod.intCast_zmod_eq_zero_iff_dvd] at h
    simp only at h
    rw [Int.cast_sub, Int.cast_pow, pow_two, hsq, sub_eq_zero] at h
    have hcr : (((secp256r1.G.x ^ 3 + secp256r1Curve.a * secp256r1.G.x + secp256r1Curve.b : Int)) : ZMod secp256r1Curve.p) =
        ((rhs secp256r1Curve secp256r1.G.x : Int) : ZMod secp256r1Curve.p) := by
      rw [cast_rhs]; push_cast; rfl
    rw [hcr] at h
    have hnat : ((rhs secp256r1Curve secp256r1.G.x : Int) : ZMod secp256r1Curve.p) =
        (((rhs secp256r1Curve secp256r1.G.x).toNat : ℕ) : ZMod secp256r1Curve.p) := by
      rw [← Int.cast_natCast, Int.toNat_of_nonneg (rhs_range _).1]
    have hp := Pratt.powMod_eq (b := (rhs secp256r1Curve secp256r1.G.x).toNat) (e := 2 ^ 254 - 2 ^ 222 + (2 ^ 254 - 2 ^ 222))
      (m := secp256r1Curve.p) (by decide +kernel)
    rw [hnat, ← hp, ZMod.natCast_eq_natCast_iff'] at h
    revert h
    decide +kernel

/-- On the small curve mod 23 the hypotheses are met by (3, 10). -/
example : Nat.Prime 23 ∧ ¬ (23 : Int) ∣ 10 ∧ (23 : Int) ∣ 10 ^ 2 - (3 ^ 3 + 1 * 3 + 1) := ⟨by norm_num, by decide, by decide⟩

end Neo.Props
