import Verif.Props.SignVerify
import Verif.Proofs.Primitives
import Verif.Spec.Nonce

/-!
# C137-C140: forms of a message, several signatures for one message, reuse of nonces
-/

namespace Neo.Props
open Py Spec EC Spec.EC Neo.Bitcoin WeierstrassCurve

/-! ### Arithmetic of valid signatures -/

theorem order_zsmul {i j : Int} (h : (i : ZMod p256Order) = j) : letI := Fact.mk p256_prime
    ∀ A : (weierstrass secp256r1Curve).Point, i • A = j • A := by
  have := Fact.mk p256_prime
  intro A
  have hz := EcdsaPkg.order_kills A
  have hd := (ZMod.intCast_eq_intCast_iff_dvd_sub i j p256Order).1 h
  obtain ⟨k, hk⟩ := hd
  have : j = i + (p256Order : Int) * k := by omega
  rw [this, add_zsmul, mul_comm, mul_zsmul, natCast_zsmul, hz, zsmul_zero, add_zero]

/-- A multiple of a point other than 0 is 0 only for multiples of the order. -/
theorem order_dvd : letI := Fact.mk p256_prime
    ∀ (A : (weierstrass secp256r1Curve).Point) (i : Int), A ≠ 0 → i • A = 0 → (p256Order : Int) ∣ i := by
  have := Fact.mk p256_prime
  have := Fact.mk p256Order_prime
  intro A i hA hi
  have ho : addOrderOf A = p256Order := addOrderOf_eq_prime (EcdsaPkg.order_kills A) hA
  have := addOrderOf_dvd_iff_zsmul_eq_zero.2 hi
  rwa [ho] at this

/-- Validity, in terms of one point: with T = z·G + r·Q, the point (s⁻¹)·T has x coordinate r mod n. -/
theorem valid_point {z r s : Nat} {A : (weierstrass secp256r1Curve).Point} (h : EcdsaValid z A r s) :
    letI := Fact.mk p256_prime
    ∀ G, Denotes secp256r1Curve secp256r1.G G → ∃ (w : Nat) (x y : ZMod secp256r1Curve.p) (hn : _),
      ((s : ZMod p256Order) * w = 1) ∧
      (w : Int) • (z • G + r • A) = .some x y hn ∧ x.val % p256Order = r := by
  have := Fact.mk p256_prime
  intro G hG
  obtain ⟨-, -, -, -, h⟩ := h
  obtain ⟨w, x, y, hn, h1, h2, h3⟩ := h G hG
  refine ⟨w, x, y, hn, ?_, ?_, h3⟩
  · have : ((s * w : Nat) : ZMod p256Order) = ((1 : Nat) : ZMod p256Order) := by rw [← h1, ZMod.natCast_mod]
    push_cast at this
    exact this
  · rw [← h2, zsmul_add, ← natCast_zsmul G z, ← natCast_zsmul A r, ← mul_zsmul, ← mul_zsmul, ← natCast_zsmul, ← natCast_zsmul]
    congr 1
    · exact order_zsmul (by push_cast; rw [mul_comm]) G
    · exact order_zsmul (by push_cast; rw [mul_comm]) A

/-- The mirror image of a valid signature is valid. -/
private theorem valid_mirror {z r s : Nat} {A : (weierstrass secp256r1Curve).Point} (h : EcdsaValid z A r s) :
    EcdsaValid z A r (p256Order - s) := by
  have := Fact.mk p256_prime
  have := Fact.mk p256Order_prime
  have hn0 := p256Order_prime.pos
  obtain ⟨r0, r1, s0, s1, hh⟩ := h
  refine ⟨r0, r1, by omega, by omega, ?_⟩
  intro G hG
  obtain ⟨w, x, y, hn, h1, h2, h3⟩ := hh G hG
  have hs : ((p256Order - s : Nat) : ZMod p256Order) = -(s : ZMod p256Order) := by
    rw [Nat.cast_sub (by omega)]; simp
  obtain ⟨w', hw'⟩ : ∃ w' : Nat, (w' : ZMod p256Order) = -(w : ZMod p256Order) := by
    refine ⟨(-(w : ZMod p256Order)).val, ?_⟩
    rw [ZMod.natCast_val, ZMod.cast_id]
  have hmul : ∀ t : Nat, ((t * w' % p256Order : Nat) : ZMod p256Order) = ((-((t * w % p256Order : Nat) : Int) : Int) : ZMod p256Order) := by
    intro t
    rw [ZMod.natCast_mod]
    push_cast
    rw [hw']
    ring
  obtain ⟨y', hn', hneg⟩ : ∃ y' hn', -(Affine.Point.some x y hn) = .some x y' hn' := ⟨_, _, Affine.Point.neg_some hn⟩
  refine ⟨w', x, y', hn', ?_, ?_, h3⟩
  · have : (((p256Order - s) * w' : Nat) : ZMod p256Order) = ((1 : Nat) : ZMod p256Order) := by
      rw [Nat.cast_mul, hs, hw', neg_mul_neg, ← Nat.cast_mul, ← h1, ZMod.natCast_mod]
    rw [ZMod.natCast_eq_natCast_iff'] at this
    rw [this]
    exact Nat.mod_eq_of_lt p256Order_prime.one_lt
  · have e1 : ((z * w' % p256Order : Nat) : Int) • G = (-((z * w % p256Order : Nat) : Int)) • G :=
      order_zsmul (by rw [Int.cast_natCast]; exact hmul z) G
    have e2 : ((r * w' % p256Order : Nat) : Int) • A = (-((r * w % p256Order : Nat) : Int)) • A :=
      order_zsmul (by rw [Int.cast_natCast]; exact hmul r) A
    rw [← natCast_zsmul G, ← natCast_zsmul A, e1, e2, neg_zsmul, neg_zsmul, ← neg_add, natCast_zsmul, natCast_zsmul, h2]
    exact hneg

/-- Two valid signatures with one r, for r so large that it is the x coordinate itself: s is the same or mirrored. -/
private theorem valid_same_r {z r s s' : Nat} {A : (weierstrass secp256r1Curve).Point} (hbig : secp256r1Curve.p ≤ r + p256Order)
    (h : EcdsaValid z A r s) (h' : EcdsaValid z A r s') : s' = s ∨ s' = p256Order - s := by
  have := Fact.mk p256_prime
  have := Fact.mk p256Order_prime
  obtain ⟨G, hG, -⟩ := p256_order
  obtain ⟨w, x, y, hn, h1, h2, h3⟩ := valid_point h G hG
  obtain ⟨w', x', y', hn', h1', h2', h3'⟩ := valid_point h' G hG
  have hx : ∀ x : ZMod secp256r1Curve.p, x.val % p256Order = r → x.val = r := by
    intro x hx
    have hlt := ZMod.val_lt x
    have hp2 : secp256r1Curve.p < 2 * p256Order := by decide +kernel
    by_cases hc : x.val < p256Order
    · rwa [Nat.mod_eq_of_lt hc] at hx
    · have : x.val % p256Order = x.val - p256Order := by
        rw [Nat.mod_eq_sub_mod (by omega), Nat.mod_eq_of_lt (by omega)]
      omega
  have hxx : x = x' := ZMod.val_injective _ ((hx x h3).trans (hx x' h3').symm)
  subst hxx
  set T := z • G + r • A with hT
  have hT0 : T ≠ 0 := by
    intro h0
    rw [h0, zsmul_zero] at h2
    cases h2
  have hpm : (w : Int) • T = (w' : Int) • T ∨ (w : Int) • T = -((w' : Int) • T) := by
    rw [h2, h2', Affine.Point.neg_some hn']
    rcases Affine.Y_eq_of_X_eq hn.1 hn'.1 rfl with e | e
    · left; subst e; rfl
    · right; subst e; rfl
  have hw : (w : ZMod p256Order) = w' ∨ (w : ZMod p256Order) = -w' := by
    rcases hpm with e | e
    · left
      have : ((w : Int) - w') • T = 0 := by rw [sub_zsmul, e, add_neg_cancel]
      have := (ZMod.intCast_zmod_eq_zero_iff_dvd _ _).2 (order_dvd T _ hT0 this)
      push_cast at this
      exact sub_eq_zero.1 this
    · right
      have : ((w : Int) + w') • T = 0 := by rw [add_zsmul, e, neg_add_cancel]
      have := (ZMod.intCast_zmod_eq_zero_iff_dvd _ _).2 (order_dvd T _ hT0 this)
      push_cast at this
      exact eq_neg_of_add_eq_zero_left this
  have hs : (s : ZMod p256Order) = s' ∨ (s : ZMod p256Order) = -s' := by
    have hinv := eq_inv_of_mul_eq_one_left h1
    have hinv' := eq_inv_of_mul_eq_one_left h1'
    rcases hw with e | e
    · left; rw [hinv, hinv', e]
    · right; rw [hinv, hinv', e, inv_neg]
  obtain ⟨-, -, s0, s1, -⟩ := h
  obtain ⟨-, -, s0', s1', -⟩ := h'
  rcases hs with e | e
  · left
    have := (ZMod.natCast_eq_natCast_iff' s s' p256Order).1 e
    rw [Nat.mod_eq_of_lt s1, Nat.mod_eq_of_lt s1'] at this
    exact this.symm
  · right
    have e' : ((s + s' : Nat) : ZMod p256Order) = 0 := by push_cast; rw [e, neg_add_cancel]
    rw [ZMod.natCast_eq_zero_iff] at e'
    obtain ⟨k, hk⟩ := e'
    have : k = 1 := by
      rcases Nat.lt_trichotomy k 1 with hk1 | hk1 | hk1
      · have : k = 0 := by omega
        subst this
        omega
      · exact hk1
      · have := Nat.mul_le_mul_left p256Order (show 2 ≤ k by omega)
        omega
    subst this
    omega

/-! ### C137 -/

/-- C137 is false of every accepted signature: exchanging s for n - s gives another accepted signature of the same message under
the same key. -/
theorem C137_mirrored_signature_violated (P : Prims) (B : Btc) (hB : VerifiesEcdsa B P.sha256) (message : Val) (key : PubKeyArg)
    (unhex : Bool) (w : World) (hw : ∀ b, key = .bytes b → b.length = 33 → w.curve = signatureCurve) (rb sb : Bytes)
    (hr : rb.length = 32)
    (h : (Neo.verifySignature B message (.bytes (rb ++ sb)) key unhex w).1 = .ok true) :
    ∃ sb' : Bytes, sb'.length = 32 ∧ sb' ≠ sb ∧ beNumber sb' = p256Order - beNumber sb ∧
      (Neo.verifySignature B message (.bytes (rb ++ sb')) key unhex w).1 = .ok true := by
  obtain ⟨Q, A, rb', sb0, m, h1, h2, h3, h4, h5, h6, h7, h8, h9⟩ := (C93_true_iff P B hB message _ key unhex w hw).1 h
  have h5' : rb ++ sb = rb' ++ sb0 := by
    rcases h5 with h5 | h5
    · exact Val.bytes.inj h5
    · cases h5
  obtain ⟨e1, e2⟩ := List.append_inj h5' (by omega)
  subst e1 e2
  have hv := valid_mirror h9
  have hlt : p256Order - beNumber sb < 256 ^ 32 := by
    have : p256Order < 256 ^ 32 := by decide +kernel
    omega
  refine ⟨(natToLE 32 (p256Order - beNumber sb)).reverse, by simp [natToLE_length], ?_, ?_, ?_⟩
  · intro e
    have : beNumber sb = p256Order - beNumber sb := by
      conv_lhs => rw [← e]
      rw [beNumber_le, List.reverse_reverse, leToNat_natToLE, Nat.mod_eq_of_lt hlt]
    have hodd : p256Order % 2 = 1 := by decide +kernel
    obtain ⟨-, -, s0, s1, -⟩ := h9
    omega
  · rw [beNumber_le, List.reverse_reverse, leToNat_natToLE, Nat.mod_eq_of_lt hlt]
  · refine (C93_true_iff P B hB message _ key unhex w hw).2 ⟨Q, A, rb, _, m, h1, h2, h3, h4, .inl rfl, hr, by simp [natToLE_length], h8, ?_⟩
    rw [beNumber_le (List.reverse _), List.reverse_reverse, leToNat_natToLE, Nat.mod_eq_of_lt hlt]
    exact hv

/-- C137, what holds: apart from values of r below p - n (about 2^128 out of 2^256) the signatures with one r that are accepted
for a message and key are at most these two: s and n - s. -/
theorem C137_at_most_two_partial (P : Prims) (B : Btc) (hB : VerifiesEcdsa B P.sha256) (message : Val) (key : PubKeyArg)
    (unhex : Bool) (w : World) (rb sb sb' : Bytes)
    (hr : rb.length = 32) (hs : sb.length = 32) (hs' : sb'.length = 32) (hbig : secp256r1Curve.p ≤ beNumber rb + p256Order)
    (h : (Neo.verifySignature B message (.bytes (rb ++ sb)) key unhex w).1 = .ok true)
    (h' : (Neo.verifySignature B message (.bytes (rb ++ sb')) key unhex w).1 = .ok true) :
    sb' = sb ∨ beNumber sb' = p256Order - beNumber sb := by
  have hout : ∀ sg, (Neo.verifySignature B message (.bytes (rb ++ sg)) key unhex w).1 = .ok true →
      ∃ kb, verifySignature.keyBytes key = .ok kb ∧ ∃ kb', (if kb.length = 33 then btcDecompress w.curve kb else .ok kb) = .ok kb' ∧
        B.verify kb' (.bytes (rb ++ sg)) (verifySignature.messageVal message unhex) = .ok true := by
    intro sg h
    change verifySignature.run B message (.bytes (rb ++ sg)) key unhex w.curve = _ at h
    cases hk : verifySignature.keyBytes key with
    | error e => rw [verifySignature.run, hk] at h; cases h
    | ok kb =>
      refine ⟨kb, rfl, ?_⟩
      cases hk' : (if kb.length = 33 then btcDecompress w.curve kb else .ok kb) with
      | error e =>
        rw [verifySignature.run, hk] at h
        simp only at h
        rw [hk'] at h
        cases h
      | ok kb' =>
        refine ⟨kb', rfl, ?_⟩
        rw [run_ok hk hk'] at h
        cases hv : B.verify kb' (.bytes (rb ++ sg)) (verifySignature.messageVal message unhex) with
        | error e => rw [hv] at h; cases h
        | ok b => rw [hv] at h; exact h
  obtain ⟨kb, a1, kb', a2, a3⟩ := hout sb h
  obtain ⟨kc, b1, kc', b2, b3⟩ := hout sb' h'
  rw [a1] at b1
  cases b1
  rw [a2] at b2
  cases b2
  obtain ⟨Q, A, r1, s1, m, c1, c2, -, -, c5, c6, c7, c8, c9⟩ := (hB _ _ _).1 a3
  obtain ⟨Q', A', r2, s2, m', d1, d2, -, -, d5, d6, d7, d8, d9⟩ := (hB _ _ _).1 b3
  have hsig : ∀ r1 s1 sg : Bytes, r1.length = 32 → (Val.bytes (rb ++ sg) = .bytes (r1 ++ s1) ∨ Val.bytes (rb ++ sg) = .bytearray (r1 ++ s1)) →
      r1 = rb ∧ s1 = sg := by
    intro r1 s1 sg hl e
    rcases e with e | e
    · obtain ⟨e1, e2⟩ := List.append_inj (Val.bytes.inj e) (by omega)
      exact ⟨e1.symm, e2.symm⟩
    · cases e
  obtain ⟨rfl, rfl⟩ := hsig _ _ _ c6 c5
  obtain ⟨rfl, rfl⟩ := hsig _ _ _ d6 d5
  have hm : m = m' := by
    rcases c8 with c8 | c8 <;> rcases d8 with d8 | d8 <;> rw [c8] at d8 <;> cases d8 <;> rfl
  subst hm
  have hQ : Q = Q' := uncompressed_inj c1 d1
  subst hQ
  have := Fact.mk p256_prime
  have hA : A = A' := (denotes_same p256_proper c2.2.2 d2.2.2).1 ⟨by simp, by simp⟩
  subst hA
  rcases valid_same_r hbig c9 d9 with e | e
  · exact .inl (beNumber_inj (by omega) e)
  · exact .inr e

/-- There are accepted signatures, and values of r in the range of C137_at_most_two_partial. -/
example : (∃ (P : Prims) (B : Btc) (message : Val) (key : PubKeyArg) (w : World) (rb sb : Bytes), VerifiesEcdsa B P.sha256 ∧
    rb.length = 32 ∧ sb.length = 32 ∧ (∀ b, key = .bytes b → b.length = 33 → w.curve = signatureCurve) ∧
    (Neo.verifySignature B message (.bytes (rb ++ sb)) key true w).1 = .ok true) ∧
    secp256r1Curve.p ≤ secp256r1.G.x.toNat + p256Order := by
  refine ⟨?_, by decide +kernel⟩
  obtain ⟨P, kp, w, sig, -, -, h⟩ := accepted_example
  have hw : ∀ b, PubKeyArg.point kp.publicKey = .bytes b → b.length = 33 → w.curve = signatureCurve := fun b e => by cases e
  obtain ⟨Q, A, rb, sb, m, -, -, -, -, h5, h6, h7, -, -⟩ := (C93_true_iff P _ (pkgBtc_verifies _ P) _ _ _ _ w hw).1 h
  have : sig = rb ++ sb := by
    rcases h5 with h5 | h5
    · exact Val.bytes.inj h5
    · cases h5
  subst this
  exact ⟨P, _, _, _, w, rb, sb, pkgBtc_verifies _ P, h6, h7, hw, h⟩

/-! ### C138 -/

/-- C138. The bytes of the message alone matter, not the form in which they are given: hexadecimal text as str or bytes with
`unhex`, in upper or lower case, or raw bytes without. -/
theorem C138_verify_forms (B : Btc) (m t : Bytes) (ts : Str) (signature : Val) (key : PubKeyArg) (w : World)
    (ht : unhexlify t = .ok m) (hts : unhexlifyVal (.str ts) = .ok m) :
    Neo.verifySignature B (.bytes t) signature key true w = Neo.verifySignature B (.bytes m) signature key false w ∧
    Neo.verifySignature B (.bytearray t) signature key true w = Neo.verifySignature B (.bytes m) signature key false w ∧
    Neo.verifySignature B (.str ts) signature key true w = Neo.verifySignature B (.bytes m) signature key false w := by
  have key' : ∀ v, unhexlifyVal v = .ok m →
      Neo.verifySignature B v signature key true w = Neo.verifySignature B (.bytes m) signature key false w := by
    intro v hv
    have : verifySignature.messageVal v true = verifySignature.messageVal (.bytes m) false := by
      unfold verifySignature.messageVal
      rw [if_pos rfl, if_neg (by decide), hv]
    show (verifySignature.run B v signature key true w.curve, w) = (verifySignature.run B (.bytes m) signature key false w.curve, w)
    unfold verifySignature.run
    rw [this]
  exact ⟨key' _ ht, key' _ ht, key' _ hts⟩

/-- C138. A text and its UTF-8 bytes are the same message without `unhex`. -/
theorem C138_verify_text (B : Btc) (s : Str) (signature : Val) (key : PubKeyArg) (w : World) :
    Neo.verifySignature B (.str s) signature key false w = Neo.verifySignature B (.bytes (utf8 s)) signature key false w := rfl

/-- C138. Sign depends only on the bytes its hexadecimal message denotes; any other message raises and nothing is signed. -/
theorem C138_sign_forms (P : Prims) (B : Btc) (message message' privateKey : Val) (w : World) :
    (∀ m, unhexlifyVal message = .ok m → unhexlifyVal message' = .ok m →
      Neo.sign P B message privateKey w = Neo.sign P B message' privateKey w) ∧
    ((∀ m, unhexlifyVal message ≠ .ok m) → ∃ e, Neo.sign P B message privateKey w = (.error e, w)) := by
  constructor
  · intro m h h'
    unfold Neo.sign
    rw [h, h']
  · intro h
    cases hm : unhexlifyVal message with
    | ok m => exact absurd hm (h m)
    | error e => exact ⟨e, by unfold Neo.sign; rw [hm]⟩

example : unhexlify [0x61, 0x42] = .ok [0xab] ∧ unhexlify [0x41, 0x62] = .ok [0xab] ∧ unhexlifyVal (.str ['a', 'b']) = .ok [0xab] ∧
    ∀ m, unhexlifyVal (.str ['x', 'y']) ≠ .ok m := by
  refine ⟨by decide, by decide, by decide, ?_⟩
  intro m h
  have e : unhexlifyVal (.str ['x', 'y']) = .error .binasciiError := by decide
  rw [e] at h
  cases h

/-! ### C139 -/

private theorem xor_inj (c : UInt8) : Function.Injective (· ^^^ c : UInt8 → UInt8) := by
  intro a b h
  have h : a ^^^ c = b ^^^ c := h
  have := congrArg (· ^^^ c) h
  simpa [UInt8.xor_assoc] using this

private theorem hmac_eq (k m : Bytes) (h : k.length ≤ 64) : Kdf.hmac k m = hmacOf Hashes.sha256 k m := by
  unfold Kdf.hmac hmacOf hmacOuter hmacInner
  rw [if_pos h]

private theorem hmacOf_length (k m : Bytes) : (hmacOf Hashes.sha256 k m).length = 32 := Hashes.sha256_length _

/-- Equal HMACs under 32-byte keys: the same key and message, or a collision among the strings hashed. -/
private theorem hmac_binds (H : Bytes → Bytes) (k k' m m' : Bytes) (hk : k.length = 32) (hk' : k'.length = 32)
    (h : hmacOf H k m = hmacOf H k' m') : (k = k' ∧ m = m') ∨
      ∃ x ∈ [hmacInner k m, hmacOuter H k m], ∃ y ∈ [hmacInner k' m', hmacOuter H k' m'], x ≠ y ∧ H x = H y := by
  by_cases ho : hmacOuter H k m = hmacOuter H k' m'
  · have hi : hmacInner k m = hmacInner k' m' ∨ hmacInner k m ≠ hmacInner k' m' := Classical.em _
    obtain ⟨e1, e2⟩ := List.append_inj ho (by simp [hk, hk'])
    have e1 := List.map_injective_iff.2 (xor_inj 0x5c) e1
    rw [hk, hk'] at e1
    have hkk : k = k' := List.append_cancel_right e1
    rcases hi with hi | hi
    · left
      refine ⟨hkk, ?_⟩
      unfold hmacInner at hi
      rw [hkk] at hi
      exact List.append_cancel_left hi
    · right
      exact ⟨_, by simp, _, by simp, hi, e2⟩
  · right
    exact ⟨_, List.mem_cons_of_mem _ (by simp), _, List.mem_cons_of_mem _ (by simp), ho, h⟩

private theorem deterministicK_eq (d key : Bytes) (hd : d.length = 32) (hk : key.length = 32) :
    ∃ k2 v2, (nonceMacs Hashes.sha256 key d)[4]? = some (k2, v2) ∧
      Kdf.deterministicK (hexStr d) (beNumber key) = beNumber (hmacOf Hashes.sha256 k2 v2) := by
  have henc : ∀ b : Bytes, b.length = 32 → Kdf.enc32 (leToNat b.reverse) = b := by
    intro b hb
    have h256 : leToNat b.reverse < 2 ^ 256 := by
      have := leToNat_lt b.reverse
      rw [List.length_reverse, hb] at this
      exact this
    obtain ⟨h1, h2⟩ := btcEncode_spec h256
    refine beNumber_inj (h1.trans hb.symm) ?_
    rw [beNumber_le b]
    exact h2
  refine ⟨_, _, rfl, ?_⟩
  unfold Kdf.deterministicK
  rw [show unhexlifyVal (.str (hexStr d)) = .ok d from unhexlifyVal_hexStr d, beNumber_le key]
  simp only
  rw [henc d hd, henc key hk]
  have e1 := fun m => hmac_eq (List.replicate 32 0) m (by simp)
  rw [e1]
  have e2 := fun k m m' => hmac_eq (hmacOf Hashes.sha256 k m) m' (by rw [hmacOf_length]; omega)
  rw [e2, e2, e2, e2, beNumber_le]

/-- C139. If signing `m` with one private key and `m'` with another uses the same nonce, then the messages and keys are the same,
or two different strings hashed while signing have the same SHA-256 hash (`signInputs` lists them). -/
theorem C139_nonce (m m' key key' : Bytes) (hk : key.length = 32) (hk' : key'.length = 32)
    (h : Kdf.deterministicK (hexStr (Hashes.sha256 m)) (beNumber key) = Kdf.deterministicK (hexStr (Hashes.sha256 m')) (beNumber key'))
    (hne : ¬ (m = m' ∧ key = key')) :
    ∃ x ∈ signInputs Hashes.sha256 m key, ∃ y ∈ signInputs Hashes.sha256 m' key', x ≠ y ∧ Hashes.sha256 x = Hashes.sha256 y := by
  have hl := Hashes.sha256_length
  obtain ⟨k2, v2, e, hd⟩ := deterministicK_eq (Hashes.sha256 m) key (hl m) hk
  obtain ⟨k2', v2', e', hd'⟩ := deterministicK_eq (Hashes.sha256 m') key' (hl m') hk'
  rw [hd, hd'] at h
  have h := beNumber_inj (by rw [hmacOf_length, hmacOf_length]) h
  by_contra hno
  push Not at hno
  have key0 : ∀ p ∈ nonceMacs Hashes.sha256 key (Hashes.sha256 m), ∀ p' ∈ nonceMacs Hashes.sha256 key' (Hashes.sha256 m'),
      p.1.length = 32 → p'.1.length = 32 → hmacOf Hashes.sha256 p.1 p.2 = hmacOf Hashes.sha256 p'.1 p'.2 → p.1 = p'.1 ∧ p.2 = p'.2 := by
    intro p hp p' hp' l l' heq
    rcases hmac_binds Hashes.sha256 _ _ _ _ l l' heq with hh | ⟨x, hx, y, hy, hxy, hH⟩
    · exact hh
    · refine absurd hH (hno x ?_ y ?_ hxy)
      · exact List.mem_cons_of_mem _ (List.mem_flatMap.2 ⟨p, hp, hx⟩)
      · exact List.mem_cons_of_mem _ (List.mem_flatMap.2 ⟨p', hp', hy⟩)
  have i0 : ∀ (k d : Bytes), (nonceMacs Hashes.sha256 k d).length = 5 := fun _ _ => rfl
  set N := nonceMacs Hashes.sha256 key (Hashes.sha256 m) with hN
  set N' := nonceMacs Hashes.sha256 key' (Hashes.sha256 m') with hN'
  have hmem : ∀ {i p}, N[i]? = some p → p ∈ N := fun h => List.mem_of_getElem? h
  have hmem' : ∀ {i p}, N'[i]? = some p → p ∈ N' := fun h => List.mem_of_getElem? h
  have l2 : k2.length = 32 ∧ k2'.length = 32 := by
    constructor
    · have : k2 = _ := (congrArg Prod.fst (Option.some.inj e)).symm
      rw [this]; exact hmacOf_length _ _
    · have : k2' = _ := (congrArg Prod.fst (Option.some.inj e')).symm
      rw [this]; exact hmacOf_length _ _
  obtain ⟨q1, -⟩ := key0 _ (hmem e) _ (hmem' e') l2.1 l2.2 h
  have f1 : k2 = _ := (congrArg Prod.fst (Option.some.inj e)).symm
  have f2 : k2' = _ := (congrArg Prod.fst (Option.some.inj e')).symm
  rw [f1, f2] at q1
  obtain ⟨q2, q3⟩ := key0 (_, _) (hmem (i := 2) rfl) (_, _) (hmem' (i := 2) rfl) (hmacOf_length _ _) (hmacOf_length _ _) q1
  have q3 : _ ++ Hashes.sha256 m = _ ++ Hashes.sha256 m' := q3
  obtain ⟨q4, q5⟩ := List.append_inj' q3 (by rw [hl, hl])
  obtain ⟨-, q6⟩ := List.append_inj' q4 (by rw [hk, hk'])
  apply hne
  refine ⟨?_, q6⟩
  by_contra hmm
  exact hno m (by simp [signInputs]) m' (by simp [signInputs]) hmm q5

/-- Different messages and keys: ten strings hashed on each side beside the messages themselves. -/
example : (¬ (([1] : Bytes) = [2] ∧ List.replicate 32 (3 : UInt8) = List.replicate 32 3)) ∧
    ∀ m key, (signInputs Hashes.sha256 m key).length = 11 := ⟨by decide, fun _ _ => rfl⟩

/-- C139. The nonce is the one of the equation the signature solves: with k the nonce of the message and key, r is the x coordinate
of k·G, as `bitcoin` computes it, and Sign called twice gives the same signature. -/
theorem C139_sign_uses_nonce (verify) (m key : Bytes) (hk : key.length = 32) (w : World) (sig : Bytes)
    (h : (Neo.sign realPrims (pyBtc Kdf.deterministicK verify) (.bytes (hexlify m)) (.bytes key) w).1 = .ok sig) :
    (beNumber (sig.take 32) : Int) = (fastMultiply w.curve ⟨w.curve.gx, w.curve.gy⟩
      (Kdf.deterministicK (hexStr (Hashes.sha256 m)) (beNumber key))).x := by
  obtain ⟨m', v, r, s, rb, sb, h1, h2, h3, h4, h5, h6, h7⟩ := (C92_sign _ _ _ _ _ _).1 h
  have hm : m' = m := by
    have : unhexlifyVal (.bytes (hexlify m)) = .ok m := unhexlify_hexlify m
    rw [this] at h1
    exact (Except.ok.inj h1).symm
  subst hm
  rw [h3, List.take_left' h4, ← h6]
  have h2 : ecdsaRawSign w.curve Kdf.deterministicK (hexStr (Hashes.sha256 m')) (.bytes key) = .ok (v, r, s) := h2
  have hd : decodePrivkey (.bytes key) = .ok (leToNat key.reverse : Nat) := by
    rw [beNumber_rev]; exact decode_bytes32 hk
  unfold ecdsaRawSign at h2
  rw [show unhexlifyVal (.str (hexStr (Hashes.sha256 m'))) = .ok (Hashes.sha256 m') from unhexlifyVal_hexStr _, hd] at h2
  simp only at h2
  have := congrArg (fun t : Int × Int × Int => t.2.1) (Except.ok.inj h2)
  rw [beNumber_le]
  exact this.symm

end Neo.Props
