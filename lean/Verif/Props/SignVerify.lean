import Verif.Proofs.EcdsaPkg
import Verif.Proofs.PrivateKeys
import Verif.Props.Crypto

/-!
# C80: what `Sign` produces, `VerifySignature` accepts
-/

namespace Neo.Props
open Py Spec EC Spec.EC Neo.Bitcoin WeierstrassCurve

private theorem nsmul_cong {u v : Nat} (h : (u : ZMod p256Order) = v) : letI := Fact.mk p256_prime
    ∀ A : (weierstrass secp256r1Curve).Point, u • A = v • A := by
  have := Fact.mk p256_prime
  intro A
  have hz := EcdsaPkg.order_kills A
  have key : ∀ w : Nat, w • A = (w % p256Order) • A := by
    intro w
    conv_lhs => rw [← Nat.mod_add_div w p256Order]
    rw [add_nsmul, mul_nsmul, hz, nsmul_zero, add_zero]
  rw [key u, key v, (ZMod.natCast_eq_natCast_iff' u v p256Order).1 h]

/-- The equation a signer solves makes the signature valid, also with s negated. -/
private theorem valid_of_equation {z d k r s : Nat} (hk : (k : ZMod p256Order) ≠ 0) (hr0 : 1 ≤ r) (hr : r < p256Order)
    (hs0 : 1 ≤ s) (hs : s < p256Order)
    (heq : (s : ZMod p256Order) * k = z + r * d ∨ -(s : ZMod p256Order) * k = z + r * d) : letI := Fact.mk p256_prime
    ∀ G, Denotes secp256r1Curve secp256r1.G G → (∀ x y h, k • G = .some x y h → x.val = r) →
      EcdsaValid z (d • G) r s := by
  have := Fact.mk p256_prime
  have := Fact.mk p256Order_prime
  have := NeZero.mk p256Order_prime.ne_zero
  intro G hG hx
  have hsn : (s : ZMod p256Order) ≠ 0 := by
    rw [ne_eq, ZMod.natCast_eq_zero_iff]
    intro hd
    exact absurd (Nat.le_of_dvd (by omega) hd) (by omega)
  have hkG : k • G ≠ 0 := by
    obtain ⟨G', hG', ho⟩ := p256_order
    have : G = G' := (denotes_same p256_proper hG hG').1 ⟨by simp, by simp⟩
    rw [this]
    intro h0
    have := addOrderOf_dvd_iff_nsmul_eq_zero.2 h0
    rw [ho] at this
    exact hk ((ZMod.natCast_eq_zero_iff _ _).2 this)
  refine ⟨hr0, hr, hs0, hs, ?_⟩
  intro G1 hG1
  have : G1 = G := (denotes_same p256_proper hG1 hG).1 ⟨by simp, by simp⟩
  subst this
  have hsw : (s : ZMod p256Order) * (((s : ZMod p256Order)⁻¹).val : Nat) = 1 := by
    rw [ZMod.natCast_zmod_val, mul_inv_cancel₀ hsn]
  generalize hw : ((s : ZMod p256Order)⁻¹).val = w at hsw
  have h1 : s * w % p256Order = 1 := by
    have : ((s * w : Nat) : ZMod p256Order) = (1 : Nat) := by push_cast; exact hsw
    rw [ZMod.natCast_eq_natCast_iff'] at this
    rw [this]
    exact Nat.mod_eq_of_lt p256Order_prime.one_lt
  have hsum : (z * w % p256Order) • G1 + (r * w % p256Order) • d • G1 = (z * w + r * w * d) • G1 := by
    rw [nsmul_cong (u := z * w % p256Order) (v := z * w) (ZMod.natCast_mod _ _),
      nsmul_cong (u := r * w % p256Order) (v := r * w) (ZMod.natCast_mod _ _), ← mul_nsmul, mul_comm d, ← add_nsmul]
  have hcast : ((z * w + r * w * d : Nat) : ZMod p256Order) = (z + r * d) * w := by push_cast; ring
  cases hkp : k • G1 with
  | zero => exact absurd hkp hkG
  | some x y h =>
    have hxr := hx x y h hkp
    rcases heq with heq | heq
    · refine ⟨w, x, y, h, h1, ?_, by rw [hxr, Nat.mod_eq_of_lt hr]⟩
      rw [hsum, ← hkp]
      refine nsmul_cong ?_ G1
      rw [hcast, ← heq]
      linear_combination (k : ZMod p256Order) * hsw
    · have hneg : (z * w + r * w * d) • G1 = - (k • G1) := by
        rw [eq_neg_iff_add_eq_zero, ← add_nsmul, ← zero_nsmul G1]
        refine nsmul_cong ?_ G1
        rw [Nat.cast_add, hcast, ← heq]
        push_cast
        linear_combination -(k : ZMod p256Order) * hsw
      rw [hkp, Affine.Point.neg_some] at hneg
      exact ⟨w, x, _, _, h1, hsum.trans hneg, by rw [hxr, Nat.mod_eq_of_lt hr]⟩

/-- A `private_key` argument stands for these 32 bytes. -/
def PrivateKeyArg (v : Val) (key : Bytes) : Prop :=
  key.length = 32 ∧ (v = .bytes key ∨ v = .bytearray key ∨ v = .str (hexStr key))

private theorem decodePrivkey_arg {v : Val} {key : Bytes} (h : PrivateKeyArg v key) : decodePrivkey v = .ok (beNumber key) := by
  obtain ⟨hl, rfl | rfl | rfl⟩ := h
  · exact decode_bytes32 hl
  · exact decode_bytes32 hl
  · rw [decodePrivkey, decode_text64 (by rw [hexStr_length, hl]), (fromDigits_hex _ (hexStr_isHex key).1).1, (hexStr_isHex key).2]

/-- What `ecdsa_raw_sign` computes on secp256r1. -/
private theorem rawSign_spec (genK : Str → Nat → Nat) (h : Bytes) (v : Val) (key : Bytes) (hv : PrivateKeyArg v key)
    (hk : ¬ p256Order ∣ genK (hexStr h) (beNumber key)) : letI := Fact.mk p256_prime
    ∃ (rec : Int) (r s : Nat), ecdsaRawSign signatureCurve genK (hexStr h) v = .ok (rec, (r : Int), (s : Int)) ∧ r < secp256r1Curve.p ∧
      2 * s < p256Order ∧
      (∀ G, Denotes secp256r1Curve secp256r1.G G → ∀ x y hn, genK (hexStr h) (beNumber key) • G = .some x y hn → x.val = r) ∧
      ((s : ZMod p256Order) * genK (hexStr h) (beNumber key) = beNumber h + r * beNumber key ∨
        -(s : ZMod p256Order) * genK (hexStr h) (beNumber key) = beNumber h + r * beNumber key) := by
  have := Fact.mk p256_prime
  have := Fact.mk p256Order_prime
  have := NeZero.mk p256_prime.ne_zero
  obtain ⟨G, hG, hord⟩ := p256_order
  generalize hk' : genK (hexStr h) (beNumber key) = k at hk ⊢
  have hz : signatureCurve.n • G = 0 := by
    rw [show signatureCurve.n = p256Order from rfl, ← hord]; exact addOrderOf_nsmul_eq_zero G
  obtain ⟨h1, h2⟩ := fastMultiply_denotes (b := signatureCurve) (c := secp256r1Curve) ⟨rfl, rfl⟩ p256_proper p256_noTwoTorsion hG
    p256Order_prime.pos hz (k : Int)
  have hraw : ecdsaRawSign signatureCurve genK (hexStr h) v =
      (let z : Int := beNumber h
       let R := fastMultiply signatureCurve secp256r1.G (k : Int)
       let s := inv k p256Order * (z + R.x * beNumber key) % p256Order
       .ok (27 + (if (R.y % 2 = 1) ≠ (¬ s * 2 < p256Order) then 1 else 0), R.x, if s * 2 < p256Order then s else p256Order - s)) := by
    rw [ecdsaRawSign, hexStr, unhexlifyVal_hexStr, decodePrivkey_arg hv]
    simp only
    rw [← beNumber_le, ← hexStr, Int.toNat_natCast, hk']
    rfl
  generalize fastMultiply signatureCurve secp256r1.G (k : Int) = R at h1 h2 hraw
  simp only at hraw
  obtain ⟨x0, x1, -, -⟩ := h2
  obtain ⟨r, hr⟩ := Int.eq_ofNat_of_zero_le x0
  have hkn : (k : ZMod p256Order) ≠ 0 := fun h0 => hk ((ZMod.natCast_eq_zero_iff _ _).1 h0)
  have hkz : ((k : Int) : ZMod p256Order) ≠ 0 := by rwa [Int.cast_natCast]
  have hpos : (0 : Int) < p256Order := by exact_mod_cast p256Order_prime.pos
  have hodd : p256Order % 2 = 1 := by decide +kernel
  generalize ht : inv (k : Int) p256Order * ((beNumber h : Int) + R.x * beNumber key) % p256Order = t at hraw
  have t0 : 0 ≤ t := by rw [← ht]; exact Int.emod_nonneg _ hpos.ne'
  have t1 : t < p256Order := by rw [← ht]; exact Int.emod_lt_of_pos _ hpos
  have tz : (t : ZMod p256Order) * k = beNumber h + r * beNumber key := by
    rw [← ht, cast_emod, Int.cast_mul, inv_spec _ hkz, hr]
    push_cast
    field_simp
  have hx : ∀ G, Denotes secp256r1Curve secp256r1.G G → ∀ x y hn, k • G = .some x y hn → x.val = r := by
    intro G1 hG1 x y hn hxy
    have : G1 = G := (denotes_same p256_proper hG1 hG).1 ⟨by simp, by simp⟩
    subst this
    rw [natCast_zsmul, hxy] at h1
    have h3 : (R.x : ZMod secp256r1Curve.p) = x := h1.1
    rw [← h3, hr]
    rw [Int.cast_natCast, ZMod.val_natCast]
    exact Nat.mod_eq_of_lt (by omega)
  clear ht
  obtain ⟨tn, htn⟩ := Int.eq_ofNat_of_zero_le t0
  subst htn
  by_cases hlow : (tn : Int) * 2 < p256Order
  · rw [if_pos hlow] at hraw
    rw [hr] at hraw
    refine ⟨_, r, tn, hraw, by omega, by omega, hx, .inl ?_⟩
    · rw [← tz]; push_cast; rfl
  · rw [if_neg hlow] at hraw
    rw [hr, ← Int.ofNat_sub (by omega : tn ≤ p256Order)] at hraw
    refine ⟨_, r, p256Order - tn, hraw, by omega, ?_, hx, .inr ?_⟩
    · omega
    · rw [← tz, Nat.cast_sub (by omega), ZMod.natCast_self]
      push_cast
      ring

/-- C80, what `Sign` returns when secp256r1 is in force, for a hexadecimal message, a private key of 32 bytes and a nonce that is
not a multiple of the group order n: 64 bytes r, s with 2s < n, where r is the x coordinate of nonce·G (not reduced mod n); and if
r is in 1..n-1 and s ≠ 0, this is an ECDSA signature of the SHA-256 of the message under the public key key·G. -/
theorem C80_sign_partial (P : Prims) (genK : Str → Nat → Nat) (verify) (w : World) (hw : w.curve = signatureCurve)
    (message privateKey : Val) (m key : Bytes) (hm : unhexlifyVal message = .ok m) (hp : PrivateKeyArg privateKey key)
    (hk : ¬ p256Order ∣ genK (hexStr (P.sha256 m)) (beNumber key)) : letI := Fact.mk p256_prime
    ∃ rb sb, (Neo.sign P (pyBtc genK verify) message privateKey w).1 = .ok (rb ++ sb) ∧ rb.length = 32 ∧ sb.length = 32 ∧
      2 * beNumber sb < p256Order ∧
      (beNumber sb = 0 ↔ p256Order ∣ beNumber (P.sha256 m) + beNumber rb * beNumber key) ∧
      ∀ G, Denotes secp256r1Curve secp256r1.G G →
        (∀ x y hn, genK (hexStr (P.sha256 m)) (beNumber key) • G = .some x y hn → beNumber rb = x.val) ∧
        (1 ≤ beNumber rb → beNumber rb < p256Order → 1 ≤ beNumber sb →
          EcdsaValid (beNumber (P.sha256 m)) (beNumber key • G) (beNumber rb) (beNumber sb)) := by
  have := Fact.mk p256_prime
  obtain ⟨v, r, s, h1, h2, h3, h4, h5⟩ := rawSign_spec genK (P.sha256 m) privateKey key hp hk
  have hp256 : secp256r1Curve.p < 2 ^ 256 := by decide +kernel
  have hn256 : p256Order < 2 ^ 256 := by decide +kernel
  obtain ⟨rb, -, r2, r3⟩ := intToBytes_big (v := (r : Int)) (by omega) (by omega)
  obtain ⟨sb, -, s2, s3⟩ := intToBytes_big (v := (s : Int)) (by omega) (by omega)
  have hr : beNumber rb = r := by omega
  have hs : beNumber sb = s := by omega
  refine ⟨rb, sb, ?_, r2, s2, by omega, ?_, ?_⟩
  · rw [C92_sign]
    exact ⟨m, v, r, s, rb, sb, hm, by rw [hw]; exact h1, rfl, r2, s2, r3, s3⟩
  · have := Fact.mk p256Order_prime
    have hkn : (genK (hexStr (P.sha256 m)) (beNumber key) : ZMod p256Order) ≠ 0 :=
      fun h0 => hk ((ZMod.natCast_eq_zero_iff _ _).1 h0)
    rw [hr, hs, ← ZMod.natCast_eq_zero_iff]
    push_cast
    have hs0 : s = 0 ↔ (s : ZMod p256Order) = 0 := by
      rw [ZMod.natCast_eq_zero_iff]
      exact ⟨fun h => h ▸ dvd_zero _, fun h => Nat.eq_zero_of_dvd_of_lt h (by omega)⟩
    rw [hs0]
    rcases h5 with h5 | h5
    · rw [← h5, mul_eq_zero_iff_right hkn]
    · rw [← h5, neg_mul, neg_eq_zero, mul_eq_zero_iff_right hkn]
  · intro G hG
    rw [hr, hs]
    refine ⟨fun x y hn h => (h4 G hG x y hn h).symm, fun a b c => ?_⟩
    refine valid_of_equation ?_ a b c (by omega) h5 G hG (fun x y hn h => h4 G hG x y hn h)
    intro h0
    exact hk ((ZMod.natCast_eq_zero_iff _ _).1 h0)

private theorem keyArg_unique {key : PubKeyArg} {Q Q' : Pt} {A A' : (weierstrass secp256r1Curve).Point} (h : KeyArg key Q)
    (h' : KeyArg key Q') (hQ : IsPublicKey Q A) (hQ' : IsPublicKey Q' A') : Q = Q' := by
  have hp := Fact.mk p256_prime
  have hl : ∀ {b : Bytes} {Q : Pt}, IsUncompressed Q (4 :: b) → b.length = 64 := by
    rintro b Q ⟨xb, yb, e, l1, l2, -⟩
    rw [(List.cons.inj e).2, List.length_append, l1, l2]
  have hl' : ∀ {b : Bytes} {Q : Pt}, IsCompressed Q b → b.length = 33 := by
    rintro b Q ⟨xb, e, l1, -⟩
    rw [e, List.length_cons, l1]
  have hu : ∀ {b : Bytes} {Q Q' : Pt}, IsUncompressed Q b → IsUncompressed Q' b → Q = Q' := by
    rintro b Q Q' ⟨x, y, e, l1, l2, e1, e2⟩ ⟨x', y', e', l1', l2', e1', e2'⟩
    rw [e] at e'
    obtain ⟨rfl, rfl⟩ := List.append_inj (List.cons.inj e').2 (by omega)
    cases Q; cases Q'
    simp only [Pt.mk.injEq] at *
    omega
  cases key with
  | point Q0 =>
    have h : Q0 = Q := h
    have h' : Q0 = Q' := h'
    rw [← h, ← h']
  | bytes b =>
    rcases h with h | h <;> rcases h' with h' | h'
    · exact hu h h'
    · have := hl h; have := hl' h'; omega
    · have := hl' h; have := hl h'; omega
    · obtain ⟨b1, e1, u1⟩ := decompress_complete h hQ.2.1 (denotes_onCurve hQ.2.2) hQ.1
      obtain ⟨b2, e2, u2⟩ := decompress_complete h' hQ'.2.1 (denotes_onCurve hQ'.2.2) hQ'.1
      rw [e1] at e2
      rw [← Except.ok.inj e2] at u2
      exact hu u1 u2

/-- C80, the round trip: the result of `Sign` is accepted by `VerifySignature`, with the same message bytes (as hexadecimal text,
or as they are with `unhex` False) and the public key of that private key (as a point object, 64 bytes or 33 bytes), exactly if
r is in 1..n-1, s is not 0, and both coordinates of the public key are below the group order n. Otherwise the answer is False. -/
theorem C80_round_trip_partial (P : Prims) (genK : Str → Nat → Nat) (w : World) (hw : w.curve = signatureCurve)
    (message privateKey : Val) (m key : Bytes) (hm : unhexlifyVal message = .ok m) (hp : PrivateKeyArg privateKey key)
    (hk : ¬ p256Order ∣ genK (hexStr (P.sha256 m)) (beNumber key)) : letI := Fact.mk p256_prime
    ∃ rb sb, (Neo.sign P (pkgBtc genK P.sha256) message privateKey w).1 = .ok (rb ++ sb) ∧ rb.length = 32 ∧ sb.length = 32 ∧
      (beNumber sb = 0 ↔ p256Order ∣ beNumber (P.sha256 m) + beNumber rb * beNumber key) ∧
      ∀ G, Denotes secp256r1Curve secp256r1.G G →
      ∀ message' unhex keyArg Q, MessageArg unhex message' m → KeyArg keyArg Q → IsPublicKey Q (beNumber key • G) →
        ∃ answer, (Neo.verifySignature (pkgBtc genK P.sha256) message' (.bytes (rb ++ sb)) keyArg unhex w).1 = .ok answer ∧
          (answer = true ↔ 1 ≤ beNumber rb ∧ beNumber rb < p256Order ∧ 1 ≤ beNumber sb ∧ Q.x < p256Order ∧ Q.y < p256Order) := by
  have := Fact.mk p256_prime
  obtain ⟨rb, sb, h1, h2, h3, h4, h6, h5⟩ := C80_sign_partial P genK (EcdsaPkg.verify EcdsaPkg.nist256p P.sha256) w hw message privateKey m key hm hp hk
  refine ⟨rb, sb, h1, h2, h3, h6, ?_⟩
  intro G hG message' unhex keyArg Q hm' hka hQ
  have hus : KeyArgUsable keyArg := by
    have h256 : (secp256r1Curve.p : Int) < 2 ^ 256 := by decide +kernel
    cases keyArg with
    | point Q0 =>
      have hka : Q0 = Q := hka
      obtain ⟨-, ⟨x0, x1, y0, y1⟩, -⟩ := hQ
      rw [hka]
      exact ⟨x0, by omega, y0, by omega⟩
    | bytes b =>
      intro hl
      rcases hka with ⟨xb, yb, e, l1, l2, -⟩ | ⟨xb, e, -⟩
      · rw [(List.cons.inj e).2, List.length_append, l1, l2] at hl; cases hl
      · rw [e]; split <;> simp
  obtain ⟨answer, ha⟩ := (C53_total_partial (pkgBtc genK P.sha256) message' (.bytes (rb ++ sb)) keyArg unhex w).2 hus
  refine ⟨answer, ha, ?_⟩
  have hB := pkgBtc_verifies genK P
  constructor
  · rintro rfl
    obtain ⟨Q', A', rb', sb', m', a1, a2, a3, a4, a5, a6, a7, a8, a9⟩ :=
      C93_true_only_if_valid P _ hB _ _ _ _ _ (fun _ _ _ => hw) ha
    have hQQ := keyArg_unique hka a1 hQ a2
    subst hQQ
    have hbb : rb ++ sb = rb' ++ sb' := by
      rcases a5 with a5 | a5
      · exact Val.bytes.inj a5
      · cases a5
    obtain ⟨rfl, rfl⟩ := List.append_inj hbb (by omega)
    exact ⟨a9.1, a9.2.1, a9.2.2.1, a3, a4⟩
  · rintro ⟨b1, b2, b3, b4, b5⟩
    have := C53_true_if_valid_partial P _ hB message' (.bytes (rb ++ sb)) keyArg unhex w (fun _ _ _ => hw) Q (beNumber key • G) rb sb m
      hka hQ b4 b5 (.inl rfl) h2 h3 hm' ((h5 G hG).2 b1 b2 b3)
    rw [this] at ha
    exact (Except.ok.inj ha).symm

/-- C80, with a key pair: after `kp = KeyPair(key)`, for every 32-byte key number in 1..n-1 (in whatever state), `Sign` with
that key and `VerifySignature` with `kp.PublicKey` agree, under the same conditions. -/
theorem C80_key_pair_partial (P : Prims) (genK : Str → Nat → Nat) (w0 : World) (key : Bytes) (hl : key.length = 32)
    (h0 : 0 < beNumber key) (hn : beNumber key < p256Order) (m : Bytes)
    (hk : ¬ p256Order ∣ genK (hexStr (P.sha256 m)) (beNumber key)) :
    ∃ kp w sig, KeyPair.init P (pkgBtc genK P.sha256) key w0 = (.ok kp, w) ∧
      (Neo.sign P (pkgBtc genK P.sha256) (.bytes (hexlify m)) (.bytes kp.privateKey) w).1 = .ok sig ∧
      (1 ≤ beNumber (sig.take 32) → beNumber (sig.take 32) < p256Order → 1 ≤ beNumber (sig.drop 32) →
        kp.publicKey.x < p256Order → kp.publicKey.y < p256Order →
        (Neo.verifySignature (pkgBtc genK P.sha256) (.bytes (hexlify m)) (.bytes sig) (.point kp.publicKey) true w).1 = .ok true) := by
  have := Fact.mk p256_prime
  obtain ⟨G, hG, ho⟩ := p256_order
  obtain ⟨kp, w, e, e2, hr, hd, -⟩ := (C47_derived P (pkgBtc genK P.sha256) (pyBtc_derives _ _) key w0 hl).2 hn
  have hw : w.curve = signatureCurve := by
    have : w = (KeyPair.init P (pkgBtc genK P.sha256) key w0).2 := by rw [e]
    rw [this]
    exact C91_same_parameters.1
  obtain ⟨rb, sb, h1, h2, h3, -, h4⟩ := C80_round_trip_partial P genK w hw (.bytes (hexlify m)) (.bytes kp.privateKey) m key
    (unhexlify_hexlify m) ⟨hl, .inl (by rw [e2])⟩ hk
  refine ⟨kp, w, rb ++ sb, e, h1, ?_⟩
  rw [List.take_left' h2, List.drop_left' h2]
  intro c1 c2 c3 c4 c5
  have hne : beNumber key • G ≠ 0 := by
    intro hz
    have := addOrderOf_dvd_iff_nsmul_eq_zero.2 hz
    rw [ho] at this
    exact absurd (Nat.le_of_dvd h0 this) (by omega)
  have hfin : kp.publicKey ≠ ⟨0, 0⟩ := by
    intro hz
    have hQ := hd G hG
    rw [hz] at hQ
    exact hne ((denotes_same p256_proper hQ denotes_zero).1 ⟨by simp [zero], by simp [zero]⟩)
  obtain ⟨answer, ha, hb⟩ := h4 G hG (.bytes (hexlify m)) true (.point kp.publicKey) kp.publicKey (.inl (unhexlify_hexlify m)) rfl
    ⟨hfin, hr, hd G hG⟩
  rw [ha, hb.2 ⟨c1, c2, c3, c4, c5⟩]

/-- All conditions can be met, and the answer is then True: key number 1, nonce 1, and a hash function that gives 0. -/
theorem accepted_example : ∃ (P : Prims) (kp : KeyPair) (w : World) (sig : Bytes),
    KeyPair.init P (pkgBtc (fun _ _ => 1) P.sha256) (List.replicate 31 0 ++ [1]) World.fresh = (.ok kp, w) ∧
    (Neo.sign P (pkgBtc (fun _ _ => 1) P.sha256) (.bytes []) (.bytes kp.privateKey) w).1 = .ok sig ∧
    (Neo.verifySignature (pkgBtc (fun _ _ => 1) P.sha256) (.bytes []) (.bytes sig) (.point kp.publicKey) true w).1 = .ok true := by
  have := Fact.mk p256_prime
  have hnd : ¬ p256Order ∣ 1 := by decide +kernel
  have hone : beNumber (List.replicate 31 0 ++ [1]) = 1 := by decide +kernel
  obtain ⟨kp, w, sig, h1, h2, h3⟩ := C80_key_pair_partial (default : Prims) (fun _ _ => 1) World.fresh (List.replicate 31 0 ++ [1])
    rfl (by rw [hone]; decide) (by rw [hone]; decide +kernel) [] hnd
  obtain ⟨kp', w', e, e2, hr, hd, -⟩ := (C47_derived (default : Prims) (pkgBtc (fun _ _ => 1) (default : Prims).sha256) (pyBtc_derives _ _)
    (List.replicate 31 0 ++ [1]) World.fresh rfl).2 (by rw [hone]; decide +kernel)
  obtain ⟨rfl, rfl⟩ := Prod.mk.inj (h1.symm.trans e) |>.imp Except.ok.inj id
  have hw : w.curve = signatureCurve := by
    have : w = (KeyPair.init (default : Prims) (pkgBtc (fun _ _ => 1) (default : Prims).sha256) (List.replicate 31 0 ++ [1]) World.fresh).2 := by rw [h1]
    rw [this]
    exact C91_same_parameters.1
  obtain ⟨rb, sb, g1, g2, g3, -, g4, g5⟩ := C80_sign_partial (default : Prims) (fun _ _ => 1)
    (EcdsaPkg.verify EcdsaPkg.nist256p (default : Prims).sha256) w hw (.bytes []) (.bytes kp.privateKey) [] (List.replicate 31 0 ++ [1])
    rfl ⟨rfl, .inl (by rw [e2])⟩ hnd
  have hsig : sig = rb ++ sb := Except.ok.inj (h2.symm.trans g1)
  obtain ⟨G, hG, -⟩ := p256_order
  have g6 := (g5 G hG).1
  have hdk := hd G hG
  rw [hone, one_nsmul] at hdk
  have hsame := (denotes_same p256_proper hdk hG).2 rfl
  have hgr : Reduced secp256r1Curve secp256r1.G := by unfold Reduced; decide +kernel
  have hQ : kp.publicKey.x = secp256r1.G.x ∧ kp.publicKey.y = secp256r1.G.y := by
    obtain ⟨a1, a2, a3, a4⟩ := hr
    obtain ⟨b1, b2, b3, b4⟩ := hgr
    constructor
    · have := Int.emod_eq_emod_iff_emod_sub_eq_zero.2 (Int.emod_eq_zero_of_dvd hsame.1)
      rwa [Int.emod_eq_of_lt a1 a2, Int.emod_eq_of_lt b1 b2] at this
    · have := Int.emod_eq_emod_iff_emod_sub_eq_zero.2 (Int.emod_eq_zero_of_dvd hsame.2)
      rwa [Int.emod_eq_of_lt a3 a4, Int.emod_eq_of_lt b3 b4] at this
  have hr : (beNumber rb : Int) = secp256r1.G.x := by
    cases G with
    | zero => exact absurd (show secp256r1.G = ⟨0, 0⟩ from hG) (by decide +kernel)
    | some x y hn =>
      rw [g6 x y hn (one_nsmul _)]
      exact EcdsaPkg.val_of_range hgr.1 hgr.2.1 hG.1
  have hgx : secp256r1.G.x < p256Order := by decide +kernel
  have hgy : secp256r1.G.y < p256Order := by decide +kernel
  have hgp : 0 < secp256r1.G.x := by decide +kernel
  have hz : beNumber ((default : Prims).sha256 []) = 0 := by decide +kernel
  refine ⟨default, kp, w, sig, h1, h2, h3 ?_ ?_ ?_ ?_ ?_⟩
  · rw [hsig, List.take_left' g2]; omega
  · rw [hsig, List.take_left' g2]; omega
  · rw [hsig, List.drop_left' g2]
    rw [hz, hone] at g4
    by_contra hc
    have := g4.1 (by omega)
    exact absurd (Nat.le_of_dvd (by omega) this) (by omega)
  · rw [hQ.1]; exact hgx
  · rw [hQ.2]; exact hgy

/-! ### Where it fails -/

/-- A point of secp256r1 whose x coordinate is not below the group order. -/
def largePoint : Pt := ⟨115792089210356248762697446949407573529996955224135760342422259061068512044372,
  32706189264453802455814072046653030381229678745603722161528888200092968145471⟩

private theorem large_multiple : letI := Fact.mk p256_prime
    ∃ k, 0 < k ∧ k < p256Order ∧ ∀ G, Denotes secp256r1Curve secp256r1.G G → Denotes secp256r1Curve largePoint (k • G) := by
  have := Fact.mk p256_prime
  obtain ⟨A, hA⟩ := exists_denotes (c := secp256r1Curve) p256_proper (P := largePoint) (Or.inr (by decide +kernel))
  obtain ⟨G, hG, ho⟩ := p256_order
  obtain ⟨k, hk, rfl⟩ := (p256_multiples G hG).2 A
  refine ⟨k, ?_, hk, ?_⟩
  · rcases Nat.eq_zero_or_pos k with rfl | h
    · rw [zero_nsmul] at hA
      exact absurd (show largePoint = ⟨0, 0⟩ from hA) (by decide +kernel)
    · exact h
  · intro G1 hG1
    have : G1 = G := (denotes_same p256_proper hG1 hG).1 ⟨by simp, by simp⟩
    rw [this]
    exact hA

/-- C80 fails for some private keys: there is one (with a number in 1..n-1) under whose public key `VerifySignature` accepts
nothing, because version 0.13 of the `ecdsa` package refuses public keys with a coordinate from n on. -/
theorem C80_large_key_violated (P : Prims) (genK : Str → Nat → Nat) : letI := Fact.mk p256_prime
    ∃ key : Bytes, key.length = 32 ∧ 0 < beNumber key ∧ beNumber key < p256Order ∧
      ∃ Q, (∀ G, Denotes secp256r1Curve secp256r1.G G → IsPublicKey Q (beNumber key • G)) ∧
        ∀ message signature unhex w, (Neo.verifySignature (pkgBtc genK P.sha256) message signature (.point Q) unhex w).1 = .ok false := by
  have := Fact.mk p256_prime
  obtain ⟨k, h0, hk, hd⟩ := large_multiple
  have hn256 : p256Order < 2 ^ 256 := by decide +kernel
  obtain ⟨key, -, k2, k3⟩ := intToBytes_big (v := (k : Int)) (by omega) (by omega)
  have hkk : beNumber key = k := by omega
  refine ⟨key, k2, by omega, by omega, largePoint, ?_, ?_⟩
  · intro G hG
    rw [hkk]
    exact ⟨by decide +kernel, by unfold Reduced; decide +kernel, hd G hG⟩
  · intro message signature unhex w
    obtain ⟨b, hb⟩ := (C53_total_partial (pkgBtc genK P.sha256) message signature (.point largePoint) unhex w).2
      (by unfold KeyArgUsable; decide +kernel)
    cases b with
    | false => exact hb
    | true =>
      obtain ⟨Q', A', rb', sb', m', a1, a2, a3, -⟩ :=
        C93_true_only_if_valid P _ (pkgBtc_verifies genK P) _ _ _ _ _ (fun _ h => by cases h) hb
      have a1 : largePoint = Q' := a1
      rw [← a1] at a3
      exact absurd a3 (by decide +kernel)

/-- C80 fails for some nonces: there is one in 1..n-1 with which `Sign` returns a value r ≥ n for every message and key, because
the `bitcoin` package does not reduce r mod n; `VerifySignature` then answers False. -/
theorem C80_large_nonce_violated (P : Prims) : letI := Fact.mk p256_prime
    ∃ k, 0 < k ∧ k < p256Order ∧ ∀ (w : World), w.curve = signatureCurve → ∀ (m key : Bytes), key.length = 32 →
      ∃ rb sb, (Neo.sign P (pkgBtc (fun _ _ => k) P.sha256) (.bytes (hexlify m)) (.bytes key) w).1 = .ok (rb ++ sb) ∧
        p256Order ≤ beNumber rb ∧ ∀ G, Denotes secp256r1Curve secp256r1.G G → ∀ Q, IsPublicKey Q (beNumber key • G) →
        (Neo.verifySignature (pkgBtc (fun _ _ => k) P.sha256) (.bytes (hexlify m)) (.bytes (rb ++ sb)) (.point Q) true w).1 = .ok false := by
  have := Fact.mk p256_prime
  have := NeZero.mk p256_prime.ne_zero
  obtain ⟨k, h0, hk, hd⟩ := large_multiple
  refine ⟨k, h0, hk, ?_⟩
  intro w hw m key hl
  have hnd : ¬ p256Order ∣ k := fun h => absurd (Nat.le_of_dvd h0 h) (by omega)
  obtain ⟨rb, sb, h1, h2, h3, -, h4⟩ := C80_round_trip_partial P (fun _ _ => k) w hw (.bytes (hexlify m)) (.bytes key) m key
    (unhexlify_hexlify m) ⟨hl, .inl rfl⟩ hnd
  obtain ⟨rb', sb', h1', h2', h3', -, -, h5⟩ := C80_sign_partial P (fun _ _ => k) (EcdsaPkg.verify EcdsaPkg.nist256p P.sha256) w hw
    (.bytes (hexlify m)) (.bytes key) m key (unhexlify_hexlify m) ⟨hl, .inl rfl⟩ hnd
  have hbb : rb ++ sb = rb' ++ sb' := Except.ok.inj (h1.symm.trans h1')
  obtain ⟨rfl, rfl⟩ := List.append_inj hbb (by omega)
  have hr : p256Order ≤ beNumber rb := by
    obtain ⟨G, hG, -⟩ := p256_order
    have hdG := hd G hG
    have h6 := (h5 G hG).1
    generalize k • G = A at hdG h6
    cases A with
    | zero => exact absurd (show largePoint = ⟨0, 0⟩ from hdG) (by decide +kernel)
    | some x y hn =>
      rw [h6 x y hn rfl]
      have hx : (largePoint.x : ZMod secp256r1Curve.p) = x := hdG.1
      have hv := EcdsaPkg.val_of_range (x := x) (X := largePoint.x) (by decide +kernel) (by decide +kernel) hx
      have hle : (p256Order : Int) ≤ largePoint.x := by decide +kernel
      omega
  refine ⟨rb, sb, h1, hr, ?_⟩
  intro G hG Q hQ
  obtain ⟨answer, ha, hb⟩ := h4 G hG (.bytes (hexlify m)) true (.point Q) Q (.inl (unhexlify_hexlify m)) rfl hQ
  rw [ha]
  cases answer with
  | false => rfl
  | true => exact absurd (hb.1 rfl).2.1 (by omega)

end Neo.Props
