import Verif.Proofs.Bitcoin
import Verif.Model.KeyPair
import Verif.Proofs.ECEncode
import Verif.Spec.Wallet
import Verif.Props.Address

/-!
# C43–C48: key pairs, WIF and NEP-2

`P : Prims` is an arbitrary choice of the hash functions, scrypt and AES; `B : Btc` of the `bitcoin` functions; `nfc` of Unicode
normalisation.
-/

namespace Neo.Props
open Py Spec Base58 EC Spec.EC

private theorem p256_lt : (secp256r1Curve.p : Int) < 2 ^ 256 := by decide +kernel

/-- the double hash used for checksums -/
theorem dbl_len (P : Prims) : ∀ x, 4 ≤ (binDblSha256 P x).length := by
  intro x; simp [binDblSha256, P.sha256_length]

private theorem chk4 (P : Prims) (x : Bytes) : ((binDblSha256 P x).take 4).length = 4 := by
  simp [binDblSha256, P.sha256_length]

private theorem finish_eq (P : Prims) (d : Bytes) : toScriptHash.finish P d = .ok (binHash160Bytes P d) := by
  have h := (C51_to_script_hash P d).1
  rw [toScriptHash, if_neg (by simp)] at h
  exact h

/-! ## C47 -/

theorem uncompressed_of {d : Bytes} (hd : d.length = 64) : IsUncompressed (KeyPair.decodePubkey (4 :: d)) (4 :: d) := by
  refine ⟨d.take 32, d.drop 32, by rw [List.take_append_drop], by rw [List.length_take]; omega, by rw [List.length_drop]; omega, ?_, ?_⟩
  · rw [beNumber_le]; rfl
  · rw [beNumber_le]
    show ((leToNat ((d.drop 32).take 32).reverse : Nat) : Int) = _
    rw [List.take_of_length_le (by rw [List.length_drop]; omega)]

theorem decodePubkey_eq {Q : Pt} {ba : Bytes} (h : IsUncompressed Q ba) : KeyPair.decodePubkey ba = Q := by
  obtain ⟨xb, yb, rfl, hx, hy, hpx, hpy⟩ := h
  have h' := uncompressed_of (d := xb ++ yb) (by rw [List.length_append, hx, hy])
  obtain ⟨xb', yb', he, hx', hy', hpx', hpy'⟩ := h'
  simp only [List.cons.injEq, true_and] at he
  obtain ⟨rfl, rfl⟩ := List.append_inj he (by rw [hx, hx'])
  rw [← hpx] at hpx'
  rw [← hpy] at hpy'
  revert hpx' hpy'
  cases KeyPair.decodePubkey (4 :: (xb ++ yb))
  cases Q
  simp only [Pt.mk.injEq]
  exact fun a b => ⟨a, b⟩

theorem coords {Q : Pt} {ba : Bytes} (h : IsUncompressed Q ba) : 0 ≤ Q.x ∧ Q.x < 2 ^ 256 ∧ 0 ≤ Q.y ∧ Q.y < 2 ^ 256 := by
  obtain ⟨xb, yb, rfl, hx, hy, hpx, hpy⟩ := h
  have h1 := beNumber_lt xb
  have h2 := beNumber_lt yb
  rw [hx] at h1
  rw [hy] at h2
  rw [hpx, hpy]
  refine ⟨by omega, by exact_mod_cast h1.trans_eq (by decide), by omega, by exact_mod_cast h2.trans_eq (by decide)⟩

/-- What `encode_point(True)` of a pair with coordinates below 2^256 gives. -/
theorem encode_any {Q : Pt} (h : 0 ≤ Q.x ∧ Q.x < 2 ^ 256 ∧ 0 ≤ Q.y ∧ Q.y < 2 ^ 256) :
    (isInfinity secp256r1Curve Q = true ∧ encodePoint secp256r1Curve Q true = .ok [0]) ∨
    (isInfinity secp256r1Curve Q = false ∧ ∃ ba, encodePoint secp256r1Curve Q true = .ok (hexlify ba) ∧ IsCompressed Q ba) := by
  cases hi : isInfinity secp256r1Curve Q with
  | true => exact .inl ⟨rfl, by rw [encodePoint, if_pos hi]⟩
  | false =>
    have := Fact.mk p256_prime
    obtain ⟨ba, h1, h2⟩ := encodePoint_spec hi h.1 h.2.1 h.2.2.1 h.2.2.2 true
    exact .inr ⟨rfl, ba, h1, h2⟩

private theorem scriptHash_hexlify (P : Prims) (ba : Bytes) : toScriptHash P (hexlify ba) true = .ok (binHash160Bytes P ba) := by
  have h := C51_to_script_hash P ba
  rw [h.2.2, h.1]
  rfl

/-- The `PublicKeyHash` of a key: the hash of its compressed encoding (of the byte 0 for the point at infinity). -/
private theorem finish_ok (P : Prims) (k : Bytes) {Q : Pt} {ba : Bytes} (h : IsUncompressed Q ba) :
    ∃ hsh, KeyPair.finish P k ba = .ok ⟨last32 k, Q, hsh⟩ ∧ hsh.length = 20 ∧
      ((isInfinity secp256r1Curve Q = true ∧ hsh = P.ripemd160 (P.sha256 [0])) ∨
       (isInfinity secp256r1Curve Q = false ∧ ∃ c, IsCompressed Q c ∧ hsh = P.ripemd160 (P.sha256 c))) := by
  rw [KeyPair.finish, decodePubkey_eq h]
  rcases encode_any (coords h) with ⟨hi, he⟩ | ⟨hi, c, he, hc⟩
  · refine ⟨P.ripemd160 (P.sha256 [0]), ?_, P.ripemd160_length _, .inl ⟨hi, rfl⟩⟩
    simp only [he]
    rw [toScriptHash, if_neg (by simp), finish_eq]
    rfl
  · refine ⟨P.ripemd160 (P.sha256 c), ?_, P.ripemd160_length _, .inr ⟨hi, c, hc, rfl⟩⟩
    simp only [he]
    rw [scriptHash_hexlify]
    rfl

/-- The group element the base point stands for. -/
theorem base_exists : letI := Fact.mk p256_prime; ∃ G, Denotes secp256r1Curve secp256r1.G G ∧ addOrderOf G = p256Order :=
  p256_order

/-- C47. Only 32-, 96- and 104-byte keys are accepted; anything else is a ValueError. -/
theorem C47_lengths (P : Prims) (B : Btc) (b : Bytes) (w : World) :
    ((∃ kp w', KeyPair.init P B b w = (.ok kp, w')) → b.length = 32 ∨ b.length = 96 ∨ b.length = 104) ∧
    (b.length ≠ 32 → b.length ≠ 96 → b.length ≠ 104 → (KeyPair.init P B b w).1 = .error .valueError) := by
  have key : b.length ≠ 32 → b.length ≠ 96 → b.length ≠ 104 → (KeyPair.init P B b w).1 = .error .valueError := by
    intro h1 h2 h3
    show KeyPair.construct P B keyPairCurve b = _
    rw [KeyPair.construct]
    simp only
    rw [if_pos ⟨h1, h2, h3⟩]
  refine ⟨?_, key⟩
  rintro ⟨kp, w', h⟩
  by_contra hc
  push Not at hc
  have := key hc.1 hc.2.1 hc.2.2
  rw [h] at this
  cases this

/-- C47. Every 96- and 104-byte key is accepted: PrivateKey is its last 32 bytes, PublicKey the pair of 32-byte numbers after
its first 0 (8) bytes, PublicKeyHash the hash of the compressed encoding. -/
theorem C47_embedded (P : Prims) (B : Btc) (b : Bytes) (w : World) (h : b.length = 96 ∨ b.length = 104) :
    ∃ kp w', KeyPair.init P B b w = (.ok kp, w') ∧ kp.privateKey = b.drop (b.length - 32) ∧ kp.privateKey.length = 32 ∧
      IsUncompressed kp.publicKey (4 :: (b.drop (b.length - 96)).take 64) ∧ kp.publicKeyHash.length = 20 ∧
      (isInfinity secp256r1Curve kp.publicKey = false → ∃ c, IsCompressed kp.publicKey c ∧ kp.publicKeyHash = P.ripemd160 (P.sha256 c)) := by
  have hu := uncompressed_of (d := (b.drop (b.length - 96)).take 64) (by rw [List.length_take, List.length_drop]; omega)
  obtain ⟨hsh, h1, h2, h3⟩ := finish_ok P b hu
  refine ⟨⟨last32 b, _, hsh⟩, _, Prod.ext ?_ rfl, rfl, ?_, hu, h2, ?_⟩
  · show KeyPair.construct P B keyPairCurve b = _
    rw [KeyPair.construct]
    simp only
    rw [if_neg (by omega), if_neg (by omega)]
    exact h1
  · show (last32 b).length = 32
    rw [last32, List.length_drop]; omega
  · intro hi
    rcases h3 with ⟨hi', _⟩ | ⟨_, h3⟩
    · exact absurd (hi'.symm.trans hi) (by decide)
    · exact h3

/-- C47. A 32-byte key is accepted exactly if its number is below the group order; then PublicKey is that number times the
base point. -/
theorem C47_derived (P : Prims) (B : Btc) (hB : DerivesPublicKeys B keyPairCurve) (b : Bytes) (w : World) (h : b.length = 32) :
    letI := Fact.mk p256_prime
    (p256Order ≤ beNumber b → (KeyPair.init P B b w).1 = .error .exc) ∧
    (beNumber b < p256Order → ∃ kp w', KeyPair.init P B b w = (.ok kp, w') ∧ kp.privateKey = b ∧
      Reduced secp256r1Curve kp.publicKey ∧
      (∀ G, Denotes secp256r1Curve secp256r1.G G → Denotes secp256r1Curve kp.publicKey (beNumber b • G)) ∧
      kp.publicKeyHash.length = 20 ∧
      (isInfinity secp256r1Curve kp.publicKey = false → ∃ c, IsCompressed kp.publicKey c ∧ kp.publicKeyHash = P.ripemd160 (P.sha256 c))) := by
  have hc : KeyPair.construct P B keyPairCurve b = match B.privkeyToPubkey keyPairCurve b with
      | .error _ => .error .exc
      | .ok pubkey => KeyPair.finish P b pubkey := by
    rw [KeyPair.construct]
    simp only
    rw [if_neg (by omega), if_pos h]
    cases B.privkeyToPubkey keyPairCurve b <;> rfl
  obtain ⟨hB1, hB2⟩ := hB b h
  constructor
  · intro hn
    obtain ⟨e, he⟩ := hB1 hn
    show KeyPair.construct P B keyPairCurve b = _
    rw [hc, he]
  · intro hn
    obtain ⟨ba, Q, h1, hu, h3, h4⟩ := hB2 hn
    obtain ⟨hsh, k1, k2, k3⟩ := finish_ok P b hu
    refine ⟨⟨last32 b, Q, hsh⟩, _, Prod.ext ?_ rfl, ?_, h3, h4, k2, ?_⟩
    · show KeyPair.construct P B keyPairCurve b = _
      rw [hc, h1]
      exact k1
    · show last32 b = b
      rw [last32, h]; rfl
    · intro hi
      rcases k3 with ⟨hi', _⟩ | ⟨_, h3⟩
      · exact absurd (hi'.symm.trans hi) (by decide)
      · exact h3

/-! ## C43, C44 -/

theorem wif_length (w : Bytes) (hw : w.length = 37) : (encode ((0x80 : UInt8) :: w)).length = 52 := by
  obtain ⟨b1, b2⟩ := leToNat_cons_bounds 0x80 w
  rw [hw] at b1 b2
  rw [show (0x80 : UInt8).toNat = 128 from rfl] at b1 b2
  have c1 : 58 ^ 51 ≤ leToNat ((0x80 : UInt8) :: w).reverse := le_trans (by decide) b1
  have c2 : leToNat ((0x80 : UInt8) :: w).reverse < 58 ^ (51 + 1) := lt_of_lt_of_le b2 (by decide)
  rw [encode_cons _ w (by decide), encodeInt_length c1 c2]

/-- C44. `PrivateKeyFromWIF(w)` returns `k` exactly if `w` is the WIF of the 32-byte key `k`. -/
theorem C44_accepts (P : Prims) (w : Str) (k : Bytes) :
    KeyPair.privateKeyFromWIF P (some w) = .ok k ↔ Wif (fun x => P.sha256 (P.sha256 x)) k w := by
  rw [KeyPair.privateKeyFromWIF, Wif, Base58Check, ← C37_encode]
  constructor
  · intro h
    by_cases hl : w.length ≠ 52
    · rw [if_pos hl] at h; cases h
    rw [if_neg hl] at h
    cases hd : decode w with
    | error e => rw [hd] at h; cases h
    | ok data =>
      rw [hd] at h
      simp only at h
      by_cases h1 : data.length ≠ 38 ∨ data[0]? ≠ some 0x80 ∨ data[33]? ≠ some 0x01
      · rw [if_pos h1] at h; cases h
      rw [if_neg h1] at h
      by_cases h2 : (binDblSha256 P (data.take 34)).take 4 ≠ data.drop 34
      · rw [if_pos h2] at h; cases h
      rw [if_neg h2] at h
      push Not at h1 h2
      obtain ⟨hlen, h80, h01⟩ := h1
      have hk := Except.ok.inj h
      have hk32 : k.length = 32 := by rw [← hk, List.length_take, List.length_drop]; omega
      refine ⟨hk32, ?_⟩
      have e34 : data.take 34 = [0x80] ++ (k ++ [0x01]) := by
        rw [← hk]
        match data, hlen, h80 with
        | a :: t, hlen, h80 =>
          simp only [List.getElem?_cons_zero, Option.some.injEq] at h80
          subst h80
          simp only [List.getElem?_cons_succ] at h01
          show (0x80 : UInt8) :: t.take 33 = 0x80 :: (t.take 32 ++ [0x01])
          congr 1
          rw [List.take_add_one, h01]
          rfl
      have e : data = [0x80] ++ (k ++ [0x01]) ++ (P.sha256 (P.sha256 ([0x80] ++ (k ++ [0x01])))).take 4 := by
        conv_lhs => rw [← List.take_append_drop 34 data, ← h2, e34]
        rfl
      rw [← e]
      exact encode_decode hd
  · rintro ⟨hk, rfl⟩
    have hwl : ((k ++ [(0x01 : UInt8)]) ++ (binDblSha256 P ((0x80 : UInt8) :: (k ++ [0x01]))).take 4).length = 37 := by
      rw [List.length_append, List.length_append, hk, chk4]; rfl
    have e34 : (([0x80] ++ (k ++ [0x01]) ++ (P.sha256 (P.sha256 ([0x80] ++ (k ++ [0x01])))).take 4 : Bytes)).take 34 =
        [0x80] ++ (k ++ [0x01]) := by
      rw [List.take_append_of_le_length (by simp [hk]), List.take_of_length_le (by simp [hk])]
    have ed : (([0x80] ++ (k ++ [0x01]) ++ (P.sha256 (P.sha256 ([0x80] ++ (k ++ [0x01])))).take 4 : Bytes)).drop 34 =
        (P.sha256 (P.sha256 ([0x80] ++ (k ++ [0x01])))).take 4 := by
      rw [List.drop_append_of_le_length (by simp [hk]), List.drop_of_length_le (by simp [hk]), List.nil_append]
    have hlen : (([0x80] ++ (k ++ [0x01]) ++ (P.sha256 (P.sha256 ([0x80] ++ (k ++ [0x01])))).take 4 : Bytes)).length = 38 := by
      simp [hk, P.sha256_length]
    rw [if_neg (by rw [not_not]; exact wif_length _ hwl), decode_encode]
    simp only
    rw [e34, ed, hlen, if_neg, if_neg]
    · congr 1
      show ((k ++ [0x01]) ++ _).take 32 = k
      rw [List.append_assoc, List.take_append_of_le_length (by omega), List.take_of_length_le (by omega)]
    · simp [binDblSha256]
    · simp only [ne_eq, not_true_eq_false, false_or, not_or, not_not]
      refine ⟨rfl, ?_⟩
      show ((k ++ [0x01]) ++ _)[32]? = _
      rw [List.append_assoc, List.getElem?_append_right (by omega), hk]
      rfl

/-- C44. Whatever else is given raises, with a ValueError for texts (a TypeError for None); no key has two accepted texts. -/
theorem C44_rejects (P : Prims) :
    (∀ w : Str, (¬ ∃ k, Wif (fun x => P.sha256 (P.sha256 x)) k w) → KeyPair.privateKeyFromWIF P (some w) = .error .valueError) ∧
    KeyPair.privateKeyFromWIF P none = .error .typeError ∧
    (∀ w w' k, KeyPair.privateKeyFromWIF P (some w) = .ok k → KeyPair.privateKeyFromWIF P (some w') = .ok k → w = w') := by
  refine ⟨?_, rfl, ?_⟩
  · intro w hw
    cases h : KeyPair.privateKeyFromWIF P (some w) with
    | ok k => exact absurd ⟨k, (C44_accepts P w k).1 h⟩ hw
    | error e =>
      congr 1
      rw [KeyPair.privateKeyFromWIF] at h
      by_cases hl : w.length ≠ 52
      · rw [if_pos hl] at h; cases h; rfl
      rw [if_neg hl] at h
      cases hd : decode w with
      | error e' => rw [hd] at h; cases h; exact decode_error w _ hd
      | ok data =>
        rw [hd] at h
        simp only at h
        split at h
        · cases h; rfl
        · split at h
          · cases h; rfl
          · cases h
  · intro w w' k h h'
    have h1 := (C44_accepts P w k).1 h
    have h2 := (C44_accepts P w' k).1 h'
    rw [Wif, Base58Check, ← C37_encode] at h1 h2
    exact h1.2.symm.trans h2.2

/-- Every constructed key pair has a 32-byte private key: the last 32 bytes of what it was constructed from. -/
theorem private_key {P : Prims} {B : Btc} {b : Bytes} {w w' : World} {kp : KeyPair}
    (h : KeyPair.init P B b w = (.ok kp, w')) : kp.privateKey = b.drop (b.length - 32) ∧ kp.privateKey.length = 32 := by
  have hl := (C47_lengths P B b w).1 ⟨kp, w', h⟩
  have hf : ∀ pk, KeyPair.finish P b pk = .ok kp → kp.privateKey = b.drop (b.length - 32) := by
    intro pk hpk
    rw [KeyPair.finish] at hpk
    split at hpk
    · cases hpk
    · split at hpk
      · cases hpk
      · cases hpk; rfl
  have hk : kp.privateKey = b.drop (b.length - 32) := by
    have hc : KeyPair.construct P B keyPairCurve b = .ok kp := congrArg Prod.fst h
    rw [KeyPair.construct] at hc
    simp only at hc
    rw [if_neg (by omega)] at hc
    by_cases h32 : b.length = 32
    · rw [if_pos h32] at hc
      split at hc
      · cases hc
      · exact hf _ hc
    · rw [if_neg h32] at hc
      exact hf _ hc
  refine ⟨hk, ?_⟩
  rw [hk, List.length_drop]
  omega

/-- C43. `Export` of every constructed key pair is the 52-character WIF of the last 32 bytes of the key, and
`PrivateKeyFromWIF` gives these back. -/
theorem C43_roundtrip (P : Prims) (B : Btc) (b : Bytes) (kp : KeyPair) (w w' : World)
    (h : KeyPair.init P B b w = (.ok kp, w')) (w1 : World) :
    ∃ s w2, KeyPair.exportWIF P kp w1 = (.ok s, w2) ∧ s.length = 52 ∧
      Wif (fun x => P.sha256 (P.sha256 x)) (b.drop (b.length - 32)) s ∧
      KeyPair.privateKeyFromWIF P (some s) = .ok (b.drop (b.length - 32)) := by
  obtain ⟨hk, hk32⟩ := private_key h
  have hw : Wif (fun x => P.sha256 (P.sha256 x)) (b.drop (b.length - 32)) (encode (KeyPair.wifBytes P kp)) := by
    refine ⟨by rw [← hk]; exact hk32, ?_⟩
    rw [Base58Check, ← C37_encode, KeyPair.wifBytes, List.take_of_length_le (hk32.le), hk]
    simp [binDblSha256]
  refine ⟨encode (KeyPair.wifBytes P kp), _, rfl, ?_, hw, (C44_accepts P _ _).2 hw⟩
  have hws : KeyPair.wifBytes P kp = 0x80 :: (kp.privateKey.take 32 ++ [0x01] ++
      (binDblSha256 P ([0x80] ++ kp.privateKey.take 32 ++ [0x01])).take 4) := rfl
  rw [hws]
  refine wif_length _ ?_
  rw [List.length_append, List.length_append, List.length_take, hk32, chk4]
  rfl

/-! ## C48 -/

/-- C48. `GetAddress()`, `scripthash_to_address(pubkey_to_pubhash(encoded key))` and `ToAddress(ToScriptHash(script))`, with the
script as hex text or as bytes, agree for every key pair, also in when they raise. -/
theorem C48_agree (P : Prims) (kp : KeyPair) (enc : Bytes) (he : encodePoint secp256r1Curve kp.publicKey true = .ok enc) :
    KeyPair.getAddress P kp = (pubkeyToPubhash P enc).map (scripthashToAddress P) ∧
    KeyPair.getAddress P kp = (toScriptHash P ([0x32, 0x31] ++ enc ++ [0x61, 0x63]) true).map (toAddress P) ∧
    (∀ script, pubkeyToRedeem enc = .ok script →
      KeyPair.getAddress P kp = (toScriptHash P script false).map (toAddress P)) := by
  have h2 : KeyPair.getAddress P kp = (toScriptHash P ([0x32, 0x31] ++ enc ++ [0x61, 0x63]) true).map (toAddress P) := by
    rw [KeyPair.getAddress, he]
    simp only
    cases toScriptHash P ([0x32, 0x31] ++ enc ++ [0x61, 0x63]) true <;> rfl
  have h1 : toScriptHash P ([0x32, 0x31] ++ enc ++ [0x61, 0x63]) true = pubkeyToPubhash P enc := by
    rw [toScriptHash, if_pos (by simp), pubkeyToPubhash, pubkeyToRedeem]
    cases unhexlify ([0x32, 0x31] ++ enc ++ [0x61, 0x63]) with
    | error e => rfl
    | ok r => exact finish_eq P r
  refine ⟨by rw [h2, h1]; rfl, h2, ?_⟩
  intro script hs
  rw [h2, h1, pubkeyToPubhash, hs, (C51_to_script_hash P script).1]
  rfl

private theorem unhex_script (ba : Bytes) : unhexlify ([0x32, 0x31] ++ hexlify ba ++ [0x61, 0x63]) = .ok ([0x21] ++ ba ++ [0xac]) := by
  have : [0x32, 0x31] ++ hexlify ba ++ [0x61, 0x63] = hexlify ([0x21] ++ ba ++ [0xac]) := by
    have happ : ∀ a b : Bytes, hexlify (a ++ b) = hexlify a ++ hexlify b := by
      intro a b
      induction a with
      | nil => rfl
      | cons x t ih => simp [hexlify, ih]
    rw [happ, happ]
    rfl
  rw [this, unhexlify_hexlify]

theorem getAddress_eq (P : Prims) (kp : KeyPair) {ba : Bytes}
    (he : encodePoint secp256r1Curve kp.publicKey true = .ok (hexlify ba)) :
    KeyPair.getAddress P kp = .ok (toAddress P (P.ripemd160 (P.sha256 ([0x21] ++ ba ++ [0xac])))) := by
  rw [(C48_agree P kp _ he).1, pubkeyToPubhash, pubkeyToRedeem, unhex_script]
  rfl

/-- C48. For every public key but the point at infinity this is its NEO address, a valid address of 34 characters; for the
point at infinity all of them raise. -/
theorem C48_address (P : Prims) (kp : KeyPair) (h : 0 ≤ kp.publicKey.x ∧ kp.publicKey.x < 2 ^ 256 ∧ 0 ≤ kp.publicKey.y ∧ kp.publicKey.y < 2 ^ 256) :
    (isInfinity secp256r1Curve kp.publicKey = false → ∃ s, KeyPair.getAddress P kp = .ok s ∧
      AddressOf (fun x => P.sha256 (P.sha256 x)) (fun x => P.ripemd160 (P.sha256 x)) kp.publicKey s ∧
      (∀ s', AddressOf (fun x => P.sha256 (P.sha256 x)) (fun x => P.ripemd160 (P.sha256 x)) kp.publicKey s' → s' = s) ∧
      s.length = 34 ∧ isValidPublicAddress P s = .ok true) ∧
    (isInfinity secp256r1Curve kp.publicKey = true → KeyPair.getAddress P kp = .error .binasciiError) := by
  constructor
  · intro hi
    rcases encode_any h with ⟨hi', _⟩ | ⟨_, ba, he, hc⟩
    · rw [hi] at hi'; cases hi'
    have hu : ∀ ba', IsCompressed kp.publicKey ba' → ba' = ba := by
      intro ba' hc'
      obtain ⟨xb, rfl, hx, hpx⟩ := hc
      obtain ⟨xb', rfl, hx', hpx'⟩ := hc'
      rw [hpx] at hpx'
      rw [beNumber_inj (hx'.trans hx.symm) (by exact_mod_cast hpx'.symm)]
    refine ⟨_, getAddress_eq P kp he, ⟨ba, hc, (C38_address P _ _ (P.ripemd160_length _)).1 rfl⟩, ?_, ?_⟩
    · rintro s' ⟨ba', hc', hs'⟩
      rw [hu ba' hc'] at hs'
      exact ((C38_address P _ _ (P.ripemd160_length _)).2 hs').symm
    · obtain ⟨h1, _, h3⟩ := C39_generated_valid P _ (P.ripemd160_length (P.sha256 ([0x21] ++ ba ++ [0xac])))
      exact ⟨h1, h3⟩
  · intro hi
    have he : encodePoint secp256r1Curve kp.publicKey true = .ok [0] := by rw [encodePoint, if_pos hi]
    rw [(C48_agree P kp _ he).1, pubkeyToPubhash, pubkeyToRedeem]
    rfl

/-- Key pairs of 32-byte keys from 1 to the order: the public key is a finite point. -/
theorem derived_finite {P : Prims} {B : Btc} (hB : DerivesPublicKeys B keyPairCurve) {b : Bytes} {w w' : World} {kp : KeyPair}
    (h : KeyPair.init P B b w = (.ok kp, w')) (hb : b.length = 32) (h0 : beNumber b ≠ 0) :
    isInfinity secp256r1Curve kp.publicKey = false ∧ Reduced secp256r1Curve kp.publicKey := by
  have := Fact.mk p256_prime
  obtain ⟨k1, k2⟩ := C47_derived P B hB b w hb
  have hlt : beNumber b < p256Order := by
    by_contra hn
    have := k1 (by omega)
    rw [h] at this
    cases this
  obtain ⟨kp', w'', e, _, hr, hd, _⟩ := k2 hlt
  rw [h] at e
  cases e
  refine ⟨?_, hr⟩
  obtain ⟨G, hG, ho⟩ := base_exists
  have hQ := hd G hG
  have hne : beNumber b • G ≠ 0 := by
    intro hz
    have := addOrderOf_dvd_of_nsmul_eq_zero hz
    rw [ho] at this
    exact absurd (Nat.le_of_dvd (by omega) this) (by omega)
  refine isInfinity_of_onCurve p256_proper (denotes_onCurve hQ) ?_
  intro hz
  rw [hz] at hQ
  exact hne ((denotes_same p256_proper hQ denotes_zero).1 ⟨by simp [zero], by simp [zero]⟩)

theorem reduced_coords {Q : Pt} (h : Reduced secp256r1Curve Q) : 0 ≤ Q.x ∧ Q.x < 2 ^ 256 ∧ 0 ≤ Q.y ∧ Q.y < 2 ^ 256 :=
  ⟨h.1, h.2.1.trans p256_lt, h.2.2.1, h.2.2.2.trans p256_lt⟩

/-- C48. So every key from 1 to the group order has an address: that of its number times the base point. -/
theorem C48_derived (P : Prims) (B : Btc) (hB : DerivesPublicKeys B keyPairCurve) (b : Bytes) (w : World) (hb : b.length = 32)
    (h0 : 0 < beNumber b) (hn : beNumber b < p256Order) :
    letI := Fact.mk p256_prime
    ∃ kp w' s, KeyPair.init P B b w = (.ok kp, w') ∧ KeyPair.getAddress P kp = .ok s ∧
      AddressOf (fun x => P.sha256 (P.sha256 x)) (fun x => P.ripemd160 (P.sha256 x)) kp.publicKey s ∧
      ∀ G, Denotes secp256r1Curve secp256r1.G G → Denotes secp256r1Curve kp.publicKey (beNumber b • G) := by
  obtain ⟨kp, w', e, _, hr, hd, _⟩ := (C47_derived P B hB b w hb).2 hn
  obtain ⟨hi, _⟩ := derived_finite hB e hb (by omega)
  obtain ⟨s, h1, h2, _⟩ := (C48_address P kp (reduced_coords hr)).1 hi
  exact ⟨kp, w', s, e, h1, h2, hd⟩

/-! ## C45, C46 -/

private theorem xor_ok {x y : Bytes} (h : x.length = y.length) : xorBytes (.bytes x) (.bytes y) = .ok (List.zipWith (· ^^^ ·) x y) := by
  simp [xorBytes, h]

theorem nep2_len (f : UInt8) (w : Bytes) (hw : w.length = 40) :
    (encode ((0x01 : UInt8) :: 0x42 :: f :: w)).length = 58 := by
  have b1 := leToNat_cons_bounds 0x01 ((0x42 : UInt8) :: f :: w)
  have hlt := leToNat_lt (f :: w).reverse
  have e : leToNat ((0x01 : UInt8) :: 0x42 :: f :: w).reverse = leToNat (f :: w).reverse + 256 ^ 41 * 0x142 := by
    rw [List.reverse_cons, leToNat_append, List.reverse_cons, leToNat_append]
    simp only [List.length_append, List.length_reverse, List.length_cons, List.length_nil, hw]
    show leToNat _ + 256 ^ 41 * 0x42 + 256 ^ 42 * 1 = _
    omega
  rw [List.length_reverse, List.length_cons, hw] at hlt
  have c1 : 58 ^ 57 ≤ leToNat ((0x01 : UInt8) :: 0x42 :: f :: w).reverse := by rw [e]; omega
  have c2 : leToNat ((0x01 : UInt8) :: 0x42 :: f :: w).reverse < 58 ^ (57 + 1) := by rw [e]; omega
  rw [encode_cons _ _ (by decide), encodeInt_length c1 c2]

theorem derivedKey_length (P : Prims) (pw salt : Bytes) : (KeyPair.derivedKey P pw salt).length = 64 := P.scrypt_length _ _ _ _ _ _

/-- What `ExportNEP2` writes for a 32-byte private key with an address. -/
theorem exportNEP2_eq (P : Prims) (nfc : Str → Str) (kp : KeyPair) (pw addr : Str) (hpw : 2 ≤ pw.length)
    (hk : kp.privateKey.length = 32) (ha : KeyPair.getAddress P kp = .ok addr) :
    ∃ enc, enc.length = 32 ∧
      List.zipWith (· ^^^ ·) (P.aesDec ((KeyPair.derivedKey P (utf8 (nfc pw)) (KeyPair.addressHash P addr)).drop 32) enc)
        ((KeyPair.derivedKey P (utf8 (nfc pw)) (KeyPair.addressHash P addr)).take 32) = kp.privateKey ∧
      KeyPair.exportNEP2 P nfc kp pw = .ok (encodeCheck (binDblSha256 P)
        ([0x01, 0x42] ++ [0xe0] ++ KeyPair.addressHash P addr ++ enc)) := by
  have hd : ((KeyPair.derivedKey P (utf8 (nfc pw)) (KeyPair.addressHash P addr)).take 32).length = 32 := by simp [derivedKey_length]
  have hx := xor_ok (hk.trans hd.symm)
  obtain ⟨_, u, v, h1, h2, _, h4⟩ := C49_laws kp.privateKey _ _ (hk.trans hd.symm) rfl
  rw [hx] at h1
  have hul : u.length = 32 := by rw [← Except.ok.inj h1, List.length_zipWith, hk, hd]; rfl
  rw [← hx] at h1
  refine ⟨P.aesEnc ((KeyPair.derivedKey P (utf8 (nfc pw)) (KeyPair.addressHash P addr)).drop 32) u, ?_, ?_, ?_⟩
  · rw [P.aesEnc_length, hul]
  · rw [P.aes_inverse _ _ (by simp [derivedKey_length]) (by rw [hul])]
    rw [xor_ok (hul.trans hd.symm)] at h4
    exact Except.ok.inj h4
  · rw [KeyPair.exportNEP2, if_neg (by omega), ha]
    simp only
    rw [h1]
    simp only
    rw [if_neg (by rw [hul]; decide)]

/-- What `PrivateKeyFromNEP2` makes of a text with this content. -/
theorem import_eq (P : Prims) (nfc : Str → Str) (pre ah enc key : Bytes) (pw : Str)
    (hp : pre.length = 3) (hah : ah.length = 4) (he : enc.length = 32)
    (hl : (encodeCheck (binDblSha256 P) (pre ++ ah ++ enc)).length = 58)
    (hk : List.zipWith (· ^^^ ·) (P.aesDec ((KeyPair.derivedKey P (utf8 (nfc pw)) ah).drop 32) enc) ((KeyPair.derivedKey P (utf8 (nfc pw)) ah).take 32) = key) :
    KeyPair.decryptNEP2 P nfc (encodeCheck (binDblSha256 P) (pre ++ ah ++ enc)) pw = .ok (key, ah) := by
  have hdec : decodeCheck (binDblSha256 P) (encodeCheck (binDblSha256 P) (pre ++ ah ++ enc)) = .ok (pre ++ ah ++ enc) :=
    (C37_check _ (dbl_len P) _ _).2 rfl
  have e1 : ((pre ++ ah ++ enc).drop 3).take 4 = ah := by
    rw [List.append_assoc, List.drop_append_of_le_length (by omega), List.drop_of_length_le (by omega), List.nil_append,
      List.take_append_of_le_length (by omega), List.take_of_length_le (by omega)]
  have e2 : last32 (pre ++ ah ++ enc) = enc := by
    rw [last32, List.length_append, List.length_append, hp, hah, he,
      List.drop_append_of_le_length (by rw [List.length_append]; omega), List.drop_of_length_le (by rw [List.length_append]; omega)]
    rfl
  rw [KeyPair.decryptNEP2, if_neg (by rw [hl]; decide), hdec]
  simp only
  rw [e1, e2, if_neg (by rw [he]; decide), xor_ok (by rw [P.aesDec_length, he]; simp [derivedKey_length])]
  simp only
  rw [hk]

/-- What `PrivateKeyFromNEP2` does once the text is decrypted to a key with this address. -/
theorem import_ok {P : Prims} {B : Btc} {nfc : Str → Str} {s pw : Str} {key : Bytes} {kp : KeyPair} {addr : Str} {w w' : World}
    (hd : KeyPair.decryptNEP2 P nfc s pw = .ok (key, KeyPair.addressHash P addr))
    (hi : KeyPair.init P B key w = (.ok kp, w')) (ha : KeyPair.getAddress P kp = .ok addr) :
    KeyPair.privateKeyFromNEP2 P B nfc s pw w = (.ok key, w') := by
  rw [KeyPair.privateKeyFromNEP2, hd]
  simp only
  rw [hi]
  simp only
  rw [ha]
  simp

theorem addressHash_length (P : Prims) (addr : Str) : (KeyPair.addressHash P addr).length = 4 := by
  simp [KeyPair.addressHash, P.sha256_length]

theorem getAddress_congr (P : Prims) {kp kp' : KeyPair} (h : kp.publicKey = kp'.publicKey) :
    KeyPair.getAddress P kp = KeyPair.getAddress P kp' := by
  rw [KeyPair.getAddress, KeyPair.getAddress, h]

theorem init_any_world {P : Prims} {B : Btc} {b : Bytes} {w w' : World} {kp : KeyPair}
    (h : KeyPair.init P B b w = (.ok kp, w')) (w1 : World) : ∃ w2, KeyPair.init P B b w1 = (.ok kp, w2) :=
  ⟨{ w1 with curve := keyPairCurve }, Prod.ext
    (show KeyPair.construct P B keyPairCurve b = .ok kp from (congrArg Prod.fst h :)) rfl⟩

/-- C45, for key pairs whose public key belongs to their private key and is not the point at infinity: with a passphrase of at
least two characters, `ExportNEP2` gives a well-formed NEP-2 text of 58 characters, carrying the first four bytes of the double
SHA-256 of the address, and `PrivateKeyFromNEP2` of it with that passphrase (or one with the same normal form) returns the
private key. -/
theorem C45_roundtrip_partial (P : Prims) (B : Btc) (nfc : Str → Str) (b : Bytes) (kp kp' : KeyPair) (w w' w1 w1' : World)
    (h : KeyPair.init P B b w = (.ok kp, w')) (h' : KeyPair.init P B kp.privateKey w1 = (.ok kp', w1'))
    (hpub : kp.publicKey = kp'.publicKey) (addr : Str) (ha : KeyPair.getAddress P kp = .ok addr)
    (pw pw' : Str) (hpw : 2 ≤ pw.length) (hnfc : nfc pw = nfc pw') (w2 : World) :
    ∃ s enc w3, KeyPair.exportNEP2 P nfc kp pw = .ok s ∧ s.length = 58 ∧
      Nep2 (fun x => P.sha256 (P.sha256 x)) ((P.sha256 (P.sha256 (utf8 addr))).take 4) enc s ∧
      KeyPair.privateKeyFromNEP2 P B nfc s pw' w2 = (.ok (b.drop (b.length - 32)), w3) := by
  obtain ⟨hk, hk32⟩ := private_key h
  obtain ⟨enc, he, hx, hs⟩ := exportNEP2_eq P nfc kp pw addr hpw hk32 ha
  obtain ⟨w3, hi⟩ := init_any_world h' w2
  have hl : (encodeCheck (binDblSha256 P) ([0x01, 0x42] ++ [0xe0] ++ KeyPair.addressHash P addr ++ enc)).length = 58 := by
    rw [encodeCheck]
    refine nep2_len 0xe0 (KeyPair.addressHash P addr ++ enc ++ (binDblSha256 P _).take 4) ?_
    rw [List.length_append, List.length_append, addressHash_length, he, chk4]
  refine ⟨_, enc, w3, hs, hl, ⟨addressHash_length P addr, he, ?_⟩, ?_⟩
  · rw [Base58Check, ← C37_encode]
    rfl
  · rw [← hk]
    refine import_ok ?_ hi ((getAddress_congr P hpub).symm.trans ha)
    exact import_eq P nfc _ _ _ _ _ rfl (addressHash_length P addr) he hl (by rw [← hnfc]; exact hx)

/-- C104, in particular for every private key from 1 to the group order. -/
theorem C104_private_keys (P : Prims) (B : Btc) (hB : DerivesPublicKeys B keyPairCurve) (nfc : Str → Str) (b : Bytes)
    (hb : b.length = 32) (h0 : 0 < beNumber b) (hn : beNumber b < p256Order) (pw : Str) (hpw : 2 ≤ pw.length) (w w1 : World) :
    ∃ kp w' s w2, KeyPair.init P B b w = (.ok kp, w') ∧ KeyPair.exportNEP2 P nfc kp pw = .ok s ∧ s.length = 58 ∧
      KeyPair.privateKeyFromNEP2 P B nfc s pw w1 = (.ok b, w2) := by
  obtain ⟨kp, w', addr, hi, ha, _⟩ := C48_derived P B hB b w hb h0 hn
  have hk := (private_key hi).1
  have hbb : b.drop (b.length - 32) = b := by rw [hb]; rfl
  rw [hbb] at hk
  obtain ⟨s, enc, w3, h1, h2, _, h4⟩ := C45_roundtrip_partial P B nfc b kp kp w w' w w' hi (by rw [hk]; exact hi) rfl addr ha pw pw
    hpw rfl w1
  rw [hbb] at h4
  exact ⟨kp, w', s, w3, hi, h1, h2, h4⟩

/-- C104. Passphrases of fewer than two characters raise. -/
theorem C104_short (P : Prims) (nfc : Str → Str) (kp : KeyPair) (pw : Str) (h : pw.length < 2) :
    KeyPair.exportNEP2 P nfc kp pw = .error .valueError := by
  rw [KeyPair.exportNEP2, if_pos h]

/-- C45 fails for 96- and 104-byte keys: nothing checks that the private key belongs to the embedded public key, or is below
the group order. For every finite embedded key and private key from the group order on, `ExportNEP2` succeeds and
`PrivateKeyFromNEP2` of the result raises. -/
theorem C45_embedded_violated (P : Prims) (B : Btc) (hB : DerivesPublicKeys B keyPairCurve) (nfc : Str → Str) (b : Bytes)
    (hb : b.length = 96 ∨ b.length = 104) (hn : p256Order ≤ beNumber (b.drop (b.length - 32)))
    (Q : Pt) (hQ : IsUncompressed Q (4 :: (b.drop (b.length - 96)).take 64)) (hi : isInfinity secp256r1Curve Q = false)
    (pw : Str) (hpw : 2 ≤ pw.length) (w : World) :
    ∃ kp w' s, KeyPair.init P B b w = (.ok kp, w') ∧ KeyPair.exportNEP2 P nfc kp pw = .ok s ∧
      ∀ w1, (KeyPair.privateKeyFromNEP2 P B nfc s pw w1).1 = .error .exc := by
  obtain ⟨kp, w', h, hk, hk32, hu, _⟩ := C47_embedded P B b w hb
  have hq : kp.publicKey = Q := (decodePubkey_eq hu).symm.trans (decodePubkey_eq hQ)
  obtain ⟨addr, ha, _⟩ := (C48_address P kp (by rw [hq]; exact coords hQ)).1 (by rw [hq]; exact hi)
  obtain ⟨enc, he, hx, hs⟩ := exportNEP2_eq P nfc kp pw addr hpw hk32 ha
  have hl : (encodeCheck (binDblSha256 P) ([0x01, 0x42] ++ [0xe0] ++ KeyPair.addressHash P addr ++ enc)).length = 58 := by
    rw [encodeCheck]
    refine nep2_len 0xe0 (KeyPair.addressHash P addr ++ enc ++ (binDblSha256 P _).take 4) ?_
    rw [List.length_append, List.length_append, addressHash_length, he, chk4]
  refine ⟨kp, w', _, h, hs, ?_⟩
  intro w1
  have hd := import_eq P nfc _ _ _ _ pw rfl (addressHash_length P addr) he hl hx
  have hbad := (C47_derived P B hB kp.privateKey w1 hk32).1 (by rw [hk]; exact hn)
  rw [KeyPair.privateKeyFromNEP2, hd]
  simp only
  revert hbad
  generalize KeyPair.init P B kp.privateKey w1 = r
  rcases r with ⟨r1, r2⟩
  intro hbad
  simp only at hbad
  rw [hbad]

/-- C102, what is true: if `PrivateKeyFromNEP2` returns `k`, the text has 58 characters and a good checksum, `k` has 32 bytes, is
a private key from 1 to the group order, and the double SHA-256 of the address of its public key begins with bytes 3-6 of the
payload. -/
theorem C102_address (P : Prims) (B : Btc) (hB : DerivesPublicKeys B keyPairCurve) (nfc : Str → Str) (s pw : Str) (k : Bytes)
    (w w' : World) (h : KeyPair.privateKeyFromNEP2 P B nfc s pw w = (.ok k, w')) :
    letI := Fact.mk p256_prime
    ∃ v payload addr Q, s.length = 58 ∧ Base58Check (fun x => P.sha256 (P.sha256 x)) v payload s ∧ k.length = 32 ∧
      0 < beNumber k ∧ beNumber k < p256Order ∧
      (∀ G, Denotes secp256r1Curve secp256r1.G G → Denotes secp256r1Curve Q (beNumber k • G)) ∧
      AddressOf (fun x => P.sha256 (P.sha256 x)) (fun x => P.ripemd160 (P.sha256 x)) Q addr ∧
      (P.sha256 (P.sha256 (utf8 addr))).take 4 = (payload.drop 2).take 4 := by
  have := Fact.mk p256_prime
  rw [KeyPair.privateKeyFromNEP2] at h
  cases hd : KeyPair.decryptNEP2 P nfc s pw with
  | error e => rw [hd] at h; cases h
  | ok r =>
    obtain ⟨key, ah⟩ := r
    rw [hd] at h
    simp only at h
    rw [KeyPair.decryptNEP2] at hd
    by_cases hl : s.length ≠ 58
    · rw [if_pos hl] at hd; cases hd
    rw [if_neg hl] at hd
    push Not at hl
    cases hdc : decodeCheck (binDblSha256 P) s with
    | error e => rw [hdc] at hd; cases hd
    | ok decoded =>
      rw [hdc] at hd
      simp only at hd
      by_cases h16 : (last32 decoded).length % 16 ≠ 0
      · rw [if_pos h16] at hd; cases hd
      rw [if_neg h16] at hd
      cases hx : xorBytes (.bytes (P.aesDec ((KeyPair.derivedKey P (utf8 (nfc pw)) ((decoded.drop 3).take 4)).drop 32) (last32 decoded)))
          (.bytes ((KeyPair.derivedKey P (utf8 (nfc pw)) ((decoded.drop 3).take 4)).take 32)) with
      | error e => rw [hx] at hd; cases hd
      | ok pk =>
        rw [hx] at hd
        cases hd
        have hpk : key.length = 32 ∧ (last32 decoded).length = 32 := by
          obtain ⟨x, y, ex, ey, h1, h2, _⟩ := (C49_xor _ _ _).1 hx
          cases ex
          cases ey
          rw [List.length_take, derivedKey_length] at h1
          rw [P.aesDec_length] at h1 h2
          exact ⟨h2.trans h1, h1⟩
        have hdl : 32 ≤ decoded.length := by
          have := hpk.2
          rw [last32, List.length_drop] at this
          omega
        obtain ⟨v, payload, rfl⟩ : ∃ v p, decoded = v :: p := by
          cases decoded with
          | nil => simp at hdl
          | cons v p => exact ⟨v, p, rfl⟩
        cases hi : KeyPair.init P B key w with
        | mk r1 r2 =>
          rw [hi] at h
          cases r1 with
          | error e => cases h
          | ok kp =>
            simp only at h
            cases hga : KeyPair.getAddress P kp with
            | error e => rw [hga] at h; cases h
            | ok addr =>
              rw [hga] at h
              simp only at h
              split at h
              · cases h
              · next hne =>
                push Not at hne
                cases h
                obtain ⟨k1, k2⟩ := C47_derived P B hB k w hpk.1
                have hlt : beNumber k < p256Order := by
                  by_contra hn
                  have := k1 (by omega)
                  rw [hi] at this
                  cases this
                obtain ⟨kp', w'', e, _, hr, hden, _⟩ := k2 hlt
                rw [hi] at e
                cases e
                have h0 : 0 < beNumber k := by
                  by_contra hz
                  have hz : beNumber k = 0 := by omega
                  obtain ⟨G, hG, _⟩ := base_exists
                  have hQ := hden G hG
                  rw [hz, zero_nsmul] at hQ
                  have hQ0 : kp.publicKey = zero := hQ
                  have hinf : isInfinity secp256r1Curve kp.publicKey = true := by rw [hQ0]; decide +kernel
                  rw [(C48_address P kp (reduced_coords hr)).2 hinf] at hga
                  cases hga
                have hfin := (derived_finite hB hi hpk.1 (by omega)).1
                obtain ⟨s', hs1, hs2, _⟩ := (C48_address P kp (reduced_coords hr)).1 hfin
                rw [hga] at hs1
                cases hs1
                refine ⟨v, payload, addr, kp.publicKey, hl, ?_, hpk.1, h0, hlt, hden, hs2, hne⟩
                rw [Base58Check, ← C37_encode]
                exact ((C37_check _ (dbl_len P) _ _).1 hdc).symm

/-- C46 fails in the form of the text: the two header bytes and the flag byte are not looked at. For every key from 1 to the
group order and every passphrase there is a text with flag byte 0xe1 that is accepted and is not a NEP-2 text. -/
theorem C46_flag_violated (P : Prims) (B : Btc) (hB : DerivesPublicKeys B keyPairCurve) (nfc : Str → Str) (b : Bytes)
    (hb : b.length = 32) (h0 : 0 < beNumber b) (hn : beNumber b < p256Order) (pw : Str) (hpw : 2 ≤ pw.length) (w : World) :
    ∃ s w', KeyPair.privateKeyFromNEP2 P B nfc s pw w = (.ok b, w') ∧
      ¬ ∃ ah enc, Nep2 (fun x => P.sha256 (P.sha256 x)) ah enc s := by
  obtain ⟨kp, w', addr, hi, ha, _⟩ := C48_derived P B hB b w hb h0 hn
  obtain ⟨hk, hk32⟩ := private_key hi
  rw [show b.drop (b.length - 32) = b by rw [hb]; rfl] at hk
  obtain ⟨enc, he, hx, hs⟩ := exportNEP2_eq P nfc kp pw addr hpw hk32 ha
  have hl : (encodeCheck (binDblSha256 P) ([0x01, 0x42, 0xe1] ++ KeyPair.addressHash P addr ++ enc)).length = 58 := by
    rw [encodeCheck]
    refine nep2_len 0xe1 (KeyPair.addressHash P addr ++ enc ++ (binDblSha256 P _).take 4) ?_
    rw [List.length_append, List.length_append, addressHash_length, he, chk4]
  refine ⟨_, w', import_ok (import_eq P nfc _ _ _ _ pw rfl (addressHash_length P addr) he hl (hx.trans hk)) hi ha, ?_⟩
  rintro ⟨ah, enc', _, _, h3⟩
  rw [Base58Check, ← C37_encode, encodeCheck] at h3
  have := encode_inj h3
  simp at this

/-! ## The hypotheses above can be met -/

/-- The `bitcoin` package as published, and a private key: 32 bytes, a number between 1 and the group order. -/
example (verify) : DerivesPublicKeys (pyBtc (fun _ _ => 1) verify) keyPairCurve ∧ (List.replicate 32 (1 : UInt8)).length = 32 ∧
    0 < beNumber (List.replicate 32 1) ∧ beNumber (List.replicate 32 1) < p256Order :=
  ⟨pyBtc_derives _ _, rfl, by decide +kernel, by decide +kernel⟩

/-- A number from the group order on (C47_derived, first part; C45_embedded_violated). -/
example : p256Order ≤ beNumber (List.replicate 32 255) := by decide +kernel

/-- Key pairs of the three lengths exist (C43, C48). -/
example (P : Prims) (verify) (w : World) : ∀ n, n = 32 ∨ n = 96 ∨ n = 104 →
    ∃ kp w', KeyPair.init P (pyBtc (fun _ _ => 1) verify) (List.replicate n 1) w = (.ok kp, w') := by
  intro n hn
  rcases hn with rfl | rfl | rfl
  · obtain ⟨kp, w', h, -⟩ := (C47_derived P _ (pyBtc_derives (fun _ _ => 1) verify) (List.replicate 32 1) w rfl).2 (by decide +kernel)
    exact ⟨kp, w', h⟩
  · obtain ⟨kp, w', h, -⟩ := C47_embedded P (pyBtc (fun _ _ => 1) verify) (List.replicate 96 1) w (.inl rfl)
    exact ⟨kp, w', h⟩
  · obtain ⟨kp, w', h, -⟩ := C47_embedded P (pyBtc (fun _ _ => 1) verify) (List.replicate 104 1) w (.inr rfl)
    exact ⟨kp, w', h⟩

/-- A text in wallet import format exists (C44). -/
example (P : Prims) (w : World) : ∃ k s, Wif (fun x => P.sha256 (P.sha256 x)) k s ∧ KeyPair.privateKeyFromWIF P (some s) = .ok k := by
  obtain ⟨kp, w', h, -⟩ := C47_embedded P (pyBtc (fun _ _ => 1) (fun _ _ _ => .ok false)) (List.replicate 96 1) w (.inl rfl)
  obtain ⟨s, w2, h1, h2, h3, h4⟩ := C43_roundtrip P _ _ kp w w' h w
  exact ⟨_, s, h3, h4⟩

/-- A NEP-2 text that is accepted exists (C46). -/
example (P : Prims) (verify) (w : World) : ∃ s k w', KeyPair.privateKeyFromNEP2 P (pyBtc (fun _ _ => 1) verify) id s ['a', 'b'] w = (.ok k, w') := by
  obtain ⟨kp, w', s, w2, h1, h2, h3, h4⟩ := C104_private_keys P _ (pyBtc_derives (fun _ _ => 1) verify) id (List.replicate 32 1) rfl
    (by decide +kernel) (by decide +kernel) ['a', 'b'] (by decide) w w
  exact ⟨s, _, w2, h4⟩

/-- A finite embedded key (C45_embedded_violated, C48_address). -/
example : ∃ Q : Pt, IsUncompressed Q (4 :: ((List.replicate 96 (255 : UInt8)).drop ((List.replicate 96 (255 : UInt8)).length - 96)).take 64) ∧
    isInfinity secp256r1Curve Q = false ∧ p256Order ≤ beNumber ((List.replicate 96 (255 : UInt8)).drop ((List.replicate 96 (255 : UInt8)).length - 32)) := by
  refine ⟨⟨beNumber (List.replicate 32 255), beNumber (List.replicate 32 255)⟩, ⟨List.replicate 32 255, List.replicate 32 255, rfl, rfl, rfl, rfl, rfl⟩, ?_, ?_⟩
  · decide +kernel
  · decide +kernel

end Neo.Props
