import Verif.Props.KeyBijection
import Verif.Props.KeyPair

/-!
# C140–C146: addresses, imports and passphrases
-/

namespace Neo.Props
open Py Neo.EC Spec.EC Spec Base58

/-- On the curve, the compressed encoding determines the point. -/
private theorem compressed_inj {Q Q' : Pt} (hQ : OnCurve secp256r1Curve Q) (hQ' : OnCurve secp256r1Curve Q')
    (hr : Reduced secp256r1Curve Q) (hr' : Reduced secp256r1Curve Q') (hi : isInfinity secp256r1Curve Q = false)
    (hi' : isInfinity secp256r1Curve Q' = false) {c : Bytes} (h : IsCompressed Q c) (h' : IsCompressed Q' c) : Q = Q' := by
  have := Fact.mk p256_prime
  have eqn : ∀ {A : Pt}, OnCurve secp256r1Curve A → isInfinity secp256r1Curve A = false →
      (secp256r1Curve.p : ℤ) ∣ A.y ^ 2 - (A.x ^ 3 + secp256r1Curve.a * A.x + secp256r1Curve.b) := by
    intro A hA hi
    rcases hA with rfl | hA
    · exact absurd hi (by decide +kernel)
    · exact hA
  have e1 := decode_compressed (c := secp256r1Curve) (by decide +kernel) (by decide +kernel) h hr.2.2.1 hr.2.2.2 (eqn hQ hi)
  have e2 := decode_compressed (c := secp256r1Curve) (by decide +kernel) (by decide +kernel) h' hr'.2.2.1 hr'.2.2.2 (eqn hQ' hi')
  rw [e1] at e2
  exact Except.ok.inj e2

/-- C140. Two different private keys with the same address would be a collision of the hash function: two different
35-byte scripts `21 <key> ac`, with the same RIPEMD-160 of SHA-256. -/
theorem C140_addresses (P : Prims) (B : Btc) (hB : DerivesPublicKeys B keyPairCurve) (b b' : Bytes) (w w' : World)
    (hl : b.length = 32) (hl' : b'.length = 32) (kp kp' : KeyPair) (u u' : World) (e : KeyPair.init P B b w = (.ok kp, u))
    (e' : KeyPair.init P B b' w' = (.ok kp', u')) (s : Str) (hs : KeyPair.getAddress P kp = .ok s)
    (hs' : KeyPair.getAddress P kp' = .ok s) (hne : b ≠ b') :
    ∃ c c', IsCompressed kp.publicKey c ∧ IsCompressed kp'.publicKey c' ∧ [0x21] ++ c ++ [0xac] ≠ [0x21] ++ c' ++ [0xac] ∧
      P.ripemd160 (P.sha256 ([0x21] ++ c ++ [0xac])) = P.ripemd160 (P.sha256 ([0x21] ++ c' ++ [0xac])) := by
  have := Fact.mk p256_prime
  obtain ⟨G, hG, ho⟩ := base_exists
  obtain ⟨-, r1, d1⟩ := key_accepted hB hl e
  obtain ⟨-, r2, d2⟩ := key_accepted hB hl' e'
  have fin : ∀ {k : KeyPair}, Reduced secp256r1Curve k.publicKey → KeyPair.getAddress P k = .ok s →
      isInfinity secp256r1Curve k.publicKey = false := by
    intro k hr hk
    cases hi : isInfinity secp256r1Curve k.publicKey with
    | false => rfl
    | true => rw [(C48_address P k (reduced_coords hr)).2 hi] at hk; cases hk
  have f1 := fin r1 hs
  have f2 := fin r2 hs'
  obtain ⟨s1, a1, ⟨c, hc, hn⟩, -⟩ := (C48_address P kp (reduced_coords r1)).1 f1
  obtain ⟨s2, a2, ⟨c', hc', hn'⟩, -⟩ := (C48_address P kp' (reduced_coords r2)).1 f2
  rw [hs] at a1
  rw [hs'] at a2
  cases a1
  cases a2
  refine ⟨c, c', hc, hc', ?_, ?_⟩
  · intro hcc
    have : c = c' := by simpa using hcc
    subst this
    exact hne (C125_injective P B hB b b' w w' hl hl' kp kp' u u' e e'
      (compressed_inj (denotes_onCurve (d1 G hG)) (denotes_onCurve (d2 G hG)) r1 r2 f1 f2 hc hc'))
  · exact C38_injective P _ _ (((C38_address P _ _ (P.ripemd160_length _)).2 hn).trans
      ((C38_address P _ _ (P.ripemd160_length _)).2 hn').symm)

/-- Whether a 32-byte key has an address. -/
private theorem usable_iff (P : Prims) (B : Btc) (hB : DerivesPublicKeys B keyPairCurve) (k : Bytes) (hk : k.length = 32) (w : World) :
    (∃ kp u s, KeyPair.init P B k w = (.ok kp, u) ∧ KeyPair.getAddress P kp = .ok s) ↔
      0 < beNumber k ∧ beNumber k < p256Order := by
  constructor
  · rintro ⟨kp, u, s, e, hs⟩
    have := Fact.mk p256_prime
    obtain ⟨hlt, hr, hd⟩ := key_accepted hB hk e
    refine ⟨?_, hlt⟩
    by_contra h0
    obtain ⟨G, hG, -⟩ := base_exists
    have hd := hd G hG
    rw [show beNumber k = 0 by omega, zero_nsmul] at hd
    have hz : kp.publicKey = zero := hd
    rw [(C48_address P kp (reduced_coords hr)).2 (by rw [hz]; decide +kernel)] at hs
    cases hs
  · rintro ⟨h0, hn⟩
    obtain ⟨kp, u, s, h1, h2, -⟩ := C48_derived P B hB k w hk h0 hn
    exact ⟨kp, u, s, h1, h2⟩

/-- C141, for keys from 1 to the group order (and for no others): the key of an accepted WIF makes a key pair with an address. -/
theorem C141_usable_partial (P : Prims) (B : Btc) (hB : DerivesPublicKeys B keyPairCurve) (wif : Str) (k : Bytes)
    (h : KeyPair.privateKeyFromWIF P (some wif) = .ok k) (w : World) :
    (∃ kp u s, KeyPair.init P B k w = (.ok kp, u) ∧ KeyPair.getAddress P kp = .ok s) ↔
      0 < beNumber k ∧ beNumber k < p256Order :=
  usable_iff P B hB k ((C44_accepts P wif k).1 h).1 w

/-- Every 32-byte string has a WIF that is accepted. -/
private theorem wif_exists (P : Prims) (k : Bytes) (hk : k.length = 32) : ∃ wif, KeyPair.privateKeyFromWIF P (some wif) = .ok k := by
  refine ⟨encode ([0x80] ++ (k ++ [0x01]) ++ (P.sha256 (P.sha256 ([0x80] ++ (k ++ [0x01])))).take 4), (C44_accepts P _ k).2 ⟨hk, ?_⟩⟩
  rw [Base58Check, ← C37_encode]

/-- C141 fails for the others: there is a WIF, with correct checksum, whose key (32 zero bytes) makes a key pair with the point
at infinity as public key and without address; and for every 32-byte number from the group order on there is one whose key makes
no key pair. -/
theorem C141_unusable_violated (P : Prims) (B : Btc) (hB : DerivesPublicKeys B keyPairCurve) (w : World) :
    (∃ wif, KeyPair.privateKeyFromWIF P (some wif) = .ok (List.replicate 32 0) ∧
      ∃ kp u, KeyPair.init P B (List.replicate 32 0) w = (.ok kp, u) ∧ kp.publicKey = zero ∧
        KeyPair.getAddress P kp = .error .binasciiError) ∧
    (∀ k : Bytes, k.length = 32 → p256Order ≤ beNumber k → ∃ wif, KeyPair.privateKeyFromWIF P (some wif) = .ok k ∧
      (KeyPair.init P B k w).1 = .error .exc) := by
  have := Fact.mk p256_prime
  refine ⟨?_, ?_⟩
  · obtain ⟨wif, hw⟩ := wif_exists P (List.replicate 32 0) rfl
    obtain ⟨G, hG, -⟩ := base_exists
    obtain ⟨kp, u, e, -, hr, hd, -⟩ := (C47_derived P B hB (List.replicate 32 0) w rfl).2 (by decide +kernel)
    have hd := hd G hG
    rw [show beNumber (List.replicate 32 0) = 0 by decide, zero_nsmul] at hd
    have hz : kp.publicKey = zero := hd
    exact ⟨wif, hw, kp, u, e, hz, (C48_address P kp (reduced_coords hr)).2 (by rw [hz]; decide +kernel)⟩
  · intro k hk hn
    obtain ⟨wif, hw⟩ := wif_exists P k hk
    exact ⟨wif, hw, (C47_derived P B hB k w hk).1 hn⟩

/-! ## C142: passphrases -/

/-- C142, for import always, for export of passphrases of at least two characters each: only the normal form counts. -/
theorem C142_passphrases_partial (P : Prims) (B : Btc) (nfc : Str → Str) (pw pw' : Str) (h : nfc pw = nfc pw') :
    (∀ kp, (2 ≤ pw.length ↔ 2 ≤ pw'.length) → KeyPair.exportNEP2 P nfc kp pw = KeyPair.exportNEP2 P nfc kp pw') ∧
    (∀ s w, KeyPair.privateKeyFromNEP2 P B nfc s pw w = KeyPair.privateKeyFromNEP2 P B nfc s pw' w) := by
  constructor
  · intro kp hl
    by_cases h1 : 2 ≤ pw.length
    · have h2 := hl.1 h1
      rw [KeyPair.exportNEP2, KeyPair.exportNEP2, if_neg (by omega), if_neg (by omega), h]
    · have h2 : ¬ 2 ≤ pw'.length := fun h2 => h1 (hl.2 h2)
      rw [C104_short P nfc kp pw (by omega), C104_short P nfc kp pw' (by omega)]
  · intro s w
    rw [KeyPair.privateKeyFromNEP2, KeyPair.privateKeyFromNEP2, KeyPair.decryptNEP2, KeyPair.decryptNEP2, h]

/-- C142 fails where the length test decides: it counts the characters before normalisation. The two ways to write `é`, one
character and `e` with a combining accent, have the same normal form; a wallet can be exported with the second, not with the
first (which then opens the exported text). -/
theorem C142_length_violated (P : Prims) (B : Btc) (hB : DerivesPublicKeys B keyPairCurve) (nfc : Str → Str)
    (hnfc : nfc ['e', '\u0301'] = nfc ['é']) (b : Bytes) (hb : b.length = 32) (h0 : 0 < beNumber b) (hn : beNumber b < p256Order)
    (w w1 : World) :
    ∃ kp u s u1, KeyPair.init P B b w = (.ok kp, u) ∧ KeyPair.exportNEP2 P nfc kp ['e', '\u0301'] = .ok s ∧
      KeyPair.exportNEP2 P nfc kp ['é'] = .error .valueError ∧
      KeyPair.privateKeyFromNEP2 P B nfc s ['é'] w1 = (.ok b, u1) := by
  obtain ⟨kp, u, s, u1, h1, h2, -, h4⟩ := C104_private_keys P B hB nfc b hb h0 hn ['e', '\u0301'] (by decide) w w1
  refine ⟨kp, u, s, u1, h1, h2, C104_short P nfc kp _ (by decide), ?_⟩
  rw [← (C142_passphrases_partial P B nfc _ _ hnfc).2]
  exact h4

/-- C143. With another passphrase, an exported text is opened only to a key from 1 to the group order whose address agrees with
the exported one in the four bytes of its hash. -/
theorem C143_other_passphrase (P : Prims) (B : Btc) (hB : DerivesPublicKeys B keyPairCurve) (nfc : Str → Str) (b : Bytes)
    (kp : KeyPair) (w u : World) (e : KeyPair.init P B b w = (.ok kp, u)) (addr : Str) (ha : KeyPair.getAddress P kp = .ok addr)
    (pw pw' s : Str) (hs : KeyPair.exportNEP2 P nfc kp pw = .ok s) (w1 u1 : World) (k : Bytes)
    (hk : KeyPair.privateKeyFromNEP2 P B nfc s pw' w1 = (.ok k, u1)) :
    letI := Fact.mk p256_prime
    k.length = 32 ∧ 0 < beNumber k ∧ beNumber k < p256Order ∧
    ∃ addr' Q, (∀ G, Denotes secp256r1Curve secp256r1.G G → Denotes secp256r1Curve Q (beNumber k • G)) ∧
      AddressOf (fun x => P.sha256 (P.sha256 x)) (fun x => P.ripemd160 (P.sha256 x)) Q addr' ∧
      (P.sha256 (P.sha256 (utf8 addr'))).take 4 = (P.sha256 (P.sha256 (utf8 addr))).take 4 := by
  obtain ⟨v, payload, addr', Q, -, hb58, hk32, hk0, hkn, hQ, hA, hh⟩ := C102_address P B hB nfc s pw' k w1 u1 hk
  refine ⟨hk32, hk0, hkn, addr', Q, hQ, hA, hh.trans ?_⟩
  obtain ⟨-, hp⟩ := private_key e
  have hpw : 2 ≤ pw.length := by
    by_contra hc
    rw [C104_short P nfc kp pw (by omega)] at hs
    cases hs
  obtain ⟨enc, -, -, hs'⟩ := exportNEP2_eq P nfc kp pw addr hpw hp ha
  rw [hs] at hs'
  have hs' := Except.ok.inj hs'
  rw [Base58Check, ← C37_encode] at hb58
  have d1 := (C37_check (binDblSha256 P) (dbl_len P) ([v] ++ payload) s).2 hb58.symm
  have d2 := (C37_check (binDblSha256 P) (dbl_len P) _ s).2 hs'
  rw [d1] at d2
  have hpl : payload = [0x42, 0xe0] ++ KeyPair.addressHash P addr ++ enc := by
    have := Except.ok.inj d2
    simp only [List.cons_append, List.nil_append, List.cons.injEq] at this
    exact this.2
  have hlen : (KeyPair.addressHash P addr).length = 4 := by simp [KeyPair.addressHash, P.sha256_length]
  rw [hpl, List.append_assoc]
  show ((KeyPair.addressHash P addr ++ enc).take 4) = KeyPair.addressHash P addr
  rw [List.take_append_of_le_length (by omega), List.take_of_length_le (by omega)]

/-! ## C144, C146: keys with an embedded public key -/

/-- C144, for 32-byte keys: the public key is the private key times the base point. -/
theorem C144_belongs_partial (P : Prims) (B : Btc) (hB : DerivesPublicKeys B keyPairCurve) (b : Bytes) (kp : KeyPair) (w u : World)
    (hb : b.length = 32) (e : KeyPair.init P B b w = (.ok kp, u)) :
    letI := Fact.mk p256_prime
    kp.privateKey = b ∧
    ∀ G, Denotes secp256r1Curve secp256r1.G G → Denotes secp256r1Curve kp.publicKey (beNumber kp.privateKey • G) := by
  have hk : kp.privateKey = b := by rw [(private_key e).1, hb]; rfl
  rw [hk]
  exact ⟨rfl, (key_accepted hB hb e).2.2⟩

/-- C144 fails for 96 and 104 bytes: any private key goes with any pair of 32-byte numbers as public key, whether or not it is on
the curve. -/
theorem C144_embedded_violated (P : Prims) (B : Btc) (x y k pre : Bytes) (hx : x.length = 32) (hy : y.length = 32) (hk : k.length = 32)
    (hpre : pre.length = 0 ∨ pre.length = 8) (w : World) :
    ∃ kp u, KeyPair.init P B (pre ++ x ++ y ++ k) w = (.ok kp, u) ∧ kp.privateKey = k ∧
      kp.publicKey = ⟨beNumber x, beNumber y⟩ := by
  have hlen : (pre ++ x ++ y ++ k).length = pre.length + 96 := by simp only [List.length_append]; omega
  obtain ⟨kp, u, h, h1, -, h3, -⟩ := C47_embedded P B (pre ++ x ++ y ++ k) w (by omega)
  refine ⟨kp, u, h, ?_, ?_⟩
  · rw [h1, hlen, List.drop_append_of_le_length (by simp only [List.length_append]; omega),
      List.drop_of_length_le (by simp only [List.length_append]; omega), List.nil_append]
  · have hd : ((pre ++ x ++ y ++ k).drop ((pre ++ x ++ y ++ k).length - 96)).take 64 = x ++ y := by
      rw [hlen, show pre.length + 96 - 96 = pre.length by omega, List.append_assoc, List.append_assoc, List.drop_left,
        ← List.append_assoc, List.take_append_of_le_length (by simp only [List.length_append]; omega),
        List.take_of_length_le (by simp only [List.length_append]; omega)]
    rw [hd] at h3
    exact (decodePubkey_eq h3).symm.trans (decodePubkey_eq ⟨x, y, rfl, hx, hy, rfl, rfl⟩)

/-- C146, for 32-byte keys: exporting a wallet as WIF and importing it gives the same wallet (private key, public key, hash). -/
theorem C146_reimport_partial (P : Prims) (B : Btc) (b : Bytes) (kp : KeyPair) (w u : World) (hb : b.length = 32)
    (e : KeyPair.init P B b w = (.ok kp, u)) (w1 w2 : World) :
    ∃ s u1 k u2, KeyPair.exportWIF P kp w1 = (.ok s, u1) ∧ KeyPair.privateKeyFromWIF P (some s) = .ok k ∧
      KeyPair.init P B k w2 = (.ok kp, u2) := by
  obtain ⟨s, u1, h1, -, -, h4⟩ := C43_roundtrip P B b kp w u e w1
  rw [show b.drop (b.length - 32) = b by rw [hb]; rfl] at h4
  obtain ⟨u2, h5⟩ := init_any_world e w2
  exact ⟨s, u1, b, u2, h1, h4, h5⟩

/-- C146 fails for 96 and 104 bytes: the embedded public key is not exported. If it is not the one of the private key, the
re-imported wallet has another public key, for every private key below the group order. -/
theorem C146_embedded_violated (P : Prims) (B : Btc) (hB : DerivesPublicKeys B keyPairCurve) (x y k pre : Bytes) (hx : x.length = 32)
    (hy : y.length = 32) (hk : k.length = 32) (hpre : pre.length = 0 ∨ pre.length = 8) (hn : beNumber k < p256Order)
    (hother : letI := Fact.mk p256_prime
      ¬ ∀ G, Denotes secp256r1Curve secp256r1.G G → Denotes secp256r1Curve ⟨beNumber x, beNumber y⟩ (beNumber k • G)) (w w1 w2 : World) :
    ∃ kp u s u1 kp' u2, KeyPair.init P B (pre ++ x ++ y ++ k) w = (.ok kp, u) ∧ KeyPair.exportWIF P kp w1 = (.ok s, u1) ∧
      KeyPair.privateKeyFromWIF P (some s) = .ok k ∧ KeyPair.init P B k w2 = (.ok kp', u2) ∧ kp'.publicKey ≠ kp.publicKey := by
  obtain ⟨kp, u, h, hp, hq⟩ := C144_embedded_violated P B x y k pre hx hy hk hpre w
  obtain ⟨s, u1, h1, -, -, h4⟩ := C43_roundtrip P B _ kp w u h w1
  rw [← (private_key h).1, hp] at h4
  obtain ⟨kp', u2, h5, -, -, h6, -⟩ := (C47_derived P B hB k w2 hk).2 hn
  refine ⟨kp, u, s, u1, kp', u2, h, h1, h4, h5, ?_⟩
  intro he
  rw [he, hq] at h6
  exact hother h6

/-! ## C145 -/

/-- C145. What the wallet operations return does not depend on what the process did before. -/
theorem C145_any_state (P : Prims) (B : Btc) (nfc : Str → Str) (w w' : World) :
    (∀ b, (KeyPair.init P B b w).1 = (KeyPair.init P B b w').1) ∧
    (∀ kp, (KeyPair.exportWIF P kp w).1 = (KeyPair.exportWIF P kp w').1) ∧
    (∀ s pw, (KeyPair.privateKeyFromNEP2 P B nfc s pw w).1 = (KeyPair.privateKeyFromNEP2 P B nfc s pw w').1) ∧
    (∀ random, (KeyPair.createWallet P B random w).1 = (KeyPair.createWallet P B random w').1) := by
  have hinit : ∀ (b : Bytes) (v : World), KeyPair.init P B b v = (KeyPair.construct P B keyPairCurve b, { v with curve := keyPairCurve }) :=
    fun _ _ => rfl
  refine ⟨fun _ => rfl, fun _ => rfl, ?_, ?_⟩
  · intro s pw
    rw [KeyPair.privateKeyFromNEP2, KeyPair.privateKeyFromNEP2]
    cases KeyPair.decryptNEP2 P nfc s pw with
    | error e => rfl
    | ok r =>
      obtain ⟨key, ah⟩ := r
      simp only [hinit]
      cases KeyPair.construct P B keyPairCurve key with
      | error e => rfl
      | ok kp =>
        simp only
        cases KeyPair.getAddress P kp with
        | error e => rfl
        | ok a =>
          simp only
          by_cases hc : KeyPair.addressHash P a ≠ ah
          · rw [if_pos hc, if_pos hc]
          · rw [if_neg hc, if_neg hc]
  · intro random
    rw [KeyPair.createWallet, KeyPair.createWallet]
    simp only [hinit]
    cases KeyPair.construct P B keyPairCurve random with
    | error e => rfl
    | ok kp =>
      simp only [KeyPair.exportWIF]
      cases KeyPair.getAddress P kp <;> rfl

/-! ## The hypotheses can be met -/

private abbrev key1 : Bytes := List.replicate 31 0 ++ [1]

/-- A wallet with an address (C140, C143, C144, C146), and one whose embedded key is not on the curve (C146). -/
example (P : Prims) (w : World) : ∃ kp u s, KeyPair.init P (pyBtc (fun _ _ => 1) (fun _ _ _ => .ok false)) key1 w = (.ok kp, u) ∧
    KeyPair.getAddress P kp = .ok s :=
  (usable_iff P _ (pyBtc_derives _ _) key1 rfl w).2 ⟨by decide +kernel, by decide +kernel⟩

example : letI := Fact.mk p256_prime
    ¬ ∀ G, Denotes secp256r1Curve secp256r1.G G →
      Denotes secp256r1Curve ⟨beNumber (List.replicate 32 1), beNumber (List.replicate 32 1)⟩ (beNumber key1 • G) := by
  have := Fact.mk p256_prime
  intro h
  obtain ⟨G, hG, -⟩ := base_exists
  have h := denotes_onCurve (h G hG)
  rcases h with h | h
  · revert h; decide +kernel
  · revert h; decide +kernel

/-- A collision as in C140 exists for constant hash functions. -/
example : ∃ h : Bytes → Bytes, ∃ c c' : Bytes, [0x21] ++ c ++ [0xac] ≠ [0x21] ++ c' ++ [0xac] ∧
    h ([0x21] ++ c ++ [0xac]) = h ([0x21] ++ c' ++ [0xac]) := ⟨fun _ => [], [], [0], by decide, rfl⟩

/-- `é` and `e` with combining acute accent are different texts; a normalisation can identify them (C142). -/
example : ['e', '\u0301'] ≠ ['é'] ∧ ∃ nfc : Str → Str, nfc ['e', '\u0301'] = nfc ['é'] ∧ nfc ['a'] ≠ nfc ['b'] :=
  ⟨by decide, fun s => if s = ['e', '\u0301'] then ['é'] else s, by decide, by decide⟩

end Neo.Props
