import Verif.Props.Nep2More

/-! # C195: ExportNEP2 and PrivateKeyFromNEP2 implement the NEP-2 standard -/

namespace Neo.Props
open Py Spec Base58 EC Spec.EC

/-- The XOR of the standard is the one of `xor_bytes`. -/
private theorem xor_spec {key d x : Bytes} (hk : key.length = 32) (hd : d.length = 64) :
    (x.length = 32 ∧ ∀ i, i < 32 → x[i]? = (key[i]?).bind fun k => (d[i]?).map fun e => k ^^^ e) ↔
      x = List.zipWith (· ^^^ ·) key (d.take 32) := by
  have hz : (List.zipWith (· ^^^ ·) key (d.take 32)).length = 32 := by
    rw [List.length_zipWith, hk, List.length_take, hd]; rfl
  have hi : ∀ i, i < 32 → (List.zipWith (· ^^^ ·) key (d.take 32))[i]? = (key[i]?).bind fun k => (d[i]?).map fun e => k ^^^ e := by
    intro i hi
    rw [List.getElem?_zipWith, List.getElem?_take_of_lt hi]
    cases key[i]? <;> cases d[i]? <;> rfl
  constructor
  · rintro ⟨hl, h⟩
    apply List.ext_getElem?
    intro i
    by_cases h32 : i < 32
    · rw [h i h32, hi i h32]
    · rw [List.getElem?_eq_none (by omega), List.getElem?_eq_none (by omega)]
  · rintro rfl
    exact ⟨hz, hi⟩

private theorem export_text (P : Prims) (nfc : Str → Str) (kp : KeyPair) (pw addr : Str) (hpw : 2 ≤ pw.length)
    (hk : kp.privateKey.length = 32) (ha : KeyPair.getAddress P kp = .ok addr) :
    KeyPair.exportNEP2 P nfc kp pw = .ok (encodeCheck (binDblSha256 P) ([0x01, 0x42] ++ [0xe0] ++ KeyPair.addressHash P addr ++
      P.aesEnc ((KeyPair.derivedKey P (utf8 (nfc pw)) (KeyPair.addressHash P addr)).drop 32)
        (List.zipWith (· ^^^ ·) kp.privateKey ((KeyPair.derivedKey P (utf8 (nfc pw)) (KeyPair.addressHash P addr)).take 32)))) := by
  generalize hd : KeyPair.derivedKey P (utf8 (nfc pw)) (KeyPair.addressHash P addr) = d
  have hdl : d.length = 64 := by rw [← hd]; exact derivedKey_length ..
  have ht : (d.take 32).length = 32 := by rw [List.length_take, hdl]; rfl
  have hx : xorBytes (.bytes kp.privateKey) (.bytes (d.take 32)) = .ok (List.zipWith (· ^^^ ·) kp.privateKey (d.take 32)) := by
    simp [xorBytes, hk, ht]
  rw [KeyPair.exportNEP2, if_neg (by omega), ha]
  simp only
  rw [hd, hx]
  simp only
  rw [if_neg (by rw [List.length_zipWith, hk, ht]; decide)]

/-- C195. For a key pair with a 32-byte private key and an address, and a passphrase of at least two characters, `ExportNEP2`
returns the one text the NEP-2 standard prescribes for the key, the address and the normalised passphrase. -/
theorem C195_export (P : Prims) (nfc : Str → Str) (kp : KeyPair) (hk : kp.privateKey.length = 32) (addr : Str)
    (ha : KeyPair.getAddress P kp = .ok addr) (pw : Str) (hpw : 2 ≤ pw.length) (s : Str) :
    KeyPair.exportNEP2 P nfc kp pw = .ok s ↔
      Nep2Standard (fun x => P.sha256 (P.sha256 x)) P.scrypt P.aesEnc kp.privateKey (utf8 addr) (utf8 (nfc pw)) s := by
  rw [export_text P nfc kp pw addr hpw hk ha]
  have hdl : (KeyPair.derivedKey P (utf8 (nfc pw)) (KeyPair.addressHash P addr)).length = 64 := derivedKey_length ..
  constructor
  · intro h
    have hs := Except.ok.inj h
    obtain ⟨hxl, hx⟩ := (xor_spec hk hdl).mpr rfl
    refine ⟨KeyPair.addressHash P addr, _, _, rfl, rfl, hxl, hx, ?_⟩
    refine ⟨?_, by rw [P.aesEnc_length]; exact hxl, ?_⟩
    · rw [KeyPair.addressHash, List.length_take, P.sha256_length]; rfl
    · rw [Base58Check, ← C37_encode]
      exact hs
  · rintro ⟨h, d, x, rfl, rfl, hxl, hx, hn⟩
    rw [(xor_spec hk (by exact hdl)).mp ⟨hxl, hx⟩] at hn
    rw [(nep2_text hn).1]
    rfl

/-- C195. For every valid private key: `KeyPair(k)` has an address, `ExportNEP2` gives exactly the standard's text for it, and
whoever made that text, `PrivateKeyFromNEP2` under a passphrase of the same normal form (of any length) returns the key. -/
theorem C195_interoperable (P : Prims) (B : Btc) (hB : DerivesPublicKeys B keyPairCurve) (nfc : Str → Str) (k : Bytes)
    (hk : k.length = 32) (h0 : 0 < beNumber k) (hn : beNumber k < p256Order) (w : World) :
    ∃ kp w' addr, KeyPair.init P B k w = (.ok kp, w') ∧
      AddressOf (fun x => P.sha256 (P.sha256 x)) (fun x => P.ripemd160 (P.sha256 x)) kp.publicKey addr ∧
      (∀ pw s, 2 ≤ pw.length → (KeyPair.exportNEP2 P nfc kp pw = .ok s ↔
        Nep2Standard (fun x => P.sha256 (P.sha256 x)) P.scrypt P.aesEnc k (utf8 addr) (utf8 (nfc pw)) s)) ∧
      ∀ pw s w1, Nep2Standard (fun x => P.sha256 (P.sha256 x)) P.scrypt P.aesEnc k (utf8 addr) (utf8 (nfc pw)) s →
        (KeyPair.privateKeyFromNEP2 P B nfc s pw w1).1 = .ok k := by
  obtain ⟨kp, w', addr, hi, ha, hof, _⟩ := C48_derived P B hB k w hk h0 hn
  obtain ⟨hpk, hpl⟩ := private_key hi
  rw [show k.drop (k.length - 32) = k by rw [hk]; rfl] at hpk
  refine ⟨kp, w', addr, hi, hof, fun pw s hpw => ?_, ?_⟩
  · rw [C195_export P nfc kp hpl addr ha pw hpw s, hpk]
  · rintro pw s w1 ⟨h, d, x, rfl, rfl, hxl, hx, hs⟩
    have hdl : (KeyPair.derivedKey P (utf8 (nfc pw)) (KeyPair.addressHash P addr)).length = 64 := derivedKey_length ..
    have hxe := (xor_spec (x := x) hk hdl).mp ⟨hxl, hx⟩
    obtain ⟨ht, hl⟩ := nep2_text hs
    rw [ht] at hl
    have hkey : List.zipWith (· ^^^ ·) (P.aesDec ((KeyPair.derivedKey P (utf8 (nfc pw)) (KeyPair.addressHash P addr)).drop 32)
        (P.aesEnc ((KeyPair.derivedKey P (utf8 (nfc pw)) (KeyPair.addressHash P addr)).drop 32) x))
        ((KeyPair.derivedKey P (utf8 (nfc pw)) (KeyPair.addressHash P addr)).take 32) = k := by
      generalize KeyPair.derivedKey P (utf8 (nfc pw)) (KeyPair.addressHash P addr) = d at hdl hxe
      have hd32 : (d.take 32).length = 32 := by rw [List.length_take, hdl]; rfl
      rw [P.aes_inverse _ _ (by rw [List.length_drop, hdl]) (by rw [hxl])]
      obtain ⟨_, u, v, h1, _, _, h4⟩ := C49_laws k (d.take 32) (d.take 32) (hk.trans hd32.symm) rfl
      have e1 : xorBytes (.bytes k) (.bytes (d.take 32)) = .ok x := by simp [xorBytes, hk, hd32, hxe]
      rw [e1] at h1
      cases h1
      have e2 : xorBytes (.bytes x) (.bytes (d.take 32)) = .ok (List.zipWith (· ^^^ ·) x (d.take 32)) := by
        simp [xorBytes, hxl, hd32]
      rw [e2] at h4
      exact Except.ok.inj h4
    have hd := import_eq P nfc ([0x01, 0x42] ++ [0xe0]) (KeyPair.addressHash P addr) _ k pw rfl hs.1 hs.2.1 hl hkey
    obtain ⟨u, hi1⟩ := init_any_world hi w1
    rw [ht]
    have := import_ok (w := w1) hd hi1 ha
    exact congrArg Prod.fst this

/-- The standard determines the text. -/
theorem C195_standard_unique (dbl : Bytes → Bytes) (scrypt : Nat → Nat → Nat → Bytes → Bytes → Nat → Bytes) (aes : Bytes → Bytes → Bytes)
    (key addr pw : Bytes) (s t : Str) (hs : Nep2Standard dbl scrypt aes key addr pw s) (ht : Nep2Standard dbl scrypt aes key addr pw t) :
    s = t := by
  obtain ⟨_, _, x, rfl, rfl, hxl, hx, -, -, hs⟩ := hs
  obtain ⟨_, _, y, rfl, rfl, hyl, hy, -, -, ht⟩ := ht
  have : x = y := by
    apply List.ext_getElem?
    intro i
    by_cases h32 : i < 32
    · rw [hx i h32, hy i h32]
    · rw [List.getElem?_eq_none (by omega), List.getElem?_eq_none (by omega)]
  subst this
  rw [Base58Check, ← C37_encode] at hs ht
  rw [← hs, ← ht]

/-- A key that meets the hypotheses: there is a text the standard prescribes, and it is imported. -/
example (P : Prims) (B : Btc) (hB : DerivesPublicKeys B keyPairCurve) (w : World) : ∃ (addr s : Str),
    Nep2Standard (fun x => P.sha256 (P.sha256 x)) P.scrypt P.aesEnc (List.replicate 32 1) (utf8 addr) (utf8 ['a', 'b']) s ∧
    (KeyPair.privateKeyFromNEP2 P B id s ['a', 'b'] w).1 = .ok (List.replicate 32 1) := by
  obtain ⟨kp, w', addr, hi, -, he, hm⟩ := C195_interoperable P B hB id (List.replicate 32 1) rfl
    (by decide +kernel) (by decide +kernel) w
  obtain ⟨kp', w'', s, w2, h1, h2, -⟩ := C104_private_keys P B hB id (List.replicate 32 1) rfl
    (by decide +kernel) (by decide +kernel) ['a', 'b'] (by decide) w w
  rw [hi] at h1
  cases h1
  exact ⟨addr, s, (he _ s (by decide)).mp h2, hm _ s w ((he _ s (by decide)).mp h2)⟩

end Neo.Props
