import Verif.Props.WalletMore
import Mathlib.Data.Fintype.Vector
import Mathlib.Data.Fintype.EquivFin

/-! # C171: NEP-2 texts that import are those the wallet exports -/

namespace Neo.Props
open Py Spec Base58 EC Spec.EC

/-- A length-preserving left inverse on byte strings of one length is injective there. -/
private theorem dec_inj {n : Nat} (enc dec : Bytes → Bytes) (hl : ∀ x, (enc x).length = x.length)
    (h : ∀ x : Bytes, x.length = n → dec (enc x) = x) {x y : Bytes} (hx : x.length = n) (hy : y.length = n)
    (he : dec x = dec y) : x = y := by
  let f : List.Vector UInt8 n → List.Vector UInt8 n := fun v => ⟨enc v.1, by rw [hl, v.2]⟩
  have hf : Function.Injective f := by
    intro a b hab
    have : enc a.1 = enc b.1 := congrArg Subtype.val hab
    have := congrArg dec this
    rw [h _ a.2, h _ b.2] at this
    exact Subtype.ext this
  have : Finite UInt8 := Finite.of_injective UInt8.toFin (fun a b hab => UInt8.toFin_inj.mp hab)
  have : Fintype UInt8 := Fintype.ofFinite _
  have hs := Finite.surjective_of_injective hf
  obtain ⟨a, ha⟩ := hs ⟨x, hx⟩
  obtain ⟨b, hb⟩ := hs ⟨y, hy⟩
  have ha : enc a.1 = x := congrArg Subtype.val ha
  have hb : enc b.1 = y := congrArg Subtype.val hb
  rw [← ha, ← hb, h _ a.2, h _ b.2] at he
  rw [← ha, ← hb, he]

private theorem zipXor_inj : ∀ {t x y : Bytes}, x.length = t.length → y.length = t.length →
    List.zipWith (· ^^^ ·) x t = List.zipWith (· ^^^ ·) y t → x = y
  | [], [], [], _, _, _ => rfl
  | c :: t, a :: x, b :: y, hx, hy, h => by
    simp only [List.zipWith_cons_cons, List.cons.injEq] at h
    rw [zipXor_inj (by simpa using hx) (by simpa using hy) h.2, (UInt8.xor_left_inj c).mp h.1]

/-- What is known when an import has succeeded. -/
private theorem import_inv {P : Prims} {B : Btc} {nfc : Str → Str} {s pw : Str} {k : Bytes} {w w' : World}
    (h : KeyPair.privateKeyFromNEP2 P B nfc s pw w = (.ok k, w')) :
    ∃ kp addr, KeyPair.decryptNEP2 P nfc s pw = .ok (k, KeyPair.addressHash P addr) ∧
      KeyPair.init P B k w = (.ok kp, w') ∧ KeyPair.getAddress P kp = .ok addr := by
  rw [KeyPair.privateKeyFromNEP2] at h
  cases hd : KeyPair.decryptNEP2 P nfc s pw with
  | error e => rw [hd] at h; cases h
  | ok r =>
    obtain ⟨key, ah⟩ := r
    rw [hd] at h
    simp only at h
    cases hi : KeyPair.init P B key w with
    | mk r1 r2 =>
      rw [hi] at h
      cases r1 with
      | error e => cases h
      | ok kp =>
        simp only at h
        cases hga : KeyPair.getAddress P kp with
        | error e => rw [hga] at h; cases h
        | ok addr =>
          rw [hga] at h
          simp only at h
          by_cases hne : KeyPair.addressHash P addr ≠ ah
          · rw [if_pos hne] at h; cases h
          · rw [if_neg hne] at h
            push Not at hne
            cases h
            exact ⟨kp, addr, by rw [hne], hi, hga⟩

/-- The parts of a well-formed NEP-2 text. -/
theorem nep2_text {P : Prims} {ah enc : Bytes} {s : Str} (h : Nep2 (fun x => P.sha256 (P.sha256 x)) ah enc s) :
    s = encodeCheck (binDblSha256 P) ([0x01, 0x42] ++ [0xe0] ++ ah ++ enc) ∧ s.length = 58 := by
  obtain ⟨hah, he, hs⟩ := h
  rw [Base58Check, ← C37_encode] at hs
  have hs : s = encodeCheck (binDblSha256 P) ([0x01, 0x42] ++ [0xe0] ++ ah ++ enc) := hs.symm
  refine ⟨hs, ?_⟩
  rw [hs, encodeCheck]
  refine nep2_len 0xe0 (ah ++ enc ++ (binDblSha256 P _).take 4) ?_
  rw [List.length_append, List.length_append, hah, he, List.length_take, min_eq_left (dbl_len P _)]

/-- C171. If `PrivateKeyFromNEP2(s, pw)` returns `k` for a well-formed NEP-2 text `s`, then `KeyPair(k)` exports `s` again under
the same passphrase (or one with the same normal form). -/
theorem C171_reexport (P : Prims) (B : Btc) (nfc : Str → Str) (s pw pw' : Str) (k : Bytes) (w w' : World)
    (hs : ∃ ah enc, Nep2 (fun x => P.sha256 (P.sha256 x)) ah enc s) (hpw : 2 ≤ pw'.length) (hnfc : nfc pw = nfc pw')
    (h : KeyPair.privateKeyFromNEP2 P B nfc s pw w = (.ok k, w')) (w1 : World) :
    ∃ kp u, KeyPair.init P B k w1 = (.ok kp, u) ∧ KeyPair.exportNEP2 P nfc kp pw' = .ok s := by
  obtain ⟨ah, enc, hn⟩ := hs
  have hah := hn.1
  have he := hn.2.1
  obtain ⟨hs, hl⟩ := nep2_text hn
  obtain ⟨kp, addr, hd, hi, ha⟩ := import_inv h
  obtain ⟨u, hi1⟩ := init_any_world hi w1
  refine ⟨kp, u, hi1, ?_⟩
  rw [hs] at hd hl
  rw [import_eq P nfc _ ah enc _ pw rfl hah he hl rfl] at hd
  obtain ⟨hk, hah'⟩ := Prod.mk.inj (Except.ok.inj hd)
  have hkl : k.length = 32 := by
    rw [← hk, List.length_zipWith, P.aesDec_length, he, List.length_take, derivedKey_length]; rfl
  obtain ⟨hpk, hpl⟩ := private_key hi
  rw [show k.drop (k.length - 32) = k by rw [hkl]; rfl] at hpk
  obtain ⟨enc', he', hx', hexp⟩ := exportNEP2_eq P nfc kp pw' addr hpw hpl ha
  rw [hexp, hs, ← hah']
  rw [← hah', hpk, ← hk, hnfc] at hx'
  have ht : ((KeyPair.derivedKey P (utf8 (nfc pw')) ah).take 32).length = 32 := by rw [List.length_take, derivedKey_length]; rfl
  have := zipXor_inj (by rw [P.aesDec_length, he', ht]) (by rw [P.aesDec_length, he, ht]) hx'
  have := dec_inj (P.aesEnc ((KeyPair.derivedKey P (utf8 (nfc pw')) ah).drop 32)) (P.aesDec ((KeyPair.derivedKey P (utf8 (nfc pw')) ah).drop 32))
    (P.aesEnc_length _) (n := 32) (fun x hx => P.aes_inverse _ x (by simp [derivedKey_length]) (by rw [hx])) he' he this
  rw [this]

/-- C171. For a well-formed text, a passphrase and a 32-byte key, `PrivateKeyFromNEP2` returns the key exactly if the key's wallet
exports the text. -/
theorem C171_iff (P : Prims) (B : Btc) (nfc : Str → Str) (s pw : Str) (k : Bytes) (hk : k.length = 32) (hpw : 2 ≤ pw.length)
    (hs : ∃ ah enc, Nep2 (fun x => P.sha256 (P.sha256 x)) ah enc s) (w w1 : World) :
    (KeyPair.privateKeyFromNEP2 P B nfc s pw w).1 = .ok k ↔
      ∃ kp u, KeyPair.init P B k w1 = (.ok kp, u) ∧ KeyPair.exportNEP2 P nfc kp pw = .ok s := by
  constructor
  · intro h
    exact C171_reexport P B nfc s pw pw k w _ hs hpw rfl (Prod.ext h rfl) w1
  · rintro ⟨kp, u, hi, hexp⟩
    obtain ⟨u', hi'⟩ := init_any_world hi w
    obtain ⟨hpk, hpl⟩ := private_key hi
    rw [show k.drop (k.length - 32) = k by rw [hk]; rfl] at hpk
    cases ha : KeyPair.getAddress P kp with
    | error e =>
      rw [KeyPair.exportNEP2, if_neg (by omega), ha] at hexp
      cases hexp
    | ok addr =>
      obtain ⟨enc, he, hx, hexp'⟩ := exportNEP2_eq P nfc kp pw addr hpw hpl ha
      obtain ⟨ah', enc', hn⟩ := hs
      have hl := (nep2_text hn).2
      rw [hexp] at hexp'
      cases hexp'
      rw [import_ok (import_eq P nfc _ _ _ _ pw rfl (addressHash_length P addr) he hl (hx.trans hpk)) hi' ha]

/-- C171. So no two well-formed texts import to one key under one passphrase. -/
theorem C171_unique (P : Prims) (B : Btc) (nfc : Str → Str) (s s' pw : Str) (k : Bytes) (hpw : 2 ≤ pw.length)
    (hs : ∃ ah enc, Nep2 (fun x => P.sha256 (P.sha256 x)) ah enc s) (hs' : ∃ ah enc, Nep2 (fun x => P.sha256 (P.sha256 x)) ah enc s')
    (w w1 : World) (h : (KeyPair.privateKeyFromNEP2 P B nfc s pw w).1 = .ok k)
    (h' : (KeyPair.privateKeyFromNEP2 P B nfc s' pw w1).1 = .ok k) : s = s' := by
  obtain ⟨kp, u, hi, he⟩ := C171_reexport P B nfc s pw pw k w _ hs hpw rfl (Prod.ext h rfl) w
  obtain ⟨kp', u', hi', he'⟩ := C171_reexport P B nfc s' pw pw k w1 _ hs' hpw rfl (Prod.ext h' rfl) w
  rw [hi] at hi'
  cases hi'
  rw [he] at he'
  exact Except.ok.inj he'

/-- Every valid private key meets the hypotheses: the text its wallet exports is well-formed and imports. -/
example (P : Prims) (B : Btc) (hB : DerivesPublicKeys B keyPairCurve) (nfc : Str → Str) (b : Bytes)
    (hb : b.length = 32) (h0 : 0 < beNumber b) (hn : beNumber b < p256Order) (pw : Str) (hpw : 2 ≤ pw.length) (w : World) :
    ∃ s, (∃ ah enc, Nep2 (fun x => P.sha256 (P.sha256 x)) ah enc s) ∧ (KeyPair.privateKeyFromNEP2 P B nfc s pw w).1 = .ok b := by
  obtain ⟨kp, w', addr, hi, ha, _⟩ := C48_derived P B hB b w hb h0 hn
  obtain ⟨hk, hk32⟩ := private_key hi
  have hbb : b.drop (b.length - 32) = b := by rw [hb]; rfl
  rw [hbb] at hk
  obtain ⟨s, enc, w3, h1, h2, h3, h4⟩ := C45_roundtrip_partial P B nfc b kp kp w w' w w' hi (by rw [hk]; exact hi) rfl addr ha pw pw
    hpw rfl w
  rw [hbb] at h4
  exact ⟨s, ⟨_, enc, h3⟩, by rw [h4]⟩

end Neo.Props
