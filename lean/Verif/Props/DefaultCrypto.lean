import Verif.Model.CryptoInstance
import Verif.Props.FreshCurve

/-!
# C226, C227: the object `Crypto.Default()` returns
-/

namespace Neo.Props
open Py Spec.EC

private theorem after_default (P : Prims) (B : Btc) (nfc : Str → Str) (history : List LibCall) :
    (cryptoDefault (after P B nfc history)).2 = after P B nfc (history ++ [.default]) := by
  rw [after, after, List.foldl_append]
  rfl

/-- C226: `Crypto.Default().Sign(...)`, `.VerifySignature(...)` and `.Hash256(...)` work in every process and after every
history of calls, a fresh process included: they give what `Crypto.Sign` and `Crypto.VerifySignature` give in a process whose
only call so far was `SetupSignatureCurve`, and the twofold SHA-256. `VerifySignature` without its last argument unhexlifies. -/
theorem C226_any_history (P : Prims) (B : Btc) (nfc : Str → Str) (history : List LibCall) :
    (∀ m k, (defaultSign P B m k (after P B nfc history)).1 = (Neo.sign P B m k (after P B nfc [.setupSignatureCurve])).1) ∧
    (∀ m s k u, (defaultVerifySignature B m s k u (after P B nfc history)).1 =
      (Neo.verifySignature B m s k u (after P B nfc [.setupSignatureCurve])).1) ∧
    (∀ m s k, ((defaultVerifySignature B m s k : Call Bool) (after P B nfc history)).1 =
      (Neo.verifySignature B m s k true (after P B nfc [.setupSignatureCurve])).1) ∧
    (∀ m, (defaultHash256 P m (after P B nfc history)).1 = .ok (.bytes (P.sha256 (P.sha256 m)))) := by
  obtain ⟨-, h1, h2⟩ := C91_after_setup P B nfc (history ++ [.default]) ⟨.default, by simp, trivial⟩
  refine ⟨fun m k => ?_, fun m s k u => ?_, fun m s k => ?_, fun m => rfl⟩
  · rw [defaultSign, onDefault, after_default]
    exact h1 m k
  · rw [defaultVerifySignature, onDefault, after_default]
    exact h2 m s k u
  · rw [defaultVerifySignature, onDefault, after_default]
    exact h2 m s k true

/-- C226 for an object fetched once and kept: whatever was called before it was fetched and whatever is called afterwards, its
`Sign` and `VerifySignature` (the functions of `Crypto`) use secp256r1, the curve of SEC 2. -/
theorem C226_kept_object (P : Prims) (B : Btc) (nfc : Str → Str) (before later : List LibCall) :
    (∃ c, (after P B nfc (before ++ .default :: later)).curve = c ∧
      c.p = sec2_secp256r1.p ∧ (c.a : Int) = sec2_secp256r1.a ∧ (c.b : Int) = sec2_secp256r1.b ∧ (c.gx : Int) = sec2_secp256r1.gx ∧
        (c.gy : Int) = sec2_secp256r1.gy ∧ c.n = sec2_secp256r1.n) ∧
    (∀ m k, (Neo.sign P B m k (after P B nfc (before ++ .default :: later))).1 =
      (defaultSign P B m k (after P B nfc [])).1) ∧
    (∀ m s k u, (Neo.verifySignature B m s k u (after P B nfc (before ++ .default :: later))).1 =
      (defaultVerifySignature B m s k u (after P B nfc [])).1) := by
  obtain ⟨h0, h1, h2⟩ := C91_after_setup P B nfc (before ++ .default :: later) ⟨.default, by simp, trivial⟩
  obtain ⟨g1, g2, -, -⟩ := C226_any_history P B nfc []
  refine ⟨⟨_, h0, ?_⟩, fun m k => (h1 m k).trans (g1 m k).symm, fun m s k u => (h2 m s k u).trans (g2 m s k u).symm⟩
  decide +kernel

/-- In a fresh process `Crypto.Default().Sign` and `Crypto.Sign` use different curves (C52): the theorems above say more than
that one forwards to the other. -/
example (P : Prims) (B : Btc) (nfc : Str → Str) :
    (after P B nfc []).curve ≠ (after P B nfc ([] ++ .default :: [])).curve := by
  show BtcCurve.initial ≠ signatureCurve
  decide +kernel

/-- C227 fails for every message: `Crypto.Default().Hash160(m)` returns bytes, not the hexadecimal text its documentation
promises and `Crypto.Hash160(m)` returns. -/
theorem C227_violated (P : Prims) (B : Btc) (nfc : Str → Str) (history : List LibCall) (m : Bytes) :
    (∀ s, (defaultHash160 P m (after P B nfc history)).1 ≠ .ok (.str s)) ∧
    (defaultHash160 P m (after P B nfc history)).1 ≠ .ok (cryptoHash160 P m) := by
  constructor
  · intro s h; cases h
  · intro h; cases h

/-- C227, what holds: the bytes are the 20 bytes of RIPEMD-160 of SHA-256, whose hexadecimal text of 40 digits is what
`Crypto.Hash160` returns. -/
theorem C227_digest_partial (P : Prims) (B : Btc) (nfc : Str → Str) (history : List LibCall) (m : Bytes) :
    ∃ d, (defaultHash160 P m (after P B nfc history)).1 = .ok (.bytes d) ∧ cryptoHash160Bytes P m = .bytes d ∧
      d = P.ripemd160 (P.sha256 m) ∧ d.length = 20 ∧
      ∃ t, cryptoHash160 P m = .str t ∧ unhexlifyVal (.str t) = .ok d ∧ t.length = 40 := by
  refine ⟨_, rfl, rfl, rfl, P.ripemd160_length _, _, rfl, unhexlifyVal_hexStr _, ?_⟩
  rw [binHash160, hexStr_length, P.ripemd160_length]

end Neo.Props
