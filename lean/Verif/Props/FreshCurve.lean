import Verif.Props.Crypto
import Verif.Spec.NamedCurves

/-!
# C52: the curve of a fresh process
-/

namespace Neo.Props
open Py Spec.EC

/-- C52 fails: in a process that has only called `Sign` and `VerifySignature` (keys given as bytes) the package computes with the curve
secp256k1 of SEC 2, which differs from secp256r1 in every parameter. -/
theorem C52_secp256k1_violated (P : Prims) (B : Btc) (nfc : Str → Str) (history : List LibCall)
    (h : ∀ call ∈ history, ∃ m s k u, call = .sign m k ∨ call = .verifySignature m s (.bytes u) true) :
    ∃ c, (after P B nfc history).curve = c ∧
      (c.p = sec2_secp256k1.p ∧ (c.a : Int) = sec2_secp256k1.a ∧ (c.b : Int) = sec2_secp256k1.b ∧ (c.gx : Int) = sec2_secp256k1.gx ∧
        (c.gy : Int) = sec2_secp256k1.gy ∧ c.n = sec2_secp256k1.n) ∧
      c.p ≠ sec2_secp256r1.p ∧ (c.a : Int) ≠ sec2_secp256r1.a ∧ (c.b : Int) ≠ sec2_secp256r1.b ∧ (c.gx : Int) ≠ sec2_secp256r1.gx ∧
        (c.gy : Int) ≠ sec2_secp256r1.gy ∧ c.n ≠ sec2_secp256r1.n := by
  rw [(C52_fresh_process_violated P B nfc history h).1]
  exact ⟨_, rfl, by decide +kernel, by decide +kernel⟩

/-- The hypothesis is met by a process that has signed. -/
example (message key : Val) : ∀ call ∈ [LibCall.sign message key], ∃ m s k u, call = .sign m k ∨ call = .verifySignature m s (.bytes u) true := by
  simpa using ⟨message⟩

end Neo.Props
