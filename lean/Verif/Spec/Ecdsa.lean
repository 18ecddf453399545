import Verif.Spec.Wallet

/-!
# ECDSA on secp256r1 (specification), and what is asked of the `ecdsa` package
-/

namespace Spec
open Neo.EC Spec.EC Py

/-- The pair (r, s) is a signature of the number `z` (the digest) under the public key `Q`: 1 ≤ r, s < n, and with w the
inverse of s mod n, the point (z·w)·G + (r·w)·Q is finite and its x coordinate is r mod n (SEC 1, 4.1.4). -/
def EcdsaValid (z : Nat) (Q : (weierstrass secp256r1Curve).Point) (r s : Nat) : Prop :=
  letI := Fact.mk p256_prime
  1 ≤ r ∧ r < p256Order ∧ 1 ≤ s ∧ s < p256Order ∧
  ∀ G, Denotes secp256r1Curve secp256r1.G G → ∃ w x y h, s * w % p256Order = 1 ∧
    (z * w % p256Order) • G + (r * w % p256Order) • Q = .some x y h ∧ x.val % p256Order = r

/-- `A` is the finite point of secp256r1 with the coordinates of `Q`, which are reduced mod p. -/
def IsPublicKey (Q : Pt) (A : (weierstrass secp256r1Curve).Point) : Prop :=
  Q ≠ ⟨0, 0⟩ ∧ Reduced secp256r1Curve Q ∧ Denotes secp256r1Curve Q A

/-- What is asked of the `ecdsa` package (`VerifyingKey.from_string(key, NIST256p).verify(signature, message)`, version 0.13): it
returns True exactly if the key is the 64 bytes of coordinates, both below the group order (`point_is_valid` rejects others), of
a finite point of the curve, the signature is 64 bytes r, s, the message is bytes, and (r, s) is a signature of its digest under
that key. -/
def VerifiesEcdsa (B : Neo.Btc) (hash : Bytes → Bytes) : Prop :=
  ∀ key sig msg, B.verify key sig msg = .ok true ↔
    ∃ Q A rb sb m, IsUncompressed Q (4 :: key) ∧ IsPublicKey Q A ∧ Q.x < p256Order ∧ Q.y < p256Order ∧
      (sig = .bytes (rb ++ sb) ∨ sig = .bytearray (rb ++ sb)) ∧ rb.length = 32 ∧ sb.length = 32 ∧
      (msg = .bytes m ∨ msg = .bytearray m) ∧ EcdsaValid (beNumber (hash m)) A (beNumber rb) (beNumber sb)

/-- A `public_key` argument stands for `Q`: the point object itself, its 64 bytes of coordinates, or its 33-byte compressed
encoding. -/
def KeyArg : Neo.PubKeyArg → Pt → Prop
  | .point Q', Q => Q' = Q
  | .bytes b, Q => IsUncompressed Q (4 :: b) ∨ IsCompressed Q b

/-- The bytes a `message` argument stands for: with `unhex`, those of a hexadecimal text, and of anything else that is not
hexadecimal itself, if it is bytes; without, the UTF-8 encoding of a text, and bytes themselves. -/
def MessageArg (unhex : Bool) (message : Val) (m : Bytes) : Prop :=
  match unhex with
  | true => unhexlifyVal message = .ok m ∨ ((∃ e, unhexlifyVal message = .error e) ∧ (message = .bytes m ∨ message = .bytearray m))
  | false => (∃ s, message = .str s ∧ m = utf8 s) ∨ message = .bytes m ∨ message = .bytearray m

end Spec
