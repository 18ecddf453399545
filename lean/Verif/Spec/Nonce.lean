import Verif.Spec.Hex

/-!
# Nonces of deterministic signatures (specification): which strings are hashed

HMAC (RFC 2104) of a hash `H` with 64-byte blocks, for keys of at most 64 bytes, and the nonce derivation of RFC 6979, 3.2, as
far as its first candidate. Nothing of the model occurs here.
-/

namespace Spec

/-- The inner string HMAC hashes. -/
def hmacInner (key msg : List UInt8) : List UInt8 := (key ++ List.replicate (64 - key.length) 0).map (· ^^^ 0x36) ++ msg

/-- The outer string HMAC hashes; its hash is the result. -/
def hmacOuter (H : List UInt8 → List UInt8) (key msg : List UInt8) : List UInt8 :=
  (key ++ List.replicate (64 - key.length) 0).map (· ^^^ 0x5c) ++ H (hmacInner key msg)

/-- HMAC of a key of at most 64 bytes. -/
def hmacOf (H : List UInt8 → List UInt8) (key msg : List UInt8) : List UInt8 := H (hmacOuter H key msg)

/-- All (key, message) pairs of the five HMACs that turn a private key and a digest (32 bytes each) into a nonce. -/
def nonceMacs (H : List UInt8 → List UInt8) (priv digest : List UInt8) : List (List UInt8 × List UInt8) :=
  let v0 := List.replicate 32 1
  let k0 := List.replicate 32 0
  let k1 := hmacOf H k0 (v0 ++ [0] ++ priv ++ digest)
  let v1 := hmacOf H k1 v0
  let k2 := hmacOf H k1 (v1 ++ [1] ++ priv ++ digest)
  let v2 := hmacOf H k2 v1
  [(k0, v0 ++ [0] ++ priv ++ digest), (k1, v0), (k1, v1 ++ [1] ++ priv ++ digest), (k2, v1), (k2, v2)]

/-- Every string hashed by `H` to sign the message `m` with the private key `priv`: the message, and the inner and outer strings
of the HMACs. -/
def signInputs (H : List UInt8 → List UInt8) (m priv : List UInt8) : List (List UInt8) :=
  m :: (nonceMacs H priv (H m)).flatMap fun p => [hmacInner p.1 p.2, hmacOuter H p.1 p.2]

end Spec
