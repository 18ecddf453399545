import Verif.Spec.Address
import Verif.Spec.EllipticCurve
import Verif.Spec.PointEncoding
import Verif.Model.Crypto
import Verif.Proofs.ECOrder

/-!
# Wallet formats (specification): WIF, NEP-2, addresses of public keys, and what is asked of the `bitcoin` package
-/

namespace Spec

/-- `s` is the wallet import format of the key: Base58Check with version byte 0x80, 32 bytes and the marker 0x01. -/
def Wif (dbl : List UInt8 → List UInt8) (key : List UInt8) (s : List Char) : Prop :=
  key.length = 32 ∧ Base58Check dbl 0x80 (key ++ [0x01]) s

/-- `s` is a well-formed NEP-2 text: the Base58Check text of 0x01 0x42, the flag byte 0xe0, four bytes of address hash and 32
encrypted bytes. -/
def Nep2 (dbl : List UInt8 → List UInt8) (addressHash encrypted : List UInt8) (s : List Char) : Prop :=
  addressHash.length = 4 ∧ encrypted.length = 32 ∧ Base58Check dbl 0x01 ([0x42, 0xe0] ++ addressHash ++ encrypted) s

/-- `s` is what the NEP-2 standard prescribes for the private key `key` with the address `address` and the passphrase whose
UTF-8 bytes in normal form C are `password`: the first four bytes h of SHA256(SHA256(address text)); 64 bytes d derived by scrypt
with N = 16384, r = 8, p = 8 and salt h; the key XORed with the first half of d and encrypted by AES-256 (ECB) under the second
half; and the Base58Check text of 0x01 0x42 0xe0, h and the encrypted bytes. -/
def Nep2Standard (dbl : List UInt8 → List UInt8) (scrypt : Nat → Nat → Nat → List UInt8 → List UInt8 → Nat → List UInt8)
    (aes : List UInt8 → List UInt8 → List UInt8) (key addressText password : List UInt8) (s : List Char) : Prop :=
  ∃ h d x, h = (dbl addressText).take 4 ∧ d = scrypt 16384 8 8 password h 64 ∧
    x.length = 32 ∧ (∀ i, i < 32 → x[i]? = (key[i]?).bind fun k => (d[i]?).map fun e => k ^^^ e) ∧
    Nep2 dbl h (aes (d.drop 32) x) s

/-- `s` is the NEO address of the public key `Q`: the address of the hash of the script `21 <33-byte compressed key> ac`. -/
def AddressOf (dbl hash160 : List UInt8 → List UInt8) (Q : Neo.EC.Pt) (s : List Char) : Prop :=
  ∃ ba, EC.IsCompressed Q ba ∧ NeoAddress dbl (hash160 ([0x21] ++ ba ++ [0xac])) s

/-- What is asked of `bitcoin.privkey_to_pubkey` under the parameters KeyPair sets: it raises for numbers from the group order
on; otherwise it gives the uncompressed encoding of (key number) times the base point, with 64 zero bytes for the point at
infinity. -/
def DerivesPublicKeys (B : Neo.Btc) (c : Neo.BtcCurve) : Prop :=
  letI := Fact.mk Neo.EC.p256_prime
  ∀ key : List UInt8, key.length = 32 →
    (Neo.EC.p256Order ≤ beNumber key → ∃ e, B.privkeyToPubkey c key = .error e) ∧
    (beNumber key < Neo.EC.p256Order → ∃ ba Q, B.privkeyToPubkey c key = .ok ba ∧ EC.IsUncompressed Q ba ∧
      EC.Reduced Neo.EC.secp256r1Curve Q ∧
      ∀ G, EC.Denotes Neo.EC.secp256r1Curve Neo.EC.secp256r1.G G → EC.Denotes Neo.EC.secp256r1Curve Q (beNumber key • G))

end Spec
