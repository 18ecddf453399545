import Verif.Model.Crypto

/-!
# Model of neocore/KeyPair.py, and of `create_wallet` in neocore/bin/cli.py
-/

namespace Neo
open Py

/-- neocore/KeyPair.py:22-27: the attributes of a `KeyPair`; `publicKeyHash` is the `Data` of the UInt160. -/
structure KeyPair where
  privateKey : Bytes
  publicKey : EC.Pt
  publicKeyHash : Bytes
  deriving DecidableEq

variable (P : Prims) (B : Btc)

/-- neocore/KeyPair.py:33-40: the arguments of `change_curve` in `KeyPair.setup_curve`. -/
def keyPairCurve : BtcCurve where
  p := 115792089210356248762697446949407573530086143415290314195533631308867097853951
  n := 115792089210356248762697446949407573529996955224135760342422259061068512044369
  a := 115792089210356248762697446949407573530086143415290314195533631308867097853948
  b := 41058363725152142129326129780047268409114441015993725554835256314039467401291
  gx := 48439561293906451759052585252797914202762949526041747995844080717082404635286
  gy := 36134250956749795798585127919587881956611106672985015071877198253568414405109

/-- Python `b[-32:]`. -/
def last32 (b : Bytes) : Bytes := b.drop (b.length - 32)

namespace KeyPair

/-- neocore/KeyPair.py:71-76: `bitcoin.decode_pubkey(.., 'bin')` reads bytes 1-32 and 33-64, big-endian. -/
def decodePubkey (ba : Bytes) : EC.Pt :=
  ⟨leToNat ((ba.drop 1).take 32).reverse, leToNat ((ba.drop 33).take 32).reverse⟩

/-- neocore/KeyPair.py:70-78, after the uncompressed public key has been determined. (A result of 65 bytes is never falsy.) -/
def finish (privKey pubkey : Bytes) : Except Err KeyPair :=
  let Q := decodePubkey pubkey
  match EC.encodePoint EC.secp256r1Curve Q true with
  | .error e => .error e
  | .ok enc =>
    match toScriptHash P enc true with
    | .error e => .error e
    | .ok h => .ok ⟨last32 privKey, Q, h⟩

/-- neocore/KeyPair.py:51-78, with the `bitcoin` parameters `c` in force. -/
def construct (c : BtcCurve) (privKey : Bytes) : Except Err KeyPair :=
  let length := privKey.length
  if length ≠ 32 ∧ length ≠ 96 ∧ length ≠ 104 then .error .valueError
  else if length = 32 then
    match B.privkeyToPubkey c privKey with
    | .error _ => .error .exc
    | .ok pubkey => finish P privKey pubkey
  else
    let skip := length - 96
    finish P privKey (4 :: (privKey.drop skip).take 64)

/-- neocore/KeyPair.py:42-78 `KeyPair.__init__` of a byte string; line 49 sets the curve first, whatever happens next. -/
def init (privKey : Bytes) : Call KeyPair := fun w =>
  let w := { w with curve := keyPairCurve }
  (construct P B w.curve privKey, w)

/-- neocore/KeyPair.py:80-106 `KeyPair.PrivateKeyFromWIF`. For `None` the message of the ValueError calls `len(None)`, a
TypeError. (`is not` on these small integers is `!=` in CPython.) -/
def privateKeyFromWIF (wif : Option Str) : Except Err Bytes :=
  match wif with
  | none => .error .typeError
  | some wif =>
    if wif.length ≠ 52 then .error .valueError
    else
      match Base58.decode wif with
      | .error e => .error e
      | .ok data =>
        if data.length ≠ 38 ∨ data[0]? ≠ some 0x80 ∨ data[33]? ≠ some 0x01 then .error .valueError
        else if (binDblSha256 P (data.take 34)).take 4 ≠ data.drop 34 then .error .valueError
        else .ok ((data.drop 1).take 32)

/-- neocore/KeyPair.py:159-169 `KeyPair.GetAddress`. -/
def getAddress (kp : KeyPair) : Except Err Str :=
  match EC.encodePoint EC.secp256r1Curve kp.publicKey true with
  | .error e => .error e
  | .ok enc =>
    match toScriptHash P ([0x32, 0x31] ++ enc ++ [0x61, 0x63]) true with
    | .error e => .error e
    | .ok h => .ok (toAddress P h)

/-- neocore/KeyPair.py:178-185: the 38 bytes of `Export`. -/
def wifBytes (kp : KeyPair) : Bytes :=
  let data : Bytes := [0x80] ++ kp.privateKey.take 32 ++ [0x01]
  data ++ (binDblSha256 P data).take 4

/-- neocore/KeyPair.py:171-187 `KeyPair.Export`; line 183 calls `Crypto.Default()`. -/
def exportWIF (kp : KeyPair) : Call Str := fun w => (.ok (Base58.encode (wifBytes P kp)), (cryptoDefault w).2)

/-- neocore/KeyPair.py:203-205 and 151-153: the first four bytes of the double SHA-256 of the address text. -/
def addressHash (address : Str) : Bytes := (P.sha256 (P.sha256 (utf8 address))).take 4

/-- neocore/KeyPair.py:13-16, 208-213 and 134-139: the 64 bytes derived from the normalised passphrase and the address hash. -/
def derivedKey (password salt : Bytes) : Bytes := P.scrypt 16384 8 8 password salt 64

/-- neocore/KeyPair.py:189-233 `KeyPair.ExportNEP2`; `nfc` is `unicodedata.normalize('NFC', ·)`. A passphrase is a `Str`, so
without lone surrogates. -/
def exportNEP2 (nfc : Str → Str) (kp : KeyPair) (passphrase : Str) : Except Err Str :=
  if passphrase.length < 2 then .error .valueError
  else
    match getAddress P kp with
    | .error e => .error e
    | .ok address =>
      let addrHash := addressHash P address
      let derived := derivedKey P (utf8 (nfc passphrase)) addrHash
      match xorBytes (.bytes kp.privateKey) (.bytes (derived.take 32)) with
      | .error e => .error e
      | .ok xored =>
        if xored.length % 16 ≠ 0 then .error .valueError
        else
          let encrypted := P.aesEnc (derived.drop 32) xored
          .ok (Base58.encodeCheck (binDblSha256 P) ([0x01, 0x42] ++ [0xe0] ++ addrHash ++ encrypted))

/-- neocore/KeyPair.py:120-146: the private key a NEP-2 text decrypts to and the address hash stored in it. -/
def decryptNEP2 (nfc : Str → Str) (nep2Key passphrase : Str) : Except Err (Bytes × Bytes) :=
  if nep2Key.length ≠ 58 then .error .valueError
  else
    match Base58.decodeCheck (binDblSha256 P) nep2Key with
    | .error _ => .error .valueError
    | .ok decoded =>
      let addrHash := (decoded.drop 3).take 4
      let encrypted := last32 decoded
      let derived := derivedKey P (utf8 (nfc passphrase)) addrHash
      if encrypted.length % 16 ≠ 0 then .error .valueError
      else
        match xorBytes (.bytes (P.aesDec (derived.drop 32) encrypted)) (.bytes (derived.take 32)) with
        | .error e => .error e
        | .ok privateKey => .ok (privateKey, addrHash)

/-- neocore/KeyPair.py:108-157 `KeyPair.PrivateKeyFromNEP2`; line 149 constructs a `KeyPair`. (The empty text is
rejected at 120-121 as well, `None` with a TypeError from `len`.) -/
def privateKeyFromNEP2 (nfc : Str → Str) (nep2Key passphrase : Str) : Call Bytes := fun w =>
  match decryptNEP2 P nfc nep2Key passphrase with
  | .error e => (.error e, w)
  | .ok (privateKey, addrHash) =>
    match init P B privateKey w with
    | (.error e, w) => (.error e, w)
    | (.ok kp, w) =>
      match getAddress P kp with
      | .error e => (.error e, w)
      | .ok address => if addressHash P address ≠ addrHash then (.error .valueError, w) else (.ok privateKey, w)

/-- neocore/bin/cli.py:54-60 `create_wallet`, for the 32 random bytes it drew: the WIF and the address. -/
def createWallet (random : Bytes) : Call (Str × Str) := fun w =>
  match init P B random w with
  | (.error e, w) => (.error e, w)
  | (.ok kp, w) =>
    match exportWIF P kp w with
    | (.error e, w) => (.error e, w)
    | (.ok wif, w) =>
      match getAddress P kp with
      | .error e => (.error e, w)
      | .ok address => (.ok (wif, address), w)

end KeyPair

end Neo
