import Verif.Model.Helper
import Verif.Model.ECCurve

/-!
# Model of neocore/Cryptography/Crypto.py (signatures, and the process-wide curve setting of the `bitcoin` package)
-/

namespace Neo
open Py

/-- The arguments of `bitcoin.change_curve(p, n, a, b, gx, gy)`: the module-level parameters every curve function of the
`bitcoin` package uses. -/
structure BtcCurve where
  p : Nat
  n : Nat
  a : Nat
  b : Nat
  gx : Nat
  gy : Nat
  deriving DecidableEq

/-- The parameters the `bitcoin` package starts with (secp256k1, main.py 1-12). -/
def BtcCurve.initial : BtcCurve where
  p := 2 ^ 256 - 2 ^ 32 - 977
  n := 115792089237316195423570985008687907852837564279074904382605163141518161494337
  a := 0
  b := 7
  gx := 55066263022277343669578718895168534326250603453777594175500187360389116729240
  gy := 32670510020758816978083085130507043184471273380659243275938904335757337482424

/-- neocore/Cryptography/Crypto.py:18-25: the arguments of `change_curve` in `Crypto.SetupSignatureCurve`. -/
def signatureCurve : BtcCurve where
  p := 0xFFFFFFFF00000001000000000000000000000000FFFFFFFFFFFFFFFFFFFFFFFF
  n := 0xFFFFFFFF00000000FFFFFFFFFFFFFFFFBCE6FAADA7179E84F3B9CAC2FC632551
  a := 0xFFFFFFFF00000001000000000000000000000000FFFFFFFFFFFFFFFFFFFFFFFC
  b := 0x5AC635D8AA3A93E7B3EBBD55769886BC651D06B0CC53B0F63BCE3C3E27D2604B
  gx := 0x6B17D1F2E12C4247F8BCE6E563A440F277037D812DEB33A0F4A13945D898C296
  gy := 0x4FE342E2FE1A7F9B8EE7EB4A7C0F9E162BCE33576B315ECECBB6406837BF51F5

/-- The functions of the packages `bitcoin` (1.1.42) and `ecdsa` (0.13) that neocore calls and does not implement, as functions
of the `bitcoin` parameters in force. Nothing is assumed of them here; what a theorem assumes it says. -/
structure Btc where
  /-- `bitcoin.privkey_to_pubkey(key)` of a 32-byte key: 65 bytes or an exception. -/
  privkeyToPubkey : BtcCurve → Bytes → Except Err Bytes
  /-- `bitcoin.ecdsa_raw_sign(hash, private_key)`: v, r, s. -/
  ecdsaRawSign : BtcCurve → Str → Val → Except Err (Int × Int × Int)
  /-- `VerifyingKey.from_string(key, curve=NIST256p, hashfunc=sha256).verify(signature, message, hashfunc=sha256)` -/
  verify : Bytes → Val → Val → Except Err Bool

/-- The state shared by the whole process: the parameters of the `bitcoin` package and whether `Crypto._Instance` is set
(neocore/Cryptography/Crypto.py:11). -/
structure World where
  curve : BtcCurve
  inst : Bool
  deriving DecidableEq

/-- A process that has imported neocore and called nothing. -/
def World.fresh : World := ⟨.initial, false⟩

/-- A library call: result or exception, and the state after it. -/
abbrev Call (α : Type) := World → Except Err α × World

variable (P : Prims) (B : Btc)

/-- neocore/Cryptography/Crypto.py:13-25 `Crypto.SetupSignatureCurve`. -/
def setupSignatureCurve : Call Unit := fun w => (.ok (), { w with curve := signatureCurve })

/-- neocore/Cryptography/Crypto.py:27-37 `Crypto.Default`; 173-174 `CryptoInstance.__init__` calls `SetupSignatureCurve`. -/
def cryptoDefault : Call Unit := fun w =>
  if w.inst then (.ok (), w) else (.ok (), ⟨signatureCurve, true⟩)

/-- neocore/Cryptography/Crypto.py:105-126 `Crypto.Sign` (also 199-210 `CryptoInstance.Sign`). -/
def sign (message privateKey : Val) : Call Bytes := fun w =>
  match unhexlifyVal message with
  | .error e => (.error e, w)
  | .ok m =>
    match B.ecdsaRawSign w.curve (hexStr (P.sha256 m)) privateKey with
    | .error e => (.error e, w)
    | .ok (_, r, s) =>
      match intToBytes r 32 .big false with
      | .error e => (.error e, w)
      | .ok rb =>
        match intToBytes s 32 .big false with
        | .error e => (.error e, w)
        | .ok sb => (.ok (rb ++ sb), w)

/-- `bitcoin.decompress(key)[1:]` of a 33-byte key (main.py `get_pubkey_format`, `decode_pubkey`, `encode_pubkey`): the format
is recognised by the first byte being 2 or 3; `y` is a power of `x³ + a·x + b`, negated if its parity is not that of the first
byte; the coordinates are encoded in 32 bytes each (longer if they do not fit). -/
def btcDecompress (c : BtcCurve) (key : Bytes) : Except Err Bytes :=
  match key with
  | [] => .error .exc
  | f :: xb =>
    if f = 2 ∨ f = 3 then
      let x := leToNat (xb.take 32).reverse
      let beta := (x * x * x + c.a * x + c.b) ^ ((c.p + 1) / 4) % c.p
      let y := if (beta + f.toNat) % 2 ≠ 0 then c.p - beta else beta
      .ok (btcEncode x ++ btcEncode y)
    else .error .exc
where
  /-- main.py `encode(v, 256, 32)`: big-endian, at least 32 bytes. -/
  btcEncode (v : Nat) : Bytes :=
    let d := Base58.bytesOf v
    (d ++ List.replicate (32 - d.length) 0).reverse

/-- The `public_key` argument of `VerifySignature`: an `ECPoint` or bytes. -/
inductive PubKeyArg where
  | point (Q : EC.Pt)
  | bytes (b : Bytes)

/-- neocore/Cryptography/Crypto.py:128-168 `Crypto.VerifySignature` (also 212-225 `CryptoInstance.VerifySignature`). Logging is
not modelled. `message.encode('utf-8')` cannot fail on a `Str`. -/
def verifySignature (message signature : Val) (publicKey : PubKeyArg) (unhex : Bool) : Call Bool := fun w =>
  (run w.curve, w)
where
  /-- neocore/Cryptography/Crypto.py:143-147. -/
  keyBytes : Except Err Bytes :=
    match publicKey with
    | .bytes b => .ok b
    | .point Q =>
      match intToBytes Q.x 32 .big false with
      | .error e => .error e
      | .ok xb =>
        match intToBytes Q.y 32 .big false with
        | .error e => .error e
        | .ok yb => .ok (xb ++ yb)
  /-- neocore/Cryptography/Crypto.py:149-155. -/
  messageVal : Val :=
    if unhex then
      match unhexlifyVal message with
      | .ok m => .bytes m
      | .error _ => message
    else
      match message with
      | .str s => .bytes (utf8 s)
      | m => m
  /-- neocore/Cryptography/Crypto.py:157-168. -/
  run (c : BtcCurve) : Except Err Bool :=
    match keyBytes with
    | .error e => .error e
    | .ok key =>
      match (if key.length = 33 then btcDecompress c key else .ok key) with
      | .error e => .error e
      | .ok key =>
        match B.verify key signature messageVal with
        | .ok res => .ok res
        | .error _ => .ok false

end Neo
