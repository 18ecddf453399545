import Verif.Model.Base58
import Verif.Model.UInt

/-!
# Model of neocore/Cryptography/Helper.py and of the hashing half of neocore/Cryptography/Crypto.py
-/

namespace Neo
open Py

/-- The cryptographic primitives neocore calls but does not implement, with what is assumed of them.
Everything proved holds for every choice of these functions. -/
structure Prims where
  /-- `hashlib.sha256(x).digest()` -/
  sha256 : Bytes → Bytes
  /-- `hashlib.new('ripemd160', x).digest()` -/
  ripemd160 : Bytes → Bytes
  /-- `scrypt.hash(password, salt, N=n, r=r, p=p, buflen=len)`: `scrypt n r p password salt len` -/
  scrypt : Nat → Nat → Nat → Bytes → Bytes → Nat → Bytes
  /-- `AES.new(key, AES.MODE_ECB).encrypt` / `.decrypt` on data of suitable length -/
  aesEnc : Bytes → Bytes → Bytes
  aesDec : Bytes → Bytes → Bytes
  sha256_length : ∀ x, (sha256 x).length = 32
  ripemd160_length : ∀ x, (ripemd160 x).length = 20
  scrypt_length : ∀ n r p pw s len, (scrypt n r p pw s len).length = len
  aesEnc_length : ∀ k x, (aesEnc k x).length = x.length
  aesDec_length : ∀ k x, (aesDec k x).length = x.length
  aes_inverse : ∀ k x, k.length = 32 → x.length % 16 = 0 → aesDec k (aesEnc k x) = x

/-- The assumptions on `Prims` can be met. -/
instance : Inhabited Prims := ⟨{
  sha256 := fun x => (x ++ List.replicate 32 0).take 32
  ripemd160 := fun x => (x ++ List.replicate 20 0).take 20
  scrypt := fun _ _ _ p s len => (p ++ s ++ List.replicate len 0).take len
  aesEnc := fun _ x => x
  aesDec := fun _ x => x
  sha256_length := by intro x; simp
  ripemd160_length := by intro x; simp
  scrypt_length := by intro _ _ _ p s len; simp; omega
  aesEnc_length := by simp
  aesDec_length := by simp
  aes_inverse := by simp }⟩

variable (P : Prims)

/-- neocore/Cryptography/Helper.py:17 `ADDRESS_VERSION`. -/
def addressVersion : UInt8 := 23

/-- neocore/Cryptography/Helper.py:100-110 `bin_dbl_sha256`; also neocore/Cryptography/Crypto.py:63-74 `Crypto.Hash256` and
187-197 `CryptoInstance.Hash256`. -/
def binDblSha256 (s : Bytes) : Bytes := P.sha256 (P.sha256 s)

/-- neocore/Cryptography/Helper.py:28-42 `double_sha256`: the hexdigest as text. -/
def doubleSha256 (ba : Bytes) : Str := hexStr (P.sha256 (P.sha256 ba))

/-- neocore/Cryptography/Helper.py:20-25 `random_key`: hexlified SHA-256 of `entropy` (OS randomness, random number and time
rendered as text: an arbitrary byte string here). -/
def randomKey (entropy : Bytes) : Bytes := hexlify (P.sha256 entropy)

/-- neocore/Cryptography/Helper.py:113-124 `bin_hash160Bytes`; also neocore/Cryptography/Crypto.py:51-61
`Crypto.Hash160Bytes` and 176-185 `CryptoInstance.Hash160`. -/
def binHash160Bytes (bts : Bytes) : Bytes := P.ripemd160 (P.sha256 bts)

/-- neocore/Cryptography/Helper.py:127-138 `bin_hash160`: the hexdigest as text; also neocore/Cryptography/Crypto.py:39-49
`Crypto.Hash160`. -/
def binHash160 (string : Bytes) : Str := hexStr (P.ripemd160 (P.sha256 string))

/-- neocore/Cryptography/Helper.py:45-55 `pubkey_to_redeem`: `binascii.unhexlify(b'21' + pubkey + b'ac')`. -/
def pubkeyToRedeem (pubkey : Bytes) : Except Err Bytes := unhexlify ([0x32, 0x31] ++ pubkey ++ [0x61, 0x63])

/-- neocore/Cryptography/Helper.py:58-68 `redeem_to_scripthash`. -/
def redeemToScripthash (redeem : Bytes) : Bytes := binHash160Bytes P redeem

/-- neocore/Cryptography/Helper.py:71-84 `scripthash_to_address`. -/
def scripthashToAddress (scripthash : Bytes) : Str :=
  let sb := addressVersion :: scripthash
  let c256 := (binDblSha256 P sb).take 4
  Base58.encode (sb ++ c256)

/-- neocore/Cryptography/Helper.py:87-97 `pubkey_to_pubhash`. -/
def pubkeyToPubhash (pubkey : Bytes) : Except Err Bytes :=
  match pubkeyToRedeem pubkey with
  | .error e => .error e
  | .ok r => .ok (redeemToScripthash P r)

/-- neocore/Cryptography/Helper.py:157-159: the digits `while n:` appends, least significant first. -/
def base256Digits (n : Nat) : Bytes :=
  if _h : n = 0 then [] else UInt8.ofNat (n % 256) :: base256Digits (n / 256)
termination_by n
decreasing_by omega

/-- neocore/Cryptography/Helper.py:141-171 `base256_encode`. -/
def base256Encode (n minwidth : Int) : Except Err Bytes :=
  if n > 0 then .ok (pad (base256Digits n.toNat).reverse)
  else if n = 0 then .ok (pad [0])
  else .error .valueError
where
  /-- neocore/Cryptography/Helper.py:166-169: zero padding in front, then `b.reverse()`. -/
  pad (b : Bytes) : Bytes :=
    let b := if minwidth > 0 ∧ (b.length : Int) < minwidth then List.replicate (minwidth.toNat - b.length) 0 ++ b else b
    b.reverse

/-- neocore/Cryptography/Helper.py:174-191 `xor_bytes`: both arguments must be `bytes` objects of one length. -/
def xorBytes (a b : Val) : Except Err Bytes :=
  match a, b with
  | .bytes a, .bytes b => if a.length ≠ b.length then .error .assertion else .ok (List.zipWith (· ^^^ ·) a b)
  | _, _ => .error .assertion

/-- neocore/Cryptography/Crypto.py:76-90 `Crypto.ToScriptHash`: the `Data` of the resulting UInt160. -/
def toScriptHash (data : Bytes) (unhex : Bool) : Except Err Bytes :=
  if data.length > 1 && unhex then
    match unhexlify data with
    | .error e => .error e
    | .ok data => finish data
  else finish data
where
  /-- neocore/Cryptography/Crypto.py:90: `UInt160(data=unhexlify(bytes(Crypto.Hash160(data), encoding='utf-8')))`. -/
  finish (data : Bytes) : Except Err Bytes :=
    match unhexlify (utf8 (binHash160 P data)) with
    | .error e => .error e
    | .ok h => UInt.construct 20 (.bytes h)

/-- neocore/Cryptography/Crypto.py:92-103 `Crypto.ToAddress`, of a UInt160 with this `Data`. -/
def toAddress (scriptHash : Bytes) : Str := scripthashToAddress P scriptHash

/-- neocore/Utils.py:4-17 `isValidPublicAddress`. (`address.encode()` of a text with a character outside the alphabet leads
to `ValueError` in `b58decode` as well.) -/
def isValidPublicAddress (address : Str) : Except Err Bool :=
  if address.length = 34 ∧ address.head? = some 'A' then
    match Base58.decodeCheck (binDblSha256 P) address with
    | .ok _ => .ok true
    | .error e => if e.isValueError then .ok false else .error e
  else .ok false

/-- neocore/bin/cli.py:24-38 `address_to_scripthash`. `data[0]` is an `int` in Python 3, so the expression
`data[0] != 0x17 if isinstance(data[0], bytes) else b'\x17'` is always the (truthy) byte string; what remains of the test
is the IndexError on empty data. -/
def cliAddressToScripthash (address : Str) : Except Err Bytes :=
  match Base58.decode address with
  | .error e => .error e
  | .ok data =>
    match data with
    | [] => .error .indexError
    | _ :: _ =>
      if Base58.last4 data ≠ (P.sha256 (P.sha256 (Base58.butLast4 data))).take 4 then .error .conversion
      else .ok ((Base58.butLast4 data).drop 1)

/-- neocore/bin/cli.py:41-51 `scripthash_to_address` (without its `print`s). -/
def cliScripthashToAddress (scripthash : Str) : Except Err Str :=
  let r : Except Err Bytes :=
    if scripthash.take 2 ≠ ['0', 'x'] then
      match unhexlifyVal (.str scripthash) with
      | .error e => .error e
      | .ok b => UInt.parseString 20 (['0', 'x'] ++ hexStr b.reverse)
    else UInt.parseString 20 scripthash
  match r with
  | .error _ => .error .conversion
  | .ok d => .ok (toAddress P d)

end Neo
