import Verif.Model.Hashes
import Verif.Model.Crypto

/-!
# AES-256, HMAC-SHA-256, PBKDF2 and scrypt

Not code of /repo: the primitives neocore calls for NEP-2 (neocore/KeyPair.py:136-146,207-230: `scrypt.hash` and
`AES.new(key, AES.MODE_ECB)`) and those the `bitcoin` package uses for the nonce of a signature (`hmac`, RFC 6979), written down
from FIPS 197, RFC 2104, RFC 8018 and RFC 7914. They give one concrete `Neo.Prims`, with a proof that it has the properties
required of one, in particular that AES decryption inverts encryption.
-/

namespace Neo.Aes
open Py

/-- FIPS 197, 5.1.1: the S-box. -/
def sboxTable : List UInt8 := [
  99, 124, 119, 123, 242, 107, 111, 197, 48, 1, 103, 43, 254, 215, 171, 118,
  202, 130, 201, 125, 250, 89, 71, 240, 173, 212, 162, 175, 156, 164, 114, 192,
  183, 253, 147, 38, 54, 63, 247, 204, 52, 165, 229, 241, 113, 216, 49, 21,
  4, 199, 35, 195, 24, 150, 5, 154, 7, 18, 128, 226, 235, 39, 178, 117,
  9, 131, 44, 26, 27, 110, 90, 160, 82, 59, 214, 179, 41, 227, 47, 132,
  83, 209, 0, 237, 32, 252, 177, 91, 106, 203, 190, 57, 74, 76, 88, 207,
  208, 239, 170, 251, 67, 77, 51, 133, 69, 249, 2, 127, 80, 60, 159, 168,
  81, 163, 64, 143, 146, 157, 56, 245, 188, 182, 218, 33, 16, 255, 243, 210,
  205, 12, 19, 236, 95, 151, 68, 23, 196, 167, 126, 61, 100, 93, 25, 115,
  96, 129, 79, 220, 34, 42, 144, 136, 70, 238, 184, 20, 222, 94, 11, 219,
  224, 50, 58, 10, 73, 6, 36, 92, 194, 211, 172, 98, 145, 149, 228, 121,
  231, 200, 55, 109, 141, 213, 78, 169, 108, 86, 244, 234, 101, 122, 174, 8,
  186, 120, 37, 46, 28, 166, 180, 198, 232, 221, 116, 31, 75, 189, 139, 138,
  112, 62, 181, 102, 72, 3, 246, 14, 97, 53, 87, 185, 134, 193, 29, 158,
  225, 248, 152, 17, 105, 217, 142, 148, 155, 30, 135, 233, 206, 85, 40, 223,
  140, 161, 137, 13, 191, 230, 66, 104, 65, 153, 45, 15, 176, 84, 187, 22]

/-- FIPS 197, 5.3.2: the inverse S-box. -/
def invSboxTable : List UInt8 := [
  82, 9, 106, 213, 48, 54, 165, 56, 191, 64, 163, 158, 129, 243, 215, 251,
  124, 227, 57, 130, 155, 47, 255, 135, 52, 142, 67, 68, 196, 222, 233, 203,
  84, 123, 148, 50, 166, 194, 35, 61, 238, 76, 149, 11, 66, 250, 195, 78,
  8, 46, 161, 102, 40, 217, 36, 178, 118, 91, 162, 73, 109, 139, 209, 37,
  114, 248, 246, 100, 134, 104, 152, 22, 212, 164, 92, 204, 93, 101, 182, 146,
  108, 112, 72, 80, 253, 237, 185, 218, 94, 21, 70, 87, 167, 141, 157, 132,
  144, 216, 171, 0, 140, 188, 211, 10, 247, 228, 88, 5, 184, 179, 69, 6,
  208, 44, 30, 143, 202, 63, 15, 2, 193, 175, 189, 3, 1, 19, 138, 107,
  58, 145, 17, 65, 79, 103, 220, 234, 151, 242, 207, 206, 240, 180, 230, 115,
  150, 172, 116, 34, 231, 173, 53, 133, 226, 249, 55, 232, 28, 117, 223, 110,
  71, 241, 26, 113, 29, 41, 197, 137, 111, 183, 98, 14, 170, 24, 190, 27,
  252, 86, 62, 75, 198, 210, 121, 32, 154, 219, 192, 254, 120, 205, 90, 244,
  31, 221, 168, 51, 136, 7, 199, 49, 177, 18, 16, 89, 39, 128, 236, 95,
  96, 81, 127, 169, 25, 181, 74, 13, 45, 229, 122, 159, 147, 201, 156, 239,
  160, 224, 59, 77, 174, 42, 245, 176, 200, 235, 187, 60, 131, 83, 153, 97,
  23, 43, 4, 126, 186, 119, 214, 38, 225, 105, 20, 99, 85, 33, 12, 125]

def sbox (x : UInt8) : UInt8 := sboxTable.getD x.toNat 0
def invSbox (x : UInt8) : UInt8 := invSboxTable.getD x.toNat 0

/-- FIPS 197, 4.2.1: multiplication by {02}. -/
def xtime (x : UInt8) : UInt8 := if x.toNat < 128 then x <<< 1 else (x <<< 1) ^^^ 0x1b

/-- FIPS 197, 5.1.2: the byte of row r and column c is at 4c + r. -/
def shiftRows : Bytes → Bytes
  | [a0, a1, a2, a3, b0, b1, b2, b3, c0, c1, c2, c3, d0, d1, d2, d3] =>
    [a0, b1, c2, d3, b0, c1, d2, a3, c0, d1, a2, b3, d0, a1, b2, c3]
  | x => x

/-- FIPS 197, 5.3.1. -/
def invShiftRows : Bytes → Bytes
  | [a0, a1, a2, a3, b0, b1, b2, b3, c0, c1, c2, c3, d0, d1, d2, d3] =>
    [a0, d1, c2, b3, b0, a1, d2, c3, c0, b1, a2, d3, d0, c1, b2, a3]
  | x => x

/-- FIPS 197, 5.1.3: one byte of a column. -/
def mixByte (a b c d : UInt8) : UInt8 := xtime a ^^^ (xtime b ^^^ b) ^^^ c ^^^ d

/-- Multiplication by {09}, {0b}, {0d}, {0e}. -/
def mul9 (x : UInt8) : UInt8 := xtime (xtime (xtime x)) ^^^ x
def mulB (x : UInt8) : UInt8 := xtime (xtime (xtime x)) ^^^ xtime x ^^^ x
def mulD (x : UInt8) : UInt8 := xtime (xtime (xtime x)) ^^^ xtime (xtime x) ^^^ x
def mulE (x : UInt8) : UInt8 := xtime (xtime (xtime x)) ^^^ xtime (xtime x) ^^^ xtime x

/-- FIPS 197, 5.3.3: one byte of a column. -/
def invMixByte (a b c d : UInt8) : UInt8 := mulE a ^^^ mulB b ^^^ mulD c ^^^ mul9 d

/-- FIPS 197, 5.1.3 `MixColumns`. -/
def mixColumns : Bytes → Bytes
  | a :: b :: c :: d :: rest =>
    mixByte a b c d :: mixByte b c d a :: mixByte c d a b :: mixByte d a b c :: mixColumns rest
  | x => x

/-- FIPS 197, 5.3.3 `InvMixColumns`. -/
def invMixColumns : Bytes → Bytes
  | a :: b :: c :: d :: rest =>
    invMixByte a b c d :: invMixByte b c d a :: invMixByte c d a b :: invMixByte d a b c :: invMixColumns rest
  | x => x

/-- FIPS 197, 5.1.4. -/
def addRoundKey (k x : Bytes) : Bytes := List.zipWith (· ^^^ ·) x k

/-- FIPS 197, 5.2 for 8 key words: the words after the first 8, the last one first; `i` counts words, `rcon` is the next
round constant. -/
def expandFrom : Nat → Nat → UInt8 → List Bytes → List Bytes
  | 0, _, _, ws => ws
  | k + 1, i, rcon, ws =>
    let prev := ws.getD 0 []
    let back := ws.getD 7 []
    if i % 8 = 0 then
      let t := match prev with
        | [p, q, r, s] => [sbox q ^^^ rcon, sbox r, sbox s, sbox p]
        | x => x
      expandFrom k (i + 1) (xtime rcon) (List.zipWith (· ^^^ ·) back t :: ws)
    else if i % 8 = 4 then expandFrom k (i + 1) rcon (List.zipWith (· ^^^ ·) back (prev.map sbox) :: ws)
    else expandFrom k (i + 1) rcon (List.zipWith (· ^^^ ·) back prev :: ws)

/-- FIPS 197, 5.2: the fifteen round keys of a 32-byte key, 16 bytes each. -/
def roundKeys (key : Bytes) : List Bytes :=
  Hashes.chunks 16 15 (expandFrom 52 8 1 (Hashes.chunks 4 8 key).reverse).reverse.flatten

/-- FIPS 197, 5.1, rounds 1 to 14: the last one has no `MixColumns`. -/
def encRounds : List Bytes → Bytes → Bytes
  | [], x => x
  | [k], x => addRoundKey k (shiftRows (x.map sbox))
  | k :: k' :: ks, x => encRounds (k' :: ks) (addRoundKey k (mixColumns (shiftRows (x.map sbox))))

/-- FIPS 197, 5.3, rounds 14 to 1: the inverses in the opposite order. -/
def decRounds : List Bytes → Bytes → Bytes
  | [], x => x
  | [k], x => (invShiftRows (addRoundKey k x)).map invSbox
  | k :: k' :: ks, x => (invShiftRows (invMixColumns (addRoundKey k (decRounds (k' :: ks) x)))).map invSbox

def encBlock (ks : List Bytes) (x : Bytes) : Bytes :=
  match ks with
  | [] => x
  | k :: ks => encRounds ks (addRoundKey k x)

def decBlock (ks : List Bytes) (x : Bytes) : Bytes :=
  match ks with
  | [] => x
  | k :: ks => addRoundKey k (decRounds ks x)

/-- ECB mode: `f` on `n` consecutive blocks of 16 bytes; what remains is left alone. -/
def ecb (f : Bytes → Bytes) : Nat → Bytes → Bytes
  | 0, x => x
  | n + 1, x => f (x.take 16) ++ ecb f n (x.drop 16)

/-- `AES.new(key, AES.MODE_ECB).encrypt(x)`. -/
def enc (key x : Bytes) : Bytes := if key.length = 32 then ecb (encBlock (roundKeys key)) (x.length / 16) x else x

/-- `AES.new(key, AES.MODE_ECB).decrypt(x)`. -/
def dec (key x : Bytes) : Bytes := if key.length = 32 then ecb (decBlock (roundKeys key)) (x.length / 16) x else x

end Neo.Aes

namespace Neo.Kdf
open Py Hashes

def xorBytes (a b : Bytes) : Bytes := List.zipWith (· ^^^ ·) a b

/-- RFC 2104 with SHA-256. -/
def hmac (key msg : Bytes) : Bytes :=
  let k := if key.length ≤ 64 then key else sha256 key
  let k := k ++ List.replicate (64 - k.length) 0
  sha256 (k.map (· ^^^ 0x5c) ++ sha256 (k.map (· ^^^ 0x36) ++ msg))

/-- RFC 8018 PBKDF2 with one iteration: `n` blocks from block `i` on. -/
def pbkdf2Blocks (password salt : Bytes) : Nat → Nat → Bytes
  | 0, _ => []
  | n + 1, i => hmac password (salt ++ (natToLE 4 i).reverse) ++ pbkdf2Blocks password salt n (i + 1)

def pbkdf2 (password salt : Bytes) (len : Nat) : Bytes := (pbkdf2Blocks password salt ((len + 31) / 32) 1).take len

/-- RFC 7914, 3: the quarter round of Salsa20. -/
def quarter (x : List Nat) (a b c d : Nat) : List Nat :=
  let x := x.set b (x.getD b 0 ^^^ rotl 7 (w32 (x.getD a 0 + x.getD d 0)))
  let x := x.set c (x.getD c 0 ^^^ rotl 9 (w32 (x.getD b 0 + x.getD a 0)))
  let x := x.set d (x.getD d 0 ^^^ rotl 13 (w32 (x.getD c 0 + x.getD b 0)))
  x.set a (x.getD a 0 ^^^ rotl 18 (w32 (x.getD d 0 + x.getD c 0)))

def doubleRound (x : List Nat) : List Nat :=
  let x := quarter x 0 4 8 12
  let x := quarter x 5 9 13 1
  let x := quarter x 10 14 2 6
  let x := quarter x 15 3 7 11
  let x := quarter x 0 1 2 3
  let x := quarter x 5 6 7 4
  let x := quarter x 10 11 8 9
  quarter x 15 12 13 14

/-- RFC 7914, 3: Salsa20/8 on 16 words. -/
def salsa (x : List Nat) : List Nat :=
  List.zipWith (fun a b => w32 (a + b)) x (doubleRound (doubleRound (doubleRound (doubleRound x))))

/-- RFC 7914, 4: `scryptBlockMix` on blocks of 16 words, results in reverse order. -/
def blockMixLoop : List (List Nat) → List Nat → List (List Nat) → List (List Nat)
  | [], _, out => out
  | b :: bs, x, out =>
    let t := salsa (List.zipWith (· ^^^ ·) x b)
    blockMixLoop bs t (t :: out)

def evens {α : Type} : List α → List α
  | a :: _ :: rest => a :: evens rest
  | x => x

def blockMix (b : List (List Nat)) : List (List Nat) :=
  let y := (blockMixLoop b (b.getLastD []) []).reverse
  evens y ++ evens (y.drop 1)

def romixFill : Nat → List (List Nat) → List (List (List Nat)) → List (List Nat) × List (List (List Nat))
  | 0, x, v => (x, v.reverse)
  | n + 1, x, v => romixFill n (blockMix x) (x :: v)

def romixMix (nn : Nat) (v : List (List (List Nat))) : Nat → List (List Nat) → List (List Nat)
  | 0, x => x
  | n + 1, x =>
    let j := ((x.getLastD []).getD 0 0 + 4294967296 * (x.getLastD []).getD 1 0) % nn
    romixMix nn v n (blockMix (List.zipWith (fun a b => List.zipWith (· ^^^ ·) a b) x (v.getD j [])))

/-- RFC 7914, 5: `scryptROMix` with N = `n` on 128·r bytes. -/
def romix (n : Nat) (b : Bytes) : Bytes :=
  let x := (chunks 64 (b.length / 64) b).map fun c => (chunks 4 16 c).map leToNat
  let (x, v) := romixFill n x []
  (romixMix n v n x).flatMap fun c => c.flatMap fun w => natToLE 4 w

/-- RFC 7914, 6: `scrypt.hash(password, salt, N=n, r=r, p=p, buflen=len)`. -/
def scrypt (n r p : Nat) (password salt : Bytes) (len : Nat) : Bytes :=
  let b := pbkdf2 password salt (p * 128 * r)
  pbkdf2 password ((chunks (128 * r) p b).flatMap (romix n)) len

end Neo.Kdf

namespace Neo.Kdf
open Py

/-- bitcoin/main.py `encode(v, 256, 32)`. -/
def enc32 (v : Nat) : Bytes := btcDecompress.btcEncode v

/-- bitcoin/main.py `deterministic_generate_k(msghash, priv)` of a digest given as 64 hexadecimal digits. -/
def deterministicK (msghash : Str) (priv : Nat) : Nat :=
  let h := match unhexlifyVal (.str msghash) with
    | .ok h => enc32 (leToNat h.reverse)
    | .error _ => []
  let v := List.replicate 32 1
  let k := List.replicate 32 0
  let k := hmac k (v ++ [0] ++ enc32 priv ++ h)
  let v := hmac k v
  let k := hmac k (v ++ [1] ++ enc32 priv ++ h)
  let v := hmac k v
  leToNat (hmac k v).reverse

end Neo.Kdf
