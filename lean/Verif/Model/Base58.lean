import Verif.Py.Core

/-!
# Model of the `base58` package (1.0.3, pinned in /repo/requirements.txt)

Called from neocore/Cryptography/Helper.py:84, neocore/KeyPair.py:94,127,185,232, neocore/Utils.py:10 and
neocore/bin/cli.py:25. The package is not part of /repo; its functions are written down from its published source.

A text is a `Str`; `scrub_input` encodes it as ASCII and raises `UnicodeEncodeError`, a `ValueError`, on other characters,
and `alphabet.index` raises `ValueError` on a byte outside the alphabet: both are `valueError` here.
-/

namespace Neo.Base58
open Py

/-- base58.py `alphabet`. -/
def alphabet : Str := "123456789ABCDEFGHJKLMNPQRSTUVWXYZabcdefghijkmnopqrstuvwxyz".toList

/-- base58.py `b58encode_int(i, default_one=False)`: prepends digits while `i` is not zero. -/
def encodeInt (i : Nat) : Str :=
  if _h : i = 0 then [] else encodeInt (i / 58) ++ [alphabet.getD (i % 58) '1']
termination_by i
decreasing_by omega

/-- base58.py `b58encode`: one '1' for each leading zero byte, then the number in base 58. -/
def encode (v : Bytes) : Str :=
  let w := v.dropWhile (· == 0)
  let nPad := v.length - w.length
  List.replicate nPad '1' ++ encodeInt (leToNat w.reverse)

/-- base58.py `b58decode_int`. -/
def decodeInt : Str → Nat → Except Err Nat
  | [], acc => .ok acc
  | c :: cs, acc =>
    match alphabet.idxOf? c with
    | none => .error .valueError
    | some i => decodeInt cs (acc * 58 + i)

/-- base58.py `b58decode`: the digits appended by the loop `while acc > 0` (least significant first). -/
def bytesOf (acc : Nat) : Bytes :=
  if _h : acc = 0 then [] else UInt8.ofNat (acc % 256) :: bytesOf (acc / 256)
termination_by acc
decreasing_by omega

/-- base58.py `b58decode`. -/
def decode (v : Str) : Except Err Bytes :=
  let w := v.dropWhile (· == '1')
  match decodeInt w 0 with
  | .error e => .error e
  | .ok acc => .ok (List.replicate (v.length - w.length) 0 ++ (bytesOf acc).reverse)

/-- base58.py `b58encode_check`; `dbl` is double SHA-256. -/
def encodeCheck (dbl : Bytes → Bytes) (v : Bytes) : Str := encode (v ++ (dbl v).take 4)

/-- Python `b[:-4]` and `b[-4:]`. -/
def butLast4 (b : Bytes) : Bytes := b.take (b.length - 4)
def last4 (b : Bytes) : Bytes := b.drop (b.length - 4)

/-- base58.py `b58decode_check`. -/
def decodeCheck (dbl : Bytes → Bytes) (v : Str) : Except Err Bytes :=
  match decode v with
  | .error e => .error e
  | .ok result =>
    if last4 result ≠ (dbl (butLast4 result)).take 4 then .error .valueError else .ok (butLast4 result)

end Neo.Base58
