import Verif.Py.Float
import Verif.Model.Reader
import Verif.Model.Writer

/-!
# Model of neocore/Cryptography/ECCurve.py

A `FiniteField.Value` is represented by its Python integer `value`, which the code does not always reduce mod p; the
field object by its modulus `p`.  Every operator first converts its right operand with `self.field.value(rhs)`
(ECCurve.py:204-239, 316-320), which re-wraps values of other field objects, so `samefield` (31-37) is true whenever
`add`/`sub`/`mul`/`div` run through the operators; that is the only use modelled.  A modulus of 0 (ZeroDivisionError) and
CPython's recursion limit in `GCD` are not modelled.  Log output is not modelled.
-/

namespace Neo.EC
open Py

/-- neocore/Cryptography/ECCurve.py:19-23 `GCD` (`%` and `//` are Python's floored operations). -/
def gcdExt (a b : Int) : Int × Int × Int :=
  if _h : a = 0 then (b, 0, 1)
  else
    let r := gcdExt (Int.fmod b a) a
    (r.1, r.2.2 - Int.fdiv b a * r.2.1, r.2.1)
termination_by a.natAbs
decreasing_by
  rcases lt_trichotomy a 0 with h | h | h
  · have h0 : Int.fmod b a = -Int.fmod (-b) (-a) := by rw [Int.neg_fmod_neg, neg_neg]
    have h1 := Int.fmod_lt_of_pos (-b) (show 0 < -a by omega)
    have h2 := Int.fmod_nonneg_of_pos (-b) (show 0 < -a by omega)
    omega
  · exact absurd h _h
  · have h1 := Int.fmod_lt_of_pos b h
    have h2 := Int.fmod_nonneg_of_pos b h
    omega

/-- neocore/Cryptography/ECCurve.py:26-28 `modinv`. -/
def modinv (x m : Int) : Int := (gcdExt x m).2.1

/-- neocore/Cryptography/ECCurve.py:13 `modpow = pow`: Python's three-argument `pow` with a non-negative exponent. -/
def modpow (b : Int) (e : Nat) (m : Int) : Int := Int.fmod (b ^ e) m

/-- neocore/Cryptography/ECCurve.py:40-43 `test_bit`, for non-negative `num`. -/
def testBit (num : Nat) (index : Nat) : Bool := num.testBit index

/-- neocore/Cryptography/ECCurve.py:51-64 `next_random_integer`; `rand` is what `randbytes` (46-48) produces and must have
the requested length, `nextRandomLen`.  Simplification: `int(size_in_bits / 8)` is computed through a float, which is the
exact quotient for every size below 2^53. -/
def nextRandomLen (sizeInBits : Int) : Nat := (sizeInBits / 8).toNat + 1

/-- neocore/Cryptography/ECCurve.py:51-64 `next_random_integer`. -/
def nextRandomInteger (sizeInBits : Int) (rand : Bytes) : Except Err Nat :=
  if sizeInBits < 0 then .error .exc
  else if sizeInBits = 0 then .ok 0
  else
    let balen := nextRandomLen sizeInBits
    let mask : Nat := 2 ^ (sizeInBits % 8).toNat - 1
    let ba := if sizeInBits % 8 = 0 then rand.set (balen - 1) 0
      else rand.modify (balen - 1) (fun b => b &&& UInt8.ofNat mask)
    .ok (leToNat ba.reverse)

/-! ## Lucas sequences -/

/-- neocore/Cryptography/ECCurve.py:95-97 and 99-101 (and twins): `if X & 1: X += n` then `X >>= 1`. -/
def halveMod (n X : Int) : Int := if X % 2 = 1 then (X + n) / 2 else X / 2

/-- neocore/Cryptography/ECCurve.py:88-101: the loop for `Q == 1`; `b` is the loop counter. -/
def lucasLoop1 (n P D : Int) (k : Nat) : Nat → Int → Int → Int × Int
  | 0, U, V => (U, V)
  | 1, U, V => (U, V)
  | b + 2, U, V =>
    let U1 := Int.fmod (U * V) n
    let V1 := Int.fmod (V * V - 2) n
    if (k >>> b) % 2 = 1 then
      lucasLoop1 n P D k (b + 1) (halveMod n (U1 * P + V1)) (halveMod n (V1 * P + U1 * D))
    else lucasLoop1 n P D k (b + 1) U1 V1

/-- neocore/Cryptography/ECCurve.py:104-122: the loop for `P == 1 and Q == -1`. -/
def lucasLoop2 (n D : Int) (k : Nat) : Nat → Int → Int → Int → Int × Int
  | 0, U, V, _ => (U, V)
  | 1, U, V, _ => (U, V)
  | b + 2, U, V, Qk =>
    let U1 := Int.fmod (U * V) n
    let V1 := if Qk = 1 then Int.fmod (V * V - 2) n else Int.fmod (V * V + 2) n
    let Qk1 := if Qk = 1 then Qk else 1
    if (k >>> b) % 2 = 1 then
      lucasLoop2 n D k (b + 1) (halveMod n (U1 + V1)) (halveMod n (V1 + U1 * D)) (-1)
    else lucasLoop2 n D k (b + 1) U1 V1 Qk1

/-- neocore/Cryptography/ECCurve.py:125-141: the general loop. -/
def lucasLoop3 (n P Q D : Int) (k : Nat) : Nat → Int → Int → Int → Int × Int
  | 0, U, V, _ => (U, V)
  | 1, U, V, _ => (U, V)
  | b + 2, U, V, Qk =>
    let U1 := Int.fmod (U * V) n
    let V1 := Int.fmod (V * V - 2 * Qk) n
    let Qk1 := Qk * Qk
    if (k >>> b) % 2 = 1 then
      lucasLoop3 n P Q D k (b + 1) (halveMod n (U1 * P + V1)) (halveMod n (V1 * P + U1 * D)) (Int.fmod (Qk1 * Q) n)
    else lucasLoop3 n P Q D k (b + 1) U1 V1 (Int.fmod Qk1 n)

/-- neocore/Cryptography/ECCurve.py:67-144 `_lucas_sequence`. -/
def lucasSequence (n P Q k : Int) : Except Err (Int × Int) :=
  let D := P * P - 4 * Q
  if n < 2 then .error .valueError
  else if k < 0 then .error .valueError
  else if D = 0 then .error .valueError
  else if k = 0 then .ok (0, 2)
  else
    let b := bitLength k
    let UV :=
      if Q = 1 then lucasLoop1 n P D k.toNat b 1 P
      else if P = 1 ∧ Q = -1 then lucasLoop2 n D k.toNat b 1 P Q
      else lucasLoop3 n P Q D k.toNat b 1 P Q
    .ok (Int.fmod UV.1 n, Int.fmod UV.2 n)

/-- neocore/Cryptography/ECCurve.py:147-185 `sqrtCQ`, for `CQ` positive; `None` is `none`.  The loop at 169-183 is never
entered: `U` is `None` when its condition `U == 1 or U == qMinusOne` is first tested. -/
def sqrtCQ (val : Int) (CQ : Nat) : Option Int :=
  if testBit CQ 1 then
    let z := modpow val ((CQ >>> 2) + 1) CQ
    if Int.fmod (z * z) CQ = val then some z else none
  else
    let qMinusOne := CQ - 1
    let legendreExponent := qMinusOne >>> 1
    if modpow val legendreExponent CQ ≠ 1 then none
    else none

/-! ## FiniteField -/

/-- neocore/Cryptography/ECCurve.py:322-330 `FiniteField.integer` of a text or an integer. -/
def fInteger : Val → Except Err Int
  | .str s => match unhexlifyVal (.str s) with
    | .error e => .error e
    | .ok b => .ok (leToNat b.reverse)
  | .int n => .ok n
  | .bigInteger n => .ok n
  | .bool b => .ok (if b then 1 else 0)
  | _ => .error .typeError

/-- neocore/Cryptography/ECCurve.py:266-267 `FiniteField.add`. -/
def fAdd (p l r : Int) : Int := Int.fmod (l + r) p
/-- neocore/Cryptography/ECCurve.py:269-270 `FiniteField.sub`. -/
def fSub (p l r : Int) : Int := Int.fmod (l - r) p
/-- neocore/Cryptography/ECCurve.py:272-273 `FiniteField.mul`. -/
def fMul (p l r : Int) : Int := Int.fmod (l * r) p
/-- neocore/Cryptography/ECCurve.py:275-276, 310-314 `FiniteField.div`, `FiniteField.inverse`. -/
def fDiv (p l r : Int) : Int := Int.fmod (l * modinv r p) p
/-- neocore/Cryptography/ECCurve.py:278-279 `FiniteField.pow` with a non-negative exponent. -/
def fPow (p l : Int) (e : Nat) : Int := modpow l e p
/-- neocore/Cryptography/ECCurve.py:281-282 `FiniteField.eq`. -/
def fEq (p l r : Int) : Bool := decide (Int.fmod (l - r) p = 0)
/-- neocore/Cryptography/ECCurve.py:284-285 `FiniteField.neg`: not reduced. -/
def fNeg (p v : Int) : Int := p - v

/-- neocore/Cryptography/ECCurve.py:295, 297, 299, 301: `int(a / b)` for integers, through a float. -/
def floatQuot (a b : Int) : Except Err Int :=
  match intTrueDiv a b with
  | .error e => .error e
  | .ok f => f.toInt

/-- neocore/Cryptography/ECCurve.py:294-301: the candidate root, by `p % 8`. -/
def fSqrtCandidate (p val : Int) : Except Err Int :=
  let sw := Int.fmod p 8
  if sw = 3 ∨ sw = 7 then
    match floatQuot (p + 1) 4 with
    | .error e => .error e
    | .ok e => .ok (fPow p val e.toNat)
  else if sw = 5 then
    match floatQuot (p + 1) 4 with
    | .error e => .error e
    | .ok e =>
      if fEq p (fPow p val e.toNat) 1 then
        match floatQuot (p + 3) 8 with
        | .error e => .error e
        | .ok e => .ok (fPow p val e.toNat)
      else
        match floatQuot (p - 5) 8 with
        | .error e => .error e
        | .ok e => .ok (fMul p (fMul p (fPow p (fMul p 4 val) e.toNat) 2) val)
  else .error .exc

/-- neocore/Cryptography/ECCurve.py:287-308 `FiniteField.sqrt`, also 247-248 `Value.sqrt`. -/
def fSqrt (p val flag : Int) : Except Err Int :=
  if val = 0 then .ok val
  else match fSqrtCandidate p val with
    | .error e => .error e
    | .ok res => if Int.fmod res 2 = flag then .ok res else .ok (fNeg p res)

/-! ## EllipticCurve -/

/-- neocore/Cryptography/ECCurve.py:477-480 `EllipticCurve.__init__`: the field's modulus and the two coefficients. -/
structure Curve where
  p : Nat
  a : Int
  b : Int
  deriving DecidableEq, Repr

/-- neocore/Cryptography/ECCurve.py:358-361 `ECPoint.__init__`, also made by 550-554 `EllipticCurve.point`: the integers inside the two coordinates. -/
structure Pt where
  x : Int
  y : Int
  deriving DecidableEq, Repr

variable (c : Curve)

/-- neocore/Cryptography/ECCurve.py:482-484 `Infinity` and 543-548 `zero`. -/
def zero : Pt := ⟨0, 0⟩

/-- neocore/Cryptography/ECCurve.py:424-425 `ECPoint.iszero`: tests the integers themselves. -/
def Pt.isZero (P : Pt) : Bool := decide (P.x = 0) && decide (P.y = 0)

/-- neocore/Cryptography/ECCurve.py:378-379, 537-538 `ECPoint.__eq__`; 381-382 `__ne__` is its negation. -/
def ptEq (P Q : Pt) : Bool := fEq c.p P.x Q.x && fEq c.p P.y Q.y

/-- neocore/Cryptography/ECCurve.py:430-432 `ECPoint.IsInfinity`. -/
def isInfinity (P : Pt) : Bool := ptEq c P zero

/-- neocore/Cryptography/ECCurve.py:434-438 `ECPoint.Size`. -/
def size (P : Pt) : Nat := if isInfinity c P then 1 else 33

/-- neocore/Cryptography/ECCurve.py:384-394 `ECPoint.__lt__`. -/
def lt (P Q : Pt) : Bool :=
  if ptEq c Q P then false
  else if P.x < Q.x then true
  else if P.x > Q.x then false
  else if P.x = Q.x then false
  else decide (P.y < Q.y)

/-- neocore/Cryptography/ECCurve.py:396-406 `ECPoint.__gt__`. -/
def gt (P Q : Pt) : Bool :=
  if ptEq c Q P then false
  else if P.x > Q.x then true
  else if P.x < Q.x then false
  else if P.x = Q.x then false
  else decide (P.y > Q.y)

/-- neocore/Cryptography/ECCurve.py:408-411 `ECPoint.__le__`. -/
def le (P Q : Pt) : Bool := if ptEq c Q P then true else lt c P Q

/-- neocore/Cryptography/ECCurve.py:413-416 `ECPoint.__ge__`. -/
def ge (P Q : Pt) : Bool := if ptEq c Q P then true else gt c P Q

/-- neocore/Cryptography/ECCurve.py:506-509: third point of the line with slope `lft`, reflected. -/
def addWithSlope (lft : Int) (P Q : Pt) : Pt :=
  let x := fSub c.p (fPow c.p lft 2) (fAdd c.p P.x Q.x)
  let y := fSub c.p (fMul c.p lft (fSub c.p P.x x)) P.y
  ⟨x, y⟩

/-- neocore/Cryptography/ECCurve.py:486-509 `EllipticCurve.add`, also 365-366 `P + Q`. -/
def add (P Q : Pt) : Pt :=
  if P.isZero then Q
  else if Q.isZero then P
  else if ptEq c P Q then
    if fEq c.p P.y 0 then zero
    else addWithSlope c
      (fDiv c.p (fAdd c.p (fMul c.p 3 (fPow c.p P.x 2)) c.a) (fMul c.p 2 P.y)) P Q
  else if fEq c.p P.x Q.x then zero
  else addWithSlope c (fDiv c.p (fSub c.p P.y Q.y) (fSub c.p P.x Q.x)) P Q

/-- neocore/Cryptography/ECCurve.py:540-541 `EllipticCurve.neg`, also 421-422 `-P`. -/
def neg (P : Pt) : Pt := ⟨P.x, fNeg c.p P.y⟩

/-- neocore/Cryptography/ECCurve.py:512-513 `EllipticCurve.sub`, also 368-369 `P - Q`. -/
def sub (P Q : Pt) : Pt := add c P (neg c Q)

/-- neocore/Cryptography/ECCurve.py:526 `scalar /= 2` on a float which is `k` times 2^-1074 (every finite float is such a
multiple): round to nearest, ties to even. -/
def halveUnits (k : Int) : Int :=
  if k % 2 = 0 then k / 2 else if (k / 2) % 2 = 0 then k / 2 else k / 2 + 1

/-- neocore/Cryptography/ECCurve.py:521-526: the loop of `mul` once `scalar` is the float `k * 2^-1074`.  `scalar % 2` is
truthy unless the float is an even integer. -/
def mulLoop (k : Int) (accumulator shifter : Pt) : Pt :=
  if _h : k = 0 then accumulator
  else
    mulLoop (halveUnits k) (if k % 2 ^ 1075 ≠ 0 then add c accumulator shifter else accumulator) (add c shifter shifter)
termination_by k.natAbs
decreasing_by
  unfold halveUnits
  split
  · omega
  · split <;> omega

/-- neocore/Cryptography/ECCurve.py:516-528 `EllipticCurve.mul` (also 371-373 `P * n`) with an integer scalar: the first round works on the
integer, `scalar /= 2` then makes it a float (`OverflowError` if too large). -/
def mul (pt : Pt) (scalar : Int) : Except Err Pt :=
  if scalar = 0 then .ok zero
  else
    let accumulator := if scalar % 2 ≠ 0 then add c zero pt else zero
    match intTrueDiv scalar 2 with
    | .error e => .error e
    | .ok (.fin q) => .ok (mulLoop c ⌊q * 2 ^ 1074⌋ accumulator (add c pt pt))
    | .ok _ => .error .overflowError

/-- neocore/Cryptography/ECCurve.py:560, 568, 657: `x ** 3 + self.a * x + self.b`. -/
def rhs (x : Int) : Int := fAdd c.p (fAdd c.p (fPow c.p x 3) (fMul c.p c.a x)) c.b

/-- neocore/Cryptography/ECCurve.py:556-560 `EllipticCurve.isoncurve`, also 427-428 `P.isoncurve()`. -/
def isOnCurve (P : Pt) : Bool := P.isZero || fEq c.p (fPow c.p P.y 2) (rhs c P.x)

/-- neocore/Cryptography/ECCurve.py:562-570 `EllipticCurve.decompress`. -/
def decompress (x flag : Int) : Except Err Pt :=
  match fSqrt c.p (rhs c x) flag with
  | .error e => .error e
  | .ok y => .ok ⟨x, y⟩

/-- neocore/Cryptography/ECCurve.py:648-670 `EllipticCurve.decompress_from_curve`; `None % 2` raises `TypeError`. -/
def decompressFromCurve (x flag : Int) : Except Err Pt :=
  match sqrtCQ (rhs c x) c.p with
  | none => .error .typeError
  | some root =>
    let bit0 : Int := if Int.fmod root 2 ≠ 0 then 1 else 0
    let beta := if bit0 ≠ flag then Int.fmod (c.p - root) c.p else root
    .ok ⟨x, beta⟩

/-- neocore/Cryptography/ECCurve.py:572-592 `EllipticCurve.decode_from_reader`. -/
def decodeFromReader : IOM Pt := do
  let f ← Reader.readByte
  if f = 0 then return zero
  else if f = 2 ∨ f = 3 then
    let yTilde : Int := f % 2
    let data ← Reader.readBytes 32
    let X1 : Int := leToNat (data.reverse ++ [0])
    IOM.lift (decompressFromCurve c X1 yTilde)
  else if f = 4 ∨ f = 6 ∨ f = 7 then IOM.raise .notImplemented
  else IOM.raise .exc

/-- neocore/Cryptography/ECCurve.py:604 `expected_byte_len`. -/
def expectedByteLen : Nat := (natBitLength c.p + 7) / 8

/-- neocore/Cryptography/ECCurve.py:606-646: `decode_from_hex` after the optional unhexlify. -/
def decodeBytes (ba : Bytes) : Except Err Pt :=
  match ba with
  | [] => .error .indexError
  | f :: rest =>
    if f = 0 then .ok zero
    else if f = 2 ∨ f = 3 then
      if ba.length ≠ expectedByteLen c + 1 then .error .exc
      else
        let yTilde : Int := f.toNat % 2
        let X1 : Int := leToNat (rest.reverse ++ [0])
        decompressFromCurve c X1 yTilde
    else if f = 4 then
      if ba.length ≠ 2 * expectedByteLen c + 1 then .error .exc
      else
        let x : Int := leToNat ((rest.take (expectedByteLen c)).reverse ++ [0])
        let y : Int := leToNat ((rest.drop (expectedByteLen c)).reverse ++ [0])
        .ok ⟨x, y⟩
    else if f = 6 ∨ f = 7 then .error .notImplemented
    else .error .exc

/-- neocore/Cryptography/ECCurve.py:594-646 `EllipticCurve.decode_from_hex`; without `unhex` the argument must already be a
byte sequence (the first character of a text equals none of the known first bytes). -/
def decodeFromHex (s : Val) (unhex : Bool := true) : Except Err Pt :=
  if unhex then
    match unhexlifyVal s with
    | .error e => .error e
    | .ok ba => decodeBytes c ba
  else
    match s with
    | .bytes ba => decodeBytes c ba
    | .bytearray ba => decodeBytes c ba
    | .str t => if t.length = 0 then .error .indexError else .error .exc
    | _ => .error .typeError

/-- neocore/Cryptography/ECCurve.py:440-462 `ECPoint.encode_point`: the result is hex text (as bytes), except for Infinity,
whose encoding is the single raw byte 0. -/
def encodePoint (P : Pt) (compressed : Bool := true) (endian : Endian := .little) : Except Err Bytes :=
  if isInfinity c P then .ok [0]
  else
    match intToBytes P.x 32 endian false with
    | .error e => .error e
    | .ok xb =>
      if compressed then
        let byteone : UInt8 := if P.y % 2 = 0 then 2 else 3
        .ok (hexlify (byteone :: xb.reverse))
      else
        match intToBytes P.y 32 endian false with
        | .error e => .error e
        | .ok yb => .ok (hexlify (4 :: (xb.reverse ++ yb.reverse)))

/-- neocore/Cryptography/ECCurve.py:464-465 `ECPoint.ToString`: hexlifies the (already hexlified) encoding. -/
def toString (P : Pt) : Except Err Str :=
  match encodePoint c P with
  | .error e => .error e
  | .ok b => .ok (hexStr b)

/-- neocore/Cryptography/ECCurve.py:467-468 `ECPoint.ToBytes`. -/
def toBytes (P : Pt) : Except Err Bytes :=
  match encodePoint c P with
  | .error e => .error e
  | .ok b => .ok (hexlify b)

/-- neocore/Cryptography/ECCurve.py:470-475 `ECPoint.Serialize`. -/
def serialize (P : Pt) (compress : Bool := true) : IOM Unit := do
  if isInfinity c P then
    Writer.writeByte (.bytes [0])
  else
    let byt ← IOM.lift (encodePoint c P compress)
    let _ ← Writer.writeBytes (.bytes byt)
    return ()

/-! ## ECDSA -/

/-- neocore/Cryptography/ECCurve.py:678-681 `ECDSA.__init__`: the order is an integer or, when a `FiniteField` object was
passed in its place (as `secp256r1()` does), `none`: then every operation mod n raises `TypeError`. -/
structure ECDSA where
  ec : Curve
  G : Pt
  n : Option Int

/-- neocore/Cryptography/ECCurve.py:266-276: an operation of the field `GFn`. -/
def ECDSA.modN (E : ECDSA) (op : Int → Int → Int → Int) (l r : Int) : Except Err Int :=
  match E.n with
  | none => .error .typeError
  | some n => .ok (op n l r)

/-- neocore/Cryptography/ECCurve.py:687-692 `ECDSA.calcpub`. -/
def ECDSA.calcpub (E : ECDSA) (privkey : Int) : Except Err Pt := mul E.ec E.G privkey

/-- neocore/Cryptography/ECCurve.py:694-709 `ECDSA.sign`, with the scalar multiplication it uses as a parameter. -/
def ECDSA.signWith (E : ECDSA) (smul : Pt → Int → Except Err Pt) (m x k : Int) : Except Err (Int × Int) := do
  let R ← smul E.G k
  let r := R.x
  let xr ← E.modN fMul x r
  let t ← E.modN fAdd m xr
  let s ← E.modN fDiv t k
  return (r, s)

/-- neocore/Cryptography/ECCurve.py:694-709 `ECDSA.sign`. -/
def ECDSA.sign (E : ECDSA) (m x k : Int) : Except Err (Int × Int) := E.signWith (mul E.ec) m x k

/-- neocore/Cryptography/ECCurve.py:711-740 `ECDSA.verify`, with the scalar multiplication it uses as a parameter.  The
final comparison takes place in the coordinate field. -/
def ECDSA.verifyWith (E : ECDSA) (smul : Pt → Int → Except Err Pt) (m : Int) (pubkey : Pt) (r s : Int) :
    Except Err Bool := do
  let u ← E.modN fDiv m s
  let A ← smul E.G u
  let v ← E.modN fDiv r s
  let B ← smul pubkey v
  return fEq E.ec.p (add E.ec A B).x r

/-- neocore/Cryptography/ECCurve.py:711-740 `ECDSA.verify`. -/
def ECDSA.verify (E : ECDSA) (m : Int) (pubkey : Pt) (r s : Int) : Except Err Bool :=
  E.verifyWith (mul E.ec) m pubkey r s

/-- neocore/Cryptography/ECCurve.py:742-755 `ECDSA.findpk`. -/
def ECDSA.findpk (E : ECDSA) (smul : Pt → Int → Except Err Pt) (m r s flag : Int) : Except Err Pt := do
  let R ← decompress E.ec r flag
  let u ← E.modN fDiv s r
  let A ← smul R u
  let v ← E.modN fDiv m r
  let B ← smul E.G v
  return sub E.ec A B

/-- neocore/Cryptography/ECCurve.py:793-802 `ECDSA.crack1`. -/
def ECDSA.crack1 (E : ECDSA) (r s m k : Int) : Except Err Int := do
  let sk ← E.modN fMul s k
  let d ← E.modN fSub sk m
  E.modN fDiv d r

/-- neocore/Cryptography/ECCurve.py:770-791 `ECDSA.crack2` on integer arguments: `s1 - s2` and `m1 - m2` are then not
reduced.  (The second call of `crack1` only feeds a log message, but may raise.) -/
def ECDSA.crack2 (E : ECDSA) (r s1 s2 m1 m2 : Int) : Except Err (Int × Int) := do
  let secret ← E.modN fDiv (m1 - m2) (s1 - s2)
  let x1 ← E.crack1 r s1 m1 secret
  let _ ← E.crack1 r s2 m2 secret
  return (secret, x1)

/-- neocore/Cryptography/ECCurve.py:770-791 `ECDSA.crack2` when `s1`, `s2` are values of the field of order n (which is what
`sign` returns) and the messages are integers: then `s1 - s2` is reduced. -/
def ECDSA.crack2Values (E : ECDSA) (r s1 s2 m1 m2 : Int) : Except Err (Int × Int) := do
  let sd ← E.modN fSub s1 s2
  let secret ← E.modN fDiv (m1 - m2) sd
  let x1 ← E.crack1 r s1 m1 secret
  let _ ← E.crack1 r s2 m2 secret
  return (secret, x1)

/-- neocore/Cryptography/ECCurve.py:809-810 (also 822-824, 838-840, 875-876): the curve secp256r1. -/
def secp256r1Curve : Curve where
  p := 0xFFFFFFFF00000001000000000000000000000000FFFFFFFFFFFFFFFFFFFFFFFF
  a := 115792089210356248762697446949407573530086143415290314195533631308867097853948
  b := 41058363725152142129326129780047268409114441015993725554835256314039467401291

/-- neocore/Cryptography/ECCurve.py:804-814 `ECDSA.secp256r1`: passes the field object in place of the order. -/
def secp256r1 : ECDSA where
  ec := secp256r1Curve
  G := ⟨0x6B17D1F2E12C4247F8BCE6E563A440F277037D812DEB33A0F4A13945D898C296,
        0x4FE342E2FE1A7F9B8EE7EB4A7C0F9E162BCE33576B315ECECBB6406837BF51F5⟩
  n := none

/-- neocore/Cryptography/ECCurve.py:863-870 `ECDSA.secp256k1`. -/
def secp256k1 : ECDSA where
  ec := { p := 2 ^ 256 - 2 ^ 32 - 977, a := 0, b := 7 }
  G := ⟨0x79BE667EF9DCBBAC55A06295CE870B07029BFCDB2DCE28D959F2815B16F81798,
        0x483ADA7726A3C4655DA4FBFC0E1108A8FD17B448A68554199C47D08FFB10D4B8⟩
  n := some (2 ^ 256 - 432420386565659656852420866394968145599)

/-- neocore/Cryptography/ECCurve.py:872-882 `ECDSA.SignSecp256R1`: `sign` is called without its `secret` argument, so after
the (infallible) construction of the point every call raises `TypeError`. -/
def signSecp256R1 (_message _prikey : Int) (_pubkey : Pt) : Except Err (Int × Int) := .error .typeError

/-- neocore/Cryptography/ECCurve.py:816-834 `ECDSA.decode_secp256r1`: the `G` of the resulting object (its `ec` and `n` are
not meaningful). -/
def decodeSecp256r1 (s : Val) (unhex : Bool := true) (checkOnCurve : Bool := true) : Except Err Pt :=
  match decodeFromHex secp256r1Curve s unhex with
  | .error e => .error e
  | .ok point =>
    if checkOnCurve then
      if isOnCurve secp256r1Curve point then .ok point else .error .exc
    else .ok point

/-- neocore/Cryptography/ECCurve.py:836-842 `ECDSA.Deserialize_Secp256r1`. -/
def deserializeSecp256r1 : IOM Pt := decodeFromReader secp256r1Curve

/-- neocore/Cryptography/ECCurve.py:844-861 `ECDSA.FromBytes_Secp256r1` of a `bytes` object; other lengths return `None`.
At 853 a `str` is added to a `bytes` slice: `TypeError`. -/
def fromBytesSecp256r1 (pubkey : Bytes) : Except Err (Option Pt) :=
  let length := pubkey.length
  if length = 33 ∨ length = 65 then (decodeSecp256r1 (.bytes pubkey)).map some
  else if length = 64 ∨ length = 72 then .error .typeError
  else if length = 96 ∨ length = 104 then
    let skip := length - 96
    let out : Bytes := 4 :: (pubkey.drop skip).take 64
    (decodeSecp256r1 (.bytearray out) false false).map some
  else .ok none

/-- neocore/Cryptography/ECCurve.py:844-861 `ECDSA.FromBytes_Secp256r1` of any argument.  With a text, 853 prepends the four characters
`3034` (`bytearray(b'04').hex()`), and 859 is `bytearray` of a text without an encoding: `TypeError`.  Other objects have no length. -/
def fromBytesSecp256r1Val : Val → Except Err (Option Pt)
  | .bytes b => fromBytesSecp256r1 b
  | .bytearray b => fromBytesSecp256r1 b
  | .str s =>
    let length := s.length
    if length = 33 ∨ length = 65 then (decodeSecp256r1 (.str s)).map some
    else if length = 64 ∨ length = 72 then
      let skip := length - 64
      (decodeSecp256r1 (.str (['3', '0', '3', '4'] ++ s.drop skip))).map some
    else if length = 96 ∨ length = 104 then .error .typeError
    else .ok none
  | _ => .error .typeError

end Neo.EC
