import Verif.Model.Crypto

/-!
# Model of the functions of the `ecdsa` package (0.13, pinned in /repo/requirements.txt) that neocore calls

Called from neocore/Cryptography/Crypto.py:161-162: `VerifyingKey.from_string(..)` and `.verify(..)` on the curve NIST256p.
The package is not part of /repo; its functions are written down from its published source (keys.py, ecdsa.py,
ellipticcurve.py, numbertheory.py, util.py). The theorems about `VerifySignature` are stated for every implementation with the
required behaviour (`Spec.VerifiesEcdsa`); this model shows that the published one has it.
-/

namespace Neo.EcdsaPkg
open Py

/-- numbertheory.py `inverse_mod`: the loop `while c != 0`; the results are `d` and `ud` (`vc`, `vd` are not used). -/
def inverseLoop (c d : Nat) (uc ud : Int) : Nat × Int :=
  if _h : c = 0 then (d, ud)
  else inverseLoop (d % c) c (ud - (d / c : Nat) * uc) uc
termination_by c
decreasing_by exact Nat.mod_lt _ (by omega)

/-- numbertheory.py `inverse_mod(a, m)`. -/
def inverseMod (a : Int) (m : Nat) : Except Err Int :=
  let r := inverseLoop (a % m).toNat m 1 0
  if r.1 ≠ 1 then .error .assertion
  else if r.2 > 0 then .ok r.2 else .ok (r.2 + m)

/-- ellipticcurve.py `CurveFp(p, a, b)`, and the order of the generator. -/
structure CurveFp where
  p : Nat
  a : Int
  b : Int
  order : Nat
  gx : Int
  gy : Int

/-- ecdsa.py `curve_256`, `generator_256`. -/
def nist256p : CurveFp where
  p := 115792089210356248762697446949407573530086143415290314195533631308867097853951
  a := -3
  b := 0x5ac635d8aa3a93e7b3ebbd55769886bc651d06b0cc53b0f63bce3c3e27d2604b
  order := 115792089210356248762697446949407573529996955224135760342422259061068512044369
  gx := 0x6b17d1f2e12c4247f8bce6e563a440f277037d812deb33a0f4a13945d898c296
  gy := 0x4fe342e2fe1a7f9b8ee7eb4a7c0f9e162bce33576b315ececbb6406837bf51f5

variable (c : CurveFp)

/-- ellipticcurve.py `CurveFp.contains_point`. -/
def containsPoint (x y : Int) : Bool := decide ((y * y - (x * x * x + c.a * x + c.b)) % c.p = 0)

/-- A `Point`: `none` is `INFINITY`. -/
abbrev Point := Option EC.Pt

/-- ellipticcurve.py `Point.__init__`: asserts that the point is on the curve. (The second assertion, that the order kills the
point, is `self * order == INFINITY`, where `order % order` is 0: always true.) -/
def mkPoint (x y : Int) : Except Err Point :=
  if containsPoint c x y then .ok (some ⟨x, y⟩) else .error .assertion

/-- ellipticcurve.py `Point.double`. -/
def double : Point → Except Err Point
  | none => .ok none
  | some P =>
    match inverseMod (2 * P.y) c.p with
    | .error e => .error e
    | .ok i =>
      let l := ((3 * P.x * P.x + c.a) * i) % c.p
      let x3 := (l * l - 2 * P.x) % c.p
      let y3 := (l * (P.x - x3) - P.y) % c.p
      mkPoint c x3 y3

/-- ellipticcurve.py `Point.__add__`. -/
def add : Point → Point → Except Err Point
  | P, none => .ok P
  | none, Q => .ok Q
  | some P, some Q =>
    if P.x = Q.x then
      if (P.y + Q.y) % c.p = 0 then .ok none else double c (some P)
    else
      match inverseMod (Q.x - P.x) c.p with
      | .error e => .error e
      | .ok i =>
        let l := ((Q.y - P.y) * i) % c.p
        let x3 := (l * l - P.x - Q.x) % c.p
        let y3 := (l * (P.x - x3) - P.y) % c.p
        mkPoint c x3 y3

/-- ellipticcurve.py `Point.__mul__`: what the loop body adds for the bits of 3e and e. -/
def addBits (P neg : Point) (b3 b : Bool) (r : Point) : Except Err Point :=
  if b3 && !b then add c r P
  else if !b3 && b then add c r neg
  else .ok r

/-- ellipticcurve.py `Point.__mul__`: the loop `while i > 1`, for i = 2^j. -/
def mulLoop (P neg : Point) (e3 e : Nat) : Nat → Point → Except Err Point
  | 0, r => .ok r
  | j + 1, r =>
    match double c r with
    | .error err => .error err
    | .ok r =>
      match addBits c P neg (e3.testBit (j + 1)) (e.testBit (j + 1)) r with
      | .error err => .error err
      | .ok r => mulLoop P neg e3 e j r

/-- ellipticcurve.py `Point.__mul__` by a non-negative number, of a point without an order. (A point with an order reduces the
number first; the callers below pass reduced numbers.) `leftmost_bit(e3) // 2` is 2^(log2(e3) - 1). -/
def mul (P : Point) (e : Nat) : Except Err Point :=
  if e = 0 then .ok none
  else match P with
    | none => .ok none
    | some Q =>
      match mkPoint c Q.x (-Q.y) with
      | .error err => .error err
      | .ok neg => mulLoop c (some Q) neg (3 * e) e (Nat.log2 (3 * e) - 1) (some Q)

/-- ecdsa.py `point_is_valid(generator, x, y)`. -/
def pointIsValid (x y : Int) : Except Err Bool :=
  if x < 0 ∨ c.order ≤ x ∨ y < 0 ∨ c.order ≤ y then .ok false
  else if ¬ containsPoint c x y then .ok false
  else match mkPoint c x y with
    | .error e => .error e
    | .ok P =>
      match mul c P c.order with
      | .error e => .error e
      | .ok Q => .ok Q.isNone

/-- util.py `string_to_number`: big-endian. -/
def stringToNumber (b : Bytes) : Nat := leToNat b.reverse

/-- keys.py `VerifyingKey.from_string(string, curve)`: the public point. -/
def fromString (string : Bytes) : Except Err Point :=
  if string.length ≠ 64 then .error .assertion
  else
    let x : Int := stringToNumber (string.take 32)
    let y : Int := stringToNumber (string.drop 32)
    match pointIsValid c x y with
    | .error e => .error e
    | .ok false => .error .assertion
    | .ok true => mkPoint c x y

/-- ecdsa.py `Public_key.verifies(hash, signature)`. For `INFINITY`, `xy.x()` is None and `None % n` a TypeError. -/
def verifies (Q : Point) (hash r s : Nat) : Except Err Bool :=
  if r < 1 ∨ r > c.order - 1 then .ok false
  else if s < 1 ∨ s > c.order - 1 then .ok false
  else
    match inverseMod s c.order with
    | .error e => .error e
    | .ok w =>
      let u1 := (hash * w) % c.order
      let u2 := (r * w) % c.order
      match mul c (some ⟨c.gx, c.gy⟩) u1.toNat with
      | .error e => .error e
      | .ok A =>
        match mul c Q u2.toNat with
        | .error e => .error e
        | .ok B =>
          match add c A B with
          | .error e => .error e
          | .ok none => .error .typeError
          | .ok (some xy) => .ok (decide (xy.x % c.order = r))

/-- A `bytes` or `bytearray` argument; anything else raises a TypeError somewhere on the way. -/
def asBytes : Val → Except Err Bytes
  | .bytes b => .ok b
  | .bytearray b => .ok b
  | _ => .error .typeError

/-- keys.py `VerifyingKey.verify` and `verify_digest`, util.py `sigdecode_string`, for a key made by `from_string`; `hash` is
SHA-256. A signature that does not verify raises `BadSignatureError`. -/
def verify (hash : Bytes → Bytes) (key : Bytes) (signature message : Val) : Except Err Bool :=
  match fromString c key with
  | .error e => .error e
  | .ok Q =>
    match asBytes message with
    | .error e => .error e
    | .ok m =>
      if (hash m).length > 32 then .error .exc
      else
        match asBytes signature with
        | .error e => .error e
        | .ok sig =>
          if sig.length ≠ 64 then .error .assertion
          else
            match verifies c Q (stringToNumber (hash m)) (stringToNumber (sig.take 32)) (stringToNumber (sig.drop 32)) with
            | .error e => .error e
            | .ok true => .ok true
            | .ok false => .error .exc

end Neo.EcdsaPkg
