import Verif.Model.FieldOps

/-!
# Model of the remaining operations on curve points (neocore/Cryptography/ECCurve.py)

Division of a point, `findpk2`, and the text of a point.
-/

namespace Neo.EC
open Py

/-- neocore/Cryptography/ECCurve.py:516-528 `EllipticCurve.mul` when the scalar is a float from the start (finite, `q`): the loop of
`mulLoop` without the first round on an integer. -/
def mulFloat (c : Curve) (pt : Pt) (q : ℚ) : Pt := mulLoop c ⌊q * 2 ^ 1074⌋ zero pt

/-- neocore/Cryptography/ECCurve.py:530-535 `EllipticCurve.div` (and 375-376 `ECPoint.__truediv__`): `pt * (1 / scalar)`.  With a text as
scalar, `1 / scalar` raises `TypeError` as well. -/
def div (c : Curve) (pt : Pt) (scalar : FF.Operand) : Except Err Pt :=
  match scalar with
  | .int n =>
    match intTrueDiv 1 n with
    | .error e => .error e
    | .ok (.fin q) => .ok (mulFloat c pt q)
    | .ok _ => .error .overflowError
  | .hex _ => .error .typeError
  | .value v =>
    match FF.binary .div (.int 1) (.value v) with
    | .error e => .error e
    | .ok (.value w) => mul c pt w.value
    | .ok .false => mul c pt 0

/-- neocore/Cryptography/ECCurve.py:757-768 `ECDSA.findpk2` on ints; `order` is the field object `self.GFn`. -/
def ECDSA.findpk2 (E : ECDSA) (order : FF.Field) (r1 s1 r2 s2 flag1 flag2 : Int) : Except Err Pt := do
  let R1 ← decompress E.ec r1 flag1
  let R2 ← decompress E.ec r2 flag2
  let A ← mul E.ec R1 s1
  let B ← mul E.ec R2 s2
  match FF.binary .div (.int 1) (.value ⟨order, r1 - r2⟩) with
  | .error e => .error e
  | .ok (.value w) => mul E.ec (sub E.ec A B) w.value
  | .ok .false => mul E.ec (sub E.ec A B) 0

/-- neocore/Cryptography/ECCurve.py:418-419 `ECPoint.__str__`: `"(%s,%s)"` of the texts of the coordinates. -/
def ptStr (f : FF.Field) (P : Pt) : Str := ['('] ++ FF.str ⟨f, P.x⟩ ++ [','] ++ FF.str ⟨f, P.y⟩ ++ [')']

end Neo.EC
