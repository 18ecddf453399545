import Verif.Model.ECCurve

/-!
# `EllipticCurve.mul` with its rounds counted

The functions of `Model/ECCurve` with a counter of the rounds of the loop; every round doubles the shifter, which takes a modular inversion.
-/

namespace Neo.EC
open Py

variable (c : Curve)

/-- neocore/Cryptography/ECCurve.py:521-526: the loop of `mul` once `scalar` is the float `k * 2^-1074` (`mulLoop`), with the rounds counted. -/
def mulLoopCounted (k : Int) (accumulator shifter : Pt) (rounds : Nat) : Pt × Nat :=
  if _h : k = 0 then (accumulator, rounds)
  else
    mulLoopCounted (halveUnits k) (if k % 2 ^ 1075 ≠ 0 then add c accumulator shifter else accumulator) (add c shifter shifter) (rounds + 1)
termination_by k.natAbs
decreasing_by
  unfold halveUnits
  split
  · omega
  · split <;> omega

/-- neocore/Cryptography/ECCurve.py:516-528 `EllipticCurve.mul`, with the number of rounds. -/
def mulCounted (pt : Pt) (scalar : Int) : Except Err (Pt × Nat) :=
  if scalar = 0 then .ok (zero, 0)
  else
    let accumulator := if scalar % 2 ≠ 0 then add c zero pt else zero
    match intTrueDiv scalar 2 with
    | .error e => .error e
    | .ok (.fin q) => .ok (mulLoopCounted c ⌊q * 2 ^ 1074⌋ accumulator (add c pt pt) 1)
    | .ok _ => .error .overflowError

end Neo.EC
