import Mathlib.Data.Int.Log
import Mathlib.Data.Rat.Floor
import Verif.Py.Core

/-!
# Python floats (IEEE-754 binary64) as used by neocore/Fixed8.py

Models CPython, not code of /repo.  A finite float is the rational number it denotes (the sign of zero is not
represented).  All operations neocore uses are correctly rounded (round to nearest, ties to even), including
int/int true division and int -> float conversion, whatever the size of the integers.
-/

namespace Py

/-- A Python `float`. -/
inductive PyFloat where
  | nan
  | inf (negative : Bool)
  | fin (q : ℚ)
  deriving DecidableEq

/-- Nearest integer, ties to even. -/
def rne (q : ℚ) : ℤ :=
  if q - ⌊q⌋ < 1 / 2 then ⌊q⌋
  else if 1 / 2 < q - ⌊q⌋ then ⌊q⌋ + 1
  else if ⌊q⌋ % 2 = 0 then ⌊q⌋ else ⌊q⌋ + 1

/-- Exponent of the unit in the last place of a number of the magnitude of `q`: 53 significant bits, but never below
2^-1074 (subnormal numbers). -/
def ulpExp (q : ℚ) : ℤ := max (Int.log 2 |q| - 52) (-1074)

/-- Rounding a rational number to the binary64 grid (without the upper limit of the exponent). -/
def roundQ (q : ℚ) : ℚ := rne (q / 2 ^ ulpExp q) * 2 ^ ulpExp q

/-- The float nearest to a rational number; infinite when the rounded magnitude reaches 2^1024. -/
def PyFloat.ofRat (q : ℚ) : PyFloat := if 2 ^ 1024 ≤ |roundQ q| then .inf (decide (q < 0)) else .fin (roundQ q)

/-- `int / int`: correctly rounded quotient; `ZeroDivisionError`; `OverflowError` when too large for a float. -/
def intTrueDiv (a b : Int) : Except Err PyFloat :=
  if b = 0 then .error .zeroDivision
  else match PyFloat.ofRat ((a : ℚ) / (b : ℚ)) with
    | .fin q => .ok (.fin q)
    | _ => .error .overflowError

/-- `float(n)` for an int: correctly rounded, `OverflowError` when too large. -/
def floatOfInt (n : Int) : Except Err PyFloat :=
  match PyFloat.ofRat (n : ℚ) with
  | .fin q => .ok (.fin q)
  | _ => .error .overflowError

/-- `x * n` for a float and a positive int constant that is a float exactly. -/
def PyFloat.mulPos : PyFloat → Nat → PyFloat
  | .nan, _ => .nan
  | .inf s, _ => .inf s
  | .fin q, n => .ofRat (q * n)

/-- `int(x)`: truncation; `ValueError` for nan, `OverflowError` for infinities. -/
def PyFloat.toInt : PyFloat → Except Err Int
  | .nan => .error .valueError
  | .inf _ => .error .overflowError
  | .fin q => .ok (if q < 0 then ⌈q⌉ else ⌊q⌋)

/-- `math.floor(x)`. -/
def PyFloat.floor : PyFloat → Except Err Int
  | .nan => .error .valueError
  | .inf _ => .error .overflowError
  | .fin q => .ok ⌊q⌋

/-- `math.ceil(x)`. -/
def PyFloat.ceil : PyFloat → Except Err Int
  | .nan => .error .valueError
  | .inf _ => .error .overflowError
  | .fin q => .ok ⌈q⌉

/-- `bool(x)`: false for zero only. -/
def PyFloat.truthy : PyFloat → Bool
  | .fin q => decide (q ≠ 0)
  | _ => true

/-- `x < 0`. -/
def PyFloat.isNeg : PyFloat → Bool
  | .nan => false
  | .inf s => s
  | .fin q => decide (q < 0)

end Py
