import Verif.Py.Float

/-!
# Model of neocore/Fixed8.py

A `Fixed8` is its `value`, an `int` (Python would also accept a float there; not modelled).
-/

namespace Neo.Fixed8
open Py

/-- neocore/Fixed8.py:16 `Fixed8.D`. An object is built from its value (20-21), which `GetData` (23-24) returns. -/
def D : Int := 100000000

/-! ### Arguments of `FromDecimal` and `TryParse` -/

/-- A finite `decimal.Decimal`: coefficient (with sign) and exponent. -/
structure Dec where
  coeff : Int
  exp : Int
  deriving DecidableEq, Repr

/-- The number a Decimal denotes. -/
def Dec.val (d : Dec) : ℚ := d.coeff * 10 ^ d.exp

/-- Number of decimal digits. -/
def decDigits (n : Nat) : Nat := if n = 0 then 0 else Nat.log 10 n + 1

/-- `Decimal.adjusted()`: the exponent of the first digit. -/
def Dec.adjusted (d : Dec) : Int := decDigits d.coeff.natAbs + d.exp - 1

/-- `Decimal * int` under the default context: exact product, then rounded to 28 significant digits (ties to even); `decimal.Overflow` if
the exponent of the result exceeds 999999. Simplification: results below 10^-999999, which the context rounds further, are
not rounded (`int()` of them is 0 either way). -/
def Dec.mulInt (d : Dec) (n : Int) : Except Err Dec :=
  let c := d.coeff * n
  let k := decDigits c.natAbs - 28
  let r : Dec := ⟨rne ((c : ℚ) / 10 ^ k), d.exp + k⟩
  if r.coeff ≠ 0 ∧ 999999 < r.adjusted then .error .decimalOverflow else .ok r

/-- `int(Decimal)`: truncation. -/
def Dec.toInt (d : Dec) : Int := if d.val < 0 then ⌈d.val⌉ else ⌊d.val⌋

/-- Decimals that are not numbers: infinities, quiet and signalling NaN. -/
inductive DecSpecial where
  | inf (negative : Bool)
  | nan
  | snan

/-- A number passed to `FromDecimal`. -/
inductive Num where
  | int (n : Int)
  | float (f : PyFloat)
  | decimal (d : Dec)
  | special (d : DecSpecial)

/-- neocore/Fixed8.py:30-33 `FromDecimal`. -/
def fromDecimal : Num → Except Err Int
  | .int n => .ok (n * D)
  | .float f => (f.mulPos D.toNat).toInt
  | .decimal d => match d.mulInt D with
    | .ok r => .ok r.toInt
    | .error e => .error e
  | .special .nan => .error .valueError             -- `int(Decimal('NaN') * D)`
  | .special (.inf _) => .error .overflowError      -- `int(Decimal('Infinity') * D)`
  | .special .snan => .error .invalidOperation      -- the product

/-- Python's text-to-number conversions `float(str)` and `int(str)`; left abstract, theorems hold for all of them. -/
structure Parsers where
  float : Str → Except Err PyFloat
  int : Str → Except Err Int

/-- A value passed to `TryParse`. `other` stands for objects neither `float()` nor `int()` accepts (None, lists, ...). -/
inductive Arg where
  | int (n : Int)
  | float (f : PyFloat)
  | str (s : Str)
  | decimal (d : Dec)
  | special (d : DecSpecial)
  | other

/-- `float(value)`. (A finite Decimal is converted through its text: correctly rounded, infinite if too large.) -/
def floatOf (P : Parsers) : Arg → Except Err PyFloat
  | .int n => floatOfInt n
  | .float f => .ok f
  | .str s => P.float s
  | .decimal d => .ok (.ofRat d.val)
  | .special .nan => .ok .nan
  | .special (.inf s) => .ok (.inf s)
  | .special .snan => .error .valueError
  | .other => .error .typeError

/-- `int(value)`. -/
def intOf (P : Parsers) : Arg → Except Err Int
  | .int n => .ok n
  | .float f => f.toInt
  | .str s => P.int s
  | .decimal d => .ok d.toInt
  | .special (.inf _) => .error .overflowError
  | .special _ => .error .valueError
  | .other => .error .typeError

/-- The local variable `val` of `TryParse`. -/
inductive Parsed where
  | none
  | float (f : PyFloat)
  | int (n : Int)

/-- `not val`. -/
def Parsed.falsy : Parsed → Bool
  | .none => true
  | .float f => !f.truthy
  | .int n => n == 0

/-- neocore/Fixed8.py:53-63: `val` after both attempts. -/
def parsedVal (P : Parsers) (value : Arg) : Parsed :=
  let val := match floatOf P value with
    | .ok f => Parsed.float f
    | .error _ => .none
  if val.falsy then
    match intOf P value with
    | .ok n => .int n
    | .error _ => val
  else val

/-- neocore/Fixed8.py:51-70 `TryParse`; `none` is Python's `None`. -/
def tryParse (P : Parsers) (value : Arg) (requirePositive : Bool) : Except Err (Option Int) :=
  match parsedVal P value with
  | .none => .ok none
  | .float f =>
    if requirePositive && f.isNeg then .ok none
    else match (f.mulPos D.toNat).toInt with
      | .ok n => .ok (some n)
      | .error e => .error e
  | .int n =>
    if requirePositive && decide (n < 0) then .ok none else .ok (some (n * D))

/-! ### Arithmetic -/

/-- neocore/Fixed8.py:72-76 `__add__`, `__iadd__`. -/
def add (a b : Int) : Int := a + b
/-- neocore/Fixed8.py:78-82 `__sub__`, `__isub__`. -/
def sub (a b : Int) : Int := a - b
/-- neocore/Fixed8.py:84-88 `__mul__`, `__imul__`: the raw values are multiplied. -/
def mul (a b : Int) : Int := a * b
/-- neocore/Fixed8.py:90-91, 96-97 `__truediv__`, `__itruediv__`: float division, then truncation. -/
def truediv (a b : Int) : Except Err Int :=
  match intTrueDiv a b with
  | .ok f => f.toInt
  | .error e => .error e
/-- neocore/Fixed8.py:93-94 `__floordiv__`. -/
def floordiv (a b : Int) : Except Err Int := if b = 0 then .error .zeroDivision else .ok (a.fdiv b)
/-- neocore/Fixed8.py:99-103 `__mod__`, `__imod__`. -/
def mod (a b : Int) : Except Err Int := if b = 0 then .error .zeroDivision else .ok (a.fmod b)
/-- neocore/Fixed8.py:105-106 `__pow__` without modulo, for a non-negative power (a negative one gives a float). -/
def pow (a : Int) (n : Nat) : Int := a ^ n
/-- neocore/Fixed8.py:108-109 `__neg__`. -/
def neg (a : Int) : Int := -1 * a
/-- neocore/Fixed8.py:111-112 `__eq__`. -/
def eq (a b : Int) : Bool := a == b
/-- neocore/Fixed8.py:114-115 `__lt__`. -/
def lt (a b : Int) : Bool := decide (a < b)
/-- neocore/Fixed8.py:117-118 `__gt__`. -/
def gt (a b : Int) : Bool := decide (a > b)
/-- neocore/Fixed8.py:120-121 `__ge__`. -/
def ge (a b : Int) : Bool := decide (a ≥ b)
/-- neocore/Fixed8.py:123-124 `__le__`. -/
def le (a b : Int) : Bool := decide (a ≤ b)

/-- neocore/Fixed8.py:126-127 `Ceil`. -/
def ceil (v : Int) : Except Err Int :=
  match intTrueDiv v D with
  | .ok f => match f.ceil with
    | .ok n => .ok (n * D)
    | .error e => .error e
  | .error e => .error e

/-- neocore/Fixed8.py:129-130 `Floor`. -/
def floor (v : Int) : Except Err Int :=
  match intTrueDiv v D with
  | .ok f => match f.floor with
    | .ok n => .ok (n * D)
    | .error e => .error e
  | .error e => .error e

/-- neocore/Fixed8.py:132-133 `ToInt`. -/
def toInt (v : Int) : Except Err Int :=
  match intTrueDiv v D with
  | .ok f => f.toInt
  | .error e => .error e

/-- neocore/Fixed8.py:26-28 `FD`, 39-41 `One`. -/
def one : Int := D
/-- neocore/Fixed8.py:35-37 `Satoshi`. -/
def satoshi : Int := 1
/-- neocore/Fixed8.py:43-45 `NegativeSatoshi`. -/
def negativeSatoshi : Int := -1
/-- neocore/Fixed8.py:47-49 `Zero`. -/
def zero : Int := 0

/-- neocore/Fixed8.py:147-148 `Size`. -/
def size (_v : Int) : Nat := 8

end Neo.Fixed8
