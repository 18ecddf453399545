import Verif.Py.Core

/-!
# Model of neocore/BigInteger.py

`BigInteger` is a subclass of `int`; an object is its integer value.  Results are dynamically typed (`Val`) so that
"yields a BigInteger, not a plain int" is visible.
-/

namespace Neo.BigInt
open Py

/-- neocore/BigInteger.py:2-8 `Sign`. -/
def sign (v : Int) : Int := if v > 0 then 1 else if v = 0 then 0 else -1

/-- neocore/BigInteger.py:10-12 `FromBytes`. -/
def fromBytes (data : Bytes) (signed : Bool) : Val := .bigInteger (intFromBytes data .little signed)

/-- neocore/BigInteger.py:14-15 `Equals`: `int.__eq__`, which is `NotImplemented` (here `none`) for a non-int. -/
def equals (a : Int) (b : Val) : Option Bool := b.index?.map fun n => a == n

/-- neocore/BigInteger.py:17-27 `ToByteArray`. -/
def toByteArray (v : Int) (signed : Bool) : Except Err Bytes :=
  if v = 0 then .ok [0]
  else if v < 0 then intToBytes v (1 + (bitLength v + 7) / 8) .little true
  else
    match intToBytes v ((bitLength v + 7) / 8) .little signed with
    | .ok b => .ok b
    | .error .overflowError => intToBytes v (1 + (bitLength v + 7) / 8) .little signed
    | .error e => .error e

/-- `BigInteger(super().__op__(other))`: for an argument that is no int, `int.__op__` returns `NotImplemented` and the
`BigInteger` constructor raises `TypeError`. -/
def binop (op : Int → Int → Except Err Int) (a : Int) (b : Val) : Except Err Val :=
  match b.index? with
  | none => .error .typeError
  | some n => match op a n with
    | .ok r => .ok (.bigInteger r)
    | .error e => .error e

/-- neocore/BigInteger.py:29-30 `__abs__`. -/
def abs (a : Int) : Val := .bigInteger (a.natAbs : Int)
/-- neocore/BigInteger.py:32-33 `__add__`. -/
def add : Int → Val → Except Err Val := binop fun a b => .ok (a + b)
/-- neocore/BigInteger.py:35-36 `__mod__` (`int.__mod__`: sign of the divisor). -/
def mod : Int → Val → Except Err Val := binop fun a b => if b = 0 then .error .zeroDivision else .ok (a.fmod b)
/-- neocore/BigInteger.py:38-39 `__mul__`. -/
def mul : Int → Val → Except Err Val := binop fun a b => .ok (a * b)
/-- neocore/BigInteger.py:41-42 `__neg__`. -/
def neg (a : Int) : Val := .bigInteger (-a)
/-- neocore/BigInteger.py:47-48 `__sub__`. -/
def sub : Int → Val → Except Err Val := binop fun a b => .ok (a - b)
/-- neocore/BigInteger.py:50-51 `__floordiv__`. -/
def floordiv : Int → Val → Except Err Val := binop fun a b => if b = 0 then .error .zeroDivision else .ok (a.fdiv b)
/-- neocore/BigInteger.py:53-54 `__truediv__`: calls `int.__floordiv__`. -/
def truediv : Int → Val → Except Err Val := binop fun a b => if b = 0 then .error .zeroDivision else .ok (a.fdiv b)
/-- neocore/BigInteger.py:56-57 `__rshift__` (arithmetic shift; a negative count raises `ValueError`). -/
def rshift : Int → Val → Except Err Val := binop fun a b => if b < 0 then .error .valueError else .ok (a >>> b.toNat)
/-- neocore/BigInteger.py:59-60 `__lshift__`. Simplification: counts so large that memory runs out are not modelled. -/
def lshift : Int → Val → Except Err Val := binop fun a b => if b < 0 then .error .valueError else .ok (a * 2 ^ b.toNat)

end Neo.BigInt
