import Verif.Model.BigInteger
import Verif.Model.Fixed8
import Verif.Model.UInt
import Verif.Model.ECCurve
import Mathlib.Data.Int.Bitwise

/-!
# Python's operators between neocore's classes and others

How CPython chooses the method for `x op y` when one operand is a `BigInteger` (neocore/BigInteger.py), and for `x == y` when
one is a `Fixed8`, a UInt or an `ECPoint`.
-/

namespace Neo.Operators
open Py

/-- Binary operators of integers. -/
inductive Op where
  | add | sub | mul | floordiv | truediv | mod | lshift | rshift | pow | and | or | xor
  deriving DecidableEq

/-- An integer operand: `int`, `bool` or `BigInteger`. -/
inductive Operand where
  | int (n : Int)
  | bool (b : Bool)
  | big (n : Int)
  deriving DecidableEq

/-- Its integer. -/
def Operand.value : Operand → Int
  | .int n => n
  | .bool b => if b then 1 else 0
  | .big n => n

/-- The operand as an argument. -/
def Operand.val : Operand → Val
  | .int n => .int n
  | .bool b => .bool b
  | .big n => .bigInteger n

/-- What an operator returns: a plain int, a BigInteger, a float. The value of a power with negative exponent (a float) is not
modelled. -/
inductive Res where
  | int (n : Int)
  | big (n : Int)
  | float (x : PyFloat)
  | powFloat
  deriving DecidableEq

/-- CPython's `int` methods `__add__`, `__radd__` and so on, for two ints: a plain int, or a float for `/` and for negative
powers. (`bool` operands of `&`, `|`, `^` with two bools are not modelled; Simplification: shift counts and powers so large that
memory runs out are not modelled.) -/
def intOp : Op → Int → Int → Except Err Res
  | .add, a, b => .ok (.int (a + b))
  | .sub, a, b => .ok (.int (a - b))
  | .mul, a, b => .ok (.int (a * b))
  | .floordiv, a, b => if b = 0 then .error .zeroDivision else .ok (.int (a.fdiv b))
  | .truediv, a, b => match intTrueDiv a b with
    | .error e => .error e
    | .ok x => .ok (.float x)
  | .mod, a, b => if b = 0 then .error .zeroDivision else .ok (.int (a.fmod b))
  | .lshift, a, b => if b < 0 then .error .valueError else .ok (.int (a * 2 ^ b.toNat))
  | .rshift, a, b => if b < 0 then .error .valueError else .ok (.int (a >>> b.toNat))
  | .pow, a, b => if 0 ≤ b then .ok (.int (a ^ b.toNat)) else if a = 0 then .error .zeroDivision else .ok .powFloat
  | .and, a, b => .ok (.int (a.land b))
  | .or, a, b => .ok (.int (a.lor b))
  | .xor, a, b => .ok (.int (a.xor b))

/-- A value returned by a method of BigInteger. -/
def ofVal : Val → Except Err Res
  | .bigInteger n => .ok (.big n)
  | .int n => .ok (.int n)
  | _ => .error .typeError

/-- neocore/BigInteger.py:29-60: the operators BigInteger defines. -/
def bigOp : Op → Option (Int → Val → Except Err Val)
  | .add => some BigInt.add
  | .sub => some BigInt.sub
  | .mul => some BigInt.mul
  | .floordiv => some BigInt.floordiv
  | .truediv => some BigInt.truediv
  | .mod => some BigInt.mod
  | .lshift => some BigInt.lshift
  | .rshift => some BigInt.rshift
  | .pow | .and | .or | .xor => none

/-- `l op r`. With a BigInteger on the left, its own method is called if neocore/BigInteger.py defines one, else the one of `int`.
With another int on the left, BigInteger (a subclass) is asked first for its reflected method `__rop__`; it defines none, and
inherits that of `int`. -/
def binary (op : Op) (l r : Operand) : Except Err Res :=
  match l with
  | .big a =>
    match bigOp op with
    | some f => match f a r.val with
      | .error e => .error e
      | .ok v => ofVal v
    | none => intOp op a r.value
  | l => intOp op l.value r.value

/-- Unary operators of integers: `-x`, `abs(x)`, `+x`, `~x`. -/
inductive UnOp where
  | neg | abs | pos | invert
  deriving DecidableEq

/-- neocore/BigInteger.py:29-30, 41-42: of these BigInteger defines `__neg__` and `__abs__`; the others are `int`'s, which give
plain ints. -/
def unary : UnOp → Int → Except Err Res
  | .neg, a => ofVal (BigInt.neg a)
  | .abs, a => ofVal (BigInt.abs a)
  | .pos, a => .ok (.int a)
  | .invert, a => .ok (.int (-a - 1))

/-- `divmod(x, y)` of a BigInteger: `int.__divmod__`, a pair of plain ints (BigInteger does not define it). -/
def divmod (a : Int) (r : Operand) : Except Err (Res × Res) :=
  if r.value = 0 then .error .zeroDivision else .ok (.int (a.fdiv r.value), .int (a.fmod r.value))

/-- neocore/BigInteger.py:14-15 `Equals` in a condition, `if a.Equals(b)`: `NotImplemented` counts as true (Python 3.5-3.8; a
warning up to 3.13). -/
def equalsHolds (a : Int) (b : Val) : Bool := (BigInt.equals a b).getD true

/-! ### `==` between classes -/

/-- An object that may stand beside `==`. Points are on one curve. -/
inductive Obj where
  | val (v : Val)
  | fixed8 (value : Int)
  | point (P : EC.Pt)
  deriving DecidableEq

/-- `==` between objects other than UInts: by value between ints (also bool and BigInteger), between bytes and bytearrays, between
texts; `None` with `None`; else false. (`other` stands for pairwise different objects without `__eq__`.) -/
def plainEq (x y : Val) : Bool :=
  match x, y with
  | .none, .none => true
  | .str s, .str t => s == t
  | .bytes a, .bytes b => a == b
  | .bytes a, .bytearray b => a == b
  | .bytearray a, .bytes b => a == b
  | .bytearray a, .bytearray b => a == b
  | x, y => match x.index?, y.index? with
    | some a, some b => a == b
    | _, _ => false

/-- `x == y`: `x.__eq__(y)` and, if that is NotImplemented, `y.__eq__(x)`. neocore/Fixed8.py:111-112 reads `other.value`, and
neocore/Cryptography/ECCurve.py:378-379, 537-538 `rhs.x`, which other objects do not have; neocore/UIntBase.py:62-75 never raises. -/
def eqOp (c : EC.Curve) : Obj → Obj → Except Err Bool
  | .fixed8 a, .fixed8 b => .ok (Fixed8.eq a b)
  | .fixed8 _, _ => .error .attributeError
  | .point P, .point Q => .ok (EC.ptEq c P Q)
  | .point _, _ => .error .attributeError
  | .val (.uint _ d), .val v => .ok (UInt.eq d v)
  | .val (.uint _ _), _ => .ok false
  | .val v, .val (.uint _ d) => .ok (UInt.eq d v)
  | .val v, .val w => .ok (plainEq v w)
  | .val _, .fixed8 _ => .error .attributeError
  | .val _, .point _ => .error .attributeError

end Neo.Operators
