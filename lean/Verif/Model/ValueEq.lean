import Verif.Model.Hashing
import Verif.Model.FieldOps

/-!
# `==` and `hash` between values of a finite field and other objects
-/

namespace Neo.Operators
open Py Neo.EC

/-- An object of `Obj` or a `FiniteField.Value`. -/
inductive Any where
  | obj (o : Obj)
  | value (v : FF.Value)
  deriving DecidableEq

/-- neocore/Cryptography/ECCurve.py:322-330 `FiniteField.integer` on objects that are not values: a text is read as hexadecimal, all else is
returned as it is; only ints (with bool and BigInteger) can then be subtracted from an int. -/
def operand : Obj → Option FF.Operand
  | .val (.str s) => some (.hex s)
  | .val v => v.index?.map FF.Operand.int
  | _ => none

/-- neocore/Cryptography/ECCurve.py:235-236 `Value.__eq__`, 281-282 `FiniteField.eq`: the subtraction `lhs.value - rhs.value` of an object that
is not an int raises TypeError (neither Fixed8 nor ECPoint nor UIntBase defines `__rsub__`). -/
def valueEq (v : FF.Value) (y : Obj) : Except Err Bool :=
  match operand y with
  | some o => FF.eq v o
  | none => .error .typeError

/-- `x == y` with values among the objects: the built-in classes answer NotImplemented beside a value, so that `Value.__eq__` is asked;
neocore/Fixed8.py:111-112 compares with `other.value`, which a value has; neocore/Cryptography/ECCurve.py:537-538 reads `rhs.x`, which it has not;
neocore/UIntBase.py:62-75 answers False. -/
def eqAny (c : Curve) : Any → Any → Except Err Bool
  | .obj x, .obj y => eqOp c x y
  | .value v, .value w => FF.eq v (.value w)
  | .value v, .obj y => valueEq v y
  | .obj (.fixed8 a), .value v => .ok (a == v.value)
  | .obj (.point _), .value _ => .error .attributeError
  | .obj (.val (.uint _ _)), .value _ => .ok false
  | .obj (.val x), .value v => valueEq v (.val x)

/-- `x != y`: neocore/Cryptography/ECCurve.py:238-239 and 381-382 negate `==`, and so does Python's default. -/
def neAny (c : Curve) (x y : Any) : Except Err Bool := (eqAny c x y).map (!·)

/-- `hash(x)`: `Value` defines `__eq__` (neocore/Cryptography/ECCurve.py:235) and no `__hash__`. -/
def hashAny (seed : HashSeed) : Any → Except Err Int
  | .obj o => pyHash seed o
  | .value _ => .error .typeError

end Neo.Operators
