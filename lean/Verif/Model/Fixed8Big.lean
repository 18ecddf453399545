import Verif.Model.Fixed8Text
import Verif.Model.Operators
import Verif.Model.FieldOps

/-!
# Fixed8 amounts whose value is a BigInteger

`Model/Fixed8` takes `Fixed8.value` to be a plain int.  `Fixed8(n)` keeps whatever integer it is given (neocore/Fixed8.py:20-21), so here the value is
an `int`, a `bool` or a `BigInteger`, and the operators inside the methods of Fixed8 are dispatched by `Operators.binary`.
-/

namespace Neo.Fixed8.Any
open Py Neo.Operators

/-- The value of an amount. -/
abbrev Amount := Operand

/-- The result of an operator kept as the value of a new amount. (Floats do not arise from the operators this is used for.) -/
def ofRes : Res → Except Err Amount
  | .int n => .ok (.int n)
  | .big n => .ok (.big n)
  | _ => .error .typeError

/-- `int(x)` of a result. -/
def intOfRes : Res → Except Err Int
  | .int n => .ok n
  | .big n => .ok n
  | .float x => x.toInt
  | .powFloat => .error .typeError

/-- neocore/Fixed8.py:72-73, 78-79, 84-85, 93-94 `__add__`, `__sub__`, `__mul__`, `__floordiv__`: `Fixed8(self.value op other.value)`. -/
def arith (op : Op) (a b : Amount) : Except Err Amount :=
  match binary op a b with
  | .error e => .error e
  | .ok r => ofRes r

/-- neocore/Fixed8.py:90-91, 99-100 `__truediv__`, `__mod__`: `Fixed8(int(self.value op other.value))`. -/
def arithInt (op : Op) (a b : Amount) : Except Err Amount :=
  match binary op a b with
  | .error e => .error e
  | .ok r => match intOfRes r with
    | .error e => .error e
    | .ok n => .ok (.int n)

/-- neocore/Fixed8.py:72-73 `__add__`. -/
def add := arith .add
/-- neocore/Fixed8.py:78-79 `__sub__`. -/
def sub := arith .sub
/-- neocore/Fixed8.py:84-85 `__mul__`. -/
def mul := arith .mul
/-- neocore/Fixed8.py:93-94 `__floordiv__`. -/
def floordiv := arith .floordiv
/-- neocore/Fixed8.py:90-91 `__truediv__`. -/
def truediv := arithInt .truediv
/-- neocore/Fixed8.py:99-100 `__mod__`. -/
def mod := arithInt .mod
/-- neocore/Fixed8.py:108-109 `__neg__`: `-1 * self.value`. -/
def neg (a : Amount) : Except Err Amount := arith .mul (.int (-1)) a

/-- neocore/Fixed8.py:126-127, 129-130, 132-133: `self.value / Fixed8.D`, then `math.ceil`, `math.floor` or `int`, which leave an integer as it is. -/
def rounded (round : PyFloat → Except Err Int) (a : Amount) : Except Err Int :=
  match binary .truediv a (.int D) with
  | .error e => .error e
  | .ok (.float x) => round x
  | .ok r => intOfRes r

/-- neocore/Fixed8.py:126-127 `Ceil`. -/
def ceil (a : Amount) : Except Err Int := (rounded PyFloat.ceil a).map (· * D)
/-- neocore/Fixed8.py:129-130 `Floor`. -/
def floor (a : Amount) : Except Err Int := (rounded PyFloat.floor a).map (· * D)
/-- neocore/Fixed8.py:132-133 `ToInt`. -/
def toInt (a : Amount) : Except Err Int := rounded PyFloat.toInt a

/-- neocore/Fixed8.py:135-136 `ToString`: `str(self.value / Fixed8.D)`; neocore/BigInteger.py:44-45 `__str__` is `int`'s. -/
def toStr (R : Dtoa) (a : Amount) : Except Err Str :=
  match binary .truediv a (.int D) with
  | .error e => .error e
  | .ok (.float x) => .ok (x.repr R)
  | .ok (.int n) => .ok (EC.FF.intStr n)
  | .ok (.big n) => .ok (EC.FF.intStr n)
  | .ok .powFloat => .error .typeError

end Neo.Fixed8.Any
