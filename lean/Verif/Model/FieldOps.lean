import Verif.Model.ECCurve
import Verif.Py.FloatText

/-!
# Model of the operators of `FiniteField.Value` (neocore/Cryptography/ECCurve.py:188-346)

`Verif/Model/ECCurve.lean` represents a value by its integer; here field objects have an identity, operands have types, and the
methods dispatch as Python's operators do.  Values whose integer is not an `int` (a float, None) are not modelled.
-/

namespace Neo.EC.FF
open Py Neo.EC

/-- neocore/Cryptography/ECCurve.py:259-260 `FiniteField.__init__`: a field object, with its identity; `==` on fields is identity of
objects, so two objects with the same modulus differ. -/
structure Field where
  id : Nat
  p : Int
  deriving DecidableEq

/-- neocore/Cryptography/ECCurve.py:199-201 `FiniteField.Value.__init__`. -/
structure Value where
  field : Field
  value : Int
  deriving DecidableEq

/-- What may stand beside a value. -/
inductive Operand where
  | int (n : Int)
  | hex (s : Str)
  | value (v : Value)

/-- What the methods return: a value, or the `False` of `samefield(...) and ...`. -/
inductive Result where
  | value (v : Value)
  | false
  deriving DecidableEq

/-- neocore/Cryptography/ECCurve.py:322-330 `FiniteField.integer`. -/
def integer : Operand → Except Err Int
  | .int n => .ok n
  | .hex s => fInteger (.str s)
  | .value v => .ok v.value

/-- neocore/Cryptography/ECCurve.py:316-320 `FiniteField.value`: values of the same field object are kept, all else is wrapped. -/
def wrap (f : Field) (x : Operand) : Except Err Value :=
  match x with
  | .value v => if v.field = f then .ok v else .ok ⟨f, v.value⟩
  | x => (integer x).map (⟨f, ·⟩)

/-- `x % p` on ints. -/
def pyMod (x p : Int) : Except Err Int := if p = 0 then .error .zeroDivision else .ok (Int.fmod x p)

/-- neocore/Cryptography/ECCurve.py:31-37 `samefield`. -/
def samefield (a b : Value) : Bool := decide (a.field = b.field)

/-- The four binary operators. -/
inductive Op where
  | add | sub | mul | div
  deriving DecidableEq

/-- neocore/Cryptography/ECCurve.py:310-314 `FiniteField.inverse` and 253-254 `Value.inverse`: a plain int. -/
def inverse (f : Field) (v : Value) : Int := modinv v.value f.p

/-- neocore/Cryptography/ECCurve.py:265-276 `FiniteField.add`, `sub`, `mul`, `div` on two values. -/
def Field.apply (f : Field) (op : Op) (lhs rhs : Value) : Except Err Result :=
  if samefield lhs rhs then
    let n : Int := match op with
      | .add => lhs.value + rhs.value
      | .sub => lhs.value - rhs.value
      | .mul => lhs.value * rhs.value
      | .div => lhs.value * inverse rhs.field rhs
    (pyMod n f.p).map fun n => .value ⟨f, n⟩
  else .ok .false

/-- neocore/Cryptography/ECCurve.py:204-214 `Value.__add__`, `__sub__`, `__mul__`, `__truediv__`: `self op rhs`. -/
def left (op : Op) (self : Value) (rhs : Operand) : Except Err Result :=
  match wrap self.field rhs with
  | .error e => .error e
  | .ok r => self.field.apply op self r

/-- neocore/Cryptography/ECCurve.py:220-230 `Value.__radd__`, `__rsub__`, `__rmul__`: `lhs op self` when lhs is an int or a text. There is
`__rdiv__` (Python 2) but no `__rtruediv__`, so `/` raises `TypeError`. -/
def right (op : Op) (lhs : Operand) (self : Value) : Except Err Result :=
  match op with
  | .div => .error .typeError
  | op =>
    match wrap self.field lhs with
    | .error e => .error e
    | .ok l => self.field.apply op l self

/-- Python's `x op y` when at least one of them is a value. -/
def binary (op : Op) (x y : Operand) : Except Err Result :=
  match x, y with
  | .value v, y => left op v y
  | x, .value v => right op x v
  | _, _ => .error .typeError

/-- neocore/Cryptography/ECCurve.py:278-279 `FiniteField.pow`: three-argument `pow`; ValueError for a modulus of 0 and, in the Python
versions the project names (3.5, 3.6), for a negative exponent. -/
def Field.pow (f : Field) (lhs : Value) (rhs : Operand) : Except Err Value :=
  match integer rhs with
  | .error e => .error e
  | .ok e =>
    if e < 0 ∨ f.p = 0 then .error .valueError
    else .ok ⟨f, Int.fmod (lhs.value ^ e.toNat) f.p⟩

/-- neocore/Cryptography/ECCurve.py:216-217 `Value.__pow__` and 232-233 `Value.__rpow__`: `x ** y`. -/
def power (x y : Operand) : Except Err Value :=
  match x, y with
  | .value v, y => v.field.pow v y
  | x, .value v =>
    match wrap v.field x with
    | .error e => .error e
    | .ok l => v.field.pow l (.value v)
  | _, _ => .error .typeError

/-- neocore/Cryptography/ECCurve.py:235-236 `Value.__eq__`, 281-282 `FiniteField.eq`. -/
def eq (self : Value) (rhs : Operand) : Except Err Bool :=
  match wrap self.field rhs with
  | .error e => .error e
  | .ok r => (pyMod (self.value - r.value) self.field.p).map fun n => decide (n = 0)

/-- neocore/Cryptography/ECCurve.py:238-239 `Value.__ne__`. -/
def ne (self : Value) (rhs : Operand) : Except Err Bool := (eq self rhs).map (!·)

/-- neocore/Cryptography/ECCurve.py:244-245, 284-285 `Value.__neg__`. -/
def neg (self : Value) : Value := ⟨self.field, self.field.p - self.value⟩

/-- neocore/Cryptography/ECCurve.py:259-344: the methods the class `FiniteField` has. -/
def fieldMethods : List String :=
  ["__init__", "add", "sub", "mul", "div", "pow", "eq", "neg", "sqrt", "inverse", "value", "integer", "zero", "one"]

/-- neocore/Cryptography/ECCurve.py:247-248 `Value.sqrt`: `self.field.sqrt(self, flag)`, for a field of positive modulus. -/
def sqrt (self : Value) (flag : Int) : Except Err Value :=
  if "sqrt" ∈ fieldMethods then (fSqrt self.field.p self.value flag).map fun r => ⟨self.field, r⟩ else .error .attributeError

/-- neocore/Cryptography/ECCurve.py:250-251 `Value.sqrtCQ`: `self.field.sqrtCQ(self, CQ)`, looked up among the methods of the field (the function
`sqrtCQ` of the module is not one of them). -/
def methodSqrtCQ (self : Value) (CQ : Nat) : Except Err (Option Int) :=
  if "sqrtCQ" ∈ fieldMethods then .ok (sqrtCQ self.value CQ) else .error .attributeError

/-- neocore/Cryptography/ECCurve.py:253-254 `Value.inverse`: a plain int. -/
def methodInverse (self : Value) : Except Err Int :=
  if "inverse" ∈ fieldMethods then .ok (inverse self.field self) else .error .attributeError

/-- neocore/Cryptography/ECCurve.py:256-257 `Value.iszero`. -/
def iszero (self : Value) : Bool := decide (self.value = 0)

/-- neocore/Cryptography/ECCurve.py:332-337 `FiniteField.zero`. -/
def Field.zero (f : Field) : Value := ⟨f, 0⟩

/-- neocore/Cryptography/ECCurve.py:339-344 `FiniteField.one`. -/
def Field.one (f : Field) : Value := ⟨f, 1⟩

/-- `str(n)` of an int. -/
def intStr (n : Int) : Str :=
  if n = 0 then ['0'] else if n < 0 then '-' :: decText n.natAbs else decText n.natAbs

/-- neocore/Cryptography/ECCurve.py:241-242 `Value.__str__`: `"0x%s" % self.value`, with the decimal text of the integer. -/
def str (self : Value) : Str := ['0', 'x'] ++ intStr self.value

end Neo.EC.FF
