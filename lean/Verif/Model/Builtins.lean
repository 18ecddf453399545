import Verif.Model.ValueEq

/-!
# Python's `sum`, `max`, `min` and conditions on objects of neocore's classes

What these do is fixed by the methods the classes define, and by those they do not define.
-/

namespace Neo.Operators
open Py Neo.EC

/-- An object in a list that is added up. -/
inductive Summand where
  | num (x : Operand)
  | fixed8 (value : Int)
  deriving DecidableEq

/-- A plain int or a BigInteger returned by `+`. -/
def ofRes : Res → Except Err Summand
  | .int n => .ok (.num (.int n))
  | .big n => .ok (.num (.big n))
  | _ => .error .typeError

/-- `x + y`. neocore/Fixed8.py:72-73 `__add__` reads `other.value`, which ints do not have; Fixed8 defines no `__radd__`, so an int plus an amount is
a TypeError (for a BigInteger, neocore/BigInteger.py:32-33, that of `BigInteger(NotImplemented)`). -/
def addOp : Summand → Summand → Except Err Summand
  | .num x, .num y => match binary .add x y with
    | .error e => .error e
    | .ok r => ofRes r
  | .fixed8 a, .fixed8 b => .ok (.fixed8 (Fixed8.add a b))
  | .fixed8 _, .num _ => .error .attributeError
  | .num _, .fixed8 _ => .error .typeError

/-- CPython's `sum(l, start)`: `start + l[0] + l[1] + ...`. -/
def pySum (start : Summand) : List Summand → Except Err Summand
  | [] => .ok start
  | x :: l => match addOp start x with
    | .error e => .error e
    | .ok s => pySum s l

/-- CPython's `sum(l)`: the start is the int 0. -/
def sumOf (l : List Summand) : Except Err Summand := pySum (.num (.int 0)) l

/-- The loop of CPython's `max` (`min`): the best element so far is replaced if the next one is better. -/
def bestFrom {α : Type} (better : α → α → Except Err Bool) (m : α) : List α → Except Err α
  | [] => .ok m
  | x :: l => match better x m with
    | .error e => .error e
    | .ok b => bestFrom better (if b then x else m) l

/-- CPython's `max(l)` with `better` the operator `>`, and `min(l)` with `<`; ValueError for an empty list. -/
def best {α : Type} (better : α → α → Except Err Bool) : List α → Except Err α
  | [] => .error .valueError
  | x :: l => bestFrom better x l

/-- `max` of amounts: neocore/Fixed8.py:117-118. -/
def amountMax : List Int → Except Err Int := best fun x y => .ok (Fixed8.gt x y)
/-- `min` of amounts: neocore/Fixed8.py:114-115. -/
def amountMin : List Int → Except Err Int := best fun x y => .ok (Fixed8.lt x y)
/-- `max` of hashes: neocore/UIntBase.py:106-107. -/
def hashMax (k : UKind) : List Bytes → Except Err Bytes := best fun x y => UInt.gt x (.uint k y)
/-- `min` of hashes: neocore/UIntBase.py:103-104. -/
def hashMin (k : UKind) : List Bytes → Except Err Bytes := best fun x y => UInt.lt x (.uint k y)
/-- `max` of points: neocore/Cryptography/ECCurve.py:396-406. -/
def pointMax (c : Curve) : List Pt → Except Err Pt := best fun P Q => .ok (EC.gt c P Q)
/-- `min` of points: neocore/Cryptography/ECCurve.py:384-394. -/
def pointMin (c : Curve) : List Pt → Except Err Pt := best fun P Q => .ok (EC.lt c P Q)

/-- How a class says whether its objects count as true in a condition: `__bool__`, else `__len__`. -/
inductive TruthBy where
  | bool | len

/-- Which of `__bool__` and `__len__` a class defines in its own body: neocore/Fixed8.py:13-148, neocore/UIntBase.py:6-113,
neocore/BigInteger.py:1-64 and neocore/Cryptography/ECCurve.py:352-475 define neither. -/
def truthDefined : PyClass → Option TruthBy
  | .int => some .bool
  | .noneType => some .bool
  | .str => some .len
  | .bytes => some .len
  | .bytearray => some .len
  | .fixed8 | .point | .uint | .bigInteger | .object => none

/-- The method found, in the class or in the one it derives from. -/
def truthFrom (k : PyClass) : Option TruthBy :=
  match truthDefined k with
  | some t => some t
  | none => truthDefined (base k)

/-- `len(x)` of texts and byte strings. -/
def lenOf : Obj → Nat
  | .val (.str s) => s.length
  | .val (.bytes b) => b.length
  | .val (.bytearray b) => b.length
  | _ => 0

/-- `int.__bool__` and `NoneType.__bool__`. -/
def boolOf : Obj → Bool
  | .val v => match v.index? with
    | some n => n != 0
    | none => false
  | _ => false

/-- Whether an object counts as true: `bool(x)`, `if x`. Objects of a class with neither method are true; so are field values
(neocore/Cryptography/ECCurve.py:94-255 defines neither). -/
def truth : Any → Bool
  | .value _ => true
  | .obj o => match truthFrom (classOf o) with
    | some .bool => boolOf o
    | some .len => lenOf o != 0
    | none => true

end Neo.Operators
