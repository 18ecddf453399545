import Verif.Model.Fixed8

/-!
# Programs with Fixed8 variables

Python variables hold references to Fixed8 objects, and assignment shares the object; what the operators do to the objects is modelled here.
-/

namespace Neo.Fixed8
open Py

/-- The Fixed8 objects (the attribute `value` of each; an object's name is its index) and the variables. -/
structure Store where
  objs : List Int
  vars : Nat → Option Nat

/-- neocore/Fixed8.py:19-20 `Fixed8(number)`: a new object. -/
def Store.new (s : Store) (number : Int) : Store × Nat := (⟨s.objs ++ [number], s.vars⟩, s.objs.length)

/-- `self.value`; a missing object (does not occur in programs) counts as `Fixed8.value`, neocore/Fixed8.py:13. -/
def Store.value (s : Store) (self : Nat) : Int := s.objs.getD self 0

/-- The binary operators. `**` is in `Fixed8.power`. -/
inductive BinOp where
  | add | sub | mul | truediv | floordiv | mod
  deriving DecidableEq

/-- neocore/Fixed8.py:72-103: `self.__add__(other)` and so on return a new object with the computed value. -/
def Store.method (s : Store) (op : BinOp) (self other : Nat) : Except Err (Store × Nat) :=
  match op with
  | .add => .ok (s.new (add (s.value self) (s.value other)))
  | .sub => .ok (s.new (sub (s.value self) (s.value other)))
  | .mul => .ok (s.new (mul (s.value self) (s.value other)))
  | .truediv => match truediv (s.value self) (s.value other) with
    | .error e => .error e
    | .ok v => .ok (s.new v)
  | .floordiv => match floordiv (s.value self) (s.value other) with
    | .error e => .error e
    | .ok v => .ok (s.new v)
  | .mod => match mod (s.value self) (s.value other) with
    | .error e => .error e
    | .ok v => .ok (s.new v)

/-- neocore/Fixed8.py:75-76, 81-82, 87-88, 96-97, 102-103: `__iadd__`, `__isub__`, `__imul__`, `__itruediv__`, `__imod__` return what
`__add__` and so on return. There is no `__ifloordiv__`; for `//=` Python calls `__floordiv__` (neocore/Fixed8.py:93-94). -/
def Store.inplaceMethod (s : Store) (op : BinOp) (self other : Nat) : Except Err (Store × Nat) :=
  match op with
  | .add => s.method .add self other
  | .sub => s.method .sub self other
  | .mul => s.method .mul self other
  | .truediv => s.method .truediv self other
  | .floordiv => s.method .floordiv self other
  | .mod => s.method .mod self other

/-- The unary operations that return an amount. -/
inductive UnOp where
  | neg | ceil | floor
  deriving DecidableEq

/-- neocore/Fixed8.py:108-109 `__neg__`, 126-130 `Ceil`, `Floor`: new objects. -/
def Store.unMethod (s : Store) (op : UnOp) (self : Nat) : Except Err (Store × Nat) :=
  match op with
  | .neg => .ok (s.new (neg (s.value self)))
  | .ceil => match ceil (s.value self) with
    | .error e => .error e
    | .ok v => .ok (s.new v)
  | .floor => match floor (s.value self) with
    | .error e => .error e
    | .ok v => .ok (s.new v)

/-- Assignments. -/
inductive Stmt where
  /-- `x = Fixed8(n)`, also `Fixed8.One()` (neocore/Fixed8.py:26-49). -/
  | new (x : Nat) (n : Int)
  /-- `x = y` -/
  | copy (x y : Nat)
  /-- `x = y op z` -/
  | bin (x : Nat) (op : BinOp) (y z : Nat)
  /-- `x op= y` -/
  | inplace (x : Nat) (op : BinOp) (y : Nat)
  /-- `x = -y`, `x = y.Ceil()`, `x = y.Floor()` -/
  | un (x : Nat) (op : UnOp) (y : Nat)

/-- `x = …`: the variable refers to the object from now on. -/
def Store.bind (s : Store) (x obj : Nat) : Store := ⟨s.objs, fun z => if z = x then some obj else s.vars z⟩

/-- The end of an assignment: the result is bound, an exception leaves the variables. -/
def Store.finish (s : Store) (x : Nat) : Except Err (Store × Nat) → Store × Option Err
  | .ok (s', obj) => (s'.bind x obj, none)
  | .error e => (s, some e)

/-- An assignment, and the exception if there is one. Unbound variables raise (NameError; the model has one class for all errors that
are not named). -/
def Store.exec (s : Store) : Stmt → Store × Option Err
  | .new x n => s.finish x (.ok (s.new n))
  | .copy x y => match s.vars y with
    | some o => (s.bind x o, none)
    | none => (s, some .exc)
  | .bin x op y z => match s.vars y, s.vars z with
    | some l, some r => s.finish x (s.method op l r)
    | _, _ => (s, some .exc)
  | .inplace x op y => match s.vars x, s.vars y with
    | some l, some r => s.finish x (s.inplaceMethod op l r)
    | _, _ => (s, some .exc)
  | .un x op y => match s.vars y with
    | some l => s.finish x (s.unMethod op l)
    | none => (s, some .exc)

/-- A program: every exception is caught and the next assignment follows; the exceptions are recorded. -/
def Store.run (s : Store) : List Stmt → Store × List (Option Err)
  | [] => (s, [])
  | st :: rest => (((s.exec st).1.run rest).1, (s.exec st).2 :: ((s.exec st).1.run rest).2)

/-- No objects, no variables. -/
def Store.empty : Store := ⟨[], fun _ => none⟩

/-! ### Powers -/

/-- What `pow` of ints gives. -/
inductive PowVal where
  | int (n : Int)
  | float
  deriving DecidableEq

/-- neocore/Fixed8.py:105-106 `__pow__`: `pow(self.value, power.value, modulo)` of ints, put into a Fixed8. Without modulus, CPython
converts both ints to floats for a negative power. The class of the exception for negative powers with a modulus is that of Python
3.6 and 3.7. Simplification: the value of the float is not modelled. -/
def power (a n : Int) (modulo : Option Int) : Except Err PowVal :=
  match modulo with
  | none =>
    if 0 ≤ n then .ok (.int (a ^ n.toNat))
    else match floatOfInt a, floatOfInt n with
      | .ok _, .ok _ => if a = 0 then .error .zeroDivision else .ok .float
      | .error e, _ => .error e
      | _, .error e => .error e
  | some m => if m = 0 then .error .valueError else if n < 0 then .error .valueError else .ok (.int ((a ^ n.toNat).fmod m))

end Neo.Fixed8
