import Verif.Model.Operators

/-!
# `hash(x)` of the objects neocore's classes make

CPython's rules: a class that defines `__eq__` and not `__hash__` sets `__hash__` to None, so that its objects cannot be hashed; the hash of an int is
the residue of its absolute value modulo 2^61 - 1 with its sign (64-bit builds), with -2 in place of -1.
-/

namespace Neo.Operators
open Py

/-- The classes whose objects stand beside `==` in `Obj`, those of neocore and the built-in ones. -/
inductive PyClass where
  | fixed8 | point | uint | bigInteger | int | str | bytes | bytearray | noneType | object
  deriving DecidableEq

/-- Which of `__eq__` and `__hash__` a class defines in its own body: neocore/Fixed8.py:13-160 (`__eq__` at 111),
neocore/Cryptography/ECCurve.py:352-475 (`__eq__` at 378), neocore/UIntBase.py:6-113 (62 and 77; UInt160 and UInt256 define neither),
neocore/BigInteger.py:1-60 (neither); `bytearray` has `__eq__` and no hash. -/
def defines : PyClass → Bool × Bool
  | .fixed8 => (true, false)
  | .point => (true, false)
  | .uint => (true, true)
  | .bigInteger => (false, false)
  | .bytearray => (true, false)
  | _ => (true, true)

/-- The class it derives from. -/
def base : PyClass → PyClass
  | .bigInteger => .int
  | _ => .object

/-- Where `hash()` finds `__hash__`: none if it is None. -/
def hashFrom (k : PyClass) : Option PyClass :=
  match defines k with
  | (_, true) => some k
  | (true, false) => none
  | (false, false) => some (base k)

/-- `hash(n)` of an int. -/
def intHash (n : Int) : Int :=
  let h := n.sign * (n.natAbs % (2 ^ 61 - 1) : Nat)
  if h = -1 then -2 else h

/-- The class of an object. -/
def classOf : Obj → PyClass
  | .fixed8 _ => .fixed8
  | .point _ => .point
  | .val .none => .noneType
  | .val (.bool _) => .int
  | .val (.int _) => .int
  | .val (.bigInteger _) => .bigInteger
  | .val (.bytes _) => .bytes
  | .val (.bytearray _) => .bytearray
  | .val (.str _) => .str
  | .val (.uint _ _) => .uint
  | .val .other => .object

/-- What CPython chooses anew in every process: the hashes of texts and bytes, of None and of objects hashed by their address. -/
structure HashSeed where
  str : Str → Int
  bytes : Bytes → Int
  none : Int
  object : Int

/-- `hash(x)`, also what a set or a dictionary asks for first: the `__hash__` of the class that `hashFrom` finds. -/
def pyHash (seed : HashSeed) (x : Obj) : Except Err Int :=
  match hashFrom (classOf x) with
  | none => .error .typeError
  | some k => match k, x with
    | .int, .val (.bool b) => .ok (intHash (if b then 1 else 0))
    | .int, .val (.int n) => .ok (intHash n)
    | .int, .val (.bigInteger n) => .ok (intHash n)
    | .uint, .val (.uint _ d) => .ok (intHash (UInt.hashCode d))
    | .str, .val (.str s) => .ok (seed.str s)
    | .bytes, .val (.bytes b) => .ok (seed.bytes b)
    | .noneType, .val .none => .ok seed.none
    | _, _ => .ok seed.object

end Neo.Operators
