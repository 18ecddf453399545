import Verif.Py.Float
import Verif.Model.Writer
import Verif.Model.Reader

/-!
# Model of the floating-point methods of neocore/IO/BinaryWriter.py and BinaryReader.py

`struct` formats `f` (IEEE-754 binary32) and `d` (binary64) of CPython. (`Model/Writer.lean` and `Model/Reader.lean` have
`WriteDouble` and `ReadDouble` at the level of bit patterns as well.)
-/

namespace Py

/-- A Python `float` with the sign of zero; NaNs are not told apart. A finite float is its sign and its magnitude. -/
inductive FloatVal where
  | nan
  | inf (neg : Bool)
  | fin (neg : Bool) (mag : ℚ)
  deriving DecidableEq

/-- An IEEE-754 interchange format: bits of the fraction field and of the exponent field. -/
structure FloatFmt where
  mant : Nat
  expBits : Nat

/-- struct format `f`. -/
def FloatFmt.binary32 : FloatFmt := ⟨23, 8⟩
/-- struct format `d`. -/
def FloatFmt.binary64 : FloatFmt := ⟨52, 11⟩

namespace FloatFmt
variable (f : FloatFmt)

/-- Exponent bias. -/
def bias : Int := 2 ^ (f.expBits - 1) - 1

/-- Exponent of the smallest positive number. -/
def minExp : Int := 1 - f.bias - f.mant

/-- Exponent of the unit in the last place of numbers of the magnitude of `q`. -/
def ulp (q : ℚ) : Int := if q = 0 then f.minExp else max (Int.log 2 |q| - f.mant) f.minExp

/-- Rounding to the grid of the format, ties to even (without the upper limit of the exponent). -/
def round (q : ℚ) : ℚ := rne (q / 2 ^ f.ulp q) * 2 ^ f.ulp q

/-- Numbers from here on are too large for the format. -/
def limit : ℚ := 2 ^ (f.bias + 1)

/-- Number of bytes. -/
def size : Nat := (1 + f.expBits + f.mant) / 8

/-- Sign, exponent field and fraction field put together; a fraction of `mant + 1` bits carries its leading one into the
exponent field. -/
def assemble (neg : Bool) (expo frac : Nat) : Nat :=
  (if neg then 2 ^ (f.mant + f.expBits) else 0) + expo * 2 ^ f.mant + frac

/-- The bit pattern of a number on the grid. -/
def encode (neg : Bool) (mag : ℚ) : Nat := f.assemble neg (f.ulp mag - f.minExp).toNat ⌊mag / 2 ^ f.ulp mag⌋.toNat

/-- What a bit pattern means (IEEE-754, 3.4). -/
def decode (bits : Nat) : FloatVal :=
  let frac := bits % 2 ^ f.mant
  let expo := bits / 2 ^ f.mant % 2 ^ f.expBits
  let neg := decide (bits / 2 ^ (f.mant + f.expBits) % 2 = 1)
  if expo = 2 ^ f.expBits - 1 then if frac = 0 then .inf neg else .nan
  else if expo = 0 then .fin neg (frac * 2 ^ f.minExp)
  else .fin neg ((2 ^ f.mant + frac : Nat) * 2 ^ (f.minExp + (expo - 1 : Nat)))

/-- `PyFloat_Pack4`, `PyFloat_Pack8`: the bit pattern of the nearest number of the format; `OverflowError` when a finite
number is too large. (A NaN becomes the standard quiet NaN; CPython keeps part of its payload.) -/
def pack : FloatVal → Except Err Nat
  | .nan => .ok (f.assemble false (2 ^ f.expBits - 1) (2 ^ (f.mant - 1)))
  | .inf neg => .ok (f.assemble neg (2 ^ f.expBits - 1) 0)
  | .fin neg q => if f.limit ≤ f.round q then .error .overflowError else .ok (f.encode neg (f.round q))

end FloatFmt

/-- An argument of `WriteFloat` and `WriteDouble`: `other` is an object without `__float__` (None, str, bytes, Fixed8, ...). -/
inductive FloatArg where
  | float (x : FloatVal)
  | int (n : Int)
  | other

/-- `PyFloat_AsDouble` of an int: the nearest binary64 number; too large an int is reported as `struct.error` by `struct`. -/
def doubleOfInt (n : Int) : Except Err FloatVal :=
  let q := FloatFmt.binary64.round |(n : ℚ)|
  if FloatFmt.binary64.limit ≤ q then .error .structError else .ok (.fin (decide (n < 0)) q)

/-- `struct.pack('<f', x)`, `struct.pack('<d', x)`; for an int argument `struct` reports any overflow as `struct.error`. -/
def structPackFloat (f : FloatFmt) (e : Endian) : FloatArg → Except Err Bytes
  | .float x =>
    match f.pack x with
    | .error err => .error err
    | .ok bits => .ok (e.arrange (natToLE f.size bits))
  | .int n =>
    match doubleOfInt n with
    | .error err => .error err
    | .ok x =>
      match f.pack x with
      | .error _ => .error .structError
      | .ok bits => .ok (e.arrange (natToLE f.size bits))
  | .other => .error .structError

/-- `struct.unpack('<f', bs)[0]`, `struct.unpack('<d', bs)[0]`. -/
def structUnpackFloat (f : FloatFmt) (e : Endian) (bs : Bytes) : Except Err FloatVal :=
  if bs.length = f.size then .ok (f.decode (leToNat (e.arrange bs))) else .error .structError

end Py

namespace Neo.Writer
open Py

/-- neocore/IO/BinaryWriter.py:106-118 `pack` for a floating-point format. -/
def packFloat (f : FloatFmt) (e : Endian) (v : FloatArg) : IOM Nat :=
  match structPackFloat f e v with
  | .ok b => writeBytes (.bytes b) false
  | .error err => IOM.raise err

/-- neocore/IO/BinaryWriter.py:132-143 `WriteFloat`. -/
def writeFloat (v : FloatArg) (e : Endian := .little) : IOM Nat := packFloat .binary32 e v

/-- neocore/IO/BinaryWriter.py:145-156 `WriteDouble`, of any number. -/
def writeDoubleOf (v : FloatArg) (e : Endian := .little) : IOM Nat := packFloat .binary64 e v

end Neo.Writer

namespace Neo.Reader
open Py

/-- neocore/IO/BinaryReader.py:32-44 `unpack` for a floating-point format. -/
def unpackFloat (f : FloatFmt) (e : Endian) (length : Nat) : IOM FloatVal := do
  let bs ← Stream.read length
  IOM.lift (structUnpackFloat f e bs)

/-- neocore/IO/BinaryReader.py:111-121 `ReadFloat`. -/
def readFloat (e : Endian := .little) : IOM FloatVal := unpackFloat .binary32 e 4

/-- neocore/IO/BinaryReader.py:123-133 `ReadDouble`, the number. -/
def readDoubleVal (e : Endian := .little) : IOM FloatVal := unpackFloat .binary64 e 8

end Neo.Reader
