import Verif.Model.Floats
import Verif.Model.Fixed8

/-!
# Conformance of the float models with /repo/tests/test_io.py and /repo/tests/test_numbers.py `Fixed8TestCase`

Not proofs of properties: the literals of the project's own unit tests, replayed on the model by kernel evaluation.
-/

namespace Tests.Floats
open Py Neo

def b (s : String) : Bytes := utf8 s.toList

/-- A decimal literal of a Python program: the nearest binary64 number. -/
def lit (q : ℚ) : PyFloat := PyFloat.ofRat q

/-- The same with the sign of zero. -/
def flit (q : ℚ) : FloatVal := .fin (decide (q < 0)) (FloatFmt.binary64.round |q|)

/-! tests/test_io.py: `ReadFloat`, `ReadDouble`, `WriteFloat(123.41)`, `WriteDouble(976)` -/

example : (Reader.readFloat .little ⟨b "1234", 0⟩).1 = .ok (flit (16688933612840628 / 10 ^ 23)) := by decide +kernel
example : (Reader.readDoubleVal .little ⟨b "12345678", 0⟩).1 = .ok (flit (6821320051701325 / 10 ^ 53)) := by decide +kernel
example : (Writer.writeFloat (.float (flit (12341 / 100))) .little ⟨[], 0⟩).2.buf = [0xec, 0xd1, 0xf6, 0x42] := by decide +kernel
example : (Writer.writeDoubleOf (.int 976) .little ⟨[], 0⟩).2.buf = [0, 0, 0, 0, 0, 0x80, 0x8e, 0x40] := by decide +kernel

/-! Further values computed with CPython's `struct`. -/

example : FloatFmt.binary32.pack (flit (1 / 10)) = .ok 0x3dcccccd := by decide +kernel
example : FloatFmt.binary32.pack (flit (-1 / 10)) = .ok 0xbdcccccd := by decide +kernel
example : FloatFmt.binary32.pack (.fin true 0) = .ok 0x80000000 := by decide +kernel
example : FloatFmt.binary32.pack (flit (1 / 10 ^ 45)) = .ok 1 := by decide +kernel
example : FloatFmt.binary32.pack (flit (10 ^ 300)) = .error .overflowError := by decide +kernel
example : FloatFmt.binary32.pack (flit (2 ^ 128 - 2 ^ 103)) = .error .overflowError := by decide +kernel
example : FloatFmt.binary32.pack (flit (2 ^ 128 - 2 ^ 103 - 2 ^ 75)) = .ok 0x7f7fffff := by decide +kernel
example : structPackFloat .binary32 .little (.int (2 ^ 128 - 2 ^ 103)) = .error .structError := by decide +kernel
example : structPackFloat .binary64 .little (.int (10 ^ 400)) = .error .structError := by decide +kernel
example : FloatFmt.binary64.pack (flit (1 / 10)) = .ok 0x3fb999999999999a := by decide +kernel
example : FloatFmt.binary64.decode 0x3fb999999999999a = flit (1 / 10) := by decide +kernel
example : FloatFmt.binary64.decode 0x7ff0000000000000 = .inf false := by decide +kernel
example : FloatFmt.binary64.decode 0xfff0000000000001 = .nan := by decide +kernel

/-! tests/test_numbers.py `Fixed8TestCase` -/

example : Fixed8.add 100 300 = 400 := by decide +kernel
example : Fixed8.sub 100 300 = -200 := by decide +kernel
example : Fixed8.mul 3 9 = 27 := by decide +kernel
example : Fixed8.truediv 27 3 = .ok 9 := by decide +kernel
example : Fixed8.pow 2 3 = 8 := by decide +kernel
example : Fixed8.mod 10 5 = .ok 0 := by decide +kernel
example : Fixed8.mod 10 7 = .ok 3 := by decide +kernel
example : Fixed8.neg 2 = -2 := by decide +kernel
example : Fixed8.fromDecimal (.float (lit (204202556 / 10 ^ 5))) = .ok 204202556000 := by decide +kernel
example : Fixed8.one = 100000000 ∧ Fixed8.satoshi = 1 ∧ Fixed8.negativeSatoshi = -1 ∧ Fixed8.zero = 0 := by decide +kernel
/-- Parsers that accept nothing: `float("foo")` and `int("foo")` raise. -/
def noParse : Fixed8.Parsers := ⟨fun _ => .error .valueError, fun _ => .error .valueError⟩
example : Fixed8.tryParse noParse (.float (lit (123123 / 1000))) false = .ok (some 12312300000) := by decide +kernel
example : Fixed8.tryParse noParse (.int 123) false = .ok (some 12300000000) := by decide +kernel
example : Fixed8.tryParse noParse (.int 0) false = .ok (some 0) := by decide +kernel
example : Fixed8.tryParse noParse (.str "foo".toList) false = .ok none := by decide +kernel
example : Fixed8.tryParse noParse (.int (-1)) true = .ok none := by decide +kernel
example : (Fixed8.fromDecimal (.float (lit (46 / 10)))).bind Fixed8.ceil = Fixed8.fromDecimal (.int 5) := by decide +kernel
example : (Fixed8.fromDecimal (.float (lit (400000001 / 10 ^ 8)))).bind Fixed8.ceil = Fixed8.fromDecimal (.int 5) := by decide +kernel
example : (Fixed8.fromDecimal (.float (lit (49999999999 / 10 ^ 10)))).bind Fixed8.floor = Fixed8.fromDecimal (.int 4) := by decide +kernel
example : (Fixed8.fromDecimal (.float (lit (42 / 10)))).bind Fixed8.floor = Fixed8.fromDecimal (.int 4) := by decide +kernel
example : Fixed8.floordiv 1 2 = .ok 0 ∧ Fixed8.truediv 1 2 = .ok 0 ∧ Fixed8.mod 1 2 = .ok 1 := by decide +kernel
example : Fixed8.lt 1 2 = true ∧ Fixed8.gt 2 1 = true ∧ Fixed8.le 1 2 = true ∧ Fixed8.ge 2 1 = true ∧ Fixed8.ge 2 2 = true := by
  decide +kernel
example : Fixed8.toInt Fixed8.one = .ok 1 := by decide +kernel

end Tests.Floats
