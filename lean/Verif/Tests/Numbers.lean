import Verif.Model.UInt
import Verif.Model.BigInteger
import Verif.Model.Writer

/-!
# Conformance of the integer models with /repo/tests/test_numbers.py

Not proofs of properties: the literals of the project's own unit tests, replayed on the model by kernel evaluation.
(`Fixed8TestCase` is in `Verif.Tests.Floats`.)
-/

namespace Tests.Numbers
open Py Neo

def b (s : String) : Bytes := utf8 s.toList

/-! tests/test_numbers.py `BigIntegerTestCase` -/

example : BigInt.add 10 (.bigInteger 20) = .ok (.bigInteger 30) := by decide +kernel
example : BigInt.sub 5505505505505505050505 (.bigInteger 5505505505505505000000) = .ok (.bigInteger 50505) := by decide +kernel
example : BigInt.mul 55055055055055 (.bigInteger 55055055055) = .ok (.bigInteger 3031059087112109081053025) := by decide +kernel
example : BigInt.truediv 55055055055055 (.bigInteger 55055055) = .ok (.bigInteger 1000000) := by decide +kernel
example : BigInt.truediv 41483775933600000000 (.bigInteger 414937759336) = .ok (.bigInteger 99975899) := by decide +kernel
example : BigInt.floordiv 41483775933600000000 (.bigInteger 414937759336) = .ok (.bigInteger 99975899) := by decide +kernel
example : (BigInt.toByteArray 8972340892734890723 true).map (intFromBytes · .little false) = .ok 8972340892734890723 := by
  decide +kernel
example : (BigInt.toByteArray (-100) true).map (intFromBytes · .little false) = .ok 65436 := by decide +kernel
example : BigInt.toByteArray 128 true = .ok [0x80, 0] := by decide +kernel
example : BigInt.toByteArray 0 true = .ok [0] := by decide +kernel
example : (BigInt.toByteArray 8972340892734890723 true).map (BigInt.fromBytes · false) = .ok (.bigInteger 8972340892734890723) := by
  decide +kernel
example : BigInt.equals 8972340892734890723 (.bigInteger 8972340892734890723) = some true := by decide +kernel
example : BigInt.sign 3 = 1 ∧ BigInt.sign 0 = 0 ∧ BigInt.sign (-4) = -1 := by decide +kernel
example : (BigInt.toByteArray (-100) true).map (BigInt.fromBytes · true) = .ok (.bigInteger (-100)) := by decide +kernel
example : (BigInt.toByteArray (-100) true).map (BigInt.fromBytes · false) = .ok (.bigInteger 65436) := by decide +kernel
example : BigInt.abs 1 = .bigInteger 1 := by decide +kernel
example : BigInt.mod 1 (.int 1) = .ok (.bigInteger 0) := by decide +kernel
example : BigInt.neg 1 = .bigInteger (-1) := by decide +kernel
example : BigInt.floordiv 3 (.bigInteger 2) = .ok (.bigInteger 1) := by decide +kernel
example : BigInt.rshift 3 (.bigInteger 1) = .ok (.bigInteger 1) := by decide +kernel
example : BigInt.lshift 1 (.bigInteger 3) = .ok (.bigInteger 8) := by decide +kernel

/-! tests/test_numbers.py `UIntBaseTestCase` -/

example : (UInt.construct 0 .none).map UInt.hashCode = .ok 0 := by decide +kernel
example : (UInt.construct 10 .none).map UInt.hashCode = .ok 0 := by decide +kernel
example : (UInt.construct 3 (.bytearray (b "abc"))).map UInt.hashCode = .ok 6513249 := by decide +kernel
example : (UInt.construct 3 (.bytes (b "abc"))).map UInt.hashCode = .ok 6513249 := by decide +kernel
example : UInt.construct 3 (.bytearray (b "abcd")) = .error .exc := by decide +kernel
example : UInt.construct 3 (.str "abc".toList) = .error .exc := by decide +kernel
example : (UInt.construct 3 (.bytearray (b "abc"))).map List.length = .ok 3 := by decide +kernel
example : (Writer.uintSerialize (b "abc") ⟨[], 0⟩).2.buf = b "abc" := by decide +kernel
example : (UInt.deserialize 2 ⟨b "abc", 0⟩).1.map UInt.hashCode = .ok 25185 := by decide +kernel
example : UInt.toStr (b "abc") = "636261".toList := by decide +kernel
example : UInt.toStr2 (b "abc") = "616263".toList := by decide +kernel
example : UInt.to0xStr (b "abc") = "0x636261".toList := by decide +kernel
example : UInt.toBytes (b "abc") = b "636261" := by decide +kernel
example : UInt.eq (b "abc") (.uint .base (b "abc")) = true := by decide +kernel
example : UInt.eq (b "abc") .none = false ∧ UInt.eq (b "abc") (.int 123) = false ∧
    UInt.eq (b "abc") (.str "abc".toList) = false ∧ UInt.eq (b "abc") (.uint .base (b "abd")) = false := by decide +kernel
example : UInt.compareTo (b "12345678901234567890") (.uint .base (b "12345678901234567890")) = .ok 0 := by decide +kernel
example : UInt.compareTo (b "12345678901234567890") (.uint .base (b "12345678901234567891")) = .ok (-1) := by decide +kernel
example : UInt.compareTo (b "12345678901234567890") (.uint .base (b "12345678901234567980")) = .ok 1 := by decide +kernel
example : UInt.compareTo (b "12345678901234567890") (.uint .u160 (b "12345678901234567890")) = .ok 0 := by decide +kernel
example : UInt.compareTo (b "12345678901234567890123456789012") (.uint .base (b "12345678901234567890123456789012")) = .ok 0 := by
  decide +kernel
example : UInt.compareTo (b "12345678901234567890") (.str "asd".toList) = .error .exc := by decide +kernel
example : UInt.compareTo (b "12345678901234567890") (.bytes (b "asd")) = .error .exc := by decide +kernel
example : UInt.compareTo (b "12345678901234567890") (.int 123) = .error .exc := by decide +kernel
example : UInt.compareTo (b "12345678901234567890123456789012") (.uint .base (b "12345678901234567890")) = .error .exc := by
  decide +kernel
example : UInt.lt (b "12345678901234567890") (.uint .u160 (b "12345678901234567891")) = .ok true := by decide +kernel
example : UInt.le (b "12345678901234567890") (.uint .u160 (b "12345678901234567891")) = .ok true := by decide +kernel
example : UInt.le (b "12345678901234567890") (.uint .base (b "12345678901234567890")) = .ok true := by decide +kernel
example : UInt.ge (b "12345678901234567890") (.uint .base (b "12345678901234567890")) = .ok true := by decide +kernel
example : UInt.ge (b "12345678901234567890") (.uint .u160 (b "12345678901234567880")) = .ok true := by decide +kernel
example : UInt.gt (b "12345678901234567890") (.uint .u160 (b "12345678901234567880")) = .ok true := by decide +kernel
example : UInt.hashCode [0xDE, 0xAD, 0xBE, 0xEF] = 4022250974 := by decide +kernel
example : UInt.hashCode [0x11, 0x22] = 8721 := by decide +kernel

/-! tests/test_numbers.py `UInt160TestCase`, `UInt256TestCase` -/

example : (UInt.construct 20 .none).map UInt.hashCode = .ok 0 := by decide +kernel
example : (UInt.construct 20 (.bytes (b "12345678901234567890"))).map UInt.hashCode = .ok 875770417 := by decide +kernel
example : UInt.construct 20 (.bytes (b "12345")) = .error .exc := by decide +kernel
example : (UInt.parseString 20 "0xd7678dd97c000be3f33e9362e673101bac4ca654".toList).map UInt.to0xStr =
    .ok "0xd7678dd97c000be3f33e9362e673101bac4ca654".toList := by decide +kernel
example : (UInt.parseString 20 "5b7074e873973a6ed3708862f219a6fbf4d1c411".toList).map UInt.toStr =
    .ok "5b7074e873973a6ed3708862f219a6fbf4d1c411".toList := by decide +kernel
example : UInt.parseString 20 "5b7074e873973a6ed3708862f219a6fbf4d1c41".toList = .error .exc := by decide +kernel
example : (UInt.construct 32 .none).map UInt.hashCode = .ok 0 := by decide +kernel
example : (UInt.construct 32 (.bytes (b "12345678901234567890123456789012"))).map UInt.hashCode = .ok 875770417 := by decide +kernel
example : UInt.construct 32 (.bytes (b "12345")) = .error .exc := by decide +kernel
example : UInt.construct 32 (.str "12345678901234567890123456789012".toList) = .error .exc := by decide +kernel
example : (UInt.parseString 32 "0xcedb5c4e24b1f6fc5b239f2d1049c3229ad5ed05293c696b3740dc236c3f41b4".toList).map UInt.to0xStr =
    .ok "0xcedb5c4e24b1f6fc5b239f2d1049c3229ad5ed05293c696b3740dc236c3f41b4".toList := by decide +kernel
example : (UInt.parseString 32 "9410bd44beb7d6febc9278b028158af2781fcfb40cf2c6067b3525d24eff19f6".toList).map UInt.toStr =
    .ok "9410bd44beb7d6febc9278b028158af2781fcfb40cf2c6067b3525d24eff19f6".toList := by decide +kernel
example : UInt.parseString 32 "9410bd44beb7d6febc9278b028158af2781fcfb40cf2c6067b3525d24eff19f".toList = .error .exc := by
  decide +kernel

end Tests.Numbers
