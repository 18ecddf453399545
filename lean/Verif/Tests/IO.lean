import Verif.Model.Writer
import Verif.Model.Reader
import Verif.Model.UInt

/-!
# Conformance of the stream models with /repo/tests/test_io.py

Not proofs of properties: the literals of the project's own unit tests, replayed on the model by kernel evaluation. They are
evidence that the model computes what the code computes. (The float cases are in `Verif.Tests.Floats`.)
-/

namespace Tests.IO
open Py Neo

/-- `BinaryReader(BytesIO(data))` and one call. -/
def run (m : IOM α) (data : Bytes) : Except Err α := (m ⟨data, 0⟩).1

/-- A call on a `BinaryWriter(BytesIO())`: the content of the stream afterwards. -/
def wrote (m : IOM α) : Except Err Bytes :=
  match m ⟨[], 0⟩ with
  | (.ok _, s) => .ok s.buf
  | (.error e, _) => .error e

/-- `b"..."` of printable characters. -/
def b (s : String) : Bytes := utf8 s.toList

/-! tests/test_io.py:43-95 `BinaryReaderTestCase.test_various` -/

def stream : Stream := ⟨[0x41, 1, 2, 3, 4], 0⟩

example :
    (do
      let c ← Reader.readChar
      let x ← Reader.readByte
      let y ← Reader.readByteRaw
      let z ← Reader.readBool
      return (c, x, y, z)) stream = (.ok ([0x41], (1 : Int), [2], true), ⟨[0x41, 1, 2, 3, 4], 4⟩) := by decide +kernel
example : run Reader.readByte [] = .ok 0 := by decide +kernel
example : run Reader.readChar [0x41] = .ok (b "A") := by decide +kernel
example : run Reader.readInt8 (b "12") = .ok 49 := by decide +kernel
example : run Reader.readUInt8 (b "12") = .ok 49 := by decide +kernel
example : run Reader.readInt16 (b "12") = .ok 12849 := by decide +kernel
example : run Reader.readUInt16 (b "12") = .ok 12849 := by decide +kernel
example : run Reader.readInt32 (0xff :: b "234") = .ok 875770623 := by decide +kernel
example : run Reader.readUInt32 (0xff :: b "234") = .ok 875770623 := by decide +kernel
example : run Reader.readInt64 (b "12345678") = .ok 4050765991979987505 := by decide +kernel
example : run Reader.readUInt64 (b "12345678") = .ok 4050765991979987505 := by decide +kernel
example : run Reader.readVarBytes (0xfd :: b "1234abc") = .ok (b "34abc") := by decide +kernel
example : run Reader.readString (3 :: b "234") = .ok (b "234") := by decide +kernel
example : run Reader.readVarString (3 :: b "123") = .ok (b "123") := by decide +kernel
example : run (Reader.readFixedString 2) (b "abc") = .ok (b "ab") := by decide +kernel
example : (run Reader.readUInt256 (b "123871987392873918723981723987189")).map UInt.toStr =
    .ok "3831373839333237313839333237383139333738323933373839313738333231".toList := by decide +kernel
example : (run Reader.readUInt160 (b "123871987392873918723981723987189")).map UInt.toStr =
    .ok "3237383139333738323933373839313738333231".toList := by decide +kernel
example : run Reader.readFixed8 ([1, 2, 3] ++ b "45678") = .ok 4050765991976829441 := by decide +kernel
example : run Reader.readHashes (2 :: b "12345567898765434567890987") =
    .ok ["3738393039383736353433343536373839383736353534333231".toList, []] := by decide +kernel

/-! tests/test_io.py:97-104 `test_varint`, 132-137 `test_readvarint_fail` -/

example : run Reader.readVarInt [] = .ok 0 := by decide +kernel
example : run Reader.readVarInt (0xfd :: b "12") = .ok 12849 := by decide +kernel
example : run Reader.readVarInt (0xfe :: b "1234") = .ok 875770417 := by decide +kernel
example : run Reader.readVarInt (0xff :: b "12345678") = .ok 4050765991979987505 := by decide +kernel
example : run (Reader.readVarInt 12848) (0xfd :: b "1234") = .error .exc := by decide +kernel

/-! tests/test_io.py:106-111 `test_Read2000256List` (with 20 instead of 2000 items: the loop is the same function) -/

example : run (Reader.readHexItems 20) (List.replicate (64 * 20) 0x31) = .ok (List.replicate 20 (List.replicate 64 0x31)) := by
  decide +kernel

/-! tests/test_io.py:113-130 `test_readserializable_success`, `test_readserializable_fail`: `TestObject.Deserialize` is
`ReadUInt32` -/

example : (run (Reader.readSerializableArray Reader.readUInt32) [4, 1, 2, 3, 4]).map (·.head?) = .ok (some 0x4030201) := by
  decide +kernel
example : run (Reader.readSerializableArray Reader.readUInt32) [4, 1, 2, 3] = .ok [] := by decide +kernel

/-! tests/test_io.py:139-145 `test_saferead` -/

example : run (Reader.readBytes 10) (b "1234") = .ok (b "1234") := by decide +kernel
example : run (Reader.safeReadBytes 10) (b "1234") = .error .valueError := by decide +kernel
example : run (Reader.safeReadBytes 8) [1, 2, 3, 4, 5, 6, 7, 8] = .ok [1, 2, 3, 4, 5, 6, 7, 8] := by decide +kernel

/-! tests/test_io.py:148-315 `BinaryWriterTestCase.test_various` -/

example : Writer.swap32 (.int 123) = .ok 2063597568 := by decide +kernel
example : Writer.swap32 (.int 2063597568) = .ok 123 := by decide +kernel
example : Writer.convertToUInt160 123 = "00000000000001111011".toList := by decide +kernel
example : Writer.convertToUInt256 123 = "00000000000000000000000001111011".toList := by decide +kernel
example : wrote (Writer.writeByte (.bytes [0])) = .ok [0] := by decide +kernel
example : wrote (Writer.writeByte (.str ['1'])) = .ok (b "1") := by decide +kernel
example : wrote (Writer.writeByte (.int 1)) = .ok [1] := by decide +kernel
example : wrote (Writer.writeChar (.bytes [0x41])) = .ok (b "A") := by decide +kernel
example : wrote (Writer.writeUInt8 (.int 167)) = .ok [0xa7] := by decide +kernel
example : wrote (Writer.writeBool (.bool true)) = .ok [1] := by decide +kernel
example : wrote (Writer.writeBool (.bool false)) = .ok [0] := by decide +kernel
example : wrote (Writer.writeInt8 (.int 17)) = .ok [0x11] := by decide +kernel
example : wrote (Writer.writeInt16 (.int 12345)) = .ok (b "90") := by decide +kernel
example : wrote (Writer.writeUInt16 (.int 12345)) = .ok (b "90") := by decide +kernel
example : wrote (Writer.writeUInt16 (.int (32767 * 2))) = .ok [0xfe, 0xff] := by decide +kernel
example : wrote (Writer.writeInt32 (.int (32767 * 2 * 2))) = .ok [0xfc, 0xff, 1, 0] := by decide +kernel
example : wrote (Writer.writeUInt32 (.int (32767 * 2 * 2))) = .ok [0xfc, 0xff, 1, 0] := by decide +kernel
example : wrote (Writer.writeInt64 (.int (32767 * 2 * 2))) = .ok [0xfc, 0xff, 1, 0, 0, 0, 0, 0] := by decide +kernel
example : wrote (Writer.writeUInt64 (.int (32767 * 2 * 2))) = .ok [0xfc, 0xff, 1, 0, 0, 0, 0, 0] := by decide +kernel
/-- A UInt160 whose bytes happen to be hexadecimal digits is written as 10 bytes: the project's test expects this. -/
example : wrote (Writer.writeUInt160 (.uint .u160 (b "12345678901234567890"))) =
    .ok [0x12, 0x34, 0x56, 0x78, 0x90, 0x12, 0x34, 0x56, 0x78, 0x90] := by decide +kernel
example : wrote (Writer.writeUInt160 (.int 123)) = .error .exc := by decide +kernel
example : wrote (Writer.writeUInt256 (.uint .u256 (b "12345678901234567890123456789012"))) =
    .ok [0x12, 0x34, 0x56, 0x78, 0x90, 0x12, 0x34, 0x56, 0x78, 0x90, 0x12, 0x34, 0x56, 0x78, 0x90, 0x12] := by decide +kernel
example : wrote (Writer.writeUInt256 (.int 123)) = .error .exc := by decide +kernel
example : wrote (Writer.writeVarInt (.str ['x'])) = .error .typeError := by decide +kernel
example : wrote (Writer.writeVarInt (.int (-1))) = .error .exc := by decide +kernel
example : wrote (Writer.writeVarInt (.int 12)) = .ok [0x0c] := by decide +kernel
example : wrote (Writer.writeVarInt (.int 0xff)) = .ok [0xfd, 0xff, 0] := by decide +kernel
example : wrote (Writer.writeVarInt (.int 0xffffff)) = .ok [0xfe, 0xff, 0xff, 0xff, 0] := by decide +kernel
example : wrote (Writer.writeVarInt (.int 0xFFFFFFFFFF)) = .ok [0xff, 0xff, 0xff, 0xff, 0xff, 0xff, 0, 0, 0] := by decide +kernel
example : wrote (Writer.writeVarBytes (b "123")) = .ok (3 :: b "123") := by decide +kernel
example : wrote (Writer.writeFixedString "test".toList 10) = .ok (b "test" ++ [0, 0, 0, 0, 0, 0]) := by decide +kernel
example : wrote (Writer.writeSerializableArray (fun _ : Unit => pure ()) none) = .ok [0] := by decide +kernel
example : wrote (Writer.writeHashes [.bytes (b "12"), .bytes (b "45")]) = .ok [2, 0x12, 0x45] := by decide +kernel
example : wrote (Writer.writeFixed8 100) = .ok [0x64, 0, 0, 0, 0, 0, 0, 0] := by decide +kernel
example : wrote (Writer.writeVarString (.str "my_test_string".toList)) = .ok (0x0e :: b "my_test_string") := by decide +kernel

/-! tests/test_io.py:317-329 `test_Write2000256List` (20 items) -/

example : wrote (Writer.write2000256List (List.replicate 20 (.bytes (List.replicate 64 0x61)))) =
    .ok (List.replicate (20 * 32) 0xaa) := by decide +kernel

/-! tests/test_io.py:331-342 `test_write_serializable_array`: `TestObject.Serialize` is `WriteUInt32` -/

example : (wrote (Writer.writeSerializableArray (fun n : Int => do let _ ← Writer.writeUInt32 (.int n); return ())
      (some [1, 2]))).bind (run (Reader.readSerializableArray Reader.readUInt32)) = .ok [1, 2] := by decide +kernel

/-! tests/test_io.py:344-350 `test_writefixedstring_exception` -/

example : wrote (Writer.writeFixedString "abc".toList 2) = .error .exc := by decide +kernel

end Tests.IO
