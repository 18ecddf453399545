import Verif.Py.Core

/-!
# Model of neocore/IO/BinaryReader.py

The stream is an `io.BytesIO` (`Py.Stream`).  Log output is not modelled.
-/

namespace Neo.Reader
open Py

/-- neocore/IO/BinaryReader.py:32-44 `unpack` for integer formats: `struct.unpack(fmt, self.stream.read(length))[0]`. -/
def unpackInt (c : Char) (e : Endian) (length : Nat := 1) : IOM Int := do
  let bs ← Stream.read length
  IOM.lift (structUnpackInt c e bs)

/-- neocore/IO/BinaryReader.py:32-44 `unpack` with format `"<n>s"`: exactly `n` bytes are needed. -/
def unpackStr (n : Nat) (length : Nat) : IOM Bytes := do
  let bs ← Stream.read length
  if bs.length = n then return bs else IOM.raise .structError

/-- neocore/IO/BinaryReader.py:46-62 `ReadByte(do_ord=True)`: `ord` of an empty read raises and the handler returns 0. -/
def readByte : IOM Int :=
  IOM.tryExcept
    (do
      let bs ← Stream.read 1
      match bs with
      | [b] => return (b.toNat : Int)
      | _ => IOM.raise .typeError)
    (fun _ => true)
    (return 0)

/-- neocore/IO/BinaryReader.py:46-62 `ReadByte(do_ord=False)`: the raw read. -/
def readByteRaw : IOM Bytes := Stream.read 1

/-- neocore/IO/BinaryReader.py:64-75 `ReadBytes`. -/
def readBytes (length : Int) : IOM Bytes := Stream.read length

/-- neocore/IO/BinaryReader.py:77-91 `SafeReadBytes`. -/
def safeReadBytes (length : Int) : IOM Bytes := do
  let data ← readBytes length
  if (data.length : Int) < length then IOM.raise .valueError else return data

/-- neocore/IO/BinaryReader.py:93-100 `ReadBool`: struct format `?` on one byte. -/
def readBool : IOM Bool := do
  let bs ← Stream.read 1
  match bs with
  | [b] => return (b != 0)
  | _ => IOM.raise .structError

/-- neocore/IO/BinaryReader.py:102-109 `ReadChar`: struct format `c`, a bytes object of length 1. -/
def readChar : IOM Bytes := do
  let bs ← Stream.read 1
  match bs with
  | [b] => return [b]
  | _ => IOM.raise .structError

/-- neocore/IO/BinaryReader.py:123-133 `ReadDouble`; the result is given by its IEEE-754 bit pattern. -/
def readDouble (e : Endian := .little) : IOM UInt64 := do
  let bs ← Stream.read 8
  if bs.length = 8 then return UInt64.ofNat (leToNat (e.arrange bs)) else IOM.raise .structError

/-- neocore/IO/BinaryReader.py:135-145 `ReadInt8`. -/
def readInt8 (e : Endian := .little) : IOM Int := unpackInt 'b' e
/-- neocore/IO/BinaryReader.py:147-157 `ReadUInt8`. -/
def readUInt8 (e : Endian := .little) : IOM Int := unpackInt 'B' e
/-- neocore/IO/BinaryReader.py:159-169 `ReadInt16`. -/
def readInt16 (e : Endian := .little) : IOM Int := unpackInt 'h' e 2
/-- neocore/IO/BinaryReader.py:171-181 `ReadUInt16`. -/
def readUInt16 (e : Endian := .little) : IOM Int := unpackInt 'H' e 2
/-- neocore/IO/BinaryReader.py:183-193 `ReadInt32`. -/
def readInt32 (e : Endian := .little) : IOM Int := unpackInt 'i' e 4
/-- neocore/IO/BinaryReader.py:195-205 `ReadUInt32`. -/
def readUInt32 (e : Endian := .little) : IOM Int := unpackInt 'I' e 4
/-- neocore/IO/BinaryReader.py:207-217 `ReadInt64`. -/
def readInt64 (e : Endian := .little) : IOM Int := unpackInt 'q' e 8
/-- neocore/IO/BinaryReader.py:219-229 `ReadUInt64`. -/
def readUInt64 (e : Endian := .little) : IOM Int := unpackInt 'Q' e 8

/-- neocore/IO/BinaryReader.py:245-253: the value announced by the first byte `fb`.  The comparisons
`hex(fb) == '0xfd'` are comparisons of `fb`. -/
def readVarIntValue (fb : Int) : IOM Int :=
  if fb = 0xfd then readUInt16
  else if fb = 0xfe then readUInt32
  else if fb = 0xff then readUInt64
  else pure fb

/-- neocore/IO/BinaryReader.py:255-258: the bound check. -/
def checkMax (max value : Int) : IOM Int :=
  if value > max then IOM.raise .exc else pure value

/-- neocore/IO/BinaryReader.py:231-258 `ReadVarInt`.  `fb is 0` is integer equality in CPython (small ints are shared). -/
def readVarInt (max : Int := maxsize) : IOM Int := do
  let fb ← readByte
  if fb = 0 then pure fb
  else readVarIntValue fb >>= checkMax max

/-- neocore/IO/BinaryReader.py:260-272 `ReadVarBytes`. -/
def readVarBytes (max : Int := maxsize) : IOM Bytes := do
  let length ← readVarInt max
  readBytes length

/-- neocore/IO/BinaryReader.py:274-282 `ReadString`. -/
def readString : IOM Bytes := do
  let length ← readUInt8
  unpackStr length.toNat length.toNat

/-- neocore/IO/BinaryReader.py:284-295 `ReadVarString`. -/
def readVarString (max : Int := maxsize) : IOM Bytes := do
  let length ← readVarInt max
  unpackStr length.toNat length.toNat

/-- `bytes.rstrip(b'\x00')`. -/
def rstripZero (bs : Bytes) : Bytes := (bs.reverse.dropWhile (· == 0)).reverse

/-- neocore/IO/BinaryReader.py:297-306 `ReadFixedString`. -/
def readFixedString (length : Int) : IOM Bytes := do
  let bs ← readBytes length
  return rstripZero bs

/-- neocore/IO/BinaryReader.py:325-332: the loop with its catch-all handler; the items deserialized before the first
exception are kept. -/
def deserializeUpTo (deser : IOM α) : Nat → IOM (List α)
  | 0 => return []
  | k + 1 => fun s =>
    match deser s with
    | (.ok x, s') =>
      match deserializeUpTo deser k s' with
      | (.ok xs, s'') => (.ok (x :: xs), s'')
      | (.error e, s'') => (.error e, s'')
    | (.error _, s') => (.ok [], s')

/-- neocore/IO/BinaryReader.py:308-334 `ReadSerializableArray`.  `deser` stands for `klass()` followed by
`item.Deserialize(self)`; the class lookup by name is in `Model/ClassLookup`. -/
def readSerializableArray (deser : IOM α) (max : Int := maxsize) : IOM (List α) := do
  let length ← readVarInt max
  deserializeUpTo deser length.toNat

/-- neocore/UInt160.py:5-6, neocore/UIntBase.py:13-25: the length check of the constructor on a bytearray. -/
def uintOfBytes (numBytes : Nat) (data : Bytes) : Except Err Bytes :=
  if data.length ≠ numBytes then .error .exc else .ok data

/-- neocore/IO/BinaryReader.py:336-343 `ReadUInt256`; the result is the object's `Data`. -/
def readUInt256 : IOM Bytes := do
  let bs ← readBytes 32
  IOM.lift (uintOfBytes 32 bs)

/-- neocore/IO/BinaryReader.py:345-352 `ReadUInt160`. -/
def readUInt160 : IOM Bytes := do
  let bs ← readBytes 20
  IOM.lift (uintOfBytes 20 bs)

/-- neocore/IO/BinaryReader.py:362-366: `k` times: 64 bytes, unhexlify, reverse, hex text as bytes. -/
def readHexItems : Nat → IOM (List Bytes)
  | 0 => return []
  | k + 1 => do
    let data ← readBytes 64
    let ba ← IOM.lift (unhexlify data)
    let rest ← readHexItems k
    return hexlify ba.reverse :: rest

/-- neocore/IO/BinaryReader.py:354-367 `Read2000256List`. -/
def read2000256List : IOM (List Bytes) := readHexItems 2000

/-- neocore/IO/BinaryReader.py:378-381: `k` times 32 bytes, reversed, as hex text. -/
def readHashItems : Nat → IOM (List Str)
  | 0 => return []
  | k + 1 => do
    let ba ← readBytes 32
    let rest ← readHashItems k
    return hexStr ba.reverse :: rest

/-- neocore/IO/BinaryReader.py:369-382 `ReadHashes`. -/
def readHashes : IOM (List Str) := do
  let len ← readVarInt
  readHashItems len.toNat

/-- neocore/IO/BinaryReader.py:384-392 `ReadFixed8`; the result is the amount. -/
def readFixed8 : IOM Int := readInt64

end Neo.Reader
