import Verif.Py.Core
import Verif.Py.Codecs

/-!
# Model of neocore/IO/BinaryWriter.py

The stream is an `io.BytesIO` (`Py.Stream`); every method is a `Py.IOM` computation.  Return value: the methods that
`return self.stream.write(..)` return `some n`, those that return nothing (Python `None`) return `none`.
-/

namespace Neo.Writer
open Py

/-- neocore/IO/BinaryWriter.py:21-30 `swap32`: `struct.unpack("<I", struct.pack(">I", i))[0]`. -/
def swap32 (i : Val) : Except Err Int :=
  match structPackInt 'I' .big i with
  | .ok bs => structUnpackInt 'I' .little bs
  | .error e => .error e

/-- Binary digits of a natural number, most significant first, "0" for zero (the part of `bin(n)` after `0b`). -/
def binDigits (n : Nat) : Str :=
  if _h : n < 2 then [if n = 0 then '0' else '1']
  else binDigits (n / 2) ++ [if n % 2 = 0 then '0' else '1']
termination_by n
decreasing_by omega

/-- Python `bin(v)`: sign, `0b`, digits. -/
def pyBin (v : Int) : Str := (if v < 0 then ['-'] else []) ++ ['0', 'b'] ++ binDigits v.natAbs

/-- Python `s[-k:]` for `k > 0`. -/
def lastN (k : Nat) (s : Str) : Str := s.drop (s.length - k)

/-- neocore/IO/BinaryWriter.py:33-44 `convert_to_uint160`. -/
def convertToUInt160 (v : Int) : Str := lastN 20 (pyBin (v + 2 ^ 20))

/-- neocore/IO/BinaryWriter.py:47-58 `convert_to_uint256`. -/
def convertToUInt256 (v : Int) : Str := lastN 32 (pyBin (v + 2 ^ 32))

/-- neocore/IO/BinaryWriter.py:74-86 `WriteByte`: the argument's exact type selects the action; any other type
(including subclasses of int such as bool and BigInteger, and bytearray) is silently ignored. `bytes([value])` raises
`ValueError` outside 0..255. -/
def writeByte (v : Val) : IOM Unit :=
  match v with
  | .bytes b => do let _ ← Stream.write b; return ()
  | .str s => do let _ ← Stream.write (utf8 s); return ()
  | .int n =>
    if 0 ≤ n ∧ n ≤ 255 then do let _ ← Stream.write [UInt8.ofNat n.toNat]; return ()
    else IOM.raise .valueError
  | _ => return ()

/-- neocore/IO/BinaryWriter.py:88-104 `WriteBytes`: with `unhex` the value is replaced by its unhexlified form when
`binascii.unhexlify` succeeds; `binascii.Error` (only) is ignored; then `stream.write`. -/
def writeBytes (v : Val) (unhex : Bool := true) : IOM Nat :=
  if unhex then
    match unhexlifyVal v with
    | .ok b => Stream.write b
    | .error .binasciiError => Stream.writeVal v
    | .error e => IOM.raise e
  else Stream.writeVal v

/-- neocore/IO/BinaryWriter.py:106-118 `pack` for an integer format: `WriteBytes(struct.pack(fmt, data), unhex=False)`. -/
def packInt (c : Char) (e : Endian) (v : Val) : IOM Nat :=
  match structPackInt c e v with
  | .ok b => writeBytes (.bytes b) false
  | .error err => IOM.raise err

/-- neocore/IO/BinaryWriter.py:120-130 `WriteChar`: struct format `c` needs a `bytes` object of length 1. -/
def writeChar (v : Val) : IOM Nat :=
  match v with
  | .bytes [b] => writeBytes (.bytes [b]) false
  | _ => IOM.raise .structError

/-- neocore/IO/BinaryWriter.py:145-156 `WriteDouble`.  Simplification: the argument is a Python float given by its
IEEE-754 bit pattern (NaNs keep their payload); ints, which struct converts, are not modelled. -/
def writeDouble (bits : UInt64) (e : Endian := .little) : IOM Nat :=
  writeBytes (.bytes (e.arrange (natToLE 8 bits.toNat))) false

/-- neocore/IO/BinaryWriter.py:158-169 `WriteInt8`. -/
def writeInt8 (v : Val) (e : Endian := .little) : IOM Nat := packInt 'b' e v
/-- neocore/IO/BinaryWriter.py:171-182 `WriteUInt8`. -/
def writeUInt8 (v : Val) (e : Endian := .little) : IOM Nat := packInt 'B' e v
/-- neocore/IO/BinaryWriter.py:196-207 `WriteInt16`. -/
def writeInt16 (v : Val) (e : Endian := .little) : IOM Nat := packInt 'h' e v
/-- neocore/IO/BinaryWriter.py:209-220 `WriteUInt16`. -/
def writeUInt16 (v : Val) (e : Endian := .little) : IOM Nat := packInt 'H' e v
/-- neocore/IO/BinaryWriter.py:222-233 `WriteInt32`. -/
def writeInt32 (v : Val) (e : Endian := .little) : IOM Nat := packInt 'i' e v
/-- neocore/IO/BinaryWriter.py:235-246 `WriteUInt32`. -/
def writeUInt32 (v : Val) (e : Endian := .little) : IOM Nat := packInt 'I' e v
/-- neocore/IO/BinaryWriter.py:248-259 `WriteInt64`. -/
def writeInt64 (v : Val) (e : Endian := .little) : IOM Nat := packInt 'q' e v
/-- neocore/IO/BinaryWriter.py:261-272 `WriteUInt64`. -/
def writeUInt64 (v : Val) (e : Endian := .little) : IOM Nat := packInt 'Q' e v

/-- Python truth value of the modelled objects (used by struct format `?`). -/
def truthy : Val → Bool
  | .none => false
  | .bool b => b
  | .int n => n != 0
  | .bigInteger n => n != 0
  | .bytes b => !b.isEmpty
  | .bytearray b => !b.isEmpty
  | .str s => !s.isEmpty
  | .uint _ _ => true
  | .other => true

/-- neocore/IO/BinaryWriter.py:184-194 `WriteBool`: struct format `?` writes the truth value. -/
def writeBool (v : Val) : IOM Nat := writeBytes (.bytes [if truthy v then 1 else 0]) false

/-- neocore/UIntBase.py:38-39 `UIntBase.Serialize`: `writer.WriteBytes(self.Data)` (with the default `unhex=True`). -/
def uintSerialize (data : Bytes) : IOM Unit := do
  let _ ← writeBytes (.bytearray data)
  return ()

/-- neocore/IO/BinaryWriter.py:274-287 `WriteUInt160`. -/
def writeUInt160 (v : Val) : IOM Unit :=
  match v with
  | .uint .u160 d => uintSerialize d
  | _ => IOM.raise .exc

/-- neocore/IO/BinaryWriter.py:289-302 `WriteUInt256`. -/
def writeUInt256 (v : Val) : IOM Unit :=
  match v with
  | .uint .u256 d => uintSerialize d
  | _ => IOM.raise .exc

/-- neocore/IO/BinaryWriter.py:304-339 `WriteVarInt`.  The one-byte branch hands the *original object* to `WriteByte`
and so returns `None`; the other branches return the count of the fixed-width part only. -/
def writeVarInt (v : Val) (e : Endian := .little) : IOM (Option Nat) :=
  match v.index? with
  | none => IOM.raise .typeError
  | some n =>
    if n < 0 then IOM.raise .exc
    else if n < 0xfd then do writeByte v; return none
    else if n ≤ 0xffff then do
      writeByte (.int 0xfd)
      let k ← writeUInt16 v e
      return some k
    else if n ≤ 0xFFFFFFFF then do
      writeByte (.int 0xfe)
      let k ← writeUInt32 v e
      return some k
    else do
      writeByte (.int 0xff)
      let k ← writeUInt64 v e
      return some k

/-- neocore/IO/BinaryWriter.py:341-356 `WriteVarBytes`.  The argument is a bytes-like object with content `b`. -/
def writeVarBytes (b : Bytes) (e : Endian := .little) : IOM Nat := do
  let _ ← writeVarInt (.int b.length) e
  writeBytes (.bytes b) false

/-- Python `len(value)`; objects other than bytes-like ones and texts have none. -/
def pyLen : Val → Option Nat
  | .bytes b => some b.length
  | .bytearray b => some b.length
  | .str s => some s.length
  | _ => none

/-- neocore/IO/BinaryWriter.py:341-356 `WriteVarBytes` of any object. -/
def writeVarBytesOf (v : Val) (e : Endian := .little) : IOM Nat :=
  match pyLen v with
  | none => IOM.raise .typeError
  | some n => do
    let _ ← writeVarInt (.int n) e
    writeBytes v false

/-- neocore/IO/BinaryWriter.py:358-375 `WriteVarString` on already encoded bytes: `hexlify`, decode to text, write the
length, write the text through the unhexing `WriteBytes`. Simplification: `encoding` is utf-8. -/
def writeVarStringBytes (b : Bytes) : IOM Unit := do
  let string := asciiStr (hexlify b)
  let _ ← writeVarInt (.int b.length)
  let _ ← writeBytes (.str string)
  return ()

/-- neocore/IO/BinaryWriter.py:358-375 `WriteVarString`: a `str` is first encoded; bytes-like values are used as they
are; other objects have no `len`. -/
def writeVarString (v : Val) : IOM Unit :=
  match v with
  | .str s => writeVarStringBytes (utf8 s)
  | .bytes b => writeVarStringBytes b
  | .bytearray b => writeVarStringBytes b
  | _ => IOM.raise .typeError

/-- neocore/IO/BinaryWriter.py:368-375 `WriteVarString` with an `encoding`, on already encoded bytes. -/
def writeVarStringBytesEnc (codec : Codec) (b : Bytes) : IOM Unit := do
  let string ← IOM.lift (codec.decode (hexlify b))
  let _ ← writeVarInt (.int b.length)
  let _ ← writeBytes (.str string)
  return ()

/-- neocore/IO/BinaryWriter.py:358-375 `WriteVarString` with an `encoding`. -/
def writeVarStringEnc (codec : Codec) (v : Val) : IOM Unit :=
  match v with
  | .str s =>
    match codec.encode s with
    | .error e => IOM.raise e
    | .ok b => writeVarStringBytesEnc codec b
  | .bytes b => writeVarStringBytesEnc codec b
  | .bytearray b => writeVarStringBytesEnc codec b
  | _ => IOM.raise .typeError

/-- neocore/IO/BinaryWriter.py:392-394: the loop writing `diff` zero bytes. -/
def writeZeros : Nat → IOM Unit
  | 0 => return ()
  | k + 1 => do
    writeByte (.int 0)
    writeZeros k

/-- neocore/IO/BinaryWriter.py:377-394 `WriteFixedString`. -/
def writeFixedString (s : Str) (length : Int) : IOM Unit :=
  let towrite := utf8 s
  let slen : Int := towrite.length
  if slen > length then IOM.raise .exc
  else do
    let _ ← writeBytes (.bytes towrite)
    writeZeros (length - slen).toNat

/-- neocore/IO/BinaryWriter.py:407-408: serialize the items in order. -/
def serializeAll (ser : α → IOM Unit) : List α → IOM Unit
  | [] => return ()
  | x :: xs => do
    ser x
    serializeAll ser xs

/-- neocore/IO/BinaryWriter.py:396-408 `WriteSerializableArray`; `none` models Python `None`; `ser` is the items'
`Serialize` method. -/
def writeSerializableArray (ser : α → IOM Unit) (array : Option (List α)) : IOM Unit :=
  match array with
  | none => writeByte (.int 0)
  | some xs => do
    let _ ← writeVarInt (.int xs.length)
    serializeAll ser xs

/-- neocore/IO/BinaryWriter.py:417-420 and 431-435: for each item (hex digits as `bytes` or `str`) unhexlify, reverse,
`WriteBytes`. -/
def writeReversedHex : List Val → IOM Unit
  | [] => return ()
  | item :: rest => do
    let raw ← IOM.lift (unhexlifyVal item)
    let _ ← writeBytes (.bytearray raw.reverse)
    writeReversedHex rest

/-- neocore/IO/BinaryWriter.py:410-420 `Write2000256List`. -/
def write2000256List (arr : List Val) : IOM Unit := writeReversedHex arr

/-- neocore/IO/BinaryWriter.py:422-435 `WriteHashes`. -/
def writeHashes (arr : List Val) : IOM Unit := do
  let _ ← writeVarInt (.int arr.length)
  writeReversedHex arr

/-- neocore/IO/BinaryWriter.py:437-450 `WriteFixed8`: `WriteInt64(value.value)`; the amount is an int. -/
def writeFixed8 (value : Int) : IOM Nat := writeInt64 (.int value)

end Neo.Writer
