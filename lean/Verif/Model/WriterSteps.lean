import Verif.Model.Writer
import Verif.Model.Floats

/-!
# Model of neocore/IO/BinaryWriter.py over other streams and in several threads

Every method of the writer again, divided at its calls of `self.stream.write`: threads that share a writer are interleaved
there, and other streams than `io.BytesIO` answer there. (`io.BytesIO.write` holds the interpreter lock, so it is not divided; all other data of these calls is local to the
thread.)
-/

namespace Neo.WriterSteps
open Py

/-- A computation, divided at its calls of `stream.write`: it has ended with a result, or it calls `stream.write(b)` next and goes on
with the number returned or the exception. -/
inductive Steps (α : Type) where
  | ret (r : Except Err α)
  | write (b : Bytes) (k : Except Err Nat → Steps α)

namespace Steps

/-- One computation after another; an exception ends it. -/
def bind : Steps α → (α → Steps β) → Steps β
  | ret (.ok a), f => f a
  | ret (.error e), _ => ret (.error e)
  | write b k, f => write b fun r => (k r).bind f

instance : Monad Steps where
  pure a := ret (.ok a)
  bind := bind

/-- A computation and what follows its result or its exception. -/
def after : Steps α → (Except Err α → Steps β) → Steps β
  | ret r, f => f r
  | write b k, f => write b fun r => (k r).after f

/-- The computation on any stream: `sink` says what `stream.write` answers and how it changes the stream. -/
def runOn (sink : Bytes → σ → Except Err Nat × σ) : Steps α → σ → Except Err α × σ
  | ret r, s => (r, s)
  | write b k, s => (k (sink b s).1).runOn sink (sink b s).2

/-- The computation on an `io.BytesIO` without any other thread. -/
def run (m : Steps α) : IOM α := m.runOn Stream.write

end Steps

def raise (e : Err) : Steps α := .ret (.error e)
def lift (x : Except Err α) : Steps α := .ret x

/-- `self.stream.write(b)`. -/
def streamWrite (b : Bytes) : Steps Nat := .write b .ret

/-- `self.stream.write(v)` of any object. -/
def streamWriteVal : Val → Steps Nat
  | .bytes b => streamWrite b
  | .bytearray b => streamWrite b
  | _ => raise .typeError

/-- neocore/IO/BinaryWriter.py:74-86 `WriteByte`. -/
def writeByte (v : Val) : Steps Unit :=
  match v with
  | .bytes b => do let _ ← streamWrite b; return ()
  | .str s => do let _ ← streamWrite (utf8 s); return ()
  | .int n =>
    if 0 ≤ n ∧ n ≤ 255 then do let _ ← streamWrite [UInt8.ofNat n.toNat]; return ()
    else raise .valueError
  | _ => return ()

/-- neocore/IO/BinaryWriter.py:88-104 `WriteBytes`. -/
def writeBytes (v : Val) (unhex : Bool := true) : Steps Nat :=
  if unhex then
    match unhexlifyVal v with
    | .ok b => streamWrite b
    | .error .binasciiError => streamWriteVal v
    | .error e => raise e
  else streamWriteVal v

/-- neocore/IO/BinaryWriter.py:106-118 `pack` for an integer format. -/
def packInt (c : Char) (e : Endian) (v : Val) : Steps Nat :=
  match structPackInt c e v with
  | .ok b => writeBytes (.bytes b) false
  | .error err => raise err

/-- neocore/IO/BinaryWriter.py:106-118 `pack` for a floating-point format. -/
def packFloat (f : FloatFmt) (e : Endian) (v : FloatArg) : Steps Nat :=
  match structPackFloat f e v with
  | .ok b => writeBytes (.bytes b) false
  | .error err => raise err

/-- neocore/IO/BinaryWriter.py:120-130 `WriteChar`. -/
def writeChar (v : Val) : Steps Nat :=
  match v with
  | .bytes [b] => writeBytes (.bytes [b]) false
  | _ => raise .structError

/-- neocore/IO/BinaryWriter.py:145-156 `WriteDouble` of a float given by its bits. -/
def writeDouble (bits : UInt64) (e : Endian := .little) : Steps Nat :=
  writeBytes (.bytes (e.arrange (natToLE 8 bits.toNat))) false

/-- neocore/IO/BinaryWriter.py:184-194 `WriteBool`. -/
def writeBool (v : Val) : Steps Nat := writeBytes (.bytes [if Writer.truthy v then 1 else 0]) false

/-- neocore/UIntBase.py:38-39 `UIntBase.Serialize`. -/
def uintSerialize (data : Bytes) : Steps Unit := do
  let _ ← writeBytes (.bytearray data)
  return ()

/-- neocore/IO/BinaryWriter.py:274-287 `WriteUInt160`. -/
def writeUInt160 (v : Val) : Steps Unit :=
  match v with
  | .uint .u160 d => uintSerialize d
  | _ => raise .exc

/-- neocore/IO/BinaryWriter.py:289-302 `WriteUInt256`. -/
def writeUInt256 (v : Val) : Steps Unit :=
  match v with
  | .uint .u256 d => uintSerialize d
  | _ => raise .exc

/-- neocore/IO/BinaryWriter.py:304-339 `WriteVarInt`: one call of `stream.write` for numbers below 0xfd, two for others. -/
def writeVarInt (v : Val) (e : Endian := .little) : Steps (Option Nat) :=
  match v.index? with
  | none => raise .typeError
  | some n =>
    if n < 0 then raise .exc
    else if n < 0xfd then do writeByte v; return none
    else if n ≤ 0xffff then do
      writeByte (.int 0xfd)
      let k ← packInt 'H' e v
      return some k
    else if n ≤ 0xFFFFFFFF then do
      writeByte (.int 0xfe)
      let k ← packInt 'I' e v
      return some k
    else do
      writeByte (.int 0xff)
      let k ← packInt 'Q' e v
      return some k

/-- neocore/IO/BinaryWriter.py:341-356 `WriteVarBytes`. -/
def writeVarBytes (b : Bytes) (e : Endian := .little) : Steps Nat := do
  let _ ← writeVarInt (.int b.length) e
  writeBytes (.bytes b) false

/-- neocore/IO/BinaryWriter.py:341-356 `WriteVarBytes` of any object. -/
def writeVarBytesOf (v : Val) (e : Endian := .little) : Steps Nat :=
  match Writer.pyLen v with
  | none => raise .typeError
  | some n => do
    let _ ← writeVarInt (.int n) e
    writeBytes v false

/-- neocore/IO/BinaryWriter.py:358-375 `WriteVarString` on already encoded bytes. -/
def writeVarStringBytes (b : Bytes) : Steps Unit := do
  let string := asciiStr (hexlify b)
  let _ ← writeVarInt (.int b.length)
  let _ ← writeBytes (.str string)
  return ()

/-- neocore/IO/BinaryWriter.py:358-375 `WriteVarString`. -/
def writeVarString (v : Val) : Steps Unit :=
  match v with
  | .str s => writeVarStringBytes (utf8 s)
  | .bytes b => writeVarStringBytes b
  | .bytearray b => writeVarStringBytes b
  | _ => raise .typeError

/-- neocore/IO/BinaryWriter.py:368-375 `WriteVarString` with an `encoding`, on already encoded bytes. -/
def writeVarStringBytesEnc (codec : Codec) (b : Bytes) : Steps Unit := do
  let string ← lift (codec.decode (hexlify b))
  let _ ← writeVarInt (.int b.length)
  let _ ← writeBytes (.str string)
  return ()

/-- neocore/IO/BinaryWriter.py:358-375 `WriteVarString` with an `encoding`. -/
def writeVarStringEnc (codec : Codec) (v : Val) : Steps Unit :=
  match v with
  | .str s =>
    match codec.encode s with
    | .error e => raise e
    | .ok b => writeVarStringBytesEnc codec b
  | .bytes b => writeVarStringBytesEnc codec b
  | .bytearray b => writeVarStringBytesEnc codec b
  | _ => raise .typeError

/-- neocore/IO/BinaryWriter.py:392-394: the loop writing `diff` zero bytes, one `stream.write` each. -/
def writeZeros : Nat → Steps Unit
  | 0 => return ()
  | k + 1 => do
    writeByte (.int 0)
    writeZeros k

/-- neocore/IO/BinaryWriter.py:377-394 `WriteFixedString`. -/
def writeFixedString (s : Str) (length : Int) : Steps Unit :=
  let towrite := utf8 s
  let slen : Int := towrite.length
  if slen > length then raise .exc
  else do
    let _ ← writeBytes (.bytes towrite)
    writeZeros (length - slen).toNat

/-- neocore/IO/BinaryWriter.py:407-408: serialize the items in order. -/
def serializeAll (ser : α → Steps Unit) : List α → Steps Unit
  | [] => return ()
  | x :: xs => do
    ser x
    serializeAll ser xs

/-- neocore/IO/BinaryWriter.py:396-408 `WriteSerializableArray`. -/
def writeSerializableArray (ser : α → Steps Unit) (array : Option (List α)) : Steps Unit :=
  match array with
  | none => writeByte (.int 0)
  | some xs => do
    let _ ← writeVarInt (.int xs.length)
    serializeAll ser xs

/-- neocore/IO/BinaryWriter.py:417-420 and 431-435. -/
def writeReversedHex : List Val → Steps Unit
  | [] => return ()
  | item :: rest => do
    let raw ← lift (unhexlifyVal item)
    let _ ← writeBytes (.bytearray raw.reverse)
    writeReversedHex rest

/-- neocore/IO/BinaryWriter.py:422-435 `WriteHashes`. -/
def writeHashes (arr : List Val) : Steps Unit := do
  let _ ← writeVarInt (.int arr.length)
  writeReversedHex arr

/-- Threads that share one writer: whenever a thread gets its turn it performs its next call of `stream.write` (a thread that has
ended does nothing). The schedule says whose turn it is. -/
def turn (i : Nat) (ts : List (Steps Unit)) (s : Stream) : List (Steps Unit) × Stream :=
  match ts[i]? with
  | some (.write b k) => (ts.set i (k (Stream.write b s).1), (Stream.write b s).2)
  | _ => (ts, s)

def exec : List Nat → List (Steps Unit) → Stream → List (Steps Unit) × Stream
  | [], ts, s => (ts, s)
  | i :: sched, ts, s => exec sched (turn i ts s).1 (turn i ts s).2

end Neo.WriterSteps
