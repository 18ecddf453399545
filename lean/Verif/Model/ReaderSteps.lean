import Verif.Model.Reader
import Verif.Model.Floats

/-!
# Model of neocore/IO/BinaryReader.py over other streams and in several threads

Every method of the reader again, divided at its calls of `self.stream.read`: threads that share a reader are interleaved
there, and other streams than `io.BytesIO` answer there. (`io.BytesIO.read` holds the interpreter lock, so it is not divided;
all other data of these calls is local to the thread.)
-/

namespace Neo.ReaderSteps
open Py

/-- A computation, divided at its calls of `stream.read`: it has ended with a result, or it calls `stream.read(n)` next and goes on
with the bytes or the exception. -/
inductive Steps (α : Type) where
  | ret (r : Except Err α)
  | read (n : Int) (k : Except Err Bytes → Steps α)

namespace Steps

/-- One computation after another; an exception ends it. -/
def bind : Steps α → (α → Steps β) → Steps β
  | ret (.ok a), f => f a
  | ret (.error e), _ => ret (.error e)
  | read n k, f => read n fun r => (k r).bind f

instance : Monad Steps where
  pure a := ret (.ok a)
  bind := bind

/-- A computation and what follows its result or its exception. -/
def after : Steps α → (Except Err α → Steps β) → Steps β
  | ret r, f => f r
  | read n k, f => read n fun r => (k r).after f

/-- The computation on any stream: `src` says what `stream.read` answers and how it changes the stream. -/
def runOn (src : Int → σ → Except Err Bytes × σ) : Steps α → σ → Except Err α × σ
  | ret r, s => (r, s)
  | read n k, s => (k (src n s).1).runOn src (src n s).2

/-- The computation on an `io.BytesIO` without any other thread. -/
def run (m : Steps α) : IOM α := m.runOn Stream.read

end Steps

def raise (e : Err) : Steps α := .ret (.error e)
def lift (x : Except Err α) : Steps α := .ret x

/-- `self.stream.read(n)`. -/
def streamRead (n : Int) : Steps Bytes := .read n .ret

/-- `try: m except Exception: h`, for the exceptions selected. -/
def tryExcept (m : Steps α) (sel : Err → Bool) (h : Steps α) : Steps α :=
  m.after fun r =>
    match r with
    | .ok a => .ret (.ok a)
    | .error e => if sel e then h else .ret (.error e)

/-- neocore/IO/BinaryReader.py:32-44 `unpack` for integer formats. -/
def unpackInt (c : Char) (e : Endian) (length : Nat := 1) : Steps Int := do
  let bs ← streamRead length
  lift (structUnpackInt c e bs)

/-- neocore/IO/BinaryReader.py:32-44 `unpack` with format `"<n>s"`. -/
def unpackStr (n : Nat) (length : Nat) : Steps Bytes := do
  let bs ← streamRead length
  if bs.length = n then return bs else raise .structError

/-- neocore/IO/BinaryReader.py:32-44 `unpack` for a floating-point format. -/
def unpackFloat (f : FloatFmt) (e : Endian) (length : Nat) : Steps FloatVal := do
  let bs ← streamRead length
  lift (structUnpackFloat f e bs)

/-- neocore/IO/BinaryReader.py:46-62 `ReadByte(do_ord=True)`: the handler also catches what `stream.read` raises. -/
def readByte : Steps Int :=
  tryExcept
    (do
      let bs ← streamRead 1
      match bs with
      | [b] => return (b.toNat : Int)
      | _ => raise .typeError)
    (fun _ => true)
    (return 0)

/-- neocore/IO/BinaryReader.py:46-62 `ReadByte(do_ord=False)`: the bytes, or the number 0 if `stream.read` raises. -/
def readByteRaw : Steps (Bytes ⊕ Int) :=
  tryExcept
    (do
      let bs ← streamRead 1
      return .inl bs)
    (fun _ => true)
    (return .inr 0)

/-- neocore/IO/BinaryReader.py:64-75 `ReadBytes`. -/
def readBytes (length : Int) : Steps Bytes := streamRead length

/-- neocore/IO/BinaryReader.py:77-91 `SafeReadBytes`. -/
def safeReadBytes (length : Int) : Steps Bytes := do
  let data ← readBytes length
  if (data.length : Int) < length then raise .valueError else return data

/-- neocore/IO/BinaryReader.py:93-100 `ReadBool`. -/
def readBool : Steps Bool := do
  let bs ← streamRead 1
  match bs with
  | [b] => return (b != 0)
  | _ => raise .structError

/-- neocore/IO/BinaryReader.py:102-109 `ReadChar`. -/
def readChar : Steps Bytes := do
  let bs ← streamRead 1
  match bs with
  | [b] => return [b]
  | _ => raise .structError

/-- neocore/IO/BinaryReader.py:123-133 `ReadDouble`, the bits. -/
def readDouble (e : Endian := .little) : Steps UInt64 := do
  let bs ← streamRead 8
  if bs.length = 8 then return UInt64.ofNat (leToNat (e.arrange bs)) else raise .structError

/-- neocore/IO/BinaryReader.py:245-253. -/
def readVarIntValue (fb : Int) : Steps Int :=
  if fb = 0xfd then unpackInt 'H' .little 2
  else if fb = 0xfe then unpackInt 'I' .little 4
  else if fb = 0xff then unpackInt 'Q' .little 8
  else pure fb

/-- neocore/IO/BinaryReader.py:255-258. -/
def checkMax (max value : Int) : Steps Int :=
  if value > max then raise .exc else pure value

/-- neocore/IO/BinaryReader.py:231-258 `ReadVarInt`. -/
def readVarInt (max : Int := maxsize) : Steps Int := do
  let fb ← readByte
  if fb = 0 then pure fb
  else readVarIntValue fb >>= checkMax max

/-- neocore/IO/BinaryReader.py:260-272 `ReadVarBytes`. -/
def readVarBytes (max : Int := maxsize) : Steps Bytes := do
  let length ← readVarInt max
  readBytes length

/-- neocore/IO/BinaryReader.py:274-282 `ReadString`. -/
def readString : Steps Bytes := do
  let length ← unpackInt 'B' .little 1
  unpackStr length.toNat length.toNat

/-- neocore/IO/BinaryReader.py:284-295 `ReadVarString`. -/
def readVarString (max : Int := maxsize) : Steps Bytes := do
  let length ← readVarInt max
  unpackStr length.toNat length.toNat

/-- neocore/IO/BinaryReader.py:297-306 `ReadFixedString`. -/
def readFixedString (length : Int) : Steps Bytes := do
  let bs ← readBytes length
  return Reader.rstripZero bs

/-- neocore/IO/BinaryReader.py:325-332: the loop with its catch-all handler (which also catches what `stream.read` raises). -/
def deserializeUpTo (deser : Steps α) : Nat → Steps (List α)
  | 0 => return []
  | k + 1 => deser.after fun r =>
    match r with
    | .ok x => do
      let xs ← deserializeUpTo deser k
      return x :: xs
    | .error _ => return []

/-- neocore/IO/BinaryReader.py:308-334 `ReadSerializableArray`. -/
def readSerializableArray (deser : Steps α) (max : Int := maxsize) : Steps (List α) := do
  let length ← readVarInt max
  deserializeUpTo deser length.toNat

/-- neocore/IO/BinaryReader.py:336-343 `ReadUInt256`. -/
def readUInt256 : Steps Bytes := do
  let bs ← readBytes 32
  lift (Reader.uintOfBytes 32 bs)

/-- neocore/IO/BinaryReader.py:345-352 `ReadUInt160`. -/
def readUInt160 : Steps Bytes := do
  let bs ← readBytes 20
  lift (Reader.uintOfBytes 20 bs)

/-- neocore/IO/BinaryReader.py:362-366. -/
def readHexItems : Nat → Steps (List Bytes)
  | 0 => return []
  | k + 1 => do
    let data ← readBytes 64
    let ba ← lift (unhexlify data)
    let rest ← readHexItems k
    return hexlify ba.reverse :: rest

/-- neocore/IO/BinaryReader.py:378-381. -/
def readHashItems : Nat → Steps (List Str)
  | 0 => return []
  | k + 1 => do
    let ba ← readBytes 32
    let rest ← readHashItems k
    return hexStr ba.reverse :: rest

/-- neocore/IO/BinaryReader.py:369-382 `ReadHashes`. -/
def readHashes : Steps (List Str) := do
  let len ← readVarInt
  readHashItems len.toNat

/-- Threads that share one reader: whenever a thread gets its turn it performs its next call of `stream.read` (a thread that has
ended does nothing). The schedule says whose turn it is. -/
def turn (i : Nat) (ts : List (Steps α)) (s : Stream) : List (Steps α) × Stream :=
  match ts[i]? with
  | some (.read n k) => (ts.set i (k (Stream.read n s).1), (Stream.read n s).2)
  | _ => (ts, s)

def exec : List Nat → List (Steps α) → Stream → List (Steps α) × Stream
  | [], ts, s => (ts, s)
  | i :: sched, ts, s => exec sched (turn i ts s).1 (turn i ts s).2

end Neo.ReaderSteps
