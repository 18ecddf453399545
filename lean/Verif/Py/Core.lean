/-!
# Python runtime fragment used by neocore

Everything in this file models CPython standard-library behaviour (not code of /repo): byte strings,
`int.from_bytes`/`int.to_bytes`, `binascii`, `struct`, `io.BytesIO`, `bytearray.fromhex`, UTF-8.
Each definition names the Python primitive and the places in /repo which call it.
-/

namespace Py

/-- A Python `bytes`/`bytearray` content. -/
abbrev Bytes := List UInt8

/-- A Python `str`, as its list of code points.  Simplification: lone surrogates (which a Python `str`
may contain and which make `.encode('utf-8')` raise) are not representable; for those see `Model/Surrogates`. -/
abbrev Str := List Char

/-- Python exceptions.  `binasciiError` is `binascii.Error`, a subclass of `ValueError`; `exc` is a plain
`Exception(...)` raised by neocore itself; `conversion` is `neocore.bin.cli.ConversionError`; `decimalOverflow` and `invalidOperation` are
`decimal.Overflow` and `decimal.InvalidOperation`. -/
inductive Err where
  | valueError | typeError | overflowError | structError | binasciiError | indexError
  | zeroDivision | assertion | notImplemented | attributeError | importError | exc | conversion
  | decimalOverflow | invalidOperation
  deriving DecidableEq, Repr

/-- `except ValueError` also catches `binascii.Error`. -/
def Err.isValueError : Err → Bool
  | .valueError => true
  | .binasciiError => true
  | _ => false

deriving instance DecidableEq for Except

/-- Which of neocore's fixed-size integer classes an object belongs to. -/
inductive UKind where
  | base | u160 | u256
  deriving DecidableEq, Repr

/-- Dynamic type of an argument, as far as neocore's `type(..) is`/`isinstance` tests can tell. -/
inductive Val where
  | none
  | bool (b : Bool)
  | int (n : Int)
  | bigInteger (n : Int)      -- neocore.BigInteger, a subclass of int
  | bytes (b : Bytes)
  | bytearray (b : Bytes)
  | str (s : Str)
  | uint (kind : UKind) (data : Bytes)   -- UIntBase / UInt160 / UInt256 object and its `Data`
  | other                     -- any object of an unrelated type
  deriving DecidableEq, Repr

/-- `operator.index`: the integer value of an int or a subclass of int. -/
def Val.index? : Val → Option Int
  | .bool b => some (if b then 1 else 0)
  | .int n => some n
  | .bigInteger n => some n
  | _ => .none

/-! ## Integers and bytes -/

/-- `int.from_bytes(bs, 'little')`. -/
def leToNat : Bytes → Nat
  | [] => 0
  | b :: bs => b.toNat + 256 * leToNat bs

/-- The `len` low base-256 digits of `n`, least significant first. -/
def natToLE : Nat → Nat → Bytes
  | 0, _ => []
  | k + 1, n => UInt8.ofNat (n % 256) :: natToLE k (n / 256)

/-- Byte order argument: `"<"`/`'little'` or `">"`/`'big'`.  (Other struct prefixes are not modelled.) -/
inductive Endian where
  | little | big
  deriving DecidableEq, Repr

def Endian.arrange : Endian → Bytes → Bytes
  | .little, bs => bs
  | .big, bs => bs.reverse

/-- `int.from_bytes(bs, order, signed=signed)`. -/
def intFromBytes (bs : Bytes) (e : Endian) (signed : Bool) : Int :=
  let n := leToNat (e.arrange bs)
  if signed && decide (0 < bs.length) && decide (256 ^ bs.length ≤ 2 * n) then (n : Int) - 256 ^ bs.length else n

/-- `int.to_bytes(len, order, signed=signed)`; raises `OverflowError` when the value does not fit. -/
def intToBytes (v : Int) (len : Nat) (e : Endian) (signed : Bool) : Except Err Bytes :=
  if signed then
    if -(256 ^ len : Int) ≤ 2 * v ∧ 2 * v < 256 ^ len then
      .ok (e.arrange (natToLE len (v % 256 ^ len).toNat))
    else .error .overflowError
  else
    if v < 0 then .error .overflowError
    else if v < 256 ^ len then .ok (e.arrange (natToLE len v.toNat))
    else .error .overflowError

/-- Number of bits of a natural number. -/
def natBitLength (n : Nat) : Nat := if n = 0 then 0 else Nat.log2 n + 1

/-- `int.bit_length()`: bit length of the absolute value. -/
def bitLength (v : Int) : Nat := natBitLength v.natAbs

/-! ## Hexadecimal text -/

/-- ASCII code of a lower-case hex digit. -/
def hexDigit (n : Nat) : UInt8 := if n < 10 then UInt8.ofNat (48 + n) else UInt8.ofNat (87 + n)

/-- Value of an ASCII hex digit of either case. -/
def hexVal (c : UInt8) : Option Nat :=
  let n := c.toNat
  if 48 ≤ n ∧ n ≤ 57 then some (n - 48)
  else if 97 ≤ n ∧ n ≤ 102 then some (n - 87)
  else if 65 ≤ n ∧ n ≤ 70 then some (n - 55)
  else none

/-- `binascii.hexlify(bs)`. -/
def hexlify : Bytes → Bytes
  | [] => []
  | b :: bs => hexDigit (b.toNat / 16) :: hexDigit (b.toNat % 16) :: hexlify bs

/-- `binascii.unhexlify` on a bytes object: `binascii.Error` on odd length or a non-hex digit. -/
def unhexlify : Bytes → Except Err Bytes
  | [] => .ok []
  | [_] => .error .binasciiError
  | a :: b :: rest =>
    match hexVal a, hexVal b with
    | some x, some y =>
      match unhexlify rest with
      | .ok r => .ok (UInt8.ofNat (16 * x + y) :: r)
      | .error e => .error e
    | _, _ => .error .binasciiError

/-- Latin/ASCII bytes seen as text (`bytes.decode` of pure ASCII data, `bytes.hex()` results). -/
def asciiStr (bs : Bytes) : Str := bs.map fun b => Char.ofNat b.toNat

/-- ASCII text as bytes, when it is ASCII. -/
def asciiBytes? (s : Str) : Option Bytes :=
  if s.all (fun c => decide (c.toNat < 128)) then some (s.map fun c => UInt8.ofNat c.toNat) else none

/-- `bytes.hex()` / `bytearray.hex()`. -/
def hexStr (bs : Bytes) : Str := asciiStr (hexlify bs)

/-- `binascii.unhexlify(value)` for a dynamically typed argument: a non-ASCII `str` raises plain `ValueError`,
a non bytes-like object `TypeError`. -/
def unhexlifyVal : Val → Except Err Bytes
  | .bytes b => unhexlify b
  | .bytearray b => unhexlify b
  | .str s => match asciiBytes? s with
    | some b => unhexlify b
    | .none => .error .valueError
  | _ => .error .typeError

/-- The character `bytearray.fromhex` of Python 3.5 and 3.6 skips between pairs of digits (since 3.7: all ASCII white space). -/
def isHexSpace (c : Char) : Bool := decide (c = ' ')

/-- Value of a hex digit character. -/
def hexValChar (c : Char) : Option Nat := if c.toNat < 128 then hexVal (UInt8.ofNat c.toNat) else none

/-- `bytearray.fromhex(s)`: pairs of hex digits, blanks allowed between (not inside) pairs; `ValueError` otherwise. -/
def fromHex : Str → Except Err Bytes
  | [] => .ok []
  | [c] => if isHexSpace c then .ok [] else .error .valueError
  | a :: b :: rest =>
    if isHexSpace a then fromHex (b :: rest)
    else
      match hexValChar a, hexValChar b with
      | some x, some y =>
        match fromHex rest with
        | .ok r => .ok (UInt8.ofNat (16 * x + y) :: r)
        | .error e => .error e
      | _, _ => .error .valueError
termination_by s => s.length

/-- `s.encode('utf-8')`. -/
def utf8 (s : Str) : Bytes := s.flatMap String.utf8EncodeChar

/-! ## `struct` -/

/-- What a struct format character stands for (the ones neocore uses). -/
inductive Fmt where
  | intFmt (signed : Bool) (width : Nat)   -- b B h H i I q Q (standard sizes)
  | charFmt                                -- c
  | boolFmt                                -- ?
  | doubleFmt                              -- d
  | strFmt (n : Nat)                       -- "<n>s"
  deriving DecidableEq, Repr

/-- Format characters for integers, https://docs.python.org/3/library/struct.html (standard sizes). -/
def fmtOfChar : Char → Option Fmt
  | 'b' => some (.intFmt true 1)
  | 'B' => some (.intFmt false 1)
  | 'h' => some (.intFmt true 2)
  | 'H' => some (.intFmt false 2)
  | 'i' => some (.intFmt true 4)
  | 'I' => some (.intFmt false 4)
  | 'q' => some (.intFmt true 8)
  | 'Q' => some (.intFmt false 8)
  | _ => none

def Fmt.size : Fmt → Nat
  | .intFmt _ w => w
  | .charFmt => 1
  | .boolFmt => 1
  | .doubleFmt => 8
  | .strFmt n => n

/-- `struct.pack` of one integer: out of range or not an integer raises `struct.error`. -/
def structPackInt (c : Char) (e : Endian) (v : Val) : Except Err Bytes :=
  match fmtOfChar c, v.index? with
  | some (.intFmt signed w), some n =>
    match intToBytes n w e signed with
    | .ok b => .ok b
    | .error _ => .error .structError
  | _, _ => .error .structError

/-- `struct.unpack` of one integer: the buffer must have exactly the format's size. -/
def structUnpackInt (c : Char) (e : Endian) (bs : Bytes) : Except Err Int :=
  match fmtOfChar c with
  | some (.intFmt signed w) => if bs.length = w then .ok (intFromBytes bs e signed) else .error .structError
  | _ => .error .structError

/-! ## `io.BytesIO` -/

/-- State of an `io.BytesIO`: its buffer and its position. A reader or writer is just its stream (neocore/IO/BinaryReader.py:22-30,
neocore/IO/BinaryWriter.py:64-72). -/
structure Stream where
  buf : Bytes
  pos : Nat
  deriving DecidableEq, Repr

/-- A computation on a stream that may raise; the stream keeps the effects that happened before the exception. -/
def IOM (α : Type) := Stream → Except Err α × Stream

namespace IOM

def pure (a : α) : IOM α := fun s => (.ok a, s)

def bind (m : IOM α) (f : α → IOM β) : IOM β := fun s =>
  match m s with
  | (.ok a, s') => f a s'
  | (.error e, s') => (.error e, s')

instance : Monad IOM where
  pure := IOM.pure
  bind := IOM.bind

/-- `raise`. -/
def raise (e : Err) : IOM α := fun s => (.error e, s)

/-- A pure computation that may raise. -/
def lift (x : Except Err α) : IOM α := fun s => (x, s)

/-- `try: m  except <those selected by `sel`>: h`. -/
def tryExcept (m : IOM α) (sel : Err → Bool) (h : IOM α) : IOM α := fun s =>
  match m s with
  | (.ok a, s') => (.ok a, s')
  | (.error e, s') => if sel e then h s' else (.error e, s')

end IOM

/-- `sys.maxsize` on a 64-bit CPython. -/
def maxsize : Int := 2 ^ 63 - 1

/-- `stream.read(n)`: a negative count reads everything to the end; a count that does not fit in a `Py_ssize_t`
raises `OverflowError`. -/
def Stream.read (n : Int) : IOM Bytes := fun s =>
  if n > maxsize then (.error .overflowError, s) else
  let avail := s.buf.drop s.pos
  let out := if n < 0 then avail else avail.take n.toNat
  (.ok out, { s with pos := s.pos + out.length })

/-- `stream.write(bs)` at the current position: overwrites, then extends; a position past the end is zero-filled;
writing nothing changes nothing. Returns the number of bytes. -/
def Stream.write (bs : Bytes) : IOM Nat := fun s =>
  if bs.isEmpty then (.ok 0, s)
  else
    let padded := s.buf ++ List.replicate (s.pos - s.buf.length) 0
    (.ok bs.length, { buf := padded.take s.pos ++ bs ++ padded.drop (s.pos + bs.length), pos := s.pos + bs.length })

/-- `stream.write(value)` for a dynamically typed argument: only bytes-like objects are accepted. -/
def Stream.writeVal : Val → IOM Nat
  | .bytes b => Stream.write b
  | .bytearray b => Stream.write b
  | _ => IOM.raise .typeError

end Py
