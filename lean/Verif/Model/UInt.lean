import Verif.Model.Reader

/-!
# Model of neocore/UIntBase.py, neocore/UInt160.py, neocore/UInt256.py

Value level: an object is its `Data`.  Object level (`Heap`): objects share mutable byte arrays with their clients.
-/

namespace Neo.UInt
open Py

/-- neocore/UIntBase.py:33-36 `GetHashCode`, also 77-78 `__hash__` (which returns this number; CPython reduces it mod 2^61-1, which changes nothing below 2^32). -/
def hashCode (data : Bytes) : Nat :=
  let sliceLength := if data.length ≥ 4 then 4 else data.length
  leToNat (data.take sliceLength)

/-- neocore/UIntBase.py:48-51 `ToString`, also 80-81 `__str__`. -/
def toStr (data : Bytes) : Str := hexStr data.reverse

/-- neocore/UIntBase.py:53-54 `ToString2`. -/
def toStr2 (data : Bytes) : Str := hexStr data

/-- neocore/UIntBase.py:56-57 `To0xString`. -/
def to0xStr (data : Bytes) : Str := ['0', 'x'] ++ toStr data

/-- neocore/UIntBase.py:59-60 `ToBytes`: the text encoded as UTF-8. -/
def toBytes (data : Bytes) : Bytes := utf8 (toStr data)

/-- neocore/UIntBase.py:13-25: the constructor's checks on `data`; the result is the content of `Data`, which `ToArray` (45-46) returns
and whose length is `Size` (30-31). neocore/UInt160.py:5-6 and neocore/UInt256.py:5-6 pass 20 and 32. -/
def construct (numBytes : Nat) (data : Val) : Except Err Bytes :=
  match data with
  | .none => .ok (List.replicate numBytes 0)
  | .bytes b => if b.length ≠ numBytes then .error .exc else .ok b
  | .bytearray b => if b.length ≠ numBytes then .error .exc else .ok b
  | .str _ => .error .exc            -- wrong length or "Invalid format"
  | _ => .error .typeError           -- `len(data)` fails

/-- neocore/UInt160.py:9-16 and neocore/UInt256.py:9-16 `ParseString` (`numBytes` = 20, 32). -/
def parseString (numBytes : Nat) (value : Str) : Except Err Bytes :=
  let value := if value.take 2 = ['0', 'x'] then value.drop 2 else value
  if ¬ value.length = 2 * numBytes then .error .exc
  else
    match fromHex value with
    | .error e => .error e
    | .ok data => construct numBytes (.bytearray data.reverse)

/-- neocore/UIntBase.py:62-75 `__eq__`. -/
def eq (data : Bytes) (oth : Val) : Bool :=
  match oth with
  | .uint _ d => data == d
  | _ => false

/-- neocore/UIntBase.py:95-101: the loop `for i in range(length - 1, 0, -1)`, entered at index `i`; index 0 is never
looked at. -/
def compareFrom (x y : Bytes) : Nat → Int
  | 0 => 0
  | i + 1 =>
    if x.getD (i + 1) 0 > y.getD (i + 1) 0 then 1
    else if x.getD (i + 1) 0 < y.getD (i + 1) 0 then -1
    else compareFrom x y i

/-- neocore/UIntBase.py:83-101 `CompareTo`. -/
def compareTo (x : Bytes) (oth : Val) : Except Err Int :=
  match oth with
  | .uint _ y => if x.length ≠ y.length then .error .exc else .ok (compareFrom x y (x.length - 1))
  | _ => .error .exc

/-- neocore/UIntBase.py:103-104 `__lt__`. -/
def lt (x : Bytes) (oth : Val) : Except Err Bool := (compareTo x oth).map fun c => decide (c < 0)
/-- neocore/UIntBase.py:106-107 `__gt__`. -/
def gt (x : Bytes) (oth : Val) : Except Err Bool := (compareTo x oth).map fun c => decide (c > 0)
/-- neocore/UIntBase.py:109-110 `__le__`. -/
def le (x : Bytes) (oth : Val) : Except Err Bool := (compareTo x oth).map fun c => decide (c ≤ 0)
/-- neocore/UIntBase.py:112-113 `__ge__`. -/
def ge (x : Bytes) (oth : Val) : Except Err Bool := (compareTo x oth).map fun c => decide (c ≥ 0)

/-- neocore/UIntBase.py:29-31 `Size`. -/
def size (data : Bytes) : Nat := data.length

/-- neocore/UIntBase.py:41-43 `Deserialize` on a reader, for an object whose `Data` has `size` bytes now: the new `Data`. -/
def deserialize (size : Nat) : IOM Bytes := Reader.readBytes size

/-! ## Object level -/

/-- A UInt object: the size its class asks for, the address of the byte array its `Data` refers to, its cached hash. -/
structure Obj where
  numBytes : Nat
  data : Nat
  hash : Nat
  deriving DecidableEq, Repr

/-- The byte arrays (address = index) and the UInt objects (name = index) of a program. Immutable `bytes` objects held as
`Data` (after `Deserialize`) are modelled as arrays too; clients simply must not mutate those (Python forbids it). -/
structure Heap where
  arrays : List Bytes
  objs : List Obj
  deriving DecidableEq, Repr

/-- Constructor argument. -/
inductive Arg where
  | none | bytes (b : Bytes) | array (addr : Nat) | bad
  deriving DecidableEq, Repr

/-- What a program can do to UInt objects and byte arrays. -/
inductive Op where
  | newArray (b : Bytes)                 -- the client makes a bytearray
  | construct (numBytes : Nat) (a : Arg) -- UInt160(..) / UInt256(..)
  | deserialize (o : Nat) (rest : Bytes) -- o.Deserialize(reader), the reader having `rest` left
  | mutate (addr : Nat) (b : Bytes)      -- the client changes a bytearray in place (its own, or one got from ToArray)
  deriving DecidableEq, Repr

/-- Content of an array (addresses out of range do not occur in programs). -/
def Heap.at (h : Heap) (a : Nat) : Bytes := h.arrays.getD a []

/-- `Data` of an object. -/
def Heap.dataOf (h : Heap) (o : Obj) : Bytes := h.at o.data

/-- neocore/UIntBase.py:10-27 the constructor: `bytes` and no data get a fresh array, a `bytearray` is kept *by
reference*; a wrong length or type raises (the heap does not change). -/
def Heap.construct (h : Heap) (n : Nat) : Arg → Except Err Heap
  | .none => .ok ⟨h.arrays ++ [List.replicate n 0], h.objs ++ [⟨n, h.arrays.length, hashCode (List.replicate n 0)⟩]⟩
  | .bytes b =>
    if b.length ≠ n then .error .exc
    else .ok ⟨h.arrays ++ [b], h.objs ++ [⟨n, h.arrays.length, hashCode b⟩]⟩
  | .array a =>
    match h.arrays[a]? with
    | none => .error .exc      -- no such array: does not occur in programs
    | some b =>
      if b.length ≠ n then .error .exc
      else .ok ⟨h.arrays, h.objs ++ [⟨n, a, hashCode b⟩]⟩
  | .bad => .error .exc

/-- neocore/UIntBase.py:41-43 `Deserialize`: `self.Data = reader.ReadBytes(self.Size)` — as many bytes as `Data` has now,
or fewer when fewer remain. -/
def Heap.deserialize (h : Heap) (i : Nat) (rest : Bytes) : Heap :=
  match h.objs[i]? with
  | none => h
  | some o =>
    let b := rest.take (h.dataOf o).length
    ⟨h.arrays ++ [b], h.objs.set i { o with data := h.arrays.length, hash := hashCode b }⟩

/-- One step of a program; a raising constructor leaves everything unchanged. -/
def Heap.step (h : Heap) : Op → Heap
  | .newArray b => ⟨h.arrays ++ [b], h.objs⟩
  | .construct n a => match h.construct n a with | .ok h' => h' | .error _ => h
  | .deserialize i rest => h.deserialize i rest
  | .mutate a b => ⟨h.arrays.set a b, h.objs⟩

/-- A whole history from the empty heap. -/
def Heap.run (ops : List Op) : Heap := ops.foldl Heap.step ⟨[], []⟩

/-- neocore/UIntBase.py:62-75 `__eq__` between two objects. -/
def Heap.objEq (h : Heap) (o p : Obj) : Bool := h.dataOf o == h.dataOf p

end Neo.UInt
