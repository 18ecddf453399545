import Verif.Model.UInt

/-!
# UInt objects as keys of Python dictionaries

neocore/UIntBase.py:62-78 `__eq__` and `__hash__` exist to make this possible.
-/

namespace Neo.UInt
open Py

/-- A dictionary with UInt keys: the entries in the order of insertion, each with the hash the key had when it was inserted, the key
(a name of the heap) and the value. -/
abbrev Dict (V : Type) := List (Nat × Nat × V)

/-- CPython's test whether the key `k` is that of an entry: the stored hash is `hash(k)` (neocore/UIntBase.py:77-78), and the keys
are the same object or equal (neocore/UIntBase.py:62-75). -/
def Heap.matches (h : Heap) (k : Nat) (e : Nat × Nat × V) : Bool :=
  match h.objs[k]? with
  | none => false      -- no such object: does not occur in programs
  | some o => e.1 == o.hash && (e.2.1 == k || match h.objs[e.2.1]? with
    | none => false
    | some p => h.objEq p o)

/-- `d.get(k)`. Simplification: if several entries match (which takes keys that have been changed) the first is found. -/
def Heap.lookup (h : Heap) (d : Dict V) (k : Nat) : Option V := (d.find? (h.matches k)).map fun e => e.2.2

/-- `d[k] = v`: a matching entry keeps its key and gets the value, else there is a new entry. -/
def Heap.insert (h : Heap) (d : Dict V) (k : Nat) (v : V) : Dict V :=
  match h.objs[k]? with
  | none => d
  | some o => match d.findIdx? (h.matches k) with
    | some i => d.modify i fun e => (e.1, e.2.1, v)
    | none => d ++ [(o.hash, k, v)]

/-- `d.pop(k, None)`. -/
def Heap.remove (h : Heap) (d : Dict V) (k : Nat) : Dict V := d.eraseP (h.matches k)

/-- A step of a program with UInt objects and a dictionary. -/
inductive DictOp (V : Type) where
  | heap (op : Op)
  | insert (k : Nat) (v : V)
  | remove (k : Nat)

/-- A program so far. -/
structure DictState (V : Type) where
  heap : Heap
  dict : Dict V

def DictState.step (s : DictState V) : DictOp V → DictState V
  | .heap op => ⟨s.heap.step op, s.dict⟩
  | .insert k v => ⟨s.heap, s.heap.insert s.dict k v⟩
  | .remove k => ⟨s.heap, s.heap.remove s.dict k⟩

/-- A whole history from nothing. -/
def DictState.run (ops : List (DictOp V)) : DictState V := ops.foldl DictState.step ⟨⟨[], []⟩, []⟩

end Neo.UInt
