import Verif.Py.Core

/-!
# Model of neocore/Cryptography/MerkleTree.py

Nodes are mutable objects linked by references (children *and* parents; the last node of an odd level is both children of
its parent), so they are modelled on a heap: addresses are numbers, `node a` is the object at address `a`.

`H` is `Crypto.Hash256` (neocore/Cryptography/Crypto.py:63-74), an arbitrary function here; a hash is the `Data` of its
`UInt256`.  `UInt256(data=H(..))` succeeds because a SHA-256 digest has 32 bytes.
-/

namespace Neo.Merkle
open Py

/-- neocore/Cryptography/MerkleTree.py:6-19 `MerkleTreeNode`; `none` is Python's `None`. -/
structure Node where
  hash : Option Bytes := none
  parent : Option Nat := none
  left : Option Nat := none
  right : Option Nat := none
  deriving DecidableEq, Repr, Inhabited

/-- The objects allocated so far: addresses below `size`. -/
structure Heap where
  size : Nat
  node : Nat → Node

/-- Assignment to the attributes of one object. -/
def Heap.modify (h : Heap) (a : Nat) (f : Node → Node) : Heap :=
  { h with node := fun b => if b = a then f (h.node b) else h.node b }

/-- neocore/Cryptography/MerkleTree.py:21-30 `IsLeaf`. -/
def Heap.isLeaf (h : Heap) (a : Nat) : Bool := (h.node a).left.isNone && (h.node a).right.isNone

/-- neocore/Cryptography/MerkleTree.py:32-39 `IsRoot`. -/
def Heap.isRoot (h : Heap) (a : Nat) : Bool := (h.node a).parent.isNone

/-- `[MerkleTreeNode() for i in range(n)]`: `n` fresh objects without hash. -/
def Heap.alloc (h : Heap) (n : Nat) : Heap :=
  ⟨h.size + n, fun a => if h.size ≤ a ∧ a < h.size + n then {} else h.node a⟩

/-- neocore/Cryptography/MerkleTree.py:61 `[MerkleTreeNode(hash) for hash in hashes]` on the empty heap. -/
def Heap.ofHashes (hashes : List Bytes) : Heap :=
  ⟨hashes.length, fun a => if a < hashes.length then { hash := hashes[a]? } else {}⟩

/-- `node.Hash.ToArray()` (the hash is never `None` where this is used). -/
def Heap.hashOf (h : Heap) (a : Nat) : Bytes := (h.node a).hash.getD []

/-- neocore/Cryptography/MerkleTree.py:89-99: the body of the loop over parents, for index `i`. -/
def link (H : Bytes → Bytes) (leaves parents : List Nat) (h : Heap) (i : Nat) : Heap :=
  let p := parents.getD i 0
  let l := leaves.getD (i * 2) 0
  let h := h.modify p fun x => { x with left := some l }
  let h := h.modify l fun x => { x with parent := some p }
  let h :=
    if i * 2 + 1 = leaves.length then h.modify p fun x => { x with right := x.left }
    else
      let r := leaves.getD (i * 2 + 1) 0
      (h.modify p fun x => { x with right := some r }).modify r fun x => { x with parent := some p }
  let lc := (h.node p).left.getD 0
  let rc := (h.node p).right.getD 0
  h.modify p fun x => { x with hash := some (H (h.hashOf lc ++ h.hashOf rc)) }

/-- neocore/Cryptography/MerkleTree.py:69-101 `__Build`.
Simplification: `int((len(leaves) + 1) / 2)` is exact integer division (true below 2^53 leaves). -/
def build (H : Bytes → Bytes) (h : Heap) (leaves : List Nat) : Except Err (Heap × Nat) :=
  if leaves.length < 1 then .error .exc
  else if leaves.length = 1 then .ok (h, leaves.getD 0 0)
  else
    let numParents := (leaves.length + 1) / 2
    let parents := List.range' h.size numParents
    let h := h.alloc numParents
    let h := (List.range numParents).foldl (link H leaves parents) h
    build H h parents
termination_by leaves.length
decreasing_by simp; omega

/-- neocore/Cryptography/MerkleTree.py:62-66: the loop that follows `LeftChild` links; `none` when `fuel` steps do not
reach the end. -/
def depthLoop (h : Heap) : Nat → Nat → Nat → Option Nat
  | 0, _, _ => none
  | fuel + 1, i, depth =>
    match (h.node i).left with
    | none => some depth
    | some l => depthLoop h fuel l (depth + 1)

/-- A `MerkleTree` object: `Root`, `Depth` and the objects it refers to. -/
structure Tree where
  heap : Heap
  root : Nat
  depth : Nat

/-- neocore/Cryptography/MerkleTree.py:55-67 the constructor. (`.notImplemented` would mean the loop ran out of fuel;
that it never does is part of `C56_depth`.) -/
def construct (H : Bytes → Bytes) (hashes : List Bytes) : Except Err Tree :=
  match build H (Heap.ofHashes hashes) (List.range' 0 hashes.length) with
  | .error e => .error e
  | .ok (h, root) =>
    match depthLoop h (h.size + 1) root 1 with
    | none => .error .notImplemented
    | some d => .ok ⟨h, root, d⟩

/-- neocore/Cryptography/MerkleTree.py:108-125 `ComputeRoot`. -/
def computeRoot (H : Bytes → Bytes) (hashes : List Bytes) : Except Err Bytes :=
  if hashes.length = 0 then .error .exc
  else if hashes.length = 1 then .ok (hashes.getD 0 [])
  else match construct H hashes with
    | .error e => .error e
    | .ok t => .ok (t.heap.hashOf t.root)

/-- `set.add`. -/
def setAdd (s : List Bytes) (x : Bytes) : List Bytes := if x ∈ s then s else s ++ [x]

/-- neocore/Cryptography/MerkleTree.py:127-140 `__DepthFirstSearch`; `none` when `fuel` nested calls do not suffice. -/
def dfs (h : Heap) : Nat → Nat → List Bytes → Option (List Bytes)
  | 0, _, _ => none
  | fuel + 1, a, acc =>
    match (h.node a).left with
    | none => some (setAdd acc (h.hashOf a))
    | some l =>
      match dfs h fuel l acc with
      | none => none
      | some acc => dfs h fuel ((h.node a).right.getD 0) acc

/-- neocore/Cryptography/MerkleTree.py:142-151 `ToHashArray`: the set as a list (Python leaves the order open). -/
def toHashArray (t : Tree) : Option (List Bytes) := dfs t.heap (t.heap.size + 1) t.root []

/-- neocore/Cryptography/MerkleTree.py:168-195 `_TrimNode`. -/
def trimNode (h : Heap) (node index : Nat) : Nat → Bytes → Except Err Heap
  | 0, _ => .ok h          -- depth 0 does not occur
  | 1, _ => .ok h
  | depth + 2, flags =>
    match (h.node node).left with
    | none => .ok h
    | some l =>
      if depth = 0 then
        match flags[index * 2]?, flags[index * 2 + 1]? with
        | some f, some g =>
          if f = 0 ∧ g = 0 then .ok (h.modify node fun x => { x with left := none, right := none }) else .ok h
        | _, _ => .error .indexError
      else
        match trimNode h l (index * 2) (depth + 1) flags with
        | .error e => .error e
        | .ok h =>
          match trimNode h ((h.node node).right.getD 0) (index * 2) (depth + 1) flags with
          | .error e => .error e
          | .ok h =>
            let lc := (h.node node).left.getD 0
            let rc := (h.node node).right.getD 0
            if (h.node lc).left = none ∧ (h.node rc).right = none then
              .ok (h.modify node fun x => { x with left := none, right := none })
            else .ok h

/-- neocore/Cryptography/MerkleTree.py:153-166 `Trim`: flags are padded with zeros to one per leaf position. -/
def trim (t : Tree) (flags : Bytes) : Except Err Tree :=
  let flags := flags ++ List.replicate (2 ^ (t.depth - 1) - flags.length) 0
  match trimNode t.heap t.root 0 t.depth flags with
  | .error e => .error e
  | .ok h => .ok { t with heap := h }

end Neo.Merkle
