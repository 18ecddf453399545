import Verif.Model.Merkle
import Verif.Proofs.Primitives

/-!
# Conformance of the Merkle tree model with /repo/tests/test_cryptography.py `MerkleTreeTestCase`

Not proofs of properties: the literals of the project's own unit tests, replayed on the model by kernel evaluation, with the
real double SHA-256.
-/

namespace Tests.Merkle
open Py Neo Merkle

/-- `Crypto.Hash256`. -/
def H : Bytes → Bytes := binDblSha256 realPrims

/-- `UInt256(data=binascii.unhexlify(b'aa' * 32))` for the byte 0xaa. -/
def h (x : UInt8) : Bytes := List.replicate 32 x

example : computeRoot H [h 0xaa] = .ok (h 0xaa) := by decide +kernel
example : computeRoot H [h 0xaa, h 0xbb] = .ok (H (h 0xaa ++ h 0xbb)) := by decide +kernel
example : computeRoot H [] = .error .exc := by decide +kernel
example : (construct H []).isOk = false := by decide +kernel

/-- `ToHashArray` of five hashes. -/
def hashArray (x : Except Err Tree) : Option (List Bytes) :=
  match x with
  | .ok t => toHashArray t
  | .error _ => none

example : hashArray (construct H [h 0xaa, h 0xbb, h 0xcc, h 0xdd, h 0xee]) = some [h 0xaa, h 0xbb, h 0xcc, h 0xdd, h 0xee] := by
  decide +kernel

/-- The children of the root after a call of `_TrimNode(m.Root, index, depth, flags)` or `Trim(flags)`. -/
def children (f : Tree → Except Err Heap) (x : Except Err Tree) : Except Err (Option Nat × Option Nat) :=
  match x with
  | .error e => .error e
  | .ok t =>
    match f t with
    | .error e => .error e
    | .ok heap => .ok ((heap.node t.root).left, (heap.node t.root).right)

/-- `test_trim_node1`. -/
example : children (fun t => trimNode t.heap t.root 1 2 [0x11, 0x11, 0, 0]) (construct H [h 0xaa, h 0xbb, h 0xcc]) =
    .ok (none, none) := by decide +kernel

/-- `test_trim_node2`. -/
example : children (fun t => trimNode t.heap t.root 1 3 [0x11, 0x11, 0, 0, 0, 0])
    (construct H [h 0xaa, h 0xbb, h 0xcc, h 0xdd, h 0xee, h 0x11, h 0x22, h 0x33, h 0x44]) = .ok (none, none) := by decide +kernel

/-- `test_trim_node3`. -/
example : children (fun t => trimNode t.heap t.root 1 1 [0, 0]) (construct H [h 0xaa, h 0xbb]) = .ok (some 0, some 1) := by
  decide +kernel

/-- `test_trim_tree`. -/
example : children (fun t => (trim t [0, 0]).map (·.heap)) (construct H [h 0xaa, h 0xbb, h 0xcc]) = .ok (none, none) := by
  decide +kernel

/-- `test_node_methods`. -/
example : (construct H [h 0xaa, h 0xbb]).map (fun t =>
      (t.heap.isRoot t.root, t.heap.isLeaf t.root, t.heap.isRoot ((t.heap.node t.root).left.getD 99),
        t.heap.isLeaf ((t.heap.node t.root).left.getD 99))) = .ok (true, false, false, true) := by decide +kernel

end Tests.Merkle
