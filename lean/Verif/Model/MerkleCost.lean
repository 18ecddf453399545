import Verif.Model.Merkle

/-!
# Building a Merkle tree with the calls of `Crypto.Hash256` counted
-/

namespace Neo.Merkle
open Py

/-- neocore/Cryptography/MerkleTree.py:89-99: the body of the loop over parents (`link`), which calls `Hash256` once. -/
def linkCounted (H : Bytes → Bytes) (leaves parents : List Nat) (s : Heap × Nat) (i : Nat) : Heap × Nat :=
  (link H leaves parents s.1 i, s.2 + 1)

/-- neocore/Cryptography/MerkleTree.py:69-101 `__Build` with the calls of `Hash256` counted. -/
def buildCounted (H : Bytes → Bytes) (h : Heap) (leaves : List Nat) (calls : Nat) : Except Err (Heap × Nat × Nat) :=
  if leaves.length < 1 then .error .exc
  else if leaves.length = 1 then .ok (h, leaves.getD 0 0, calls)
  else
    let numParents := (leaves.length + 1) / 2
    let parents := List.range' h.size numParents
    let h := h.alloc numParents
    let s := (List.range numParents).foldl (linkCounted H leaves parents) (h, calls)
    buildCounted H s.1 parents s.2
termination_by leaves.length
decreasing_by simp; omega

/-- neocore/Cryptography/MerkleTree.py:108-125 `ComputeRoot` with the calls of `Hash256` counted. -/
def computeRootCounted (H : Bytes → Bytes) (hashes : List Bytes) : Except Err (Bytes × Nat) :=
  if hashes.length = 0 then .error .exc
  else if hashes.length = 1 then .ok (hashes.getD 0 [], 0)
  else match buildCounted H (Heap.ofHashes hashes) (List.range' 0 hashes.length) 0 with
    | .error e => .error e
    | .ok (h, root, calls) => match depthLoop h (h.size + 1) root 1 with
      | none => .error .notImplemented
      | some _ => .ok (h.hashOf root, calls)

end Neo.Merkle
