import Verif.Model.UInt

/-!
# The hash objects of a Merkle tree

`Verif.Model.Merkle` models the nodes and their links, with the contents of the hashes at the time the tree is built. This module
models which `UInt256` *objects* the nodes refer to: the leaves' `Hash` attributes are the very objects of the list the caller
passes (neocore/Cryptography/MerkleTree.py:12-19, 61), the inner nodes get new ones (MerkleTree.py:98-99). Objects are those of
`UInt.Heap`: clients may deserialise into them and change the byte arrays they hold.
-/

namespace Neo.MerkleShared
open Py UInt

/-- The contents of the object of this name (programs only use names of existing objects). -/
def contents (h : Heap) (o : Nat) : Bytes :=
  match h.objs[o]? with
  | some x => h.dataOf x
  | none => []

/-- neocore/Cryptography/MerkleTree.py:98-99 `node.Hash = UInt256(data=Crypto.Hash256(bytearray(left.ToArray() + right.ToArray())))`:
the new object is the last one. `H` is `Crypto.Hash256`. -/
def newHash (H : Bytes → Bytes) (h : Heap) (left right : Nat) : Except Err (Heap × Nat) :=
  match h.construct 32 (.bytes (H (contents h left ++ contents h right))) with
  | .error e => .error e
  | .ok h' => .ok (h', h.objs.length)

/-- neocore/Cryptography/MerkleTree.py:86-99: the hash objects of one level from those of the level below; the last one of an odd
number is paired with itself. -/
def level (H : Bytes → Bytes) (h : Heap) : List Nat → Except Err (Heap × List Nat)
  | [] => .ok (h, [])
  | [a] =>
    match newHash H h a a with
    | .error e => .error e
    | .ok (h, p) => .ok (h, [p])
  | a :: b :: rest =>
    match newHash H h a b with
    | .error e => .error e
    | .ok (h, p) =>
      match level H h rest with
      | .error e => .error e
      | .ok (h, ps) => .ok (h, p :: ps)

theorem level_length (H : Bytes → Bytes) : ∀ (h : Heap) (l : List Nat) (h' : Heap) (ps : List Nat), level H h l = .ok (h', ps) →
    ps.length = (l.length + 1) / 2
  | h, [], h', ps, e => by cases e; rfl
  | h, [a], h', ps, e => by
    rw [level] at e
    cases hn : newHash H h a a with
    | error => rw [hn] at e; cases e
    | ok q => rw [hn] at e; cases e; simp
  | h, a :: b :: rest, h', ps, e => by
    rw [level] at e
    cases hn : newHash H h a b with
    | error => rw [hn] at e; cases e
    | ok q =>
      rw [hn] at e
      simp only at e
      cases hl : level H q.1 rest with
      | error => rw [hl] at e; cases e
      | ok q' =>
        rw [hl] at e
        cases e
        have := level_length H q.1 rest q'.1 q'.2 hl
        simp only [List.length_cons, this]
        omega

/-- neocore/Cryptography/MerkleTree.py:69-101 `__Build`: the hash object of the root. -/
def build (H : Bytes → Bytes) (h : Heap) (hashes : List Nat) : Except Err (Heap × Nat) :=
  if hashes.length < 1 then .error .exc
  else if hashes.length = 1 then .ok (h, hashes.getD 0 0)
  else
    match hl : level H h hashes with
    | .error e => .error e
    | .ok (h', parents) => build H h' parents
termination_by hashes.length
decreasing_by
  have := level_length H h hashes h' parents hl
  omega

end Neo.MerkleShared
