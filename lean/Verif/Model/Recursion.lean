import Verif.Model.ECCurve
import Verif.Model.Merkle

/-!
# Recursion depth

The recursive functions of neocore with the number of frames left on CPython's stack: `GCD` of ECCurve.py, and `__Build`, `__DepthFirstSearch`
and `_TrimNode` of MerkleTree.py (`__DepthFirstSearch` is `Merkle.dfs`, whose first argument already counts frames).  The few frames of functions
called that are not recursive are left out.
-/

namespace Neo.EC

/-- neocore/Cryptography/ECCurve.py:19-23 `GCD`, when `frames` more calls fit on CPython's stack (`sys.getrecursionlimit()`, 1000
unless changed, less the frames of the callers); `none` is RecursionError. -/
def gcdLimited : Nat → Int → Int → Option (Int × Int × Int)
  | 0, _, _ => none
  | frames + 1, a, b =>
    if a = 0 then some (b, 0, 1)
    else match gcdLimited frames (Int.fmod b a) a with
      | none => none
      | some r => some (r.1, r.2.2 - Int.fdiv b a * r.2.1, r.2.1)

/-- neocore/Cryptography/ECCurve.py:26-28 `modinv`, likewise (one frame is its own). -/
def modinvLimited : Nat → Int → Int → Option Int
  | 0, _, _ => none
  | frames + 1, x, m => match gcdLimited frames x m with
    | none => none
    | some r => some r.2.1

end Neo.EC

namespace Neo.Merkle
open Py

/-- neocore/Cryptography/MerkleTree.py:69-101 `__Build`, when `frames` more calls of it fit on the stack; `none` is RecursionError. -/
def buildLimited (H : Bytes → Bytes) : Nat → Heap → List Nat → Option (Except Err (Heap × Nat))
  | 0, _, _ => none
  | frames + 1, h, leaves =>
    if leaves.length < 1 then some (.error .exc)
    else if leaves.length = 1 then some (.ok (h, leaves.getD 0 0))
    else
      let numParents := (leaves.length + 1) / 2
      let parents := List.range' h.size numParents
      buildLimited H frames ((List.range numParents).foldl (link H leaves parents) (h.alloc numParents)) parents

/-- neocore/Cryptography/MerkleTree.py:168-195 `_TrimNode`, likewise. -/
def trimLimited : Nat → Heap → Nat → Nat → Nat → Bytes → Option (Except Err Heap)
  | 0, _, _, _, _, _ => none
  | frames + 1, h, node, index, depth, flags =>
    if depth ≤ 1 then some (.ok h)
    else match (h.node node).left with
    | none => some (.ok h)
    | some l =>
      if depth = 2 then
        match flags[index * 2]?, flags[index * 2 + 1]? with
        | some f, some g =>
          if f = 0 ∧ g = 0 then some (.ok (h.modify node fun x => { x with left := none, right := none })) else some (.ok h)
        | _, _ => some (.error .indexError)
      else
        match trimLimited frames h l (index * 2) (depth - 1) flags with
        | none => none
        | some (.error e) => some (.error e)
        | some (.ok h) =>
          match trimLimited frames h ((h.node node).right.getD 0) (index * 2) (depth - 1) flags with
          | none => none
          | some (.error e) => some (.error e)
          | some (.ok h) =>
            let lc := (h.node node).left.getD 0
            let rc := (h.node node).right.getD 0
            if (h.node lc).left = none ∧ (h.node rc).right = none then
              some (.ok (h.modify node fun x => { x with left := none, right := none }))
            else some (.ok h)

end Neo.Merkle
