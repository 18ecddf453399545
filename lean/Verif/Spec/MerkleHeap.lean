import Verif.Model.Merkle
import Verif.Spec.Merkle

/-!
# Reading a linked Merkle tree (specification vocabulary)
-/

namespace Neo.Merkle
open Spec.Merkle

/-- `b` is a child of `a`. -/
def Heap.Child (h : Heap) (a b : Nat) : Prop := (h.node a).left = some b ∨ (h.node a).right = some b

/-- `b` is reached from `a` by following `k` child links. -/
def Heap.Path (h : Heap) : Nat → Nat → Nat → Prop
  | 0, a, b => a = b
  | k + 1, a, b => ∃ c, Heap.Path h k a c ∧ h.Child c b

/-- The tree a reader sees who follows child links from `a`, going down at most `k` levels. -/
def Heap.view (h : Heap) : Nat → Nat → T
  | 0, a => .tip (h.hashOf a)
  | k + 1, a =>
    match (h.node a).left, (h.node a).right with
    | some l, some r => .node (h.hashOf a) (h.view k l) (h.view k r)
    | _, _ => .tip (h.hashOf a)

end Neo.Merkle
