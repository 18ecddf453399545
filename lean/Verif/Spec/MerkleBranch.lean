import Verif.Spec.Merkle

/-!
# Merkle branches (specification)
-/

namespace Spec.Merkle

/-- A branch: from the bottom up, for each level whether the node is the right one of its pair, and the hash of its sibling. -/
abbrev Branch := List (Bool × List UInt8)

/-- The string hashed on one level. -/
def join (right : Bool) (x s : List UInt8) : List UInt8 := if right then s ++ x else x ++ s

/-- The hash at the upper end of a branch that begins at `x`. -/
def climb (H : List UInt8 → List UInt8) : List UInt8 → Branch → List UInt8
  | x, [] => x
  | x, (right, s) :: rest => climb H (H (join right x s)) rest

/-- The strings hashed on the way. -/
def climbed (H : List UInt8 → List UInt8) : List UInt8 → Branch → List (List UInt8)
  | _, [] => []
  | x, (right, s) :: rest => join right x s :: climbed H (H (join right x s)) rest

/-- The branch is that of position `i`: on every level the node is the right one of its pair exactly when the binary digit of `i` is 1. -/
def At : Nat → Branch → Prop
  | _, [] => True
  | i, (right, _) :: rest => (right = true ↔ i % 2 = 1) ∧ At (i / 2) rest

end Spec.Merkle
