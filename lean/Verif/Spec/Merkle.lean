import Mathlib.Data.List.Basic

/-!
# The standard Merkle root (specification)
-/

namespace Spec.Merkle

/-- Hash adjacent pairs; the last element of a list of odd length is paired with itself. -/
def pairUp (H : List UInt8 → List UInt8) : List (List UInt8) → List (List UInt8)
  | [] => []
  | [x] => [H (x ++ x)]
  | x :: y :: rest => H (x ++ y) :: pairUp H rest

theorem pairUp_length (H : List UInt8 → List UInt8) (l : List (List UInt8)) : (pairUp H l).length = (l.length + 1) / 2 := by
  fun_induction pairUp H l with
  | case1 => rfl
  | case2 => simp
  | case3 x y rest ih => simp [ih]; omega

/-- Repeat until one hash is left. -/
def root (H : List UInt8 → List UInt8) : List (List UInt8) → Option (List UInt8)
  | [] => none
  | [x] => some x
  | x :: y :: rest => root H (pairUp H (x :: y :: rest))
termination_by l => l.length
decreasing_by rw [pairUp_length]; simp; omega

end Spec.Merkle

namespace Spec.Merkle

/-- All the strings that are hashed while computing the root. -/
def inputs (H : List UInt8 → List UInt8) : List (List UInt8) → List (List UInt8)
  | [] => []
  | [_] => []
  | x :: y :: rest => level (x :: y :: rest) ++ inputs H (pairUp H (x :: y :: rest))
termination_by l => l.length
decreasing_by rw [pairUp_length]; simp; omega
where
  /-- The strings hashed on one level. -/
  level : List (List UInt8) → List (List UInt8)
    | [] => []
    | [x] => [x ++ x]
    | x :: y :: rest => (x ++ y) :: level rest

/-- A binary tree with a hash in every node. -/
inductive T where
  | tip (hash : List UInt8)
  | node (hash : List UInt8) (l r : T)
  deriving DecidableEq, Repr

def T.hash : T → List UInt8
  | .tip h => h
  | .node h _ _ => h

/-- The intended effect of trimming: one flag for each leaf position (left to right; absent flags count as zero); a bottom
pair disappears when both of its flags are zero, and a node both of whose children have lost their children loses them too.
`pos` is the position of the subtree among those of its level. -/
def T.trim (flags : List UInt8) : T → Nat → T
  | .tip h, _ => .tip h
  | .node h (.tip a) (.tip b), pos =>
    if flags.getD (2 * pos) 0 = 0 ∧ flags.getD (2 * pos + 1) 0 = 0 then .tip h else .node h (.tip a) (.tip b)
  | .node h l r, pos =>
    match T.trim flags l (2 * pos), T.trim flags r (2 * pos + 1) with
    | .tip _, .tip _ => .tip h
    | l', r' => .node h l' r'

/-- Every path from the root to a tip has `d` edges. -/
def T.Perfect : Nat → T → Prop
  | 0, .tip _ => True
  | d + 1, .node _ l r => T.Perfect d l ∧ T.Perfect d r
  | _, _ => False

end Spec.Merkle
