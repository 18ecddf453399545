import Verif.Spec.Merkle
import Mathlib.Data.Nat.Log

/-!
# The complete tree over a list of leaves (specification)
-/

namespace Spec.Merkle

/-- The 2^d leaves of the complete tree over at most 2^d leaves: whatever of them is in the right half stays there, and a left half
without a right one stands on both sides. -/
def fill {α : Type} : Nat → List α → List α
  | 0, l => l
  | d + 1, l => if l.length ≤ 2 ^ d then fill d l ++ fill d l else l.take (2 ^ d) ++ fill d (l.drop (2 ^ d))

/-- The number of levels above the leaves. -/
def height {α : Type} (l : List α) : Nat := Nat.clog 2 l.length

/-- The list filled up to the next power of two. -/
def complete {α : Type} (l : List α) : List α := fill (height l) l

/-- The hashes k levels above the leaves. -/
def levelAbove (H : List UInt8 → List UInt8) : Nat → List (List UInt8) → List (List UInt8)
  | 0, l => l
  | k + 1, l => levelAbove H k (pairUp H l)

/-- Two lists whose trees agree as far down as the lower of the two goes: the complete form of one is that of a level of the other. -/
def SameTree (H : List UInt8 → List UInt8) (l₁ l₂ : List (List UInt8)) : Prop :=
  (∃ k ≤ height l₂, complete l₁ = complete (levelAbove H k l₂)) ∨ (∃ k ≤ height l₁, complete (levelAbove H k l₁) = complete l₂)

end Spec.Merkle
