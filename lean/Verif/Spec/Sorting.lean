import Mathlib.Data.List.Perm.Basic

/-!
# What Python's `sorted` promises (specification)

`sorted(l)` compares with `<` only.  Its documentation promises a permutation of `l` in ascending order in which elements
neither of which is smaller than the other keep their order.
-/

namespace Spec

/-- Neither of two elements is smaller than the other. -/
def tied {α : Type} (lt : α → α → Bool) (x y : α) : Bool := !lt x y && !lt y x

/-- `r` is what `sorted(l)` may return when `<` is `lt`. -/
structure SortedOf {α : Type} (lt : α → α → Bool) (l r : List α) : Prop where
  perm : r.Perm l
  ascending : r.Pairwise fun a b => lt b a = false
  stable : ∀ x ∈ l, r.filter (tied lt x) = l.filter (tied lt x)

end Spec
