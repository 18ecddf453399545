import Verif.Model.Merkle
import Verif.Spec.Merkle
import Mathlib.Data.Nat.Log

/-!
# What `__Build` leaves on the heap
-/

namespace Neo.Merkle
open Py Spec.Merkle

theorem link_odd (H : Bytes → Bytes) (leaves parents : List Nat) (h : Heap) (i p l : Nat)
    (hp : parents.getD i 0 = p) (hl : leaves.getD (i * 2) 0 = l) (hpl : p ≠ l) (hodd : i * 2 + 1 = leaves.length) :
    link H leaves parents h i = ⟨h.size, fun a =>
      if a = p then { h.node p with left := some l, right := some l, hash := some (H (h.hashOf l ++ h.hashOf l)) }
      else if a = l then { h.node l with parent := some p } else h.node a⟩ := by
  unfold link
  simp only [hp, hl, hodd, if_true, Heap.modify, Heap.hashOf, hpl, if_false, Heap.mk.injEq, true_and]
  funext a
  by_cases h1 : a = p
  · subst h1; simp [hpl, Ne.symm hpl]
  · by_cases h2 : a = l
    · subst h2; simp [h1]
    · simp [h1, h2]

theorem link_even (H : Bytes → Bytes) (leaves parents : List Nat) (h : Heap) (i p l r : Nat)
    (hp : parents.getD i 0 = p) (hl : leaves.getD (i * 2) 0 = l) (hr : leaves.getD (i * 2 + 1) 0 = r)
    (hpl : p ≠ l) (hpr : p ≠ r) (hlr : l ≠ r) (heven : i * 2 + 1 ≠ leaves.length) :
    link H leaves parents h i = ⟨h.size, fun a =>
      if a = p then { h.node p with left := some l, right := some r, hash := some (H (h.hashOf l ++ h.hashOf r)) }
      else if a = l then { h.node l with parent := some p }
      else if a = r then { h.node r with parent := some p } else h.node a⟩ := by
  unfold link
  simp only [hp, hl, hr, heven, if_false, Heap.modify, Heap.hashOf, Heap.mk.injEq, true_and]
  funext a
  by_cases h1 : a = p
  · subst h1; simp [hpl, hpr, hlr, Ne.symm hpl, Ne.symm hpr, Ne.symm hlr]
  · by_cases h2 : a = l
    · subst h2; simp [h1, hlr]
    · by_cases h3 : a = r
      · subst h3; simp [h1, h2]
      · simp [h1, h2, h3]

/-- Number of parents of a level of `n` nodes. -/
abbrev half (n : Nat) : Nat := (n + 1) / 2

/-- Index of the right child of parent `i` in a level of `n` nodes. -/
abbrev rightIx (n i : Nat) : Nat := min (2 * i + 1) (n - 1)

/-- The heap after `j` rounds of the loop of `__Build` over a level of `n` nodes at addresses `s, s+1, ...`. -/
def levelHeap (H : Bytes → Bytes) (h : Heap) (s n j : Nat) : Heap :=
  ⟨s + n + half n, fun a =>
    if a < s then h.node a
    else if a < s + n then
      if a - s < 2 * j then { h.node a with parent := some (s + n + (a - s) / 2) } else h.node a
    else if a < s + n + half n then
      if a - (s + n) < j then
        { hash := some (H (h.hashOf (s + 2 * (a - (s + n))) ++ h.hashOf (s + rightIx n (a - (s + n))))),
          left := some (s + 2 * (a - (s + n))), right := some (s + rightIx n (a - (s + n))) }
      else {}
    else h.node a⟩

theorem getD_range' (s n i : Nat) (h : i < n) : (List.range' s n).getD i 0 = s + i := by
  simp [List.getD_eq_getElem?_getD, List.getElem?_range' h]

theorem levelHeap_hashOf (H : Bytes → Bytes) (h : Heap) (s n j k : Nat) (hk : k < n) :
    (levelHeap H h s n j).hashOf (s + k) = h.hashOf (s + k) := by
  unfold Heap.hashOf levelHeap
  simp only
  rw [if_neg (by omega), if_pos (by omega)]
  split <;> rfl

theorem levelHeap_node_leaf (H : Bytes → Bytes) (h : Heap) (s n j k : Nat) (hk : k < n) :
    (levelHeap H h s n j).node (s + k) =
      if k < 2 * j then { h.node (s + k) with parent := some (s + n + k / 2) } else h.node (s + k) := by
  unfold levelHeap
  simp only
  rw [if_neg (by omega), if_pos (by omega)]
  simp

theorem levelHeap_node_parent (H : Bytes → Bytes) (h : Heap) (s n j i : Nat) (hi : i < half n) :
    (levelHeap H h s n j).node (s + n + i) =
      if i < j then
        { hash := some (H (h.hashOf (s + 2 * i) ++ h.hashOf (s + rightIx n i))), left := some (s + 2 * i),
          right := some (s + rightIx n i) }
      else {} := by
  unfold levelHeap
  simp only
  rw [if_neg (by omega), if_neg (by omega), if_pos (by omega)]
  simp

theorem levelHeap_zero (H : Bytes → Bytes) (h : Heap) (s n : Nat) (hs : h.size = s + n) :
    h.alloc (half n) = levelHeap H h s n 0 := by
  unfold Heap.alloc levelHeap
  rw [hs]
  congr 1
  funext a
  by_cases h1 : s + n ≤ a ∧ a < s + n + half n
  · rw [if_pos h1, if_neg (by omega), if_neg (by omega), if_pos h1.2, if_neg (by omega)]
  · rw [if_neg h1]
    split
    · rfl
    · split
      · rw [if_neg (by omega)]
      · rw [if_neg (by omega)]

theorem levelHeap_node_out (H : Bytes → Bytes) (h : Heap) (s n j a : Nat) (ha : a < s ∨ s + n + half n ≤ a) :
    (levelHeap H h s n j).node a = h.node a := by
  unfold levelHeap
  simp only
  rcases ha with ha | ha
  · rw [if_pos ha]
  · rw [if_neg (by omega), if_neg (by omega), if_neg (by omega)]

theorem Heap.ext' {h k : Heap} (h1 : h.size = k.size) (h2 : ∀ a, h.node a = k.node a) : h = k := by
  cases h; cases k
  simp only at h1 h2
  subst h1
  congr
  funext a
  exact h2 a

theorem addr_cases (s n a : Nat) : (a < s ∨ s + n + half n ≤ a) ∨ (∃ k, k < n ∧ a = s + k) ∨ (∃ i, i < half n ∧ a = s + n + i) := by
  by_cases h1 : a < s
  · exact .inl (.inl h1)
  · by_cases h2 : a < s + n
    · exact .inr (.inl ⟨a - s, by omega, by omega⟩)
    · by_cases h3 : a < s + n + half n
      · exact .inr (.inr ⟨a - (s + n), by omega, by omega⟩)
      · exact .inl (.inr (by omega))

theorem levelHeap_step (H : Bytes → Bytes) (h : Heap) (s n j : Nat) (hn : 2 ≤ n) (hj : j < half n) :
    link H (List.range' s n) (List.range' (s + n) (half n)) (levelHeap H h s n j) j = levelHeap H h s n (j + 1) := by
  have hhalf : half n = (n + 1) / 2 := rfl
  have hp := getD_range' (s + n) (half n) j hj
  have hl := getD_range' s n (j * 2) (by omega)
  by_cases hodd : j * 2 + 1 = n
  · rw [link_odd H _ _ _ j _ _ hp hl (by omega) (by simpa using hodd)]
    have hr : rightIx n j = 2 * j := by unfold rightIx; omega
    refine Heap.ext' (by rfl) ?_
    intro a
    simp only
    rcases addr_cases s n a with ha | ⟨k, hk, rfl⟩ | ⟨i, hi, rfl⟩
    · rw [if_neg (by omega), if_neg (by omega), levelHeap_node_out _ _ _ _ _ _ ha, levelHeap_node_out _ _ _ _ _ _ ha]
    · rw [if_neg (by omega), levelHeap_node_leaf _ _ _ _ _ _ hk, levelHeap_node_leaf _ _ _ _ _ _ hk,
        levelHeap_node_leaf _ _ _ _ _ _ (by omega)]
      by_cases hkj : k = j * 2
      · subst hkj
        rw [if_pos rfl, if_neg (by omega), if_pos (by omega)]
        simp
      · rw [if_neg (by omega)]
        by_cases h2 : k < 2 * j
        · rw [if_pos h2, if_pos (by omega)]
        · rw [if_neg h2, if_neg (by omega)]
    · rw [levelHeap_node_parent _ _ _ _ _ _ hi, levelHeap_node_parent _ _ _ _ _ _ hi, levelHeap_node_parent _ _ _ _ _ _ hj,
        levelHeap_hashOf _ _ _ _ _ _ (by omega : j * 2 < n)]
      by_cases hij : i = j
      · subst hij
        rw [if_pos rfl, if_neg (by omega), if_pos (by omega), hr, Nat.mul_comm i 2]
      · rw [if_neg (by omega), if_neg (by omega)]
        by_cases h2 : i < j
        · rw [if_pos h2, if_pos (by omega)]
        · rw [if_neg h2, if_neg (by omega)]
  · have hlt : j * 2 + 1 < n := by omega
    have hr' := getD_range' s n (j * 2 + 1) hlt
    rw [link_even H _ _ _ j _ _ _ hp hl hr' (by omega) (by omega) (by omega) (by simpa using hodd)]
    have hr : rightIx n j = 2 * j + 1 := by unfold rightIx; omega
    refine Heap.ext' (by rfl) ?_
    intro a
    simp only
    rcases addr_cases s n a with ha | ⟨k, hk, rfl⟩ | ⟨i, hi, rfl⟩
    · rw [if_neg (by omega), if_neg (by omega), if_neg (by omega), levelHeap_node_out _ _ _ _ _ _ ha,
        levelHeap_node_out _ _ _ _ _ _ ha]
    · rw [if_neg (by omega), levelHeap_node_leaf _ _ _ _ _ _ hk, levelHeap_node_leaf _ _ _ _ _ _ hk,
        levelHeap_node_leaf _ _ _ _ _ _ (by omega), levelHeap_node_leaf _ _ _ _ _ _ hlt]
      by_cases hkj : k = j * 2
      · subst hkj
        rw [if_pos rfl, if_neg (by omega), if_pos (by omega)]
        simp
      · rw [if_neg (by omega)]
        by_cases hkj' : k = j * 2 + 1
        · subst hkj'
          rw [if_pos rfl, if_neg (by omega), if_pos (by omega)]
          simp only [Node.mk.injEq, true_and, and_true, Option.some.injEq]
          omega
        · rw [if_neg (by omega)]
          by_cases h2 : k < 2 * j
          · rw [if_pos h2, if_pos (by omega)]
          · rw [if_neg h2, if_neg (by omega)]
    · rw [levelHeap_node_parent _ _ _ _ _ _ hi, levelHeap_node_parent _ _ _ _ _ _ hi, levelHeap_node_parent _ _ _ _ _ _ hj,
        levelHeap_hashOf _ _ _ _ _ _ (by omega : j * 2 < n), levelHeap_hashOf _ _ _ _ _ _ hlt]
      by_cases hij : i = j
      · subst hij
        rw [if_pos rfl, if_neg (by omega), if_pos (by omega), hr, Nat.mul_comm i 2]
      · rw [if_neg (by omega), if_neg (by omega), if_neg (by omega)]
        by_cases h2 : i < j
        · rw [if_pos h2, if_pos (by omega)]
        · rw [if_neg h2, if_neg (by omega)]

theorem levelHeap_loop (H : Bytes → Bytes) (h : Heap) (s n j : Nat) (hs : h.size = s + n) (hn : 2 ≤ n) (hj : j ≤ half n) :
    (List.range j).foldl (link H (List.range' s n) (List.range' (s + n) (half n))) (h.alloc (half n)) =
      levelHeap H h s n j := by
  induction j with
  | zero => simp [levelHeap_zero H h s n hs]
  | succ j ih =>
    rw [List.range_succ, List.foldl_append, ih (by omega)]
    exact levelHeap_step H h s n j hn (by omega)

/-- What the finished tree looks like above a level of `n` nodes at addresses `s, s+1, ...`, `d` levels below `root`. -/
inductive Built (H : Bytes → Bytes) (h : Heap) : Nat → Nat → Nat → Nat → Prop
  | top (s : Nat) : (h.node s).parent = none → h.size = s + 1 → Built H h s 1 s 0
  | level (s n root d : Nat) : 2 ≤ n →
      (∀ k, k < n → (h.node (s + k)).parent = some (s + n + k / 2)) →
      (∀ i, i < half n → (h.node (s + n + i)).left = some (s + 2 * i) ∧
        (h.node (s + n + i)).right = some (s + rightIx n i) ∧
        (h.node (s + n + i)).hash = some (H (h.hashOf (s + 2 * i) ++ h.hashOf (s + rightIx n i)))) →
      Built H h (s + n) (half n) root d → Built H h s n root (d + 1)

theorem build_spec (H : Bytes → Bytes) (h : Heap) (s n : Nat) (hn : 1 ≤ n) (hs : h.size = s + n)
    (hpar : ∀ k, k < n → (h.node (s + k)).parent = none) :
    ∃ h' r d, build H h (List.range' s n) = .ok (h', r) ∧ Built H h' s n r d ∧ s + n ≤ h'.size ∧
      (∀ a, a < s → h'.node a = h.node a) ∧
      (∀ k, k < n → (h'.node (s + k)).hash = (h.node (s + k)).hash ∧ (h'.node (s + k)).left = (h.node (s + k)).left ∧
        (h'.node (s + k)).right = (h.node (s + k)).right) := by
  induction n using Nat.strong_induction_on generalizing h s with
  | _ n ih =>
    rw [build]
    simp only [List.length_range']
    rw [if_neg (by omega)]
    by_cases h1 : n = 1
    · subst h1
      rw [if_pos rfl]
      refine ⟨h, s, 0, rfl, ?_, by omega, fun _ _ => rfl, fun _ _ => ⟨rfl, rfl, rfl⟩⟩
      exact .top s (hpar 0 (by omega)) hs
    · rw [if_neg h1]
      have hn2 : 2 ≤ n := by omega
      have hlp := levelHeap_loop H h s n (half n) hs hn2 (le_refl _)
      rw [hs]
      simp only [half] at hlp
      rw [hlp]
      obtain ⟨h', r, d, e1, e2, e3, e4, e5⟩ := ih (half n) (by unfold half; omega) (levelHeap H h s n (half n)) (s + n)
        (by unfold half; omega) rfl (by
          intro k hk
          rw [levelHeap_node_parent _ _ _ _ _ _ hk, if_pos hk])
      have hleaf : ∀ k, k < n → h'.node (s + k) = { h.node (s + k) with parent := some (s + n + k / 2) } := by
        intro k hk
        rw [e4 (s + k) (by omega), levelHeap_node_leaf _ _ _ _ _ _ hk, if_pos (by unfold half; omega)]
      have hhash : ∀ k, k < n → h'.hashOf (s + k) = h.hashOf (s + k) := by
        intro k hk
        unfold Heap.hashOf
        rw [hleaf k hk]
      refine ⟨h', r, d + 1, e1, ?_, by omega, ?_, ?_⟩
      · refine .level s n r d hn2 (fun k hk => by rw [hleaf k hk]) ?_ e2
        intro i hi
        obtain ⟨f1, f2, f3⟩ := e5 i hi
        rw [levelHeap_node_parent _ _ _ _ _ _ hi, if_pos hi] at f1 f2 f3
        refine ⟨f2, f3, ?_⟩
        rw [f1, hhash _ (by unfold half at hi; omega), hhash _ (by unfold rightIx; omega)]
      · intro a ha
        rw [e4 a (by omega), levelHeap_node_out _ _ _ _ _ _ (.inl ha)]
      · intro k hk
        rw [hleaf k hk]
        exact ⟨rfl, rfl, rfl⟩

end Neo.Merkle
