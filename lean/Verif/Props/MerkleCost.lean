import Verif.Model.MerkleCost
import Verif.Proofs.MerkleTree

/-!
# C184: the number of hashes behind a Merkle root
-/

namespace Neo.Props
open Py Merkle

private theorem fold_counted (H : Bytes → Bytes) (leaves parents : List Nat) : ∀ (l : List Nat) (h : Heap) (n : Nat),
    l.foldl (linkCounted H leaves parents) (h, n) = (l.foldl (link H leaves parents) h, n + l.length) := by
  intro l
  induction l with
  | nil => intro h n; rfl
  | cons i l ih =>
    intro h n
    rw [List.foldl_cons, List.foldl_cons, List.length_cons]
    change l.foldl _ (link H leaves parents h i, n + 1) = _
    rw [ih, show n + 1 + l.length = n + (l.length + 1) by omega]

/-- What is counted: the parents of all levels. -/
private def parentsOf (n : Nat) : Nat := if n < 2 then 0 else (n + 1) / 2 + parentsOf ((n + 1) / 2)
termination_by n
decreasing_by omega

private theorem build_counted (H : Bytes → Bytes) : ∀ (n : Nat) (h : Heap) (leaves : List Nat) (calls : Nat), leaves.length = n →
    buildCounted H h leaves calls = (build H h leaves).map fun r => (r.1, r.2, calls + parentsOf n) := by
  intro n
  induction n using Nat.strong_induction_on with
  | _ n ih =>
    intro h leaves calls hl
    rw [buildCounted, build, hl]
    by_cases h1 : n < 1
    · rw [if_pos h1, if_pos h1]; rfl
    · rw [if_neg h1, if_neg h1]
      by_cases h2 : n = 1
      · rw [if_pos h2, if_pos h2, parentsOf, if_pos (by omega)]; rfl
      · rw [if_neg h2, if_neg h2]
        simp only [fold_counted, List.length_range]
        rw [ih ((n + 1) / 2) (by omega) _ _ _ (by simp), parentsOf.eq_1 n, if_neg (by omega), Nat.add_assoc]

private theorem parents_bounds (n : Nat) : 1 ≤ n → n - 1 ≤ parentsOf n ∧ parentsOf n + 1 ≤ n + Nat.clog 2 n := by
  induction n using Nat.strong_induction_on with
  | _ n ih =>
    intro hn
    rw [parentsOf]
    by_cases h : n < 2
    · rw [if_pos h]; omega
    · rw [if_neg h]
      obtain ⟨h1, h2⟩ := ih ((n + 1) / 2) (by omega) (by omega)
      have hc : Nat.clog 2 n = Nat.clog 2 ((n + 1) / 2) + 1 := Nat.clog_of_two_le (by omega) (by omega)
      omega

/-- C184: the root of `n` hashes takes at least `n - 1` and fewer than `n` plus the number of levels calls of `Hash256`. -/
theorem C184_hash_calls (H : Bytes → Bytes) (hashes : List Bytes) (hne : hashes ≠ []) :
    ∃ root calls, computeRootCounted H hashes = .ok (root, calls) ∧ computeRoot H hashes = .ok root ∧
      hashes.length ≤ calls + 1 ∧ calls + 1 ≤ hashes.length + Nat.clog 2 hashes.length := by
  have hl : hashes.length ≠ 0 := by simpa using hne
  obtain ⟨hb1, hb2⟩ := parents_bounds hashes.length (by omega)
  by_cases h1 : hashes.length = 1
  · refine ⟨hashes.getD 0 [], 0, ?_, ?_, by omega, by omega⟩
    · rw [computeRootCounted, if_neg hl, if_pos h1]
    · rw [computeRoot, if_neg hl, if_pos h1]
  · obtain ⟨t, d, hc, -⟩ := construct_spec H hashes hne
    rw [construct] at hc
    cases hb : build H (Heap.ofHashes hashes) (List.range' 0 hashes.length) with
    | error e => rw [hb] at hc; cases hc
    | ok r =>
      obtain ⟨h, root⟩ := r
      have hbc := build_counted H hashes.length (Heap.ofHashes hashes) (List.range' 0 hashes.length) 0 (by simp)
      rw [hb] at hbc
      cases hd : depthLoop h (h.size + 1) root 1 with
      | none => rw [hb] at hc; simp only [hd] at hc; cases hc
      | some k =>
        refine ⟨h.hashOf root, 0 + parentsOf hashes.length, ?_, ?_, by omega, by omega⟩
        · rw [computeRootCounted, if_neg hl, if_neg h1, hbc]
          simp only [Except.map, hd]
        · rw [computeRoot, if_neg hl, if_neg h1, construct, hb]
          simp only [hd]

/-- Five hashes take 3 + 2 + 1 calls, one fewer than the bound allows. -/
example (H : Bytes → Bytes) (a b c d e : Bytes) : ∃ root calls, computeRootCounted H [a, b, c, d, e] = .ok (root, calls) ∧
    4 ≤ calls ∧ calls ≤ 7 := by
  obtain ⟨r, n, h, -, h1, h2⟩ := C184_hash_calls H [a, b, c, d, e] (by simp)
  have : Nat.clog 2 5 = 3 := by decide
  change 5 ≤ n + 1 at h1
  change n + 1 ≤ 5 + Nat.clog 2 5 at h2
  exact ⟨r, n, h, by omega, by omega⟩

end Neo.Props
