import Verif.Model.Recursion
import Verif.Props.Merkle

/-!
# C177: Merkle trees and CPython's recursion limit
-/

namespace Neo.Props
open Py Merkle Spec.Merkle

private theorem build_limited (H : Bytes → Bytes) (d : Nat) : ∀ (h : Heap) (leaves : List Nat),
    (leaves.length ≤ 2 ^ d → buildLimited H (d + 1) h leaves = some (build H h leaves)) ∧
    (2 ^ d < leaves.length → buildLimited H (d + 1) h leaves = none) := by
  induction d with
  | zero =>
    intro h leaves
    constructor
    · intro hl
      rw [buildLimited, build]
      by_cases h0 : leaves.length < 1
      · rw [if_pos h0, if_pos h0]
      · rw [if_neg h0, if_neg h0, if_pos (by omega), if_pos (by omega)]
    · intro hl
      rw [buildLimited, if_neg (by omega), if_neg (by omega)]
      rfl
  | succ d ih =>
    intro h leaves
    have hp : 2 ^ (d + 1) = 2 * 2 ^ d := by rw [pow_succ, Nat.mul_comm]
    have h1 := Nat.one_le_two_pow (n := d)
    constructor
    · intro hl
      rw [buildLimited, build]
      by_cases h0 : leaves.length < 1
      · rw [if_pos h0, if_pos h0]
      · rw [if_neg h0, if_neg h0]
        by_cases h1 : leaves.length = 1
        · rw [if_pos h1, if_pos h1]
        · rw [if_neg h1, if_neg h1]
          exact (ih _ _).1 (by rw [List.length_range']; omega)
    · intro hl
      rw [buildLimited, if_neg (by omega), if_neg (by omega)]
      exact (ih _ _).2 (by rw [List.length_range']; omega)

private theorem dfs_none {h : Heap} {d a : Nat} {l : List Nat} (p : Perf h d a l) : ∀ fuel acc, fuel ≤ d → Merkle.dfs h fuel a acc = none := by
  induction p with
  | tip a h1 h2 =>
    intro fuel acc hf
    obtain rfl : fuel = 0 := by omega
    rfl
  | node d a x y l1 l2 hx hy _ _ _ _ ih1 ih2 =>
    intro fuel acc hf
    cases fuel with
    | zero => rfl
    | succ f =>
      simp only [Merkle.dfs, hx]
      rw [ih1 f acc (by omega)]

private theorem trim_limited (flags : Bytes) (d : Nat) : ∀ (frames : Nat) (h : Heap) (node index : Nat), d < frames ∨ d = frames ∧ 1 ≤ d →
    trimLimited frames h node index d flags = some (trimNode h node index d flags) := by
  induction d with
  | zero =>
    intro frames h node index hf
    obtain ⟨f, rfl⟩ : ∃ f, frames = f + 1 := ⟨frames - 1, by omega⟩
    rw [trimLimited, if_pos (by omega), trimNode]
  | succ d ih =>
    intro frames h node index hf
    obtain ⟨f, rfl⟩ : ∃ f, frames = f + 1 := ⟨frames - 1, by omega⟩
    cases d with
    | zero => rw [trimLimited, if_pos (by omega), trimNode]
    | succ d =>
      rw [trimLimited, if_neg (by omega), trimNode]
      cases hl : (h.node node).left with
      | none => rfl
      | some l =>
        simp only
        by_cases h0 : d = 0
        · subst h0
          rw [if_pos rfl, if_pos rfl]
          cases flags[index * 2]? with
          | none => rfl
          | some x =>
            cases flags[index * 2 + 1]? with
            | none => rfl
            | some y =>
              simp only
              split_ifs <;> rfl
        · rw [if_neg (by omega), if_neg h0, Nat.add_sub_cancel, ih f h l (index * 2) (by omega)]
          cases trimNode h l (index * 2) (d + 1) flags with
          | error e => rfl
          | ok h' =>
            simp only
            rw [ih f _ _ _ (by omega)]
            cases trimNode h' ((h'.node node).right.getD 0) (index * 2) (d + 1) flags with
            | error e => rfl
            | ok h'' =>
              simp only
              split_ifs <;> rfl

/-- C177. A tree of n hashes is built with ⌈log2 n⌉ + 1 frames on the stack, and not with fewer; `ToHashArray` takes exactly as many, and `Trim`
no more. -/
theorem C177_frames (H : Bytes → Bytes) (hashes : List Bytes) (hne : hashes ≠ []) (frames : Nat) :
    (Nat.clog 2 hashes.length < frames ↔ buildLimited H frames (Heap.ofHashes hashes) (List.range' 0 hashes.length) =
      some (build H (Heap.ofHashes hashes) (List.range' 0 hashes.length))) ∧
    (frames ≤ Nat.clog 2 hashes.length ↔ buildLimited H frames (Heap.ofHashes hashes) (List.range' 0 hashes.length) = none) ∧
    ∃ t, construct H hashes = .ok t ∧
      (Nat.clog 2 hashes.length < frames → dfs t.heap frames t.root [] = toHashArray t ∧
        ∀ flags, trimLimited frames t.heap t.root 0 t.depth flags = some (trimNode t.heap t.root 0 t.depth flags)) ∧
      (frames ≤ Nat.clog 2 hashes.length → dfs t.heap frames t.root [] = none) := by
  have hb1 : Nat.clog 2 hashes.length < frames → buildLimited H frames (Heap.ofHashes hashes) (List.range' 0 hashes.length) =
      some (build H (Heap.ofHashes hashes) (List.range' 0 hashes.length)) := by
    intro hf
    obtain ⟨f, rfl⟩ : ∃ f, frames = f + 1 := ⟨frames - 1, by omega⟩
    refine (build_limited H f _ _).1 ?_
    rw [List.length_range']
    exact (Nat.clog_le_iff_le_pow (by norm_num)).1 (by omega)
  have hb2 : frames ≤ Nat.clog 2 hashes.length → buildLimited H frames (Heap.ofHashes hashes) (List.range' 0 hashes.length) = none := by
    intro hf
    cases frames with
    | zero => rfl
    | succ f =>
      refine (build_limited H f _ _).2 ?_
      rw [List.length_range']
      exact (Nat.lt_clog_iff_pow_lt (by norm_num)).1 (by omega)
  refine ⟨⟨hb1, fun h => ?_⟩, ⟨hb2, fun h => ?_⟩, ?_⟩
  · by_contra hcon
    rw [hb2 (by omega)] at h
    cases h
  · by_contra hcon
    rw [hb1 (by omega)] at h
    cases h
  · obtain ⟨t, d, e, b, hd, hl⟩ := construct_spec H hashes hne
    obtain ⟨l, hperf⟩ := construct_perf H b hl
    have hsz := b.size_ge
    have hc : d = Nat.clog 2 hashes.length := b.clog
    refine ⟨t, e, fun hf => ⟨?_, fun flags => ?_⟩, fun hf => dfs_none hperf _ _ (by omega)⟩
    · rw [toHashArray, hperf.dfs _ _ (by omega), hperf.dfs _ _ (by omega)]
    · exact trim_limited flags t.depth frames t.heap t.root 0 (by omega)

/-- With the default limit of 1000 and any number of hashes a computer can hold, 65 frames suffice. -/
example : Nat.clog 2 (2 ^ 64) < 65 := by
  rw [Nat.clog_pow 2 64 (by norm_num)]
  norm_num

end Neo.Props
