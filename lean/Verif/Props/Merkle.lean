import Verif.Proofs.MerkleTree
import Mathlib.Tactic.Linarith
import Mathlib.Tactic.IntervalCases
import Mathlib.Tactic.Positivity

/-!
# C54–C59: the Merkle tree

`H` stands for `Crypto.Hash256` and is an arbitrary function unless a hypothesis says otherwise.
-/

namespace Neo.Props
open Py Merkle Spec.Merkle

private theorem map_hashOf {h : Heap} {hashes : List Bytes} (hl : ∀ k, k < hashes.length → (h.node k).hash = hashes[k]?) :
    (List.range' 0 hashes.length).map h.hashOf = hashes := by
  apply List.ext_getElem?
  intro i
  by_cases hi : i < hashes.length
  · rw [List.getElem?_map, List.getElem?_range' hi]
    simp [Heap.hashOf, hl i hi, hi]
  · rw [List.getElem?_eq_none (by simpa using hi), List.getElem?_eq_none (by omega)]

/-! ### C54 -/

/-- C54. `ComputeRoot` raises exactly on the empty list, and otherwise gives the standard Merkle root. -/
theorem C54_root (H : Bytes → Bytes) (hashes : List Bytes) :
    computeRoot H hashes = match root H hashes with | none => .error .exc | some x => .ok x := by
  unfold computeRoot
  by_cases h0 : hashes.length = 0
  · rw [if_pos h0, List.length_eq_zero_iff.mp h0]; simp [root]
  · rw [if_neg h0]
    by_cases h1 : hashes.length = 1
    · rw [if_pos h1]
      obtain ⟨x, rfl⟩ := List.length_eq_one_iff.mp h1
      simp [root]
    · rw [if_neg h1]
      obtain ⟨t, d, e, b, _, hl⟩ := construct_spec H hashes (by intro hh; simp [hh] at h0)
      have hr := b.root
      rw [map_hashOf (fun k hk => (hl k hk).1)] at hr
      rw [e, hr]

/-- C54. The same hash is at the root of the constructed tree. -/
theorem C54_tree_root (H : Bytes → Bytes) (hashes : List Bytes) (hne : hashes ≠ []) :
    ∃ t, construct H hashes = .ok t ∧ some (t.heap.hashOf t.root) = root H hashes := by
  obtain ⟨t, d, e, b, _, hl⟩ := construct_spec H hashes hne
  have hr := b.root
  rw [map_hashOf (fun k hk => (hl k hk).1)] at hr
  exact ⟨t, e, hr.symm⟩

/-- C54: constructing a tree of no hashes raises. -/
theorem C54_empty (H : Bytes → Bytes) : construct H [] = .error .exc ∧ computeRoot H [] = .error .exc := by
  refine ⟨?_, rfl⟩
  unfold construct
  rw [build]
  rfl

example : computeRoot (fun x => x.map (· + 1)) [[1], [2], [3]] = .ok [3, 4, 5, 5] := by
  rw [C54_root]; simp [root, pairUp]

/-! ### C55 -/

/-- The root binds the list among lists of one length: different lists with the same root contain two different strings
that were hashed to the same value. -/
theorem C103_root_binds (H : Bytes → Bytes) (w : Nat) (hH : ∀ x, (H x).length = w) (l₁ l₂ : List Bytes)
    (hlen : l₁.length = l₂.length) (h₁ : ∀ x ∈ l₁, x.length = w) (h₂ : ∀ x ∈ l₂, x.length = w)
    (hroot : computeRoot H l₁ = computeRoot H l₂) (hne : l₁ ≠ l₂) :
    ∃ x ∈ inputs H l₁, ∃ y ∈ inputs H l₂, x ≠ y ∧ H x = H y := by
  have hpair : ∀ m l₁ l₂ : List Bytes, l₁.length = l₂.length → (∀ x ∈ l₁, x.length = w) → (∀ x ∈ l₂, x.length = w) →
      pairUp H l₁ = pairUp H l₂ → l₁ ≠ l₂ → ∃ x ∈ inputs.level l₁, ∃ y ∈ inputs.level l₂, x ≠ y ∧ H x = H y := by
    intro m l₁
    clear hlen h₁ h₂ hroot hne
    fun_induction pairUp H l₁ with
    | case1 =>
      intro l₂ hlen _ _ _ hne
      cases l₂ with
      | nil => exact absurd rfl hne
      | cons => simp at hlen
    | case2 a =>
      intro l₂ hlen h₁ h₂ hp hne
      match l₂, hlen with
      | [b], _ =>
        simp only [pairUp, List.cons.injEq, and_true] at hp
        refine ⟨a ++ a, by simp [inputs.level], b ++ b, by simp [inputs.level], ?_, hp⟩
        intro hh
        have := List.append_inj_left hh (by rw [h₁ a (by simp), h₂ b (by simp)])
        exact hne (by rw [this])
    | case3 a b rest ih =>
      intro l₂ hlen h₁ h₂ hp hne
      match l₂, hlen with
      | a' :: b' :: rest', hlen =>
        simp only [pairUp, List.cons.injEq] at hp
        by_cases hab : a ++ b = a' ++ b'
        · obtain ⟨e1, e2⟩ := List.append_inj hab (by rw [h₁ a (by simp), h₂ a' (by simp)])
          subst e1 e2
          obtain ⟨x, hx, y, hy, hxy⟩ := ih rest' (by simpa using hlen) (fun x hx => h₁ x (by simp [hx]))
            (fun x hx => h₂ x (by simp [hx])) hp.2 (by intro hh; exact hne (by rw [hh]))
          exact ⟨x, by simp [inputs.level, hx], y, by simp [inputs.level, hy], hxy⟩
        · exact ⟨a ++ b, by simp [inputs.level], a' ++ b', by simp [inputs.level], hab, hp.1⟩
  have hw : ∀ l x, x ∈ pairUp H l → x.length = w := by
    intro l
    fun_induction pairUp H l with
    | case1 => simp
    | case2 => simp [hH]
    | case3 a b rest ih =>
      intro x hx
      rcases List.mem_cons.mp hx with rfl | hx
      · exact hH _
      · exact ih x hx
  have key : root H l₁ = root H l₂ := by
    rw [C54_root, C54_root] at hroot
    cases h1 : root H l₁ <;> cases h2 : root H l₂ <;> simp [h1, h2] at hroot ⊢
    exact hroot
  clear hroot
  induction hn : l₁.length using Nat.strong_induction_on generalizing l₁ l₂ with
  | _ n ih =>
    subst hn
    match l₁, l₂, hlen with
    | [], [], _ => exact absurd rfl hne
    | [a], [b], _ => simp [root] at key; exact absurd (by rw [key]) hne
    | a :: b :: r, a' :: b' :: r', hlen =>
      rw [root, root] at key
      by_cases hp : pairUp H (a :: b :: r) = pairUp H (a' :: b' :: r')
      · obtain ⟨x, hx, y, hy, hxy⟩ := hpair [] _ _ hlen h₁ h₂ hp hne
        exact ⟨x, by rw [inputs]; simp [hx], y, by rw [inputs]; simp [hy], hxy⟩
      · obtain ⟨x, hx, y, hy, hxy⟩ := ih _ (by rw [pairUp_length]; simp; omega) _ _ (by
          rw [pairUp_length, pairUp_length, hlen]) (fun x hx => hw _ x hx) (fun x hx => hw _ x hx) hp key rfl
        exact ⟨x, by rw [inputs]; simp [hx], y, by rw [inputs]; simp [hy], hxy⟩

private theorem pairUp_dup (H : Bytes → Bytes) (l : List Bytes) (x : Bytes) (hl : l.length % 2 = 0) :
    pairUp H (l ++ [x, x]) = pairUp H (l ++ [x]) := by
  fun_induction pairUp H l with
  | case1 => simp [pairUp]
  | case2 => simp at hl
  | case3 a b rest ih =>
    simp only [List.cons_append, pairUp]
    rw [ih (by simp only [List.length_cons] at hl; omega)]

/-- C55 fails for lists of different lengths: whatever the hash function is, repeating the last element of a list of odd
length at least three does not change the root. -/
theorem C55_root_binds_violated (H : Bytes → Bytes) (l : List Bytes) (x : Bytes) (h0 : l ≠ []) (hl : l.length % 2 = 0) :
    computeRoot H (l ++ [x, x]) = computeRoot H (l ++ [x]) ∧ l ++ [x, x] ≠ l ++ [x] := by
  refine ⟨?_, by simp⟩
  have hpos : 1 ≤ l.length := by
    cases l with
    | nil => exact absurd rfl h0
    | cons => simp
  rw [C54_root, C54_root, root_step H _ (by simp), root_step H (l ++ [x]) (by simp; omega), pairUp_dup H l x hl]

/-- C55 fails for lists of different lengths in a second way: the list of a tree's inner level has the root of the tree. -/
theorem C55_inner_level_violated (H : Bytes → Bytes) (l : List Bytes) (hl : 2 ≤ l.length) :
    computeRoot H (pairUp H l) = computeRoot H l ∧ pairUp H l ≠ l := by
  refine ⟨by rw [C54_root, C54_root, root_step H l hl], ?_⟩
  intro h
  have := congrArg List.length h
  rw [pairUp_length] at this
  omega

-- the hypotheses of `C103_root_binds` are met by a hash function with collisions
example : ∃ x ∈ inputs (fun _ => [7]) [[1], [2], [3]], ∃ y ∈ inputs (fun _ => [7]) [[1], [2], [4]], x ≠ y ∧
    (fun _ : Bytes => ([7] : Bytes)) x = (fun _ => [7]) y :=
  C103_root_binds (fun _ => [7]) 1 (by simp) _ _ rfl (by simp) (by simp) (by simp [C54_root, root, pairUp]) (by simp)
example := C55_root_binds_violated (fun x => x) [[1], [2]] [3] (by simp) rfl

/-! ### C56 -/

/-- C56. `Depth` of a tree over `n` hashes is one more than the base-2 logarithm of `n` rounded up; every leaf for an input
hash is reached from the root by following `Depth - 1` child links, and every childless node that can be reached from the
root by child links is at that distance. -/
theorem C56_depth (H : Bytes → Bytes) (hashes : List Bytes) (hne : hashes ≠ []) :
    ∃ t, construct H hashes = .ok t ∧ t.depth = Nat.clog 2 hashes.length + 1 ∧
      (∀ k, k < hashes.length → t.heap.Path (t.depth - 1) t.root k) ∧
      (∀ j a, t.heap.Path j t.root a → t.heap.isLeaf a = true → j = t.depth - 1) := by
  obtain ⟨t, d, e, b, hd, hl⟩ := construct_spec H hashes hne
  refine ⟨t, e, by rw [hd, b.clog], ?_, ?_⟩
  · intro k hk
    rw [hd]
    exact (b.path_dest k).mpr ⟨by omega, by omega⟩
  · intro j a hp hleaf
    rw [hd, Nat.add_sub_cancel]
    rcases Nat.lt_trichotomy j d with h | h | h
    · have := b.path_inner j a h hp
      simp only [Heap.isLeaf, Bool.and_eq_true] at hleaf
      cases hx : (t.heap.node a).left <;> simp [hx] at this hleaf
    · exact h
    · exfalso
      have : ∀ m, ¬ ∃ a, t.heap.Path (d + 1 + m) t.root a := by
        intro m
        induction m with
        | zero =>
          rintro ⟨x, c, hc, hcx⟩
          have := (b.path_dest c).mp hc
          obtain ⟨_, h2, h3⟩ := hl c (by omega)
          simp [Heap.Child, h2, h3] at hcx
        | succ m ih =>
          rintro ⟨x, c, hc, _⟩
          exact ih ⟨c, hc⟩
      exact this (j - (d + 1)) ⟨a, by rw [show d + 1 + (j - (d + 1)) = j by omega]; exact hp⟩

example : Nat.clog 2 5 + 1 = 4 := by decide

/-! ### C57 -/

/-- C57. `ToHashArray` lists each distinct input hash once and nothing else. -/
theorem C57_to_hash_array (H : Bytes → Bytes) (hashes : List Bytes) (hne : hashes ≠ []) :
    ∃ t arr, construct H hashes = .ok t ∧ toHashArray t = some arr ∧ arr.Nodup ∧ ∀ x, x ∈ arr ↔ x ∈ hashes := by
  obtain ⟨t, d, e, b, hd, hl⟩ := construct_spec H hashes hne
  obtain ⟨l, hperf⟩ := construct_perf H b hl
  have hsz := b.size_ge
  refine ⟨t, _, e, hperf.dfs _ _ (by omega), (foldl_setAdd _ _ List.nodup_nil).1, ?_⟩
  intro x
  rw [(foldl_setAdd _ _ List.nodup_nil).2]
  simp only [List.not_mem_nil, false_or, List.mem_map]
  constructor
  · rintro ⟨a, ha, rfl⟩
    have := (b.path_dest a).mp ((hperf.mem a).mp ha)
    have hlt : a < hashes.length := by omega
    unfold Heap.hashOf
    rw [(hl a hlt).1, List.getElem?_eq_getElem hlt]
    simp
  · intro hx
    obtain ⟨k, hk, rfl⟩ := List.mem_iff_getElem.mp hx
    refine ⟨k, (hperf.mem k).mpr ((b.path_dest k).mpr ⟨by omega, by omega⟩), ?_⟩
    unfold Heap.hashOf
    rw [(hl k hk).1, List.getElem?_eq_getElem hk]
    rfl

/-! ### C58 -/

/-- `h` comes from `h₀` by removing the children of some nodes. -/
private def Cut (h₀ h : Heap) : Prop := h.size = h₀.size ∧
  ∀ b, h.node b = h₀.node b ∨ h.node b = { h₀.node b with left := none, right := none }

private theorem Cut.hashOf {h₀ h : Heap} (c : Cut h₀ h) (a : Nat) : h.hashOf a = h₀.hashOf a := by
  unfold Heap.hashOf
  rcases c.2 a with e | e <;> rw [e]

private theorem trimNode_zero (h₀ : Heap) (flags : Bytes) (f0 : flags[0]? = some 0) (f1 : flags[1]? = some 0) :
    ∀ d a l, Perf h₀ (d + 1) a l → ∀ h, Cut h₀ h → ∃ h', trimNode h a 0 (d + 2) flags = .ok h' ∧ Cut h₀ h' ∧
      (h'.node a).left = none ∧ (h'.node a).right = none ∧ (∀ b, a < b → h'.node b = h.node b) ∧
      (∀ b, (h.node b).left = none → (h.node b).right = none → h'.node b = h.node b) := by
  intro d
  induction d with
  | zero =>
    intro a l p h c
    cases p with
    | node _ _ x y l1 l2 hx hy hxa hya p1 p2 =>
    rcases c.2 a with e | e
    · refine ⟨h.modify a fun x => { x with left := none, right := none }, ?_, ⟨c.1, ?_⟩, ?_, ?_, ?_, ?_⟩
      · rw [trimNode]
        simp only [Nat.zero_mul, Nat.zero_add, e, hx, if_true, f0, f1, and_self]
      · intro b
        simp only [Heap.modify]
        by_cases hb : b = a
        · subst hb; right; rw [if_pos rfl, e]
        · rw [if_neg hb]; exact c.2 b
      · simp [Heap.modify]
      · simp [Heap.modify]
      · intro b hb
        simp only [Heap.modify]
        rw [if_neg (by omega)]
      · intro b hb
        simp only [Heap.modify]
        intro hb'
        split
        · generalize h.node b = nd at *; cases nd; simp_all
        · rfl
    · refine ⟨h, ?_, c, by rw [e], by rw [e], fun _ _ => rfl, fun _ _ _ => rfl⟩
      rw [trimNode]
      simp only [e]
  | succ d ih =>
    intro a l p h c
    cases p with
    | node _ _ x y l1 l2 hx hy hxa hya p1 p2 =>
    rcases c.2 a with e | e
    · obtain ⟨h1, e1, c1, a1, b1, g1, k1⟩ := ih x l1 p1 h c
      have ea : h1.node a = h₀.node a := by rw [g1 a hxa, e]
      obtain ⟨h2, e2, c2, a2, b2, g2, k2⟩ := ih y l2 p2 h1 c1
      have ea2 : h2.node a = h₀.node a := by rw [g2 a hya, ea]
      have hx2 : (h2.node x).left = none := by rw [k2 x a1 b1, a1]
      refine ⟨h2.modify a fun x => { x with left := none, right := none }, ?_, ⟨c2.1, ?_⟩, ?_, ?_, ?_, ?_⟩
      · rw [trimNode]
        simp only [Nat.zero_mul, e, hx, Nat.succ_ne_zero, if_false]
        rw [e1]
        simp only [ea, hy, Option.getD_some]
        rw [e2]
        simp only [ea2, hx, hy, Option.getD_some]
        rw [if_pos ⟨hx2, b2⟩]
      · intro b
        simp only [Heap.modify]
        by_cases hb : b = a
        · subst hb; right; rw [if_pos rfl, ea2]
        · rw [if_neg hb]; exact c2.2 b
      · simp [Heap.modify]
      · simp [Heap.modify]
      · intro b hb
        simp only [Heap.modify]
        rw [if_neg (by omega), g2 b (by omega), g1 b (by omega)]
      · intro b hb hb'
        have hb1 := k1 b hb hb'
        have hb2 := k2 b (by rw [hb1, hb]) (by rw [hb1, hb'])
        simp only [Heap.modify]
        have hb3 : h2.node b = h.node b := by rw [hb2, hb1]
        rw [hb3]
        split
        · generalize h.node b = nd at *; cases nd; simp_all
        · rfl
    · refine ⟨h, ?_, c, by rw [e], by rw [e], fun _ _ => rfl, fun _ _ _ => rfl⟩
      rw [trimNode]
      simp only [e]

private theorem trimNode_keep (h : Heap) (flags : Bytes) (f g : UInt8) (f0 : flags[0]? = some f) (f1 : flags[1]? = some g)
    (hfg : ¬ (f = 0 ∧ g = 0)) :
    ∀ d a l, Perf h d a l → trimNode h a 0 (d + 1) flags = .ok h := by
  intro d
  induction d with
  | zero => intro a l p; rw [trimNode]
  | succ d ih =>
    intro a l p
    cases p with
    | node _ _ x y l1 l2 hx hy hxa hya p1 p2 =>
    rw [trimNode]
    simp only [Nat.zero_mul, hx, Nat.zero_add, f0, f1]
    by_cases hd : d = 0
    · rw [if_pos hd, if_neg hfg]
    · rw [if_neg hd, ih x l1 p1]
      simp only [hy, Option.getD_some]
      rw [ih y l2 p2]
      simp only
      rw [if_neg]
      rintro ⟨hn, _⟩
      cases p1 with
      | tip => exact hd rfl
      | node _ _ _ _ _ _ hx' =>
        rw [hx, Option.getD_some, hx'] at hn
        simp at hn

private theorem view_cut {h h' : Heap} (c : Cut h h') (k a : Nat) (hl : (h'.node a).left = none) :
    h'.view k a = .tip (h.hashOf a) := by
  cases k with
  | zero => simp [Heap.view, c.hashOf]
  | succ k => simp [Heap.view, hl, c.hashOf]

private theorem pad_get (flags : Bytes) (n i : Nat) (hi : i < n) :
    (flags ++ List.replicate (n - flags.length) 0)[i]? = some (flags.getD i 0) := by
  by_cases h : i < flags.length
  · rw [List.getElem?_append_left h]; simp [h]
  · rw [List.getElem?_append_right (by omega), List.getElem?_replicate]
    rw [if_pos (by omega)]
    simp [List.getElem?_eq_none (by omega : flags.length ≤ i)]

/-- What `Trim` really does (all inputs): it never fails and never changes a hash, a parent link or the root; if the first
two flags are both zero the whole tree below the root disappears, otherwise nothing changes at all. -/
theorem C94_trim_effect (H : Bytes → Bytes) (hashes : List Bytes) (hne : hashes ≠ []) (flags : Bytes) :
    ∃ t t', construct H hashes = .ok t ∧ trim t flags = .ok t' ∧ t'.root = t.root ∧ t'.depth = t.depth ∧
      (∀ a, t'.heap.hashOf a = t.heap.hashOf a ∧ (t'.heap.node a).parent = (t.heap.node a).parent) ∧
      t'.heap.view t.depth t'.root =
        if flags.getD 0 0 = 0 ∧ flags.getD 1 0 = 0 then .tip (t.heap.hashOf t.root) else t.heap.view t.depth t.root := by
  obtain ⟨t, d, e, b, hd, hl⟩ := construct_spec H hashes hne
  obtain ⟨l, hperf⟩ := construct_perf H b hl
  refine ⟨t, ?_⟩
  unfold trim
  rw [hd]
  simp only [Nat.add_sub_cancel]
  cases d with
  | zero =>
    refine ⟨{ t with heap := t.heap }, e, ?_, rfl, hd, fun a => ⟨rfl, rfl⟩, ?_⟩
    · rw [trimNode, ← hd]
    · cases hperf with
      | tip _ h1 h2 => split <;> simp [Heap.view, h1]
  | succ d =>
    have hpw : 2 ≤ 2 ^ (d + 1) := by
      rw [pow_succ]
      have := Nat.one_le_two_pow (n := d)
      omega
    have f0 := pad_get flags (2 ^ (d + 1)) 0 (by omega)
    have f1 := pad_get flags (2 ^ (d + 1)) 1 (by omega)
    by_cases hz : flags.getD 0 0 = 0 ∧ flags.getD 1 0 = 0
    · rw [hz.1] at f0
      rw [hz.2] at f1
      obtain ⟨h', e1, c1, a1, b1, _, _⟩ := trimNode_zero t.heap _ f0 f1 d t.root l hperf t.heap ⟨rfl, fun _ => .inl rfl⟩
      refine ⟨{ t with heap := h' }, e, ?_, rfl, hd, fun a => ⟨c1.hashOf a, ?_⟩, ?_⟩
      · rw [e1, ← hd]
      · rcases c1.2 a with e | e <;> simp only [e]
      · rw [if_pos hz]
        exact view_cut c1 _ _ a1
    · refine ⟨{ t with heap := t.heap }, e, ?_, rfl, hd, fun a => ⟨rfl, rfl⟩, ?_⟩
      · rw [trimNode_keep t.heap _ _ _ f0 f1 hz (d + 1) t.root l hperf, ← hd]
      · rw [if_neg hz]

private theorem view_perf {h : Heap} {d a : Nat} {l : List Nat} (p : Perf h d a l) : ∀ k, d ≤ k →
    h.view k a = h.view d a ∧ (h.view d a).Perfect d := by
  induction p with
  | tip a h1 h2 =>
    intro k _
    cases k <;> simp [Heap.view, T.Perfect, h1]
  | node d a x y l1 l2 hx hy _ _ _ _ ih1 ih2 =>
    intro k hk
    obtain ⟨k, rfl⟩ : ∃ m, k = m + 1 := ⟨k - 1, by omega⟩
    simp only [Heap.view, hx, hy, T.Perfect]
    rw [(ih1 k (by omega)).1, (ih2 k (by omega)).1]
    exact ⟨rfl, (ih1 d (le_refl _)).2, (ih2 d (le_refl _)).2⟩

private theorem trim_all (flags : Bytes) (m : Nat) (hz : ∀ i, i < m → flags.getD i 0 = 0) : ∀ (d : Nat) (t : T) (pos : Nat),
    t.Perfect d → (pos + 1) * 2 ^ d ≤ m → t.trim flags pos = .tip t.hash := by
  intro d
  induction d with
  | zero =>
    intro t pos hp _
    cases t with
    | tip => rfl
    | node => exact absurd hp (by simp [T.Perfect])
  | succ d ih =>
    intro t pos hp hm
    rw [pow_succ] at hm
    match t, hp with
    | .node x l r, ⟨hl, hr⟩ =>
      have h1 := ih l (2 * pos) hl (by nlinarith [Nat.one_le_two_pow (n := d)])
      have h2 := ih r (2 * pos + 1) hr (by nlinarith [Nat.one_le_two_pow (n := d)])
      have h3 : (pos + 1) * 2 ≤ m := le_trans (by nlinarith [Nat.one_le_two_pow (n := d)]) hm
      have hz0 := hz (2 * pos) (by omega)
      have hz1 := hz (2 * pos + 1) (by omega)
      cases l with
      | tip a =>
        cases r with
        | tip b => simp only [T.trim, hz0, hz1, and_self, if_true, T.hash]
        | node => simp only [T.trim, h1, h2, T.hash]
      | node => simp only [T.trim, h1, h2, T.hash]

private theorem trim_none (flags : Bytes) (m : Nat)
    (hz : ∀ i, 2 * i < m → ¬ (flags.getD (2 * i) 0 = 0 ∧ flags.getD (2 * i + 1) 0 = 0)) : ∀ (d : Nat) (t : T) (pos : Nat),
    t.Perfect d → (pos + 1) * 2 ^ d ≤ m → t.trim flags pos = t := by
  intro d
  induction d with
  | zero =>
    intro t pos hp _
    cases t with
    | tip => rfl
    | node => exact absurd hp (by simp [T.Perfect])
  | succ d ih =>
    intro t pos hp hm
    rw [pow_succ] at hm
    match t, hp with
    | .node x l r, ⟨hl, hr⟩ =>
      have h1 := ih l (2 * pos) hl (by nlinarith [Nat.one_le_two_pow (n := d)])
      have h2 := ih r (2 * pos + 1) hr (by nlinarith [Nat.one_le_two_pow (n := d)])
      have h3 : (pos + 1) * 2 ≤ m := le_trans (by nlinarith [Nat.one_le_two_pow (n := d)]) hm
      have hz0 := hz pos (by omega)
      cases l with
      | tip a =>
        cases r with
        | tip b => simp only [T.trim]; rw [if_neg hz0]
        | node => exfalso; cases d <;> simp [T.Perfect] at hl hr
      | node => simp only [T.trim, h1, h2]

/-- C58 where it holds: `Trim` has the intended effect if either all flags of the tree's leaf positions are zero, or no
bottom pair has two zero flags (absent flags count as zero), or the tree has at most two leaves. -/
theorem C58_trim_partial (H : Bytes → Bytes) (hashes : List Bytes) (hne : hashes ≠ []) (flags : Bytes)
    (hf : (∀ i, i < 2 ^ Nat.clog 2 hashes.length → flags.getD i 0 = 0) ∨
      (∀ i, 2 * i < 2 ^ Nat.clog 2 hashes.length → ¬ (flags.getD (2 * i) 0 = 0 ∧ flags.getD (2 * i + 1) 0 = 0)) ∨
      hashes.length ≤ 2) :
    ∃ t t', construct H hashes = .ok t ∧ trim t flags = .ok t' ∧
      t'.heap.view t.depth t'.root = (t.heap.view t.depth t.root).trim flags 0 := by
  obtain ⟨t, t', e, e', h1, h2, h3, h4⟩ := C94_trim_effect H hashes hne flags
  obtain ⟨t₁, d, e₁, b, hd, hl⟩ := construct_spec H hashes hne
  obtain rfl : t₁ = t := by rw [e] at e₁; simpa using e₁.symm
  obtain ⟨l, hperf⟩ := construct_perf H b hl
  have hv := view_perf hperf t₁.depth (by omega)
  have hdc := b.clog
  rw [← hdc] at hf
  refine ⟨t₁, t', e, e', ?_⟩
  rw [h4, hv.1]
  have hhash : ∀ k a, (t₁.heap.view k a).hash = t₁.heap.hashOf a := by
    intro k a
    cases k with
    | zero => rfl
    | succ k => simp only [Heap.view]; split <;> rfl
  have hall : (∀ i, i < 2 ^ d → flags.getD i 0 = 0) →
      (if flags.getD 0 0 = 0 ∧ flags.getD 1 0 = 0 then T.tip (t₁.heap.hashOf t₁.root) else t₁.heap.view d t₁.root) =
      (t₁.heap.view d t₁.root).trim flags 0 := by
    intro hf
    rw [trim_all flags _ hf d _ 0 hv.2 (by omega), hhash]
    cases d with
    | zero => simp [Heap.view]
    | succ d =>
      rw [if_pos ⟨hf 0 (by positivity), hf 1 (by rw [pow_succ]; have := Nat.one_le_two_pow (n := d); omega)⟩]
  have hnone : (∀ i, 2 * i < 2 ^ d → ¬ (flags.getD (2 * i) 0 = 0 ∧ flags.getD (2 * i + 1) 0 = 0)) →
      (if flags.getD 0 0 = 0 ∧ flags.getD 1 0 = 0 then T.tip (t₁.heap.hashOf t₁.root) else t₁.heap.view d t₁.root) =
      (t₁.heap.view d t₁.root).trim flags 0 := by
    intro hf
    rw [trim_none flags _ hf d _ 0 hv.2 (by omega), if_neg (hf 0 (by positivity))]
  rcases hf with hf | hf | hf
  · exact hall hf
  · exact hnone hf
  · have hd1 : d ≤ 1 := by
      rw [hdc]
      exact (Nat.clog_le_iff_le_pow (by omega)).mpr (by simpa using hf)
    by_cases hz : flags.getD 0 0 = 0 ∧ flags.getD 1 0 = 0
    · apply hall
      intro i hi
      have : i < 2 := lt_of_lt_of_le hi (le_trans (Nat.pow_le_pow_right (by omega) hd1) (by omega))
      interval_cases i
      · exact hz.1
      · exact hz.2
    · apply hnone
      intro i hi
      have : 2 * i < 2 := lt_of_lt_of_le hi (le_trans (Nat.pow_le_pow_right (by omega) hd1) (by omega))
      obtain rfl : i = 0 := by omega
      exact hz

private theorem trim_tip (flags : Bytes) : ∀ (d : Nat) (t : T) (pos : Nat) (h : List UInt8),
    t.Perfect (d + 1) → t.trim flags pos = .tip h → ∀ i, pos * 2 ^ (d + 1) ≤ i → i < (pos + 1) * 2 ^ (d + 1) → flags.getD i 0 = 0 := by
  intro d
  induction d with
  | zero =>
    intro t pos h hp ht i h1 h2
    match t, hp with
    | .node x (.tip a) (.tip b), _ =>
      simp only [T.trim] at ht
      by_cases hz : flags.getD (2 * pos) 0 = 0 ∧ flags.getD (2 * pos + 1) 0 = 0
      · obtain rfl | rfl : i = 2 * pos ∨ i = 2 * pos + 1 := by omega
        · exact hz.1
        · exact hz.2
      · rw [if_neg hz] at ht
        cases ht
  | succ d ih =>
    intro t pos h hp ht i h1 h2
    match t, hp with
    | .node x (.node y a b) r, ⟨hl, hr⟩ =>
      rw [T.trim] at ht
      · have e := pow_succ 2 (d + 1)
        cases hl' : T.trim flags (.node y a b) (2 * pos) with
        | node => rw [hl'] at ht; simp at ht
        | tip u =>
          cases hr' : T.trim flags r (2 * pos + 1) with
          | node => rw [hl', hr'] at ht; simp at ht
          | tip v =>
            by_cases hi : i < (2 * pos + 1) * 2 ^ (d + 1)
            · exact ih _ _ u hl hl' i (by rw [e] at h1; nlinarith) hi
            · exact ih _ _ v hr hr' i (by omega) (by rw [e] at h2; nlinarith)
      · intro _ _ h; cases h

private theorem trim_same (flags : Bytes) : ∀ (d : Nat) (t : T) (pos : Nat),
    t.Perfect (d + 1) → t.trim flags pos = t → ∀ i, pos * 2 ^ (d + 1) ≤ 2 * i → 2 * i < (pos + 1) * 2 ^ (d + 1) →
      ¬ (flags.getD (2 * i) 0 = 0 ∧ flags.getD (2 * i + 1) 0 = 0) := by
  intro d
  induction d with
  | zero =>
    intro t pos hp ht i h1 h2
    match t, hp with
    | .node x (.tip a) (.tip b), _ =>
      simp only [T.trim] at ht
      obtain rfl : i = pos := by omega
      intro hz
      rw [if_pos hz] at ht
      cases ht
  | succ d ih =>
    intro t pos hp ht i h1 h2
    match t, hp with
    | .node x (.node y a b) (.node z c e'), ⟨hl, hr⟩ =>
      rw [T.trim] at ht
      · have e := pow_succ 2 (d + 1)
        have key : T.trim flags (.node y a b) (2 * pos) = .node y a b ∧ T.trim flags (.node z c e') (2 * pos + 1) = .node z c e' := by
          cases hl' : T.trim flags (.node y a b) (2 * pos) <;> cases hr' : T.trim flags (.node z c e') (2 * pos + 1) <;>
            rw [hl', hr'] at ht <;> simp_all
        by_cases hi : 2 * i < (2 * pos + 1) * 2 ^ (d + 1)
        · exact ih _ _ hl key.1 i (by rw [e] at h1; nlinarith) hi
        · exact ih _ _ hr key.2 i (by omega) (by rw [e] at h2; nlinarith)
      · intro _ _ h; cases h

/-- C58, exactly where it holds: `Trim` has the intended effect if and only if all flags of the tree's leaf positions are zero, or no
bottom pair has two zero flags (absent flags count as zero), or the tree has at most two leaves. -/
theorem C58_iff_partial (H : Bytes → Bytes) (hashes : List Bytes) (hne : hashes ≠ []) (flags : Bytes) :
    ∃ t t', construct H hashes = .ok t ∧ trim t flags = .ok t' ∧
      (t'.heap.view t.depth t'.root = (t.heap.view t.depth t.root).trim flags 0 ↔
        (∀ i, i < 2 ^ Nat.clog 2 hashes.length → flags.getD i 0 = 0) ∨
        (∀ i, 2 * i < 2 ^ Nat.clog 2 hashes.length → ¬ (flags.getD (2 * i) 0 = 0 ∧ flags.getD (2 * i + 1) 0 = 0)) ∨
        hashes.length ≤ 2) := by
  obtain ⟨t, t', e, e', h1, h2, h3, h4⟩ := C94_trim_effect H hashes hne flags
  obtain ⟨t₁, d, e₁, b, hd, hl⟩ := construct_spec H hashes hne
  obtain rfl : t₁ = t := by rw [e] at e₁; simpa using e₁.symm
  obtain ⟨l, hperf⟩ := construct_perf H b hl
  have hv := view_perf hperf t₁.depth (by omega)
  have hdc := b.clog
  refine ⟨t₁, t', e, e', fun h => ?_, fun h => ?_⟩
  · rw [h4, hv.1] at h
    rw [← hdc]
    cases d with
    | zero =>
      right; right
      have := Nat.lt_of_not_le fun h => (Nat.clog_pos (b := 2) (by omega) h).ne hdc
      omega
    | succ d =>
      by_cases hz : flags.getD 0 0 = 0 ∧ flags.getD 1 0 = 0
      · rw [if_pos hz] at h
        exact .inl fun i hi => trim_tip flags d _ 0 _ hv.2 h.symm i (by omega) (by omega)
      · rw [if_neg hz] at h
        exact .inr (.inl fun i hi => trim_same flags d _ 0 hv.2 h.symm i (by omega) (by omega))
  · obtain ⟨u, u', x, x', y⟩ := C58_trim_partial H hashes hne flags h
    obtain rfl : u = t₁ := by rw [e] at x; simpa using x.symm
    obtain rfl : u' = t' := by rw [e'] at x'; simpa using x'.symm
    exact y

/-- Three leaves, flags 1,0,1,1: no pair has two zero flags. Flags 1,0,0,0: the right pair has, and stays. -/
example : (∀ i, 2 * i < 4 → ¬ (([1, 0, 1, 1] : Bytes).getD (2 * i) 0 = 0 ∧ ([1, 0, 1, 1] : Bytes).getD (2 * i + 1) 0 = 0)) ∧
    ¬ (∀ i, 2 * i < 4 → ¬ (([1, 0, 0, 0] : Bytes).getD (2 * i) 0 = 0 ∧ ([1, 0, 0, 0] : Bytes).getD (2 * i + 1) 0 = 0)) :=
  ⟨fun i hi => by obtain rfl | rfl : i = 0 ∨ i = 1 := by omega
                  all_goals decide, fun h => h 1 (by decide) (by decide)⟩

/-- C58 fails: with four leaves and flags 0,0,1,1 the pair whose flags are set disappears too, and with flags 1,1,0,0 the
pair with zero flags stays. -/
theorem C58_trim_violated (H : Bytes → Bytes) (a b c d : Bytes) :
    ∃ t t₁ t₂, construct H [a, b, c, d] = .ok t ∧ trim t [0, 0, 1, 1] = .ok t₁ ∧ trim t [1, 1, 0, 0] = .ok t₂ ∧
      t₁.heap.view t.depth t₁.root ≠ (t.heap.view t.depth t.root).trim [0, 0, 1, 1] 0 ∧
      t₂.heap.view t.depth t₂.root ≠ (t.heap.view t.depth t.root).trim [1, 1, 0, 0] 0 := by
  obtain ⟨t, t₁, e, e1, _, _, _, h1⟩ := C94_trim_effect H [a, b, c, d] (by simp) [0, 0, 1, 1]
  obtain ⟨t', t₂, e', e2, _, _, _, h2⟩ := C94_trim_effect H [a, b, c, d] (by simp) [1, 1, 0, 0]
  obtain rfl : t' = t := by rw [e] at e'; simpa using e'.symm
  obtain ⟨t₃, dd, e₁, bb, hd, hl⟩ := construct_spec H [a, b, c, d] (by simp)
  obtain rfl : t₃ = t' := by rw [e] at e₁; simpa using e₁.symm
  obtain ⟨l, hperf⟩ := construct_perf H bb hl
  have hdd : dd = 2 := by rw [bb.clog]; exact (by decide : Nat.clog 2 4 = 2)
  subst hdd
  have hv := view_perf hperf t₃.depth (by omega)
  refine ⟨t₃, t₁, t₂, e, e1, e2, ?_, ?_⟩
  · rw [h1, hv.1, if_pos (by decide)]
    have hp := hv.2
    match h : t₃.heap.view 2 t₃.root, hp with
    | .node x (.node y (.tip a) (.tip b)) (.node z (.tip c) (.tip d)), _ => simp [T.trim]
  · rw [h2, hv.1, if_neg (by decide)]
    have hp := hv.2
    match h : t₃.heap.view 2 t₃.root, hp with
    | .node x (.node y (.tip a) (.tip b)) (.node z (.tip c) (.tip d)), _ => simp [T.trim]

/-! ### C173 -/

private theorem trim_of_cut (t : Tree) (h : (t.heap.node t.root).left = none) (flags : Bytes) : trim t flags = .ok t := by
  unfold trim
  have : ∀ fl, trimNode t.heap t.root 0 t.depth fl = .ok t.heap := by
    intro fl
    match t.depth with
    | 0 => rfl
    | 1 => rfl
    | d + 2 => rw [trimNode, h]
  simp only [this]

private theorem trim_once {H : Bytes → Bytes} {hashes : List Bytes} (hne : hashes ≠ []) {t : Tree} (e : construct H hashes = .ok t)
    (flags : Bytes) :
    (flags.getD 0 0 = 0 ∧ flags.getD 1 0 = 0 → ∃ t', trim t flags = .ok t' ∧ t'.root = t.root ∧ t'.depth = t.depth ∧
      (∀ a, t'.heap.hashOf a = t.heap.hashOf a) ∧ (t'.heap.node t'.root).left = none) ∧
    (¬ (flags.getD 0 0 = 0 ∧ flags.getD 1 0 = 0) → trim t flags = .ok t) := by
  obtain ⟨t₁, d, e₁, b, hd, hl⟩ := construct_spec H hashes hne
  obtain rfl : t₁ = t := by rw [e] at e₁; simpa using e₁.symm
  obtain ⟨l, hperf⟩ := construct_perf H b hl
  cases d with
  | zero =>
    have hleft : (t₁.heap.node t₁.root).left = none := by cases hperf with | tip _ h1 h2 => exact h1
    have := trim_of_cut t₁ hleft flags
    exact ⟨fun _ => ⟨t₁, this, rfl, rfl, fun _ => rfl, hleft⟩, fun _ => this⟩
  | succ d =>
    have hpw : 2 ≤ 2 ^ (d + 1) := by
      rw [pow_succ]
      have := Nat.one_le_two_pow (n := d)
      omega
    have f0 := pad_get flags (2 ^ (d + 1)) 0 (by omega)
    have f1 := pad_get flags (2 ^ (d + 1)) 1 (by omega)
    unfold trim
    rw [hd]
    simp only [Nat.add_sub_cancel]
    refine ⟨fun hz => ?_, fun hz => ?_⟩
    · rw [hz.1] at f0
      rw [hz.2] at f1
      obtain ⟨h', e1, c1, a1, b1, _, _⟩ := trimNode_zero t₁.heap _ f0 f1 d t₁.root l hperf t₁.heap ⟨rfl, fun _ => .inl rfl⟩
      exact ⟨{ t₁ with heap := h' }, by rw [e1, ← hd], rfl, hd, fun a => c1.hashOf a, a1⟩
    · rw [trimNode_keep t₁.heap _ _ _ f0 f1 hz (d + 1) t₁.root l hperf, ← hd]

/-- C173. After any sequence of `Trim` calls on a constructed tree, none of which raises: if some call had flags beginning with
two zeros (missing flags count as zeros), the root is the only node left and `ToHashArray` returns its hash alone; otherwise the
tree is as it was constructed. The root, its hash and `Depth` are those of the constructed tree in any case. -/
theorem C173_trims (H : Bytes → Bytes) (hashes : List Bytes) (hne : hashes ≠ []) (calls : List Bytes) :
    ∃ t t', construct H hashes = .ok t ∧ calls.foldlM trim t = .ok t' ∧
      t'.root = t.root ∧ t'.depth = t.depth ∧ (∀ a, t'.heap.hashOf a = t.heap.hashOf a) ∧
      ((∃ flags ∈ calls, flags.getD 0 0 = 0 ∧ flags.getD 1 0 = 0) →
        (∀ k, t'.heap.view k t'.root = .tip (t.heap.hashOf t.root)) ∧ toHashArray t' = some [t.heap.hashOf t.root]) ∧
      ((¬ ∃ flags ∈ calls, flags.getD 0 0 = 0 ∧ flags.getD 1 0 = 0) → t' = t) := by
  obtain ⟨t, d, e, b, hd, hl⟩ := construct_spec H hashes hne
  refine ⟨t, ?_⟩
  have hcut : ∀ (calls : List Bytes) (t' : Tree), (t'.heap.node t'.root).left = none → calls.foldlM trim t' = .ok t' := by
    intro calls
    induction calls with
    | nil => intro t' _; rfl
    | cons f fs ih =>
      intro t' h
      rw [List.foldlM_cons, trim_of_cut t' h f]
      exact ih t' h
  have hshow : ∀ t' : Tree, (t'.heap.node t'.root).left = none →
      (∀ k, t'.heap.view k t'.root = .tip (t'.heap.hashOf t'.root)) ∧ toHashArray t' = some [t'.heap.hashOf t'.root] := by
    intro t' h
    refine ⟨fun k => ?_, ?_⟩
    · cases k with
      | zero => simp [Heap.view]
      | succ k => simp [Heap.view, h]
    · rw [toHashArray, dfs, h]
      rfl
  induction calls with
  | nil => exact ⟨t, e, rfl, rfl, rfl, fun _ => rfl, (fun h => by simp at h), fun _ => rfl⟩
  | cons f fs ih =>
    obtain ⟨h1, h2⟩ := trim_once hne e f
    by_cases hz : f.getD 0 0 = 0 ∧ f.getD 1 0 = 0
    · obtain ⟨t', ht, hr, hdp, hh, hleft⟩ := h1 hz
      refine ⟨t', e, ?_, hr, hdp, hh, fun _ => ?_, fun hno => absurd ⟨f, List.mem_cons_self, hz⟩ hno⟩
      · rw [List.foldlM_cons, ht]
        exact hcut fs t' hleft
      · have := hshow t' hleft
        rw [hh, hr] at this
        rw [hr]
        exact this
    · obtain ⟨t', _, ht, hr, hdp, hh, hyes, hno⟩ := ih
      refine ⟨t', e, ?_, hr, hdp, hh, fun hex => hyes ?_, fun hex => hno fun ⟨g, hg, hg'⟩ => hex ⟨g, List.mem_cons_of_mem _ hg, hg'⟩⟩
      · rw [List.foldlM_cons, h2 hz]
        exact ht
      · obtain ⟨g, hg, hg'⟩ := hex
        rcases List.mem_cons.mp hg with rfl | hg
        · exact absurd hg' hz
        · exact ⟨g, hg, hg'⟩

/-- Three calls on a tree of three leaves, the second of which cuts. -/
example : ∃ flags ∈ ([[1, 0], [0, 0, 7], [1]] : List Bytes), flags.getD 0 0 = 0 ∧ flags.getD 1 0 = 0 := by decide

/-! ### C59 -/

/-- C59. In a constructed tree (whose objects are those with addresses below `size`): the root is the only object without
parent; both children of a node have it as parent; every parent has the node as child; the childless objects are exactly
those created for the input hashes, they carry these hashes, and every other node carries the hash of its children's
concatenated hashes. -/
theorem C59_links (H : Bytes → Bytes) (hashes : List Bytes) (hne : hashes ≠ []) :
    ∃ t, construct H hashes = .ok t ∧ t.root < t.heap.size ∧ ∀ a, a < t.heap.size →
      (t.heap.isRoot a = true ↔ a = t.root) ∧
      (∀ c, t.heap.Child a c → (t.heap.node c).parent = some a ∧ c < t.heap.size) ∧
      (∀ p, (t.heap.node a).parent = some p → t.heap.Child p a ∧ p < t.heap.size) ∧
      (t.heap.isLeaf a = true ↔ a < hashes.length) ∧
      (a < hashes.length → (t.heap.node a).hash = hashes[a]?) ∧
      (hashes.length ≤ a → ∃ x y, (t.heap.node a).left = some x ∧ (t.heap.node a).right = some y ∧
        (t.heap.node a).hash = some (H (t.heap.hashOf x ++ t.heap.hashOf y))) := by
  obtain ⟨t, d, e, b, hd, hl⟩ := construct_spec H hashes hne
  refine ⟨t, e, b.root_lt.2, ?_⟩
  intro a ha
  obtain ⟨hp1, hp2⟩ := b.parent a (by omega) ha
  refine ⟨?_, ?_, ?_, ?_, fun h => (hl a h).1, ?_⟩
  · rw [← hp1, Heap.isRoot, Option.isNone_iff_eq_none]
  · intro c hc
    by_cases h : a < hashes.length
    · obtain ⟨_, h2, h3⟩ := hl a h
      simp [Heap.Child, h2, h3] at hc
    · obtain ⟨x, y, e1, e2, e3, e4, _, _, e7, e8, _⟩ := b.inner a (by omega) ha
      unfold Heap.Child at hc
      rw [e1, e2] at hc
      simp only [Option.some.injEq] at hc
      rcases hc with rfl | rfl
      · exact ⟨e7, by omega⟩
      · exact ⟨e8, by omega⟩
  · intro p hp
    obtain ⟨h1, _, h3⟩ := hp2 p hp
    exact ⟨h1, h3⟩
  · unfold Heap.isLeaf
    by_cases h : a < hashes.length
    · obtain ⟨_, h2, h3⟩ := hl a h
      simp [h2, h3, h]
    · obtain ⟨x, y, e1, e2, _⟩ := b.inner a (by omega) ha
      simp [e1, e2, h]
  · intro h
    obtain ⟨x, y, e1, e2, _, _, _, _, _, _, e9⟩ := b.inner a (by omega) ha
    exact ⟨x, y, e1, e2, e9⟩

end Neo.Props
