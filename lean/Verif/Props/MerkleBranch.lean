import Verif.Props.Merkle
import Verif.Spec.MerkleBranch
import Mathlib.Data.Nat.Log

/-!
# C153, C154: branches of the Merkle tree, and the root of a concatenation
-/

namespace Neo.Props
open Py Merkle Spec.Merkle

/-- A branch read off the linked tree: from node `a`, by `Parent` links, to node `r`; each step records on which side of its parent
the node hangs and the hash of the parent's other child. -/
def BranchIn (h : Heap) : Branch → Nat → Nat → Prop
  | [], a, r => a = r
  | (right, s) :: rest, a, r => ∃ p, (h.node a).parent = some p ∧ BranchIn h rest p r ∧
      (if right then (h.node p).right = some a ∧ ∃ b, (h.node p).left = some b ∧ h.hashOf b = s
       else (h.node p).left = some a ∧ ∃ b, (h.node p).right = some b ∧ h.hashOf b = s)

private theorem climb_snoc (H : Bytes → Bytes) (x : Bytes) (b : Branch) (st : Bool × Bytes) :
    climb H x (b ++ [st]) = H (join st.1 (climb H x b) st.2) := by
  induction b generalizing x with
  | nil => rfl
  | cons c b ih => exact ih _

private theorem branch_snoc {h : Heap} {b : Branch} {a p r : Nat} {right : Bool} {s : Bytes} (hb : BranchIn h b a p)
    (hp : (h.node p).parent = some r)
    (hs : if right then (h.node r).right = some p ∧ ∃ b, (h.node r).left = some b ∧ h.hashOf b = s
       else (h.node r).left = some p ∧ ∃ b, (h.node r).right = some b ∧ h.hashOf b = s) :
    BranchIn h (b ++ [(right, s)]) a r := by
  induction b generalizing a with
  | nil =>
    have hb : a = p := hb
    subst hb
    exact ⟨r, hp, rfl, hs⟩
  | cons c b ih =>
    obtain ⟨q, h1, h2, h3⟩ := hb
    exact ⟨q, h1, ih h2, h3⟩

/-- C153. From every leaf the `Parent` links lead in Depth − 1 steps to the root, and hashing the leaf's hash with the hashes of the
siblings on the way, each on its side, gives the root's hash. -/
theorem C153_links (H : Bytes → Bytes) (hashes : List Bytes) (hne : hashes ≠ []) :
    ∃ t, construct H hashes = .ok t ∧ ∀ k (hk : k < hashes.length), ∃ b : Branch, b.length = t.depth - 1 ∧
      BranchIn t.heap b k t.root ∧ climb H hashes[k] b = t.heap.hashOf t.root := by
  obtain ⟨t, e, hrs, hlink⟩ := C59_links H hashes hne
  obtain ⟨t', e', -, hpath, -⟩ := C56_depth H hashes hne
  rw [e] at e'
  cases e'
  refine ⟨t, e, fun k hk => ?_⟩
  have key : ∀ d a, a < t.heap.size → t.heap.Path d a k → ∃ b : Branch, b.length = d ∧ BranchIn t.heap b k a ∧
      climb H hashes[k] b = t.heap.hashOf a := by
    intro d
    induction d with
    | zero =>
      intro a ha hp
      have hp : a = k := hp
      subst hp
      refine ⟨[], rfl, rfl, ?_⟩
      have := (hlink a ha).2.2.2.2.1 hk
      simp [climb, Heap.hashOf, this, hk]
    | succ d ih =>
      intro a ha hp
      obtain ⟨c, hc, hp'⟩ := Heap.Path.cons.mp hp
      obtain ⟨hpar, hcs⟩ := (hlink a ha).2.1 c hc
      obtain ⟨b, hl, hb, hcl⟩ := ih c hcs hp'
      have hna : hashes.length ≤ a := by
        by_contra hcon
        have hleaf := (hlink a ha).2.2.2.1.2 (by omega)
        unfold Heap.isLeaf at hleaf
        rcases hc with h1 | h1 <;> simp [h1] at hleaf
      obtain ⟨x, y, hx, hy, hh⟩ := (hlink a ha).2.2.2.2.2 hna
      have hha : t.heap.hashOf a = H (t.heap.hashOf x ++ t.heap.hashOf y) := by
        conv_lhs => unfold Heap.hashOf
        rw [hh]; rfl
      rcases hc with h1 | h1
      · rw [hx] at h1
        cases h1
        refine ⟨b ++ [(false, t.heap.hashOf y)], by simp [hl], branch_snoc hb hpar ?_, ?_⟩
        · exact ⟨hx, y, hy, rfl⟩
        · rw [climb_snoc, hcl, hha]; rfl
      · rw [hy] at h1
        cases h1
        refine ⟨b ++ [(true, t.heap.hashOf x)], by simp [hl], branch_snoc hb hpar ?_, ?_⟩
        · exact ⟨hy, x, hx, rfl⟩
        · rw [climb_snoc, hcl, hha]; rfl
  exact key _ _ hrs (hpath k hk)

private theorem clog_half {n : Nat} (h : 2 ≤ n) : Nat.clog 2 n = Nat.clog 2 ((n + 1) / 2) + 1 := by
  rw [Nat.clog_of_two_le (by norm_num) h, show n + 2 - 1 = n + 1 by omega]

private theorem pairUp_mem (H : Bytes → Bytes) (l : List Bytes) (y : Bytes) (hy : y ∈ pairUp H l) :
    ∃ u ∈ l, ∃ v ∈ l, u ++ v ∈ inputs.level l ∧ y = H (u ++ v) := by
  fun_induction pairUp H l with
  | case1 => simp at hy
  | case2 x => simp at hy; exact ⟨x, by simp, x, by simp, by simp [inputs.level], hy⟩
  | case3 x z rest ih =>
    rw [List.mem_cons] at hy
    rcases hy with rfl | hy
    · exact ⟨x, by simp, z, by simp, by simp [inputs.level], rfl⟩
    · obtain ⟨u, hu, v, hv, hi, he⟩ := ih hy
      exact ⟨u, by simp [hu], v, by simp [hv], by simp [inputs.level, hi], he⟩

private theorem pairUp_get (H : Bytes → Bytes) (l : List Bytes) (i : Nat) (hi : i < l.length) :
    ∃ s, join (decide (i % 2 = 1)) l[i] s ∈ inputs.level l ∧ s ∈ l ∧
      (pairUp H l)[i / 2]? = some (H (join (decide (i % 2 = 1)) l[i] s)) := by
  fun_induction pairUp H l generalizing i with
  | case1 => simp at hi
  | case2 x =>
    have : i = 0 := by simpa using hi
    subst this
    exact ⟨x, by simp [inputs.level, join], by simp, by simp [join]⟩
  | case3 x z rest ih =>
    match i, hi with
    | 0, _ => exact ⟨z, by simp [inputs.level, join], by simp, by simp [join]⟩
    | 1, _ => exact ⟨x, by simp [inputs.level, join], by simp, by simp [join]⟩
    | i + 2, hi =>
      obtain ⟨s, h1, h2, h3⟩ := ih i (by simpa using hi)
      refine ⟨s, ?_, by simp [h2], ?_⟩
      · rw [Nat.add_mod_right]
        simp only [List.getElem_cons_succ, inputs.level, List.mem_cons]
        exact .inr h1
      · rw [Nat.add_mod_right, show (i + 2) / 2 = i / 2 + 1 by omega]
        simpa using h3

private theorem root_step (H : Bytes → Bytes) (l : List Bytes) (h : 2 ≤ l.length) : root H l = root H (pairUp H l) := by
  match l, h with
  | x :: y :: rest, _ => rw [root]

private theorem inputs_step (H : Bytes → Bytes) (l : List Bytes) (h : 2 ≤ l.length) :
    inputs H l = inputs.level l ++ inputs H (pairUp H l) := by
  match l, h with
  | x :: y :: rest, _ => rw [inputs]

private theorem pairUp_width {H : Bytes → Bytes} {w : Nat} (hH : ∀ x, (H x).length = w) (l : List Bytes) :
    ∀ y ∈ pairUp H l, y.length = w := by
  intro y hy
  obtain ⟨u, _, v, _, _, rfl⟩ := pairUp_mem H l y hy
  exact hH _

/-- C153. A branch as long as the tree is deep (Depth − 1) that leads from some hash to the root proves that the hash is one of the
list's, unless one of the strings hashed in it collides with one hashed in building the tree. -/
theorem C153_sound (H : Bytes → Bytes) (w : Nat) (hH : ∀ x, (H x).length = w) (l : List Bytes) (hl : ∀ x ∈ l, x.length = w)
    (r x : Bytes) (hr : computeRoot H l = .ok r) (hx : x.length = w) (b : Branch) (hb : ∀ s ∈ b, s.2.length = w)
    (hlen : b.length = Nat.clog 2 l.length) (hc : climb H x b = r) :
    x ∈ l ∨ ∃ u ∈ inputs H l, ∃ v ∈ climbed H x b, u ≠ v ∧ H u = H v := by
  rw [C54_root] at hr
  have hr' : root H l = some r := by
    cases hq : root H l with
    | none => rw [hq] at hr; cases hr
    | some q => rw [hq] at hr; cases hr; rfl
  clear hr
  induction b generalizing l x with
  | nil =>
    have h0 : Nat.clog 2 l.length = 0 := by simpa using hlen.symm
    match l, h0 with
    | [], _ => simp [root] at hr'
    | [y], _ =>
      left
      simp only [root, Option.some.injEq] at hr'
      have hc : x = r := hc
      simp [hc, hr']
    | y :: z :: rest, h0 =>
      rw [clog_half (by simp)] at h0
      omega
  | cons st b ih =>
    obtain ⟨right, s⟩ := st
    have h2 : 2 ≤ l.length := by
      by_contra hcon
      have : Nat.clog 2 l.length = 0 := Nat.clog_of_right_le_one (by omega) 2
      rw [this] at hlen
      simp at hlen
    rw [clog_half h2] at hlen
    rw [root_step H l h2] at hr'
    have hs : s.length = w := hb (right, s) (by simp)
    rcases ih (pairUp H l) (pairUp_width hH l) (H (join right x s)) (hH _) (fun q hq => hb q (by simp [hq]))
      (by rw [pairUp_length]; simpa using hlen) hc hr' with h | ⟨u, hu, v, hv, hne, he⟩
    · obtain ⟨u, hu, v, hv, hi, he⟩ := pairUp_mem H l _ h
      by_cases heq : u ++ v = join right x s
      · left
        have hul := hl u hu
        have hvl := hl v hv
        cases right with
        | false =>
          have := List.append_inj heq (by rw [hul, hx])
          rw [← this.1]; exact hu
        | true =>
          have := List.append_inj heq (by rw [hul, hs])
          rw [← this.2]; exact hv
      · right
        exact ⟨u ++ v, by rw [inputs_step H l h2]; simp [hi], join right x s, by simp [climbed], heq, he.symm⟩
    · right
      exact ⟨u, by rw [inputs_step H l h2]; simp [hu], v, by simp [climbed, hv], hne, he⟩

/-- C153. For every position there is a branch of that position, made of hashes of the tree, that leads from the hash there to the
root; and if a branch of that position leads from some hash to the root, it is the hash there (or a collision). -/
theorem C153_position (H : Bytes → Bytes) (w : Nat) (hH : ∀ x, (H x).length = w) (l : List Bytes) (hl : ∀ x ∈ l, x.length = w)
    (r : Bytes) (hr : computeRoot H l = .ok r) (i : Nat) (hi : i < l.length) :
    (∃ b : Branch, At i b ∧ b.length = Nat.clog 2 l.length ∧ (∀ s ∈ b, s.2.length = w) ∧ climb H l[i] b = r) ∧
    (∀ (x : Bytes) (b : Branch), x.length = w → (∀ s ∈ b, s.2.length = w) → At i b → b.length = Nat.clog 2 l.length →
      climb H x b = r → x = l[i] ∨ ∃ u ∈ inputs H l, ∃ v ∈ climbed H x b, u ≠ v ∧ H u = H v) := by
  rw [C54_root] at hr
  have hr' : root H l = some r := by
    cases hq : root H l with
    | none => rw [hq] at hr; cases hr
    | some q => rw [hq] at hr; cases hr; rfl
  clear hr
  induction hn : Nat.clog 2 l.length generalizing l i with
  | zero =>
    match l, hn with
    | [], _ => simp at hi
    | [y], _ =>
      have : i = 0 := by simpa using hi
      subst this
      simp only [root, Option.some.injEq] at hr'
      refine ⟨⟨[], trivial, rfl, by simp, by simpa [climb] using hr'⟩, ?_⟩
      intro x b _ _ _ hb hc
      have : b = [] := by simpa using hb
      subst this
      left
      have hc : x = r := hc
      simp [hc, hr']
    | y :: z :: rest, h0 =>
      rw [clog_half (by simp)] at h0
      omega
  | succ n ih =>
    have h2 : 2 ≤ l.length := by
      by_contra hcon
      have : Nat.clog 2 l.length = 0 := Nat.clog_of_right_le_one (by omega) 2
      omega
    rw [clog_half h2, ← pairUp_length H] at hn
    rw [root_step H l h2] at hr'
    have hi2 : i / 2 < (pairUp H l).length := by rw [pairUp_length]; omega
    obtain ⟨s, hj, hsl, hg⟩ := pairUp_get H l i hi
    rw [List.getElem?_eq_getElem hi2, Option.some.injEq] at hg
    obtain ⟨⟨b, hb1, hb2, hb3, hb4⟩, hu⟩ := ih (pairUp H l) (pairUp_width hH l) (i / 2) hi2 hr' (by omega)
    rw [hg] at hb4
    constructor
    · refine ⟨(decide (i % 2 = 1), s) :: b, ⟨by simp, hb1⟩, by simp [hb2], ?_, hb4⟩
      intro q hq
      rw [List.mem_cons] at hq
      rcases hq with rfl | hq
      · exact hl s hsl
      · exact hb3 q hq
    · intro x b hx hb hat hbl hc
      match b, hbl with
      | (right, q) :: b, hbl =>
        obtain ⟨ha, hat⟩ := hat
        have hright : right = decide (i % 2 = 1) := by
          cases right <;> simp_all
        rcases hu (H (join right x q)) b (hH _) (fun z hz => hb z (by simp [hz])) hat (by simpa using hbl) hc with
          h | ⟨u, hu1, v, hv, hne, he⟩
        · rw [hg] at h
          have hq : q.length = w := hb (right, q) (by simp)
          by_cases heq : join (decide (i % 2 = 1)) l[i] s = join right x q
          · left
            rw [← hright] at heq
            have hil : l[i].length = w := hl _ (List.getElem_mem hi)
            have hsw := hl s hsl
            cases right with
            | false => exact (List.append_inj heq (by rw [hil, hx])).1.symm
            | true => exact (List.append_inj heq (by rw [hsw, hq])).2.symm
          · right
            exact ⟨_, by rw [inputs_step H l h2]; exact List.mem_append_left _ hj, join right x q, by simp [climbed], heq, h.symm⟩
        · right
          exact ⟨u, by rw [inputs_step H l h2]; exact List.mem_append_right _ hu1, v, by simp [climbed, hv], hne, he⟩

/-! ## C154 -/

private theorem pairUp_append (H : Bytes → Bytes) (xs ys : List Bytes) (h : xs.length % 2 = 0) :
    pairUp H (xs ++ ys) = pairUp H xs ++ pairUp H ys := by
  fun_induction pairUp H xs with
  | case1 => rfl
  | case2 x => simp at h
  | case3 x y rest ih =>
    simp only [List.cons_append, pairUp]
    rw [ih (by simp at h; omega)]

/-- C154. The root of a list of 2^k hashes followed by more than 2^(k−1) and at most 2^k others is the hash of the two roots. -/
theorem C154_concat (H : Bytes → Bytes) (k : Nat) (xs ys : List Bytes) (hx : xs.length = 2 ^ k)
    (hy : Nat.clog 2 ys.length = k) (hy0 : ys ≠ []) :
    ∃ r s, computeRoot H xs = .ok r ∧ computeRoot H ys = .ok s ∧ computeRoot H (xs ++ ys) = .ok (H (r ++ s)) := by
  suffices h : ∃ r s, root H xs = some r ∧ root H ys = some s ∧ root H (xs ++ ys) = some (H (r ++ s)) by
    obtain ⟨r, s, h1, h2, h3⟩ := h
    exact ⟨r, s, by rw [C54_root, h1], by rw [C54_root, h2], by rw [C54_root, h3]⟩
  induction k generalizing xs ys with
  | zero =>
    obtain ⟨x, rfl⟩ := List.length_eq_one_iff.mp (by simpa using hx)
    match ys, hy, hy0 with
    | [y], _, _ => exact ⟨x, y, by simp [root], by simp [root], by simp [root, pairUp]⟩
    | a :: b :: rest, hy, _ => rw [clog_half (by simp)] at hy; omega
  | succ k ih =>
    have hx2 : 2 ≤ xs.length := by rw [hx, pow_succ]; have := Nat.one_le_two_pow (n := k); omega
    have hy2 : 2 ≤ ys.length := by
      by_contra hcon
      have : Nat.clog 2 ys.length = 0 := Nat.clog_of_right_le_one (by omega) 2
      omega
    have hev : xs.length % 2 = 0 := by rw [hx, pow_succ]; omega
    rw [root_step H xs hx2, root_step H ys hy2, root_step H (xs ++ ys) (by simp; omega), pairUp_append H xs ys hev]
    refine ih _ _ ?_ ?_ ?_
    · rw [pairUp_length, hx, pow_succ]; omega
    · rw [clog_half hy2] at hy
      rw [pairUp_length]; omega
    · intro hcon
      have := pairUp_length H ys
      rw [hcon] at this
      simp at this
      omega

/-- Four hashes followed by three meet the hypotheses. -/
example : ([[1], [2], [3], [4]] : List Bytes).length = 2 ^ 2 ∧ Nat.clog 2 ([[5], [6], [7]] : List Bytes).length = 2 := by
  constructor
  · rfl
  · decide +kernel

/-- A branch in a tree of three leaves (with a toy hash). -/
example : climb (fun x => [x.foldl (· + ·) 1]) [2] [(true, [1]), (false, [7])] =
    [(((1 : UInt8) + 1 + 2) + 1 + 7)] ∧ At 1 [(true, [1]), (false, [7])] := by
  refine ⟨by decide +kernel, by simp, by simp, trivial⟩

end Neo.Props
