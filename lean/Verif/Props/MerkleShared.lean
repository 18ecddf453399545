import Verif.Model.MerkleShared
import Verif.Props.Merkle

/-!
# C190: a Merkle root and hashes that are changed afterwards
-/

namespace Neo.Props
open Py UInt MerkleShared Merkle Spec.Merkle

/-- Every object holds an existing byte array. -/
private def Sound (h : UInt.Heap) : Prop := ∀ o ∈ h.objs, o.data < h.arrays.length

private theorem sound_step {h : UInt.Heap} (hs : Sound h) (op : Op) : Sound (h.step op) := by
  cases op with
  | newArray b =>
    intro o ho
    have := hs o ho
    simp only [UInt.Heap.step, List.length_append, List.length_singleton]
    omega
  | construct n a =>
    simp only [UInt.Heap.step]
    cases a with
    | none =>
      intro o ho
      simp only [UInt.Heap.construct, List.mem_append, List.mem_singleton, List.length_append, List.length_singleton] at ho ⊢
      rcases ho with ho | rfl
      · have := hs o ho; omega
      · simp
    | bytes b =>
      rw [UInt.Heap.construct]
      by_cases hb : b.length ≠ n
      · rw [if_pos hb]; exact hs
      · rw [if_neg hb]
        intro o ho
        simp only [List.mem_append, List.mem_singleton, List.length_append, List.length_singleton] at ho ⊢
        rcases ho with ho | rfl
        · have := hs o ho; omega
        · simp
    | array a =>
      simp only [UInt.Heap.construct]
      cases hb : h.arrays[a]? with
      | none => exact hs
      | some b =>
        simp only
        by_cases hl : b.length ≠ n
        · rw [if_pos hl]; exact hs
        · rw [if_neg hl]
          intro o ho
          simp only [List.mem_append, List.mem_singleton] at ho
          rcases ho with ho | rfl
          · exact hs o ho
          · exact (List.getElem?_eq_some_iff.1 hb).1
    | bad => exact hs
  | deserialize i rest =>
    simp only [UInt.Heap.step, UInt.Heap.deserialize]
    cases ho : h.objs[i]? with
    | none => exact hs
    | some x =>
      intro o hm
      simp only [List.length_append, List.length_singleton]
      rcases List.mem_or_eq_of_mem_set hm with hm | rfl
      · have := hs o hm; omega
      · simp
  | mutate a b =>
    intro o ho
    have := hs o ho
    simpa [UInt.Heap.step] using this

private theorem sound_run (ops : List Op) : ∀ h, Sound h → Sound (ops.foldl UInt.Heap.step h) := by
  induction ops with
  | nil => exact fun h hs => hs
  | cons op ops ih => exact fun h hs => ih _ (sound_step hs op)

/-- Objects and arrays have only been added. -/
private def Grows (h h' : UInt.Heap) : Prop := (∃ a, h'.arrays = h.arrays ++ a) ∧ ∃ o, h'.objs = h.objs ++ o

private theorem Grows.trans {h h' h'' : UInt.Heap} (a : Grows h h') (b : Grows h' h'') : Grows h h'' := by
  obtain ⟨⟨x, hx⟩, ⟨y, hy⟩⟩ := a
  obtain ⟨⟨x', hx'⟩, ⟨y', hy'⟩⟩ := b
  exact ⟨⟨x ++ x', by rw [hx', hx, List.append_assoc]⟩, ⟨y ++ y', by rw [hy', hy, List.append_assoc]⟩⟩

private theorem Grows.refl (h : UInt.Heap) : Grows h h := ⟨⟨[], by simp⟩, ⟨[], by simp⟩⟩

private theorem Grows.le {h h' : UInt.Heap} (a : Grows h h') : h.objs.length ≤ h'.objs.length := by
  obtain ⟨-, y, hy⟩ := a
  rw [hy, List.length_append]
  omega

private theorem Grows.contents {h h' : UInt.Heap} (a : Grows h h') (hs : Sound h) {o : Nat} (ho : o < h.objs.length) :
    contents h' o = contents h o := by
  obtain ⟨⟨x, hx⟩, ⟨y, hy⟩⟩ := a
  unfold MerkleShared.contents
  rw [hy, List.getElem?_append_left ho]
  cases hc : h.objs[o]? with
  | none => rfl
  | some c =>
    have hd := hs c (List.mem_of_getElem? hc)
    simp only [UInt.Heap.dataOf, UInt.Heap.at, List.getD_eq_getElem?_getD]
    rw [hx, List.getElem?_append_left hd]

private theorem newHash_spec (H : Bytes → Bytes) (hH : ∀ x, (H x).length = 32) (h : UInt.Heap) (hs : Sound h) (a b : Nat) :
    ∃ h', newHash H h a b = .ok (h', h.objs.length) ∧ Grows h h' ∧ Sound h' ∧ h'.objs.length = h.objs.length + 1 ∧
      contents h' h.objs.length = H (contents h a ++ contents h b) := by
  refine ⟨⟨h.arrays ++ [H (contents h a ++ contents h b)], h.objs ++ [⟨32, h.arrays.length, hashCode (H (contents h a ++ contents h b))⟩]⟩,
    ?_, ⟨⟨_, rfl⟩, ⟨_, rfl⟩⟩, ?_, by simp, ?_⟩
  · rw [newHash, UInt.Heap.construct, if_neg (by rw [hH]; simp)]
  · intro o ho
    simp only [List.mem_append, List.mem_singleton, List.length_append, List.length_singleton] at ho ⊢
    rcases ho with ho | rfl
    · have := hs o ho; omega
    · simp
  · unfold MerkleShared.contents
    simp [UInt.Heap.dataOf, UInt.Heap.at]

private theorem level_spec (H : Bytes → Bytes) (hH : ∀ x, (H x).length = 32) : ∀ (l : List Nat) (h : UInt.Heap), Sound h →
    (∀ o ∈ l, o < h.objs.length) → ∃ h' ps, level H h l = .ok (h', ps) ∧ Grows h h' ∧ Sound h' ∧
      (∀ o ∈ ps, h.objs.length ≤ o ∧ o < h'.objs.length) ∧ ps.map (contents h') = pairUp H (l.map (contents h))
  | [], h, hs, _ => ⟨h, [], rfl, .refl h, hs, by simp, rfl⟩
  | [a], h, hs, _ => by
    obtain ⟨h', e, g, s, n, c⟩ := newHash_spec H hH h hs a a
    refine ⟨h', [h.objs.length], by rw [level, e], g, s, by simp [n], ?_⟩
    simp [pairUp, c]
  | a :: b :: rest, h, hs, hl => by
    obtain ⟨h', e, g, s, n, c⟩ := newHash_spec H hH h hs a b
    obtain ⟨h'', ps, e', g', s', m, c'⟩ := level_spec H hH rest h' s (fun o ho => by have := hl o (by simp [ho]); omega)
    refine ⟨h'', h.objs.length :: ps, by rw [level, e]; simp only [e'], g.trans g', s', ?_, ?_⟩
    · intro o ho
      have := g'.le
      rcases List.mem_cons.1 ho with rfl | ho
      · omega
      · have := m o ho; omega
    · rw [List.map_cons, List.map_cons, List.map_cons, pairUp, c', g'.contents s (by omega), c]
      congr 2
      exact List.map_congr_left fun o ho => g.contents hs (hl o (by simp [ho]))

private theorem build_spec (H : Bytes → Bytes) (hH : ∀ x, (H x).length = 32) (n : Nat) : ∀ (l : List Nat) (h : UInt.Heap), l.length = n →
    l ≠ [] → Sound h → (∀ o ∈ l, o < h.objs.length) → ∃ h' r, build H h l = .ok (h', r) ∧ Grows h h' ∧ Sound h' ∧
      r < h'.objs.length ∧ (l.length = 1 → l = [r]) ∧ (2 ≤ l.length → h.objs.length ≤ r) ∧
      root H (l.map (contents h)) = some (contents h' r) := by
  induction n using Nat.strong_induction_on with
  | _ n ih =>
    intro l h hn hne hs hl
    have h1 : 1 ≤ l.length := List.length_pos_of_ne_nil hne
    by_cases h2 : l.length = 1
    · obtain ⟨a, rfl⟩ := List.length_eq_one_iff.1 h2
      refine ⟨h, a, ?_, .refl h, hs, hl a (by simp), fun _ => rfl, fun h => absurd h (by simp), by simp [root]⟩
      rw [MerkleShared.build, if_neg (by simp), if_pos (List.length_singleton)]
      rfl
    · obtain ⟨h', ps, e, g, s, m, c⟩ := level_spec H hH l h hs hl
      have hp := level_length H h l h' ps e
      obtain ⟨h'', r, e', g', s', b, -, hr, hroot⟩ := ih ps.length (by omega) ps h' rfl (List.ne_nil_of_length_pos (by omega)) s
        (fun o ho => (m o ho).2)
      refine ⟨h'', r, ?_, g.trans g', s', b, fun h => absurd h h2, fun _ => ?_, ?_⟩
      · rw [MerkleShared.build, if_neg (by omega), if_neg h2]
        split
        · next e1 => rw [e] at e1; cases e1
        · next h1 p1 e1 => rw [e] at e1; cases e1; exact e'
      · have hle := g.le
        by_cases h3 : ps.length = 1
        · obtain ⟨a, rfl⟩ := List.length_eq_one_iff.1 h3
          obtain ⟨q, he⟩ : ∃ q, build H h' [a] = .ok q ∧ q.2 = a := ⟨(h', a), by rw [MerkleShared.build, if_neg (by simp), if_pos (List.length_singleton)]; rfl, rfl⟩
          rw [he.1] at e'
          cases e'
          have hra : r = a := he.2
          rw [hra]
          exact (m a (by simp)).1
        · have := hr (by omega); omega
      · rw [root_step H _ (by rw [List.length_map]; omega), ← c, hroot]

/-- What a step does not touch: it deserialises into another object, or changes an array this one does not hold. -/
def LeavesAlone (h : UInt.Heap) (o : Nat) : Op → Prop
  | .newArray _ => True
  | .construct _ _ => True
  | .deserialize i _ => i ≠ o
  | .mutate a _ => ∀ x, h.objs[o]? = some x → x.data ≠ a

/-- A program during which nothing happens to these objects. -/
def LeftAlone (objs : List Nat) : UInt.Heap → List Op → Prop
  | _, [] => True
  | h, op :: ops => (∀ o ∈ objs, LeavesAlone h o op) ∧ LeftAlone objs (h.step op) ops

private theorem alone_step {h : UInt.Heap} (hs : Sound h) {o : Nat} (ho : o < h.objs.length) {op : Op} (ha : LeavesAlone h o op) :
    contents (h.step op) o = contents h o ∧ o < (h.step op).objs.length := by
  cases op with
  | newArray b =>
    have g : Grows h (h.step (.newArray b)) := ⟨⟨[b], rfl⟩, ⟨[], by simp [UInt.Heap.step]⟩⟩
    exact ⟨g.contents hs ho, lt_of_lt_of_le ho g.le⟩
  | construct n a =>
    have g : Grows h (h.step (.construct n a)) := by
      simp only [UInt.Heap.step]
      cases a with
      | none => exact ⟨⟨_, rfl⟩, ⟨_, rfl⟩⟩
      | bytes b =>
        rw [UInt.Heap.construct]
        by_cases hb : b.length ≠ n
        · rw [if_pos hb]; exact .refl h
        · rw [if_neg hb]; exact ⟨⟨_, rfl⟩, ⟨_, rfl⟩⟩
      | array a =>
        simp only [UInt.Heap.construct]
        cases h.arrays[a]? with
        | none => exact .refl h
        | some b =>
          simp only
          by_cases hl : b.length ≠ n
          · rw [if_pos hl]; exact .refl h
          · rw [if_neg hl]; exact ⟨⟨[], by simp⟩, ⟨_, rfl⟩⟩
      | bad => exact .refl h
    exact ⟨g.contents hs ho, lt_of_lt_of_le ho g.le⟩
  | deserialize i rest =>
    have ha : i ≠ o := ha
    simp only [UInt.Heap.step, UInt.Heap.deserialize]
    cases hi : h.objs[i]? with
    | none => exact ⟨rfl, ho⟩
    | some x =>
      refine ⟨?_, by simpa using ho⟩
      unfold MerkleShared.contents
      simp only [List.getElem?_set_ne ha]
      cases hc : h.objs[o]? with
      | none => rfl
      | some c =>
        have hd := hs c (List.mem_of_getElem? hc)
        simp only [UInt.Heap.dataOf, UInt.Heap.at, List.getD_eq_getElem?_getD]
        rw [List.getElem?_append_left hd]
  | mutate a b =>
    refine ⟨?_, by simpa [UInt.Heap.step] using ho⟩
    unfold MerkleShared.contents
    simp only [UInt.Heap.step]
    cases hc : h.objs[o]? with
    | none => rfl
    | some c =>
      have hd : c.data ≠ a := ha c hc
      simp only [UInt.Heap.dataOf, UInt.Heap.at, List.getD_eq_getElem?_getD]
      rw [List.getElem?_set_ne (Ne.symm hd)]

private theorem alone_run (objs : List Nat) (ops : List Op) : ∀ h, Sound h → (∀ o ∈ objs, o < h.objs.length) → LeftAlone objs h ops →
    ∀ o ∈ objs, contents (ops.foldl UInt.Heap.step h) o = contents h o := by
  induction ops with
  | nil => exact fun h _ _ _ o _ => rfl
  | cons op ops ih =>
    intro h hs hl ha o ho
    rw [List.foldl_cons, ih _ (sound_step hs op) (fun o ho => (alone_step hs (hl o ho) (ha.1 o ho)).2) ha.2 o ho]
    exact (alone_step hs (hl o ho) (ha.1 o ho)).1

/-- C190, what holds: from when a tree is built, in any program, for as long as nothing happens to the root's hash object and to the
hash objects it was built from, the root is that of their contents. The full claim asks this of every program. -/
theorem C190_kept_partial (H : Bytes → Bytes) (hH : ∀ x, (H x).length = 32) (before : List Op) (hashes : List Nat) (hne : hashes ≠ [])
    (hv : ∀ o ∈ hashes, o < (UInt.Heap.run before).objs.length) :
    ∃ h r, MerkleShared.build H (UInt.Heap.run before) hashes = .ok (h, r) ∧
      (∀ o ∈ hashes, contents h o = contents (UInt.Heap.run before) o) ∧
      ∀ after, LeftAlone (r :: hashes) h after →
        computeRoot H (hashes.map (contents (after.foldl UInt.Heap.step h))) = .ok (contents (after.foldl UInt.Heap.step h) r) := by
  have hs : Sound (UInt.Heap.run before) := sound_run before _ (by intro o ho; simp at ho)
  obtain ⟨h, r, e, g, s, hr, -, -, hroot⟩ := build_spec H hH _ hashes _ rfl hne hs hv
  have hsame : ∀ o ∈ hashes, contents h o = contents (UInt.Heap.run before) o := fun o ho => g.contents hs (hv o ho)
  refine ⟨h, r, e, hsame, fun after ha => ?_⟩
  have hk := alone_run (r :: hashes) after h s (by
    intro o ho
    rcases List.mem_cons.1 ho with rfl | ho
    · exact hr
    · exact lt_of_lt_of_le (hv o ho) g.le) ha
  rw [hk r (by simp), List.map_congr_left (fun o ho => (hk o (by simp [ho])).trans (hsame o ho)), C54_root, hroot]

/-- C190 for a tree of one hash: the root is that object itself, so it holds in every program. -/
theorem C190_one_hash_partial (H : Bytes → Bytes) (h : UInt.Heap) (o : Nat) :
    MerkleShared.build H h [o] = .ok (h, o) ∧
    ∀ after : List Op, computeRoot H ([o].map (contents (after.foldl UInt.Heap.step h))) = .ok (contents (after.foldl UInt.Heap.step h) o) := by
  refine ⟨by rw [MerkleShared.build, if_neg (by simp), if_pos (List.length_singleton)]; rfl, fun after => ?_⟩
  rw [C54_root]
  simp [root]

/-- C190 is false of every tree of two or more hashes: deserialising other contents into one of the hash objects leaves the root
as it was; it is not the root of the contents any more (or two of the strings hashed for the two roots are a collision). -/
theorem C190_stale_violated (H : Bytes → Bytes) (hH : ∀ x, (H x).length = 32) (before : List Op) (hashes : List Nat)
    (h2 : 2 ≤ hashes.length) (hv : ∀ o ∈ hashes, o < (UInt.Heap.run before).objs.length)
    (hl : ∀ o ∈ hashes, (contents (UInt.Heap.run before) o).length = 32) (i : Nat) (hi : i ∈ hashes) (b : Bytes) (hb : b.length = 32)
    (hnew : b ≠ contents (UInt.Heap.run before) i) :
    ∃ h r, MerkleShared.build H (UInt.Heap.run before) hashes = .ok (h, r) ∧
      contents (h.step (.deserialize i b)) i = b ∧ contents (h.step (.deserialize i b)) r = contents h r ∧
      (computeRoot H (hashes.map (contents (h.step (.deserialize i b)))) = .ok (contents h r) →
        ∃ x ∈ inputs H (hashes.map (contents (h.step (.deserialize i b)))), ∃ y ∈ inputs H (hashes.map (contents h)), x ≠ y ∧ H x = H y) := by
  have hs : Sound (UInt.Heap.run before) := sound_run before _ (by intro o ho; simp at ho)
  obtain ⟨h, r, e, g, s, hr, -, hnewr, hroot⟩ := build_spec H hH _ hashes _ rfl (List.ne_nil_of_length_pos (by omega)) hs hv
  have hsame : ∀ o ∈ hashes, contents h o = contents (UInt.Heap.run before) o := fun o ho => g.contents hs (hv o ho)
  have hil : i < h.objs.length := lt_of_lt_of_le (hv i hi) g.le
  have hci : contents (h.step (.deserialize i b)) i = b := by
    have hx : h.objs[i]? = some h.objs[i] := List.getElem?_eq_getElem hil
    have hlen : (h.dataOf h.objs[i]).length = 32 := by
      have h1 := hl i hi
      rw [← hsame i hi, MerkleShared.contents, hx] at h1
      exact h1
    simp only [UInt.Heap.step, UInt.Heap.deserialize, hx]
    unfold MerkleShared.contents
    rw [List.getElem?_set_self hil]
    simp only [UInt.Heap.dataOf, UInt.Heap.at, List.getD_eq_getElem?_getD]
    rw [List.getElem?_concat_length, Option.getD_some]
    have hlen' : (h.arrays[h.objs[i].data]?.getD []).length = 32 := by
      rw [← List.getD_eq_getElem?_getD]; exact hlen
    rw [hlen', ← hb, List.take_length]
  have hlt : i < r := by
    have := hnewr h2
    have := hv i hi
    omega
  have hcr : contents (h.step (.deserialize i b)) r = contents h r := (alone_step s hr (op := .deserialize i b) (show i ≠ r by omega)).1
  refine ⟨h, r, e, hci, hcr, fun heq => ?_⟩
  have hold : computeRoot H (hashes.map (contents h)) = .ok (contents h r) := by
    rw [List.map_congr_left hsame, C54_root, hroot]
  have hlen : ∀ o ∈ hashes, (contents (h.step (.deserialize i b)) o).length = 32 := by
    intro o ho
    by_cases hoi : i = o
    · rw [← hoi, hci, hb]
    · rw [(alone_step s (lt_of_lt_of_le (hv o ho) g.le) (show LeavesAlone h o (.deserialize i b) from hoi)).1, hsame o ho, hl o ho]
  refine C103_root_binds H 32 hH _ _ (by simp) ?_ ?_ (heq.trans hold.symm) ?_
  · intro x hx
    obtain ⟨o, ho, rfl⟩ := List.mem_map.1 hx
    exact hlen o ho
  · intro x hx
    obtain ⟨o, ho, rfl⟩ := List.mem_map.1 hx
    rw [hsame o ho, hl o ho]
  · intro hmap
    have := List.map_inj_left.1 hmap i hi
    rw [hci, hsame i hi] at this
    exact hnew this

/-- Two hashes: the root is a new object, and it is stale after the first hash has been deserialised into. -/
example : let H : Bytes → Bytes := fun x => (x ++ List.replicate 32 0).take 32
    let before : List Op := [.construct 32 .none, .construct 32 (.bytes (List.replicate 32 1)), .construct 32 .none]
    (match MerkleShared.build H (UInt.Heap.run before) [0, 1] with
    | .ok (h, r) => decide (r = 3 ∧ contents h r = H (contents h 0 ++ contents h 1) ∧
        computeRoot H ([0, 1].map (contents (h.step (.deserialize 0 (List.replicate 32 7))))) ≠ .ok (contents h r))
    | .error _ => false) = true := by decide +kernel
/-- A client that goes on with other objects leaves this tree alone, one that deserialises into a hash does not. -/
example (h : UInt.Heap) : LeftAlone [3, 0, 1] h [.newArray [1], .deserialize 2 (List.replicate 32 7)] ∧
    ¬ LeftAlone [3, 0, 1] h [.deserialize 0 [1]] := by
  simp [LeftAlone, LeavesAlone]

end Neo.Props
