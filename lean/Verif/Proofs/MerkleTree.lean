import Verif.Proofs.Merkle
import Verif.Spec.MerkleHeap

/-!
# Consequences of the heap shape left by `__Build`
-/

namespace Neo.Merkle
open Py Spec.Merkle

theorem Heap.Path.cons {h : Heap} : ∀ {k a b}, h.Path (k + 1) a b ↔ ∃ c, h.Child a c ∧ h.Path k c b
  | 0, a, b => by simp [Heap.Path]
  | k + 1, a, b => by
    constructor
    · rintro ⟨c, hc, hcb⟩
      obtain ⟨c', h1, h2⟩ := (Heap.Path.cons (k := k)).mp hc
      exact ⟨c', h1, c, h2, hcb⟩
    · rintro ⟨c, hc, c', h1, h2⟩
      exact ⟨c', (Heap.Path.cons (k := k)).mpr ⟨c, hc, h1⟩, h2⟩

variable {H : Bytes → Bytes} {h : Heap} {s n r d : Nat}

theorem Built.pos (b : Built H h s n r d) : 1 ≤ n := by cases b <;> omega

theorem Built.clog (b : Built H h s n r d) : d = Nat.clog 2 n := by
  induction b with
  | top => simp
  | level s n root d hn _ _ _ ih =>
    rw [Nat.clog_of_two_le (by omega) hn, ih]
    rfl

theorem Built.size_ge (b : Built H h s n r d) : s + n + d ≤ h.size := by
  induction b with
  | top => omega
  | level s n root d hn _ _ hb ih => have := hb.pos; omega

theorem Built.path_dest (b : Built H h s n r d) : ∀ x, h.Path d r x ↔ s ≤ x ∧ x < s + n := by
  induction b with
  | top s => intro x; simp only [Heap.Path]; omega
  | level s n root d hn hp hc hb ih =>
    intro x
    constructor
    · rintro ⟨c, h1, h2⟩
      obtain ⟨h3, h4⟩ := (ih c).mp h1
      obtain ⟨i, rfl⟩ : ∃ i, c = s + n + i := ⟨c - (s + n), by omega⟩
      have hi : i < half n := by omega
      obtain ⟨e1, e2, _⟩ := hc i hi
      unfold Heap.Child at h2
      rw [e1, e2] at h2
      simp only [Option.some.injEq] at h2
      unfold half at hi
      unfold rightIx at h2
      omega
    · rintro ⟨h1, h2⟩
      obtain ⟨k, rfl⟩ : ∃ k, x = s + k := ⟨x - s, by omega⟩
      have hk : k / 2 < half n := by unfold half; omega
      refine ⟨s + n + k / 2, (ih _).mpr ⟨by omega, by omega⟩, ?_⟩
      obtain ⟨e1, e2, _⟩ := hc _ hk
      unfold Heap.Child
      rw [e1, e2]
      simp only [Option.some.injEq]
      unfold rightIx
      omega

theorem Built.path_inner (b : Built H h s n r d) : ∀ k x, k < d → h.Path k r x →
    (h.node x).left.isSome ∧ (h.node x).right.isSome := by
  induction b with
  | top s => intro k x hk; omega
  | level s n root d hn hp hc hb ih =>
    intro k x hk hx
    by_cases hkd : k < d
    · exact ih k x hkd hx
    · obtain rfl : k = d := by omega
      obtain ⟨h3, h4⟩ := (hb.path_dest x).mp hx
      obtain ⟨i, rfl⟩ : ∃ i, x = s + n + i := ⟨x - (s + n), by omega⟩
      obtain ⟨e1, e2, _⟩ := hc i (by omega)
      simp [e1, e2]

/-- Nodes created by `__Build`. -/
theorem Built.inner (b : Built H h s n r d) : ∀ a, s + n ≤ a → a < h.size → ∃ x y, (h.node a).left = some x ∧
    (h.node a).right = some y ∧ x < a ∧ y < a ∧ s ≤ x ∧ s ≤ y ∧ (h.node x).parent = some a ∧ (h.node y).parent = some a ∧
    (h.node a).hash = some (H (h.hashOf x ++ h.hashOf y)) := by
  induction b with
  | top s _ hs => intro a h1 h2; omega
  | level s n root d hn hp hc hb ih =>
    intro a h1 h2
    by_cases h3 : a < s + n + half n
    · obtain ⟨i, rfl⟩ : ∃ i, a = s + n + i := ⟨a - (s + n), by omega⟩
      have hi : i < half n := by omega
      obtain ⟨e1, e2, e3⟩ := hc i hi
      unfold half at hi
      refine ⟨_, _, e1, e2, by omega, by unfold rightIx; omega, by omega, by omega, ?_, ?_, e3⟩
      · rw [hp _ (by omega)]; congr 1; omega
      · rw [hp _ (by unfold rightIx; omega)]; congr 1; unfold rightIx; omega
    · obtain ⟨x, y, e1, e2, e3, e4, e5, e6, e7⟩ := ih a (by omega) h2
      exact ⟨x, y, e1, e2, e3, e4, by omega, by omega, e7⟩

theorem Built.parent (b : Built H h s n r d) : ∀ a, s ≤ a → a < h.size →
    ((h.node a).parent = none ↔ a = r) ∧ (∀ p, (h.node a).parent = some p → h.Child p a ∧ a < p ∧ p < h.size) := by
  induction b with
  | top s hp hs =>
    intro a h1 h2
    obtain rfl : a = s := by omega
    simp [hp]
  | level s n root d hn hp hc hb ih =>
    intro a h1 h2
    by_cases h3 : s + n ≤ a
    · exact ih a h3 h2
    · obtain ⟨k, rfl⟩ : ∃ k, a = s + k := ⟨a - s, by omega⟩
      have hr := (hb.path_dest (s + n + 0)).mpr
      have hroot : s + n ≤ root := by
        clear ih hp hc hr
        have : ∀ {s n r d}, Built H h s n r d → s ≤ r := by
          intro s n r d b
          induction b with
          | top => omega
          | level => omega
        exact this hb
      rw [hp k (by omega)]
      refine ⟨by simp; omega, ?_⟩
      rintro p ⟨⟩
      have hk : k / 2 < half n := by unfold half; omega
      obtain ⟨e1, e2, _⟩ := hc _ hk
      have := hb.size_ge
      refine ⟨?_, by omega, by omega⟩
      unfold Heap.Child
      rw [e1, e2]
      simp only [Option.some.injEq]
      unfold rightIx
      omega

theorem Built.root_lt (b : Built H h s n r d) : s ≤ r ∧ r < h.size := by
  induction b with
  | top => omega
  | level => omega

theorem Built.depthLoop (b : Built H h s n r d) : ∀ fuel dep,
    Merkle.depthLoop h (fuel + d) r dep = Merkle.depthLoop h fuel s (dep + d) := by
  induction b with
  | top => intros; rfl
  | level s n root d hn hp hc hb ih =>
    intro fuel dep
    rw [show fuel + (d + 1) = (fuel + 1) + d by omega, ih, Merkle.depthLoop]
    have := (hc 0 (by unfold half; omega)).1
    simp only [Nat.mul_zero, Nat.add_zero] at this
    rw [this]
    congr 1

theorem pairUp_getElem? (H : Bytes → Bytes) (l : List Bytes) : ∀ i, i < half l.length →
    (pairUp H l)[i]? = some (H (l.getD (2 * i) [] ++ l.getD (rightIx l.length i) [])) := by
  fun_induction pairUp H l with
  | case1 => intro i hi; simp [half] at hi
  | case2 x =>
    intro i hi
    simp only [half, List.length_singleton] at hi
    obtain rfl : i = 0 := by omega
    simp [rightIx]
  | case3 x y rest ih =>
    intro i hi
    cases i with
    | zero => simp [rightIx]
    | succ i =>
      simp only [half, List.length_cons] at hi
      have hi' : i < half rest.length := by unfold half; omega
      simp only [List.getElem?_cons_succ]
      rw [ih i hi']
      have e1 : 2 * (i + 1) = 2 * i + 1 + 1 := by omega
      have e2 : rightIx (x :: y :: rest).length (i + 1) = rightIx rest.length i + 1 + 1 := by
        simp only [rightIx, List.length_cons]; omega
      rw [e1, e2]
      simp

theorem Built.pairUp (hn : 2 ≤ n)
    (hc : ∀ i, i < half n → (h.node (s + n + i)).hash = some (H (h.hashOf (s + 2 * i) ++ h.hashOf (s + rightIx n i)))) :
    pairUp H ((List.range' s n).map h.hashOf) = (List.range' (s + n) (half n)).map h.hashOf := by
  apply List.ext_getElem?
  intro i
  by_cases hi : i < half n
  · rw [pairUp_getElem? H _ i (by simpa using hi)]
    rw [List.getElem?_map, List.getElem?_range' hi]
    simp only [Option.map_some, Option.some.injEq, Nat.one_mul, List.length_map, List.length_range']
    unfold Heap.hashOf at hc ⊢
    rw [hc i hi]
    simp only [Option.getD_some]
    unfold half at hi
    congr 2
    · rw [List.getD_eq_getElem?_getD, List.getElem?_map, List.getElem?_range' (by omega)]; simp
    · rw [List.getD_eq_getElem?_getD, List.getElem?_map, List.getElem?_range' (by unfold rightIx; omega)]; simp
  · rw [List.getElem?_eq_none (by rw [pairUp_length]; simp; unfold half at hi; omega),
      List.getElem?_eq_none (by simp; omega)]

theorem root_step (H : Bytes → Bytes) (l : List Bytes) (hl : 2 ≤ l.length) : root H l = root H (Spec.Merkle.pairUp H l) := by
  match l, hl with
  | x :: y :: rest, _ => rw [root]

theorem Built.root (b : Built H h s n r d) : root H ((List.range' s n).map h.hashOf) = some (h.hashOf r) := by
  induction b with
  | top s => simp [Spec.Merkle.root]
  | level s n root d hn hp hc hb ih =>
    rw [root_step H _ (by simpa using hn), Built.pairUp hn (fun i hi => (hc i hi).2.2), ih]

/-- Below `a` hangs a perfect tree of height `d` whose tips are, from left to right, `l`. -/
inductive Perf (h : Heap) : Nat → Nat → List Nat → Prop
  | tip (a : Nat) : (h.node a).left = none → (h.node a).right = none → Perf h 0 a [a]
  | node (d a x y : Nat) (l1 l2 : List Nat) : (h.node a).left = some x → (h.node a).right = some y → x < a → y < a →
      Perf h d x l1 → Perf h d y l2 → Perf h (d + 1) a (l1 ++ l2)

theorem Built.perf (b : Built H h s n r d) : ∀ e, (∀ k, k < n → ∃ l, Perf h e (s + k) l) → ∃ l, Perf h (e + d) r l := by
  induction b with
  | top s => intro e he; simpa using he 0 (by omega)
  | level s n root d hn hp hc hb ih =>
    intro e he
    rw [show e + (d + 1) = (e + 1) + d by omega]
    apply ih
    intro i hi
    obtain ⟨e1, e2, _⟩ := hc i hi
    unfold half at hi
    obtain ⟨l1, h1⟩ := he (2 * i) (by omega)
    obtain ⟨l2, h2⟩ := he (rightIx n i) (by unfold rightIx; omega)
    exact ⟨_, .node e _ _ _ l1 l2 e1 e2 (by omega) (by unfold rightIx; omega) h1 h2⟩

theorem Perf.mem {h : Heap} {d a : Nat} {l : List Nat} (p : Perf h d a l) : ∀ b, b ∈ l ↔ h.Path d a b := by
  induction p with
  | tip a => intro b; simp [Heap.Path, eq_comm]
  | node d a x y l1 l2 hx hy _ _ _ _ ih1 ih2 =>
    intro b
    rw [List.mem_append, ih1, ih2, Heap.Path.cons]
    simp only [Heap.Child, hx, hy, Option.some.injEq]
    constructor
    · rintro (h | h)
      · exact ⟨x, .inl rfl, h⟩
      · exact ⟨y, .inr rfl, h⟩
    · rintro ⟨c, rfl | rfl, h⟩
      · exact .inl h
      · exact .inr h

theorem Perf.dfs {h : Heap} {d a : Nat} {l : List Nat} (p : Perf h d a l) : ∀ fuel acc, d < fuel →
    Merkle.dfs h fuel a acc = some ((l.map h.hashOf).foldl setAdd acc) := by
  induction p with
  | tip a h1 h2 =>
    intro fuel acc hf
    obtain ⟨f, rfl⟩ : ∃ f, fuel = f + 1 := ⟨fuel - 1, by omega⟩
    simp [Merkle.dfs, h1]
  | node d a x y l1 l2 hx hy _ _ _ _ ih1 ih2 =>
    intro fuel acc hf
    obtain ⟨f, rfl⟩ : ∃ f, fuel = f + 1 := ⟨fuel - 1, by omega⟩
    simp only [Merkle.dfs, hx, hy, Option.getD_some]
    rw [ih1 f acc (by omega)]
    simp only
    rw [ih2 f _ (by omega), List.map_append, List.foldl_append]

theorem foldl_setAdd (l : List Bytes) : ∀ acc : List Bytes, acc.Nodup →
    (l.foldl setAdd acc).Nodup ∧ ∀ x, x ∈ l.foldl setAdd acc ↔ x ∈ acc ∨ x ∈ l := by
  induction l with
  | nil => intro acc h; simp [h]
  | cons y l ih =>
    intro acc h
    have h1 : (setAdd acc y).Nodup ∧ ∀ x, x ∈ setAdd acc y ↔ x ∈ acc ∨ x = y := by
      unfold setAdd
      split
      · rename_i hy
        refine ⟨h, fun x => ⟨.inl, ?_⟩⟩
        rintro (h | rfl)
        · exact h
        · exact hy
      · rename_i hy
        refine ⟨?_, by simp⟩
        rw [List.nodup_append]
        refine ⟨h, by simp, ?_⟩
        rintro a ha b hb rfl
        simp at hb
        exact hy (hb ▸ ha)
    obtain ⟨h2, h3⟩ := ih _ h1.1
    refine ⟨h2, fun x => ?_⟩
    rw [List.foldl_cons, h3, h1.2]
    simp only [List.mem_cons]
    tauto

/-- Everything known about a constructed tree. -/
theorem construct_spec (H : Bytes → Bytes) (hashes : List Bytes) (hne : hashes ≠ []) :
    ∃ t d, construct H hashes = .ok t ∧ Built H t.heap 0 hashes.length t.root d ∧ t.depth = d + 1 ∧
      ∀ k, k < hashes.length → (t.heap.node k).hash = hashes[k]? ∧ (t.heap.node k).left = none ∧
        (t.heap.node k).right = none := by
  have hl : 1 ≤ hashes.length := by
    cases hashes with
    | nil => exact absurd rfl hne
    | cons => simp
  obtain ⟨h', r, d, e1, e2, e3, e4, e5⟩ := build_spec H (Heap.ofHashes hashes) 0 hashes.length hl (by simp [Heap.ofHashes])
    (by intro k hk; simp [Heap.ofHashes, hk])
  have hleaf : ∀ k, k < hashes.length → (h'.node k).hash = hashes[k]? ∧ (h'.node k).left = none ∧
      (h'.node k).right = none := by
    intro k hk
    obtain ⟨f1, f2, f3⟩ := e5 k hk
    rw [Nat.zero_add] at f1 f2 f3
    rw [f1, f2, f3]
    simp [Heap.ofHashes, hk]
  have hsz := e2.size_ge
  have hd : depthLoop h' (h'.size + 1) r 1 = some (1 + d) := by
    rw [show h'.size + 1 = (h'.size - d) + 1 + d by omega, e2.depthLoop, depthLoop]
    rw [(hleaf 0 hl).2.1]
  refine ⟨⟨h', r, 1 + d⟩, d, ?_, e2, by simp; omega, hleaf⟩
  unfold construct
  rw [e1]
  simp only [hd]

theorem construct_perf (H : Bytes → Bytes) {hashes : List Bytes} {t : Tree} {d : Nat}
    (b : Built H t.heap 0 hashes.length t.root d)
    (hl : ∀ k, k < hashes.length → (t.heap.node k).hash = hashes[k]? ∧ (t.heap.node k).left = none ∧
        (t.heap.node k).right = none) : ∃ l, Perf t.heap d t.root l := by
  have := b.perf 0 (fun k hk => ⟨_, .tip _ (by simpa using (hl k hk).2.1) (by simpa using (hl k hk).2.2)⟩)
  simpa using this

end Neo.Merkle
