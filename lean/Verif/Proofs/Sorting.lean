import Verif.Spec.Sorting
import Mathlib.Data.List.Sort

/-!
# Stable sorting by a key
-/

namespace Neo.Props
open Spec

/-- Two lists in ascending order of a key, with the same elements of each key in the same order, are equal. -/
theorem eq_of_ordered {α : Type} (k : α → Nat) : ∀ (r r' : List α), r.Perm r' →
    r.Pairwise (fun a b => k a ≤ k b) → r'.Pairwise (fun a b => k a ≤ k b) →
    (∀ n, r.filter (fun x => k x == n) = r'.filter (fun x => k x == n)) → r = r' := by
  intro r
  induction r with
  | nil => intro r' hp _ _ _; exact (List.nil_perm.1 hp).symm
  | cons a t ih =>
    intro r' hp h1 h2 hf
    cases r' with
    | nil => exact absurd hp.length_eq (by simp)
    | cons b t' =>
      have ha := List.pairwise_cons.1 h1
      have hb := List.pairwise_cons.1 h2
      have hab : k a = k b := by
        have m1 : a ∈ b :: t' := hp.mem_iff.1 (List.mem_cons_self ..)
        have m2 : b ∈ a :: t := hp.mem_iff.2 (List.mem_cons_self ..)
        have l1 : k b ≤ k a := by
          rcases List.mem_cons.1 m1 with e | e
          · exact (congrArg k e).ge
          · exact hb.1 a e
        have l2 : k a ≤ k b := by
          rcases List.mem_cons.1 m2 with e | e
          · exact (congrArg k e).ge
          · exact ha.1 b e
        omega
      have e := hf (k a)
      rw [List.filter_cons_of_pos (by simp), List.filter_cons_of_pos (by simp [hab])] at e
      have hh : a = b := (List.cons.inj e).1
      subst hh
      rw [ih t' (hp.cons_inv) ha.2 hb.2]
      intro n
      have := hf n
      by_cases hn : k a = n
      · rw [List.filter_cons_of_pos (by simp [hn]), List.filter_cons_of_pos (by simp [hn])] at this
        exact (List.cons.inj this).2
      · rw [List.filter_cons_of_neg (by simp [hn]), List.filter_cons_of_neg (by simp [hn])] at this
        exact this

section
variable {α : Type} {lt : α → α → Bool} {k : α → Nat} {l r r' : List α}

theorem sorted_pairwise (hk : ∀ a ∈ l, ∀ b ∈ l, lt a b = decide (k a < k b)) (h : SortedOf lt l r) :
    r.Pairwise fun a b => k a ≤ k b := by
  refine h.ascending.imp_of_mem ?_
  intro a b ha hb e
  rw [hk b (h.perm.mem_iff.1 hb) a (h.perm.mem_iff.1 ha), decide_eq_false_iff_not] at e
  omega

theorem tied_key (hk : ∀ a ∈ l, ∀ b ∈ l, lt a b = decide (k a < k b)) {a b : α} (ha : a ∈ l) (hb : b ∈ l) :
    tied lt a b = (k b == k a) := by
  rw [tied, hk a ha b hb, hk b hb a ha]
  rcases Nat.lt_trichotomy (k a) (k b) with h | h | h
  · simp [h, (ne_of_gt h)]
  · simp [h]
  · simp [h, ne_of_lt h]

theorem sorted_filter (hk : ∀ a ∈ l, ∀ b ∈ l, lt a b = decide (k a < k b)) (h : SortedOf lt l r) (n : Nat) :
    r.filter (fun x => k x == n) = l.filter (fun x => k x == n) := by
  by_cases hn : ∃ a ∈ l, k a = n
  · obtain ⟨a, ha, rfl⟩ := hn
    have := h.stable a ha
    rw [List.filter_congr (q := fun x => k x == k a) (fun x hx => tied_key hk ha (h.perm.mem_iff.1 hx)),
      List.filter_congr (q := fun x => k x == k a) (fun x hx => tied_key hk ha hx)] at this
    exact this
  · rw [List.filter_eq_nil_iff.2, List.filter_eq_nil_iff.2]
    · intro x hx e
      exact hn ⟨x, hx, by simpa using e⟩
    · intro x hx e
      exact hn ⟨x, h.perm.mem_iff.1 hx, by simpa using e⟩

/-- The outcome of sorting is determined by the list. -/
theorem sorted_unique (hk : ∀ a ∈ l, ∀ b ∈ l, lt a b = decide (k a < k b)) (h : SortedOf lt l r) (h' : SortedOf lt l r') : r = r' :=
  eq_of_ordered k r r' (h.perm.trans h'.perm.symm) (sorted_pairwise hk h) (sorted_pairwise hk h')
    fun n => (sorted_filter hk h n).trans (sorted_filter hk h' n).symm

/-- With different keys the outcome does not depend on the order of the input. -/
theorem sorted_perm {l' : List α} (hk : ∀ a ∈ l, ∀ b ∈ l, lt a b = decide (k a < k b)) (hi : ∀ a ∈ l, ∀ b ∈ l, k a = k b → a = b)
    (hp : l'.Perm l) (h : SortedOf lt l r) (h' : SortedOf lt l' r') : r = r' := by
  have hk' : ∀ a ∈ l', ∀ b ∈ l', lt a b = decide (k a < k b) := fun a ha b hb => hk a (hp.mem_iff.1 ha) b (hp.mem_iff.1 hb)
  have p := h'.perm.trans (hp.trans h.perm.symm)
  refine p.symm.eq_of_pairwise (le := fun a b => k a ≤ k b) ?_ (sorted_pairwise hk h) (sorted_pairwise hk' h')
  intro a b ha hb h1 h2
  exact hi a (h.perm.mem_iff.1 ha) b (hp.mem_iff.1 (h'.perm.mem_iff.1 hb)) (by omega)

/-- Sorting is possible: insertion sort does it. -/
theorem sorted_exists (l : List α) (hk : ∀ a ∈ l, ∀ b ∈ l, lt a b = decide (k a < k b)) : ∃ r, SortedOf lt l r := by
  let R : α → α → Prop := fun a b => k a ≤ k b
  have : Std.Total R := ⟨fun a b => Nat.le_total _ _⟩
  have : IsTrans α R := ⟨fun a b c h1 h2 => Nat.le_trans h1 h2⟩
  have hp := List.perm_insertionSort R l
  refine ⟨l.insertionSort R, hp, ?_, ?_⟩
  · refine (List.pairwise_insertionSort R l).imp_of_mem ?_
    intro a b ha hb h
    rw [hk b (hp.mem_iff.1 hb) a (hp.mem_iff.1 ha), decide_eq_false_iff_not]
    exact Nat.not_lt.2 h
  · intro x hx
    have hc : (l.filter (tied lt x)).Pairwise R := by
      rw [List.pairwise_iff_forall_sublist]
      intro a b h
      have ma := List.mem_filter.1 (h.subset (List.mem_cons_self ..))
      have mb := List.mem_filter.1 (h.subset (List.mem_cons_of_mem _ (List.mem_cons_self ..)))
      have ea := ma.2
      have eb := mb.2
      rw [tied_key hk hx ma.1, beq_iff_eq] at ea
      rw [tied_key hk hx mb.1, beq_iff_eq] at eb
      show k a ≤ k b
      omega
    have hs := (List.sublist_insertionSort hc (List.filter_sublist (l := l))).filter (tied lt x)
    rw [List.filter_filter] at hs
    simp only [Bool.and_self] at hs
    exact (hs.eq_of_length (hp.filter _).length_eq.symm).symm
end

end Neo.Props
