import Verif.Props.Sorting

/-! # C175, C176: exactly which lists are sorted alike whatever their order -/

namespace Neo.Props
open Py Spec Spec.EC Neo.EC

private theorem order_iff {α : Type} {lt : α → α → Bool} {key : α → Nat} (l : List α)
    (hk : ∀ a ∈ l, ∀ b ∈ l, lt a b = decide (key a < key b)) :
    (∀ l₁ l₂ r₁ r₂, l₁.Perm l → l₂.Perm l → SortedOf lt l₁ r₁ → SortedOf lt l₂ r₂ → r₁ = r₂) ↔
      ∀ a ∈ l, ∀ b ∈ l, key a = key b → a = b := by
  have hk' : ∀ l' : List α, l'.Perm l → ∀ a ∈ l', ∀ b ∈ l', lt a b = decide (key a < key b) :=
    fun l' hp a ha b hb => hk a (hp.mem_iff.1 ha) b (hp.mem_iff.1 hb)
  constructor
  · intro h a ha b hb e
    obtain ⟨s, t, hs⟩ := List.append_of_mem ha
    obtain ⟨s', t', hs'⟩ := List.append_of_mem hb
    have p1 : (a :: (s ++ t)).Perm l := by rw [hs]; exact List.perm_middle.symm
    have p2 : (b :: (s' ++ t')).Perm l := by rw [hs']; exact List.perm_middle.symm
    obtain ⟨r1, h1⟩ := sorted_exists _ (hk' _ p1)
    obtain ⟨r2, h2⟩ := sorted_exists _ (hk' _ p2)
    have e' := h _ _ _ _ p1 p2 h1 h2
    have f1 := sorted_filter (hk' _ p1) h1 (key a)
    have f2 := sorted_filter (hk' _ p2) h2 (key a)
    have ea : (key a == key a) = true := by simp
    have eb : (key b == key a) = true := by simp [e]
    rw [e', f2] at f1
    simp only [List.filter_cons, ea, eb, if_true] at f1
    exact (List.cons.inj f1).1.symm
  · intro h l₁ l₂ r₁ r₂ p1 p2 h1 h2
    have hi : ∀ a ∈ l₁, ∀ b ∈ l₁, key a = key b → a = b := fun a ha b hb => h a (p1.mem_iff.1 ha) b (p1.mem_iff.1 hb)
    exact sorted_perm (hk' _ p1) hi (p2.trans p1.symm) h1 h2

/-- C175, exactly when the list of hashes (of one size) is sorted the same in whatever order its elements are given: when no two
different ones agree in all but the first byte. -/
theorem C175_iff_partial (k : UKind) (n : Nat) (l : List Bytes) (hn : ∀ x ∈ l, x.length = n) :
    (∀ l₁ l₂ r₁ r₂, l₁.Perm l → l₂.Perm l → SortedOf (hashLt k) l₁ r₁ → SortedOf (hashLt k) l₂ r₂ → r₁ = r₂) ↔
      ∀ a ∈ l, ∀ b ∈ l, a.drop 1 = b.drop 1 → a = b := by
  rw [order_iff l (hashLt_key (k := k) hn)]
  have key : ∀ x : Bytes, leNumber x / 256 = leNumber (x.drop 1) := by
    intro x
    cases x with
    | nil => rfl
    | cons c t =>
      have hc := c.toNat_lt
      rw [leNumber_eq, leNumber_eq]
      simp only [leToNat, List.drop_succ_cons, List.drop_zero]
      omega
  constructor
  · intro h a ha b hb e
    apply h a ha b hb
    rw [key, key, e]
  · intro h a ha b hb e
    apply h a ha b hb
    have hl : (a.drop 1).length = (b.drop 1).length := by rw [List.length_drop, List.length_drop, hn a ha, hn b hb]
    apply leNumber_inj hl
    rw [← key, ← key, e]

example : (∀ x ∈ [[9, 1], [1, 2], ([1, 3] : Bytes)], x.length = 2) ∧
    ∀ a ∈ [[9, 1], [1, 2], ([1, 3] : Bytes)], ∀ b ∈ [[9, 1], [1, 2], ([1, 3] : Bytes)], a.drop 1 = b.drop 1 → a = b := by decide

/-- C176, exactly when the list of points is sorted the same in whatever order its elements are given: when no two different ones
have the same x coordinate. -/
theorem C176_iff_partial (l : List Pt) (hr : ∀ P ∈ l, Reduced secp256r1Curve P) :
    (∀ l₁ l₂ r₁ r₂, l₁.Perm l → l₂.Perm l → SortedOf (lt secp256r1Curve) l₁ r₁ → SortedOf (lt secp256r1Curve) l₂ r₂ → r₁ = r₂) ↔
      ∀ P ∈ l, ∀ Q ∈ l, P.x = Q.x → P = Q := by
  rw [order_iff l (pointLt_key hr)]
  constructor
  · intro h P hP Q hQ e
    exact h P hP Q hQ (by rw [e])
  · intro h P hP Q hQ e
    have h1 := (hr P hP).1
    have h2 := (hr Q hQ).1
    exact h P hP Q hQ (by omega)

example : (∀ P ∈ [(⟨1, 2⟩ : Pt), ⟨3, 2⟩], Reduced secp256r1Curve P) := by
  intro P hP
  rcases List.mem_cons.1 hP with rfl | hP
  · constructor <;> decide +kernel
  · rw [List.mem_singleton.1 hP]; constructor <;> decide +kernel

end Neo.Props
