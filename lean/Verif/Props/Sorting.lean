import Verif.Proofs.Sorting
import Verif.Props.UInt
import Verif.Props.PublicKey

/-!
# C175, C176: sorting lists of hashes and of public keys

`sorted` is any function with the documented guarantee (`Spec/Sorting`); `<` is the operator of the objects sorted.
-/

namespace Neo.Props
open Py Spec Spec.EC Neo.EC

/-- neocore/UIntBase.py:103-104 `UIntBase.__lt__` as `sorted` uses it: `x < y` of two UInts; an exception would end the sorting (it does not occur:
first part of `C175_sorted_partial`). -/
def hashLt (k : UKind) (x y : Bytes) : Bool :=
  match UInt.lt x (.uint k y) with
  | .ok b => b
  | .error _ => false

private theorem hashLt_eq {k : UKind} {x y : Bytes} (h : x.length = y.length) :
    UInt.lt x (.uint k y) = .ok (decide (leNumber x / 256 < leNumber y / 256)) := by
  rw [UInt.lt, C35_compare_exact_partial x y k h]
  show Except.ok _ = _
  congr 1
  unfold cmp3
  split_ifs <;> simp_all

theorem hashLt_key {k : UKind} {n : Nat} {l : List Bytes} (hn : ∀ x ∈ l, x.length = n) :
    ∀ a ∈ l, ∀ b ∈ l, hashLt k a b = decide (leNumber a / 256 < leNumber b / 256) := by
  intro a ha b hb
  rw [hashLt, hashLt_eq ((hn a ha).trans (hn b hb).symm)]

/-- C175 as far as it holds, for every list of hashes of one kind: no comparison raises, `sorted` succeeds, its outcome is determined by the list
and ascending in the number without its lowest byte; and if no two different hashes agree in all but the lowest byte, it is ascending in
the number and the same for every order of the list. -/
theorem C175_sorted_partial (k : UKind) (n : Nat) (l : List Bytes) (hn : ∀ x ∈ l, x.length = n) :
    (∀ a ∈ l, ∀ b ∈ l, ∃ v, UInt.lt a (.uint k b) = .ok v) ∧
    (∃ r, SortedOf (hashLt k) l r ∧ ∀ r', SortedOf (hashLt k) l r' → r' = r) ∧
    (∀ r, SortedOf (hashLt k) l r → r.Pairwise fun a b => leNumber a / 256 ≤ leNumber b / 256) ∧
    ((∀ a ∈ l, ∀ b ∈ l, a.drop 1 = b.drop 1 → a = b) → ∀ r, SortedOf (hashLt k) l r →
      (r.Pairwise fun a b => leNumber a ≤ leNumber b) ∧ ∀ l' r', l'.Perm l → SortedOf (hashLt k) l' r' → r' = r) := by
  have hk := hashLt_key (k := k) hn
  refine ⟨fun a ha b hb => ⟨_, hashLt_eq ((hn a ha).trans (hn b hb).symm)⟩, ?_, fun r h => sorted_pairwise hk h, ?_⟩
  · obtain ⟨r, hr⟩ := sorted_exists l hk
    exact ⟨r, hr, fun r' h' => sorted_unique hk h' hr⟩
  · intro hd r hr
    have hi : ∀ a ∈ l, ∀ b ∈ l, leNumber a / 256 = leNumber b / 256 → a = b := by
      intro a ha b hb e
      apply hd a ha b hb
      have hl : (a.drop 1).length = (b.drop 1).length := by rw [List.length_drop, List.length_drop, hn a ha, hn b hb]
      apply leNumber_inj hl
      have key : ∀ x : Bytes, leNumber x / 256 = leNumber (x.drop 1) := by
        intro x
        cases x with
        | nil => rfl
        | cons c t =>
          have hc := c.toNat_lt
          rw [leNumber_eq, leNumber_eq]
          simp only [leToNat, List.drop_succ_cons, List.drop_zero]
          omega
      rw [← key, ← key, e]
    refine ⟨(sorted_pairwise hk hr).imp_of_mem ?_, fun l' r' hp h' => (sorted_perm hk hi hp hr h').symm⟩
    intro a b ha hb hle
    rcases Nat.lt_or_eq_of_le hle with h | h
    · omega
    · rw [hi a (hr.perm.mem_iff.1 ha) b (hr.perm.mem_iff.1 hb) h]

/-- C175 fails for hashes that differ in the lowest byte only: two of them stay as they are, in both orders. -/
theorem C175_input_order_violated (k : UKind) (a b : UInt8) (rest : Bytes) (hab : a < b) (r : List Bytes)
    (h : SortedOf (hashLt k) [b :: rest, a :: rest] r) :
    r = [b :: rest, a :: rest] ∧ leNumber (a :: rest) < leNumber (b :: rest) := by
  have hn : ∀ x ∈ [b :: rest, a :: rest], x.length = rest.length + 1 := by
    intro x hx
    rcases List.mem_cons.1 hx with rfl | hx
    · rfl
    · rw [List.mem_singleton.1 hx]; rfl
  have e : leNumber (a :: rest) / 256 = leNumber (b :: rest) / 256 := by
    have ha := a.toNat_lt
    have hb := b.toNat_lt
    rw [leNumber_eq, leNumber_eq]
    simp only [leToNat]
    omega
  refine ⟨?_, ?_⟩
  · have := sorted_filter (hashLt_key hn) h (leNumber (b :: rest) / 256)
    have hall : ∀ x ∈ [b :: rest, a :: rest], (leNumber x / 256 == leNumber (b :: rest) / 256) = true := by
      intro x hx
      rcases List.mem_cons.1 hx with rfl | hx
      · simp
      · rw [List.mem_singleton.1 hx, e]; simp
    rw [List.filter_eq_self.2 hall, List.filter_eq_self.2 fun x hx => hall x (h.perm.mem_iff.1 hx)] at this
    exact this
  · have := UInt8.lt_iff_toNat_lt.1 hab
    rw [leNumber_eq, leNumber_eq]
    simp only [leToNat]
    omega

example : hashLt .u160 [9, 1] [1, 2] = true ∧ hashLt .u160 [1, 2] [9, 1] = false ∧ hashLt .u160 [1, 2] [9, 2] = false := by decide

/-! ## C176 -/

theorem pointLt_key {l : List Pt} (hr : ∀ P ∈ l, Reduced secp256r1Curve P) :
    ∀ P ∈ l, ∀ Q ∈ l, lt secp256r1Curve P Q = decide (P.x.toNat < Q.x.toNat) := by
  intro P hP Q hQ
  have := lt_iff (hr P hP) (hr Q hQ)
  have h1 := (hr P hP).1
  have h2 := (hr Q hQ).1
  rw [Bool.eq_iff_iff, this, decide_eq_true_iff]
  omega

/-- C176 as far as it holds, for every list of reduced points: `sorted` gives a list determined by the input and ascending in x, and if no two
different points of the list have the same x (a key and its negative have), the same for every order of the list. -/
theorem C176_sorted_partial (l : List Pt) (hr : ∀ P ∈ l, Reduced secp256r1Curve P) :
    (∃ r, SortedOf (lt secp256r1Curve) l r ∧ ∀ r', SortedOf (lt secp256r1Curve) l r' → r' = r) ∧
    (∀ r, SortedOf (lt secp256r1Curve) l r → r.Pairwise fun P Q => P.x ≤ Q.x) ∧
    ((∀ P ∈ l, ∀ Q ∈ l, P.x = Q.x → P = Q) → ∀ r l' r', SortedOf (lt secp256r1Curve) l r → l'.Perm l →
      SortedOf (lt secp256r1Curve) l' r' → r' = r) := by
  have hk := pointLt_key hr
  refine ⟨?_, ?_, ?_⟩
  · obtain ⟨r, h⟩ := sorted_exists l hk
    exact ⟨r, h, fun r' h' => sorted_unique hk h' h⟩
  · intro r h
    refine (sorted_pairwise hk h).imp_of_mem ?_
    intro P Q hP hQ hle
    have h1 := (hr P (h.perm.mem_iff.1 hP)).1
    have h2 := (hr Q (h.perm.mem_iff.1 hQ)).1
    omega
  · intro hi r l' r' h hp h'
    refine (sorted_perm hk (fun P hP Q hQ e => hi P hP Q hQ ?_) hp h h').symm
    have h1 := (hr P hP).1
    have h2 := (hr Q hQ).1
    omega

/-- C176 fails for every finite point of the curve and its negative: both orders of the two stay as they are. -/
theorem C176_input_order_violated (P : Pt) (ho : OnCurve secp256r1Curve P) (h0 : P ≠ zero) (hr : Reduced secp256r1Curve P) :
    P ≠ neg secp256r1Curve P ∧
    (∀ r, SortedOf (lt secp256r1Curve) [P, neg secp256r1Curve P] r → r = [P, neg secp256r1Curve P]) ∧
    (∀ r, SortedOf (lt secp256r1Curve) [neg secp256r1Curve P, P] r → r = [neg secp256r1Curve P, P]) := by
  obtain ⟨_, h2, h3, _, _⟩ := C69_total_violated P ho h0 hr
  have hx : (neg secp256r1Curve P).x = P.x := rfl
  have same : ∀ l : List Pt, (∀ Q ∈ l, Reduced secp256r1Curve Q) → (∀ Q ∈ l, Q.x = P.x) → ∀ r, SortedOf (lt secp256r1Curve) l r → r = l := by
    intro l hl hxs r h
    have := sorted_filter (pointLt_key hl) h P.x.toNat
    rwa [List.filter_eq_self.2 fun Q hQ => by rw [hxs Q (h.perm.mem_iff.1 hQ)]; simp,
      List.filter_eq_self.2 fun Q hQ => by rw [hxs Q hQ]; simp] at this
  refine ⟨?_, same _ ?_ ?_, same _ ?_ ?_⟩
  · intro e
    have := (C99_partial_order P P P hr hr hr).2.2.2.1
    rw [← e] at h3
    have h4 := (C69_total_violated P ho h0 hr).2.2.2.1
    rw [← e, (C99_partial_order P P P hr hr hr).1] at h4
    cases h4
  all_goals
    intro Q hQ
    rcases List.mem_cons.1 hQ with rfl | hQ
    · first | exact hr | exact h2 | rfl
    · obtain rfl := List.mem_singleton.1 hQ
      first | exact hr | exact h2 | rfl

example : lt secp256r1Curve ⟨1, 5⟩ ⟨2, 3⟩ = true ∧ lt secp256r1Curve ⟨1, 5⟩ ⟨1, 6⟩ = false ∧ Reduced secp256r1Curve ⟨1, 5⟩ := by
  unfold Reduced
  decide +kernel

end Neo.Props
