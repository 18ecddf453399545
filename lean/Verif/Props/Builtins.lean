import Verif.Model.Builtins
import Verif.Props.Sorting

/-!
# C222-C224: `sum`, `max`, `min` and conditions
-/

namespace Neo.Props
open Py Spec Spec.EC Neo.EC Neo.Operators

/-! ## C222: adding up a list -/

/-- The amounts of a list of integers (satoshis) as summands. -/
def amounts (l : List Int) : List Summand := l.map .fixed8
/-- A list of integers as BigIntegers. -/
def bigs (l : List Int) : List Summand := l.map fun n => .num (.big n)
/-- A list of integers as plain ints. -/
def ints (l : List Int) : List Summand := l.map fun n => .num (.int n)

/-- C222 as far as it holds: with a start of the class, `sum` gives the total of every list of amounts (BigIntegers), whatever their order. -/
theorem C222_with_start_partial (a : Int) (l : List Int) :
    pySum (.fixed8 a) (amounts l) = .ok (.fixed8 (a + l.sum)) ∧
    pySum (.num (.big a)) (bigs l) = .ok (.num (.big (a + l.sum))) ∧
    (∀ l', l'.Perm l → pySum (.fixed8 a) (amounts l') = pySum (.fixed8 a) (amounts l)) := by
  have h1 : ∀ (l : List Int) (a : Int), pySum (.fixed8 a) (amounts l) = .ok (.fixed8 (a + l.sum)) := by
    intro l
    induction l with
    | nil => intro a; simp [amounts, pySum]
    | cons x l ih =>
      intro a
      rw [amounts, List.map_cons, pySum, addOp]
      simp only
      rw [← amounts, ih, Fixed8.add, List.sum_cons]
      congr 2
      omega
  have h2 : ∀ (l : List Int) (a : Int), pySum (.num (.big a)) (bigs l) = .ok (.num (.big (a + l.sum))) := by
    intro l
    induction l with
    | nil => intro a; simp [bigs, pySum]
    | cons x l ih =>
      intro a
      rw [bigs, List.map_cons, pySum]
      have : addOp (.num (.big a)) (.num (.big x)) = .ok (.num (.big (a + x))) := rfl
      rw [this]
      simp only
      rw [← bigs, ih, List.sum_cons]
      congr 3
      omega
  refine ⟨h1 l a, h2 l a, fun l' hp => ?_⟩
  rw [h1, h1, hp.sum_eq]

/-- C222 fails: without a start `sum` of amounts raises TypeError unless the list is empty, when it is the int 0 and no amount; and the sum of
BigIntegers has the right value, but it is a plain int. -/
theorem C222_without_start_violated (l : List Int) :
    sumOf (amounts l) = (if l = [] then .ok (.num (.int 0)) else .error .typeError) ∧
    sumOf (bigs l) = .ok (.num (.int l.sum)) := by
  have h2 : ∀ (l : List Int) (a : Int), pySum (.num (.int a)) (bigs l) = .ok (.num (.int (a + l.sum))) := by
    intro l
    induction l with
    | nil => intro a; simp [bigs, pySum]
    | cons x l ih =>
      intro a
      rw [bigs, List.map_cons, pySum]
      have : addOp (.num (.int a)) (.num (.big x)) = .ok (.num (.int (a + x))) := rfl
      rw [this]
      simp only
      rw [← bigs, ih, List.sum_cons]
      congr 3
      omega
  refine ⟨?_, by rw [sumOf, h2, zero_add]⟩
  cases l with
  | nil => rfl
  | cons x l => rfl

example : pySum (.fixed8 0) (amounts [150000000, -50000000, 1]) = .ok (.fixed8 100000001) := rfl
example : sumOf (amounts [150000000]) = .error .typeError := rfl
example : sumOf (bigs [5, 7]) = .ok (.num (.int 12)) := rfl

/-! ## C223: the largest and the smallest of a list -/

/-- `m` is the first of the elements of `l` whose key is largest. -/
def FirstLargest {α : Type} (key : α → Int) (l : List α) (m : α) : Prop :=
  ∃ before after, l = before ++ m :: after ∧ (∀ x ∈ before, key x < key m) ∧ ∀ x ∈ l, key x ≤ key m

private theorem bestFrom_key {α : Type} {better : α → α → Except Err Bool} {key : α → Int} (l : List α) (seen : List α) (m : α)
    (hm : FirstLargest key seen m)
    (h : ∀ x ∈ seen ++ l, ∀ y ∈ seen ++ l, better x y = .ok (decide (key y < key x))) :
    ∃ r, bestFrom better m l = .ok r ∧ FirstLargest key (seen ++ l) r := by
  induction l generalizing seen m with
  | nil => exact ⟨m, rfl, by rwa [List.append_nil]⟩
  | cons x l ih =>
    obtain ⟨b, a, rfl, h1, h2⟩ := hm
    have hb := h x (by simp) m (by simp)
    rw [bestFrom, hb]
    simp only
    have hs : (b ++ m :: a) ++ x :: l = ((b ++ m :: a) ++ [x]) ++ l := by simp
    rw [hs] at h ⊢
    refine ih _ _ ?_ h
    by_cases hx : key m < key x
    · rw [if_pos (by simpa using hx)]
      refine ⟨b ++ m :: a, [], rfl, ?_, ?_⟩
      · intro y hy
        exact lt_of_le_of_lt (h2 y hy) hx
      · intro y hy
        rcases List.mem_append.1 hy with hy | hy
        · exact (lt_of_le_of_lt (h2 y hy) hx).le
        · rw [List.mem_singleton.1 hy]
    · rw [if_neg (by simpa using hx)]
      refine ⟨b, a ++ [x], by simp, h1, ?_⟩
      intro y hy
      rcases List.mem_append.1 hy with hy | hy
      · exact h2 y hy
      · rw [List.mem_singleton.1 hy]
        omega

private theorem best_key {α : Type} {better : α → α → Except Err Bool} {key : α → Int} {l : List α} (hl : l ≠ [])
    (h : ∀ x ∈ l, ∀ y ∈ l, better x y = .ok (decide (key y < key x))) :
    ∃ r, best better l = .ok r ∧ FirstLargest key l r := by
  cases l with
  | nil => exact absurd rfl hl
  | cons x l =>
    exact bestFrom_key l [x] x ⟨[], [], rfl, by simp, by simp⟩ h

/-- C223 holds for amounts: `max` (`min`) of a nonempty list is its largest (smallest) amount, for every order of the list the same; for the
empty list it raises. -/
theorem C223_amounts_partial (l : List Int) :
    (l ≠ [] → (∃ m, amountMax l = .ok m ∧ m ∈ l ∧ ∀ x ∈ l, x ≤ m) ∧ (∃ m, amountMin l = .ok m ∧ m ∈ l ∧ ∀ x ∈ l, m ≤ x)) ∧
    (∀ l', l'.Perm l → amountMax l' = amountMax l ∧ amountMin l' = amountMin l) ∧
    amountMax [] = .error .valueError ∧ amountMin [] = .error .valueError := by
  have h1 : ∀ l : List Int, l ≠ [] → ∃ m, amountMax l = .ok m ∧ m ∈ l ∧ ∀ x ∈ l, x ≤ m := by
    intro l hl
    obtain ⟨r, hr, b, a, e, _, h2⟩ := best_key (better := fun x y => .ok (Fixed8.gt x y)) (key := id) hl fun x _ y _ => rfl
    exact ⟨r, hr, by rw [e]; simp, h2⟩
  have h2 : ∀ l : List Int, l ≠ [] → ∃ m, amountMin l = .ok m ∧ m ∈ l ∧ ∀ x ∈ l, m ≤ x := by
    intro l hl
    obtain ⟨r, hr, b, a, e, _, h2⟩ := best_key (better := fun x y => .ok (Fixed8.lt x y)) (key := fun x => -x) hl fun x _ y _ => by
      rw [Fixed8.lt]; simp
    exact ⟨r, hr, by rw [e]; simp, fun x hx => neg_le_neg_iff.1 (h2 x hx)⟩
  refine ⟨fun hl => ⟨h1 l hl, h2 l hl⟩, fun l' hp => ?_, rfl, rfl⟩
  by_cases hl : l = []
  · subst hl
    rw [hp.eq_nil]
    exact ⟨rfl, rfl⟩
  · have hl' : l' ≠ [] := fun e => hl (by subst e; exact hp.symm.eq_nil)
    obtain ⟨m, a1, a2, a3⟩ := h1 l hl
    obtain ⟨m', b1, b2, b3⟩ := h1 l' hl'
    obtain ⟨n, c1, c2, c3⟩ := h2 l hl
    obtain ⟨n', d1, d2, d3⟩ := h2 l' hl'
    have e1 := b3 m (hp.mem_iff.2 a2)
    have e2 := a3 m' (hp.mem_iff.1 b2)
    have e3 := d3 n (hp.mem_iff.2 c2)
    have e4 := c3 n' (hp.mem_iff.1 d2)
    rw [a1, b1, c1, d1]
    exact ⟨by congr 1; omega, by congr 1; omega⟩

private theorem lt_exact {k : UKind} {x y : Bytes} (h : x.length = y.length) :
    UInt.lt x (.uint k y) = .ok (decide (leNumber x / 256 < leNumber y / 256)) := by
  rw [UInt.lt, C35_compare_exact_partial x y k h]
  show Except.ok _ = _
  congr 1
  unfold cmp3
  split_ifs <;> simp_all

private theorem gt_exact {k : UKind} {x y : Bytes} (h : x.length = y.length) :
    UInt.gt x (.uint k y) = .ok (decide (leNumber y / 256 < leNumber x / 256)) := by
  rw [UInt.gt, C35_compare_exact_partial x y k h]
  show Except.ok _ = _
  congr 1
  unfold cmp3
  split_ifs <;> simp_all; omega

/-- C223 for hashes, as far as it holds: `max` (`min`) of a nonempty list of hashes of one kind is the first of those that are largest (smallest) in
all but the lowest byte; so it is the largest hash if no two different hashes of the list agree in all but the lowest byte. -/
theorem C223_hashes_partial (k : UKind) (n : Nat) (l : List Bytes) (hl : l ≠ []) (hn : ∀ x ∈ l, x.length = n) :
    (∃ m, hashMax k l = .ok m ∧ FirstLargest (fun x => (leNumber x / 256 : Nat)) l m) ∧
    (∃ m, hashMin k l = .ok m ∧ FirstLargest (fun x => -((leNumber x / 256 : Nat) : Int)) l m) ∧
    ((∀ a ∈ l, ∀ b ∈ l, a.drop 1 = b.drop 1 → a = b) →
      (∀ m, hashMax k l = .ok m → ∀ x ∈ l, leNumber x ≤ leNumber m) ∧ (∀ m, hashMin k l = .ok m → ∀ x ∈ l, leNumber m ≤ leNumber x)) := by
  have hi : (∀ a ∈ l, ∀ b ∈ l, a.drop 1 = b.drop 1 → a = b) → ∀ a ∈ l, ∀ b ∈ l, leNumber a / 256 ≤ leNumber b / 256 → leNumber a ≤ leNumber b := by
    intro hd a ha b hb hle
    rcases Nat.lt_or_eq_of_le hle with h | h
    · omega
    · rw [hd a ha b hb]
      have hl : (a.drop 1).length = (b.drop 1).length := by rw [List.length_drop, List.length_drop, hn a ha, hn b hb]
      apply leNumber_inj hl
      have key : ∀ x : Bytes, leNumber x / 256 = leNumber (x.drop 1) := by
        intro x
        cases x with
        | nil => rfl
        | cons c t =>
          have hc := c.toNat_lt
          rw [leNumber_eq, leNumber_eq]
          simp only [leToNat, List.drop_succ_cons, List.drop_zero]
          omega
      rw [← key, ← key, h]
  have hmem : ∀ {key : Bytes → Int} {m : Bytes}, FirstLargest key l m → m ∈ l := by
    rintro key m ⟨b, a, e, _⟩
    rw [e]
    simp
  suffices hs : (∃ m, hashMax k l = .ok m ∧ FirstLargest (fun x => (leNumber x / 256 : Nat)) l m) ∧
      (∃ m, hashMin k l = .ok m ∧ FirstLargest (fun x => -((leNumber x / 256 : Nat) : Int)) l m) by
    refine ⟨hs.1, hs.2, fun hd => ⟨fun m hm x hx => ?_, fun m hm x hx => ?_⟩⟩
    · obtain ⟨m', h1, h2⟩ := hs.1
      rw [hm] at h1
      cases h1
      obtain ⟨_, _, _, _, h3⟩ := id h2
      exact hi hd x hx m (hmem h2) (Int.ofNat_le.1 (h3 x hx))
    · obtain ⟨m', h1, h2⟩ := hs.2
      rw [hm] at h1
      cases h1
      obtain ⟨_, _, _, _, h3⟩ := id h2
      exact hi hd m (hmem h2) x hx (Int.ofNat_le.1 (neg_le_neg_iff.1 (h3 x hx)))
  constructor
  · refine best_key hl fun x hx y hy => ?_
    rw [gt_exact ((hn x hx).trans (hn y hy).symm)]
    congr 1
    simp only [Nat.cast_lt]
  · refine best_key hl fun x hx y hy => ?_
    rw [lt_exact ((hn x hx).trans (hn y hy).symm)]
    congr 1
    simp only [neg_lt_neg_iff, Nat.cast_lt]

/-- C223 fails for hashes that differ in the lowest byte only: `max` and `min` of two of them are both the first, whichever that is. -/
theorem C223_hashes_violated (k : UKind) (a b : UInt8) (rest : Bytes) :
    hashMax k [a :: rest, b :: rest] = .ok (a :: rest) ∧ hashMin k [a :: rest, b :: rest] = .ok (a :: rest) ∧
    (a < b → leNumber (a :: rest) < leNumber (b :: rest)) := by
  have e : leNumber (a :: rest) / 256 = leNumber (b :: rest) / 256 := by
    have ha := a.toNat_lt
    have hb := b.toNat_lt
    rw [leNumber_eq, leNumber_eq]
    simp only [leToNat]
    omega
  refine ⟨?_, ?_, fun hab => ?_⟩
  · rw [hashMax, best, bestFrom, gt_exact (by simp), e]
    simp [bestFrom]
  · rw [hashMin, best, bestFrom, lt_exact (by simp), e]
    simp [bestFrom]
  · have := UInt8.lt_iff_toNat_lt.1 hab
    rw [leNumber_eq, leNumber_eq]
    simp only [leToNat]
    omega

/-- C223 for public keys, as far as it holds: `max` (`min`) is the first of the points whose x is largest (smallest). -/
theorem C223_points_partial (l : List Pt) (hl : l ≠ []) (hr : ∀ P ∈ l, Reduced secp256r1Curve P) :
    (∃ m, pointMax secp256r1Curve l = .ok m ∧ FirstLargest (fun P => P.x) l m) ∧
    (∃ m, pointMin secp256r1Curve l = .ok m ∧ FirstLargest (fun P => -P.x) l m) := by
  have hlt : ∀ P ∈ l, ∀ Q ∈ l, lt secp256r1Curve P Q = decide (P.x < Q.x) := by
    intro P hP Q hQ
    rw [Bool.eq_iff_iff, lt_iff (hr P hP) (hr Q hQ), decide_eq_true_iff]
  constructor
  · refine best_key hl fun P hP Q hQ => ?_
    have h3 := (C99_partial_order P Q Q (hr P hP) (hr Q hQ) (hr Q hQ)).2.2.2.2.1
    rw [hlt Q hQ P hP] at h3
    congr 1
    rw [Bool.eq_iff_iff]
    exact h3
  · refine best_key hl fun P hP Q hQ => ?_
    rw [hlt P hP Q hQ]
    congr 1
    simp only [neg_lt_neg_iff]

/-- C223 fails for a public key and its negative: `max` and `min` of the two are both the first, whichever that is. -/
theorem C223_points_violated (P : Pt) (ho : OnCurve secp256r1Curve P) (h0 : P ≠ zero) (hr : Reduced secp256r1Curve P) :
    ∃ Q, Q ≠ P ∧ OnCurve secp256r1Curve Q ∧ pointMax secp256r1Curve [P, Q] = .ok P ∧ pointMax secp256r1Curve [Q, P] = .ok Q ∧
      pointMin secp256r1Curve [P, Q] = .ok P ∧ pointMin secp256r1Curve [Q, P] = .ok Q := by
  obtain ⟨_, h2, _, _, _⟩ := C69_total_violated P ho h0 hr
  refine ⟨neg secp256r1Curve P, (C176_input_order_violated P ho h0 hr).1.symm, ?_, ?_⟩
  · have hd := ho.resolve_left h0
    right
    have e : (neg secp256r1Curve P).y ^ 2 - ((neg secp256r1Curve P).x ^ 3 + secp256r1Curve.a * (neg secp256r1Curve P).x + secp256r1Curve.b) =
        P.y ^ 2 - (P.x ^ 3 + secp256r1Curve.a * P.x + secp256r1Curve.b) + secp256r1Curve.p * (secp256r1Curve.p - 2 * P.y) := by
      rw [neg, fNeg]
      ring
    rw [e]
    exact dvd_add hd (Dvd.intro _ rfl)
  have hx : (neg secp256r1Curve P).x = P.x := rfl
  have hlt : ∀ A B : Pt, A.x = B.x → lt secp256r1Curve A B = false ∧ gt secp256r1Curve A B = false := by
    intro A B e
    rw [lt, gt, e]
    simp
  simp only [pointMax, pointMin, best, bestFrom, (hlt _ _ hx).1, (hlt _ _ hx).2, (hlt _ _ hx.symm).1, (hlt _ _ hx.symm).2]
  simp

example : amountMax [3, 7, 7, -2] = .ok 7 ∧ amountMin [3, 7, 7, -2] = .ok (-2) := ⟨rfl, rfl⟩
example : hashMax .u160 [[1, 0], [9, 0]] = .ok [1, 0] ∧ hashMax .u160 [[9, 0], [1, 1]] = .ok [1, 1] := ⟨rfl, rfl⟩

/-! ## C224: conditions -/

/-- C224 holds for BigIntegers (and plain ints): true exactly if not zero. -/
theorem C224_integers_partial (n : Int) :
    (truth (.obj (.val (.bigInteger n))) = true ↔ n ≠ 0) ∧ (truth (.obj (.val (.int n))) = true ↔ n ≠ 0) := by
  constructor <;>
  · show (n != 0) = true ↔ _
    simp

/-- C224 fails for amounts, hashes, field values and points: all of them count as true, zero and Infinity included. -/
theorem C224_always_true_violated :
    (∀ v, truth (.obj (.fixed8 v)) = true) ∧ (∀ k d, truth (.obj (.val (.uint k d))) = true) ∧ (∀ v, truth (.value v) = true) ∧
    (∀ P, truth (.obj (.point P)) = true) := ⟨fun _ => rfl, fun _ _ => rfl, fun _ => rfl, fun _ => rfl⟩

example : truth (.obj (.fixed8 0)) = true ∧ truth (.obj (.val (.bigInteger 0))) = false ∧ truth (.obj (.val (.str []))) = false := ⟨rfl, rfl, rfl⟩

end Neo.Props
