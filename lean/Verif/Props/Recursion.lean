import Verif.Model.Recursion
import Verif.Proofs.Field
import Mathlib.Data.Nat.Fib.Basic
import Mathlib.Tactic.NormNum.NatFib

/-!
# C155: GCD and CPython's recursion limit
-/

namespace Neo.Props
open EC

/-- Remainders of Python's `%`: smaller than the divisor, of its sign. -/
private theorem rem_bounds (b : Int) {a : Int} (h : a ≠ 0) :
    (Int.fmod b a).natAbs < a.natAbs ∧ ((0 ≤ Int.fmod b a ∧ 0 ≤ a) ∨ (Int.fmod b a ≤ 0 ∧ a ≤ 0)) := by
  rcases lt_or_gt_of_ne h with h | h
  · obtain ⟨h1, h2⟩ := fmod_neg_range b h
    omega
  · obtain ⟨h1, h2⟩ := fmod_pos_range b h
    omega

/-- A remainder of a larger number of the same sign is at most the difference. -/
private theorem rem_le_sub {a r : Int} (h : r ≠ 0) (hlt : r.natAbs < a.natAbs) (hs : (0 ≤ r ∧ 0 ≤ a) ∨ (r ≤ 0 ∧ a ≤ 0)) :
    (Int.fmod a r).natAbs + r.natAbs ≤ a.natAbs := by
  have key : ∀ a r : Int, 0 < r → r < a → Int.fmod a r + r ≤ a := by
    intro a r h0 hlt
    have h1 := fdiv_fmod a r
    have h2 := fmod_pos_range a h0
    have h3 : 1 ≤ Int.fdiv a r := by
      by_contra hcon
      have : Int.fdiv a r ≤ 0 := by omega
      nlinarith
    nlinarith
  rcases hs with ⟨h1, h2⟩ | ⟨h1, h2⟩
  · have := key a r (by omega) (by omega)
    have := fmod_pos_range a (show 0 < r by omega)
    omega
  · have h3 := key (-a) (-r) (by omega) (by omega)
    rw [Int.neg_fmod_neg] at h3
    have := fmod_neg_range a (show r < 0 by omega)
    omega

/-- Lamé: the recursion from (r, a) with |r| < |a| needs at most n + 1 frames when |r| < F(n+2) or |a| < F(n+3). -/
private theorem lame (n : Nat) : ∀ r a : Int, r.natAbs < a.natAbs → ((0 ≤ r ∧ 0 ≤ a) ∨ (r ≤ 0 ∧ a ≤ 0)) →
    (r.natAbs < Nat.fib (n + 2) ∨ a.natAbs < Nat.fib (n + 3)) → gcdLimited (n + 1) r a = some (gcdExt r a) := by
  induction n with
  | zero =>
    intro r a h1 _ h3
    have f2 : Nat.fib (0 + 2) = 1 := rfl
    have f3 : Nat.fib (0 + 3) = 2 := rfl
    have hr : r = 0 := by omega
    subst hr
    unfold gcdLimited gcdExt
    rw [if_pos rfl, dif_pos rfl]
  | succ n ih =>
    intro r a h1 h2 h3
    unfold gcdLimited gcdExt
    by_cases hr : r = 0
    · rw [if_pos hr, dif_pos hr]
    · rw [if_neg hr, dif_neg hr]
      obtain ⟨h4, h5⟩ := rem_bounds a hr
      have h6 := rem_le_sub hr h1 h2
      have hfib : Nat.fib (n + 4) = Nat.fib (n + 2) + Nat.fib (n + 3) := Nat.fib_add_two
      rw [ih _ _ h4 h5 (by
        rw [show n + 1 + 2 = n + 3 by omega, show n + 1 + 3 = n + 4 by omega] at h3
        omega)]

/-- C155, what holds: n frames (at least two) are enough for `GCD(a, b)` with |a| below the Fibonacci number F(n+1), whatever b. -/
theorem C155_lame_partial (n : Nat) (hn : 2 ≤ n) (a b : Int) (h : a.natAbs < Nat.fib (n + 1)) :
    gcdLimited n a b = some (gcdExt a b) := by
  obtain ⟨n, rfl⟩ : ∃ k, n = k + 2 := ⟨n - 2, by omega⟩
  unfold gcdLimited gcdExt
  by_cases ha : a = 0
  · rw [if_pos ha, dif_pos ha]
  · rw [if_neg ha, dif_neg ha]
    obtain ⟨h1, h2⟩ := rem_bounds b ha
    rw [lame n _ _ h1 h2 (.inr h)]

/-- More frames do no harm. -/
private theorem limited_mono {n m : Nat} (hm : n ≤ m) {a b : Int} {r} (h : gcdLimited n a b = some r) : gcdLimited m a b = some r := by
  induction n generalizing m a b r with
  | zero => cases h
  | succ n ih =>
    obtain ⟨m, rfl⟩ : ∃ k, m = k + 1 := ⟨m - 1, by omega⟩
    unfold gcdLimited at h ⊢
    by_cases ha : a = 0
    · rw [if_pos ha] at h ⊢; exact h
    · rw [if_neg ha] at h ⊢
      cases hq : gcdLimited n (Int.fmod b a) a with
      | none => rw [hq] at h; cases h
      | some q => rw [hq] at h; rw [ih (by omega) hq]; exact h

/-- C155 on the curves in use: `modinv` of any number of absolute value below 2^256, modulo anything, needs 371 of the 1000 frames. -/
theorem C155_curve_partial (frames : Nat) (hf : 371 ≤ frames) (x m : Int) (hx : x.natAbs < 2 ^ 256) :
    modinvLimited frames x m = some (modinv x m) := by
  have hfib : 2 ^ 256 ≤ Nat.fib 371 := by norm_num
  have h := C155_lame_partial 370 (by norm_num) x m (lt_of_lt_of_le hx hfib)
  obtain ⟨k, rfl⟩ : ∃ k, frames = k + 1 := ⟨frames - 1, by omega⟩
  have h := limited_mono (show 370 ≤ k by omega) h
  show (match gcdLimited k x m with | none => none | some r => some r.2.1) = some (gcdExt x m).2.1
  rw [h]

/-- C155 fails: for every recursion limit there are coprime numbers (consecutive Fibonacci numbers) for which `GCD` raises
RecursionError; with n frames, F(n+1) and F(n+2). -/
theorem C155_fibonacci_violated (n : Nat) :
    gcdLimited n (Nat.fib (n + 1)) (Nat.fib (n + 2)) = none ∧ IsCoprime (Nat.fib (n + 1) : Int) (Nat.fib (n + 2)) := by
  refine ⟨?_, Nat.isCoprime_iff_coprime.2 (Nat.fib_coprime_fib_succ _)⟩
  induction n with
  | zero => rfl
  | succ n ih =>
    unfold gcdLimited
    have hpos : 0 < Nat.fib (n + 2) := Nat.fib_pos.2 (by omega)
    rw [if_neg (by exact_mod_cast hpos.ne')]
    match n, ih with
    | 0, _ => rfl
    | n + 1, ih =>
      have hlt : Nat.fib (n + 2) < Nat.fib (n + 3) := Nat.fib_lt_fib_succ (by omega)
      have hmod : Int.fmod (Nat.fib (n + 1 + 1 + 2) : Int) (Nat.fib (n + 1 + 1 + 1) : Int) = (Nat.fib (n + 1 + 1) : Int) := by
        rw [Int.fmod_eq_emod_of_nonneg _ (by positivity)]
        have : Nat.fib (n + 1 + 1 + 2) = Nat.fib (n + 2) + Nat.fib (n + 3) := Nat.fib_add_two
        rw [this]
        exact_mod_cast (by rw [Nat.add_mod_right, Nat.mod_eq_of_lt hlt] : (Nat.fib (n + 2) + Nat.fib (n + 3)) % Nat.fib (n + 3) = _)
      rw [hmod, show n + 1 + 1 + 1 = n + 1 + 2 by omega, ih]

example : gcdLimited 3 2 7 = some (gcdExt 2 7) ∧ gcdLimited 2 2 7 = none := by
  constructor
  · exact C155_lame_partial 3 (by norm_num) 2 7 (by decide)
  · decide +kernel

end Neo.Props
