import Mathlib.NumberTheory.LucasPrimality
import Mathlib.Data.Nat.Prime.Basic
import Mathlib.Algebra.BigOperators.Group.List.Lemmas
import Mathlib.Tactic.NormNum.Prime

/-! Kernel-checked primality certificates (Lucas/Pratt). -/

namespace Pratt

/-- `acc * b ^ e mod m` by binary exponentiation; the first argument bounds the number of bits of `e`. -/
def powModAux (m : ℕ) : ℕ → ℕ → ℕ → ℕ → ℕ
  | 0, _, _, acc => acc
  | k + 1, b, e, acc => powModAux m k (b * b % m) (e / 2) (if e % 2 = 1 then acc * b % m else acc)

/-- `b ^ e mod m` for exponents below 2^512. -/
def powMod (b e m : ℕ) : ℕ := powModAux m 512 b e (1 % m)

theorem powModAux_eq (m : ℕ) : ∀ (k b e acc : ℕ), e < 2 ^ k →
    ((powModAux m k b e acc : ℕ) : ZMod m) = (acc : ZMod m) * (b : ZMod m) ^ e
  | 0, b, e, acc, h => by
    have : e = 0 := by simpa using h
    simp [powModAux, this]
  | k + 1, b, e, acc, h => by
    rw [powModAux, powModAux_eq m k _ _ _ (by rw [pow_succ] at h; omega)]
    have hb : ((b * b % m : ℕ) : ZMod m) = (b : ZMod m) ^ 2 := by rw [ZMod.natCast_mod]; push_cast; ring
    rw [hb, ← pow_mul]
    by_cases he : e % 2 = 1
    · rw [if_pos he, ZMod.natCast_mod]
      push_cast
      rw [mul_assoc, ← pow_succ']
      congr 2
      omega
    · rw [if_neg he]
      congr 2
      omega

theorem powMod_eq {b e m : ℕ} (h : e < 2 ^ 512) : ((powMod b e m : ℕ) : ZMod m) = (b : ZMod m) ^ e := by
  rw [powMod, powModAux_eq m 512 b e _ h]
  simp

theorem powModAux_lt {m : ℕ} (hm : 0 < m) : ∀ (k b e acc : ℕ), acc < m → powModAux m k b e acc < m
  | 0, _, _, _, h => h
  | k + 1, b, e, acc, h => by
    rw [powModAux]
    apply powModAux_lt hm
    split
    · exact Nat.mod_lt _ hm
    · exact h

theorem powMod_lt {b e m : ℕ} (hm : 0 < m) : powMod b e m < m := powModAux_lt hm _ _ _ _ (Nat.mod_lt _ hm)

/-- A primality certificate: the prime factorisation of p - 1 and a generator. -/
theorem prime_of (p a : ℕ) (fs : List ℕ) (hp : 1 < p) (hb : p < 2 ^ 512) (hprod : fs.prod = p - 1)
    (hprime : ∀ f ∈ fs, f.Prime) (h1 : powMod a (p - 1) p = 1) (h2 : ∀ f ∈ fs, powMod a ((p - 1) / f) p ≠ 1) :
    p.Prime := by
  refine lucas_primality p (a : ZMod p) ?_ ?_
  · rw [← powMod_eq (by omega), h1, Nat.cast_one]
  · intro q hq hd
    rw [← hprod] at hd
    obtain ⟨f, hf, hqf⟩ := (hq.prime.dvd_prod_iff).mp hd
    have : q = f := (Nat.prime_dvd_prime_iff_eq hq (hprime f hf)).mp hqf
    subst this
    rw [← powMod_eq (lt_of_le_of_lt (Nat.div_le_self _ _) (by omega))]
    intro hh
    apply h2 q hf
    have h3 : ((powMod a ((p - 1) / q) p : ℕ) : ZMod p) = ((1 : ℕ) : ZMod p) := by rw [Nat.cast_one]; exact hh
    rw [ZMod.natCast_eq_natCast_iff] at h3
    have := powMod_lt (b := a) (e := (p - 1) / q) (m := p) (by omega)
    exact Nat.ModEq.eq_of_lt_of_lt h3 this hp

end Pratt
