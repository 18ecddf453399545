import Verif.Props.ScalarMul
import Verif.Spec.Halving

/-!
# C122: which scalars give the same multiple
-/

namespace Neo.Props
open Py Neo.EC Spec.EC

private theorem steps_halvings : ∀ f m : Nat, (∃ j, m ≤ 2 ^ j ∧ j + 1 ≤ f) → steps f m = Spec.halvings m := by
  intro f
  induction f with
  | zero => rintro m ⟨j, -, h⟩; omega
  | succ f ih =>
    rintro m ⟨j, h1, h2⟩
    rw [Spec.halvings, steps]
    by_cases h0 : m = 0
    · rw [if_pos h0, if_pos h0]
    rw [if_neg h0, if_neg h0]
    have e : halfN m = Spec.halfEven m := by unfold halfN Spec.halfEven; split_ifs <;> omega
    rw [e]
    congr 1
    by_cases hj : j = 0
    · subst hj
      have hm : m = 1 := by rw [pow_zero] at h1; omega
      subst hm
      have : Spec.halfEven 1 = 0 := by decide
      rw [this, Spec.halvings, if_pos rfl]
      cases f <;> simp [steps]
    · refine ih _ ⟨j - 1, ?_, by omega⟩
      obtain ⟨i, rfl⟩ : ∃ i, j = i + 1 := ⟨j - 1, by omega⟩
      rw [Nat.add_sub_cancel]
      rw [pow_succ] at h1
      unfold Spec.halfEven
      split_ifs with h4
      · by_cases hi : i = 0
        · subst hi; omega
        · obtain ⟨k, rfl⟩ : ∃ k, i = k + 1 := ⟨i - 1, by omega⟩
          rw [pow_succ] at h1 ⊢
          omega
      · omega

/-- The multiple for a scalar that is a float. -/
private theorem coeff_float (u m : Nat) (hm : m % 2 = 1) (hm53 : m < 2 ^ 53) :
    mulCoeff (2 ^ u * m : Nat) = 2 ^ u * (2 ^ (1074 + Spec.halvings m) - 1) := by
  have hst : steps 54 m = Spec.halvings m := steps_halvings 54 m ⟨53, hm53.le, le_refl _⟩
  by_cases h : 2 ^ u * m < 2 ^ 53
  · have := mulCoeff_small_of u (m : Int) (by omega) (by
      rw [abs_of_nonneg (by positivity)]; exact_mod_cast h) (loopCoeff_steps 54 m hm53.le ⟨53, hm53.le, le_refl _⟩)
    rw [hst] at this
    exact_mod_cast this
  · have h0 : 2 ^ u * m ≠ 0 := by
      have : 0 < 2 ^ u * m := by
        have : 0 < m := by omega
        positivity
      omega
    have hL : 53 ≤ Nat.log2 (2 ^ u * m) := (Nat.le_log2 h0).2 (by omega)
    obtain ⟨s, hs⟩ : ∃ s, Nat.log2 (2 ^ u * m) = s + 53 := ⟨_, (Nat.sub_add_cancel hL).symm⟩
    have hb1 : 2 ^ (s + 53) ≤ 2 ^ u * m := by rw [← hs]; exact Nat.log2_self_le h0
    have hb2 : 2 ^ u * m < 2 ^ (s + 54) := by
      have := Nat.lt_log2_self (n := 2 ^ u * m)
      rw [hs] at this
      exact this
    have hsu : s + 1 ≤ u := by
      by_contra hc
      have : 2 ^ u * m < 2 ^ s * 2 ^ 53 := by
        have h1 : 2 ^ u ≤ 2 ^ s := Nat.pow_le_pow_right (by norm_num) (by omega)
        calc 2 ^ u * m ≤ 2 ^ s * m := Nat.mul_le_mul_right _ h1
          _ < 2 ^ s * 2 ^ 53 := Nat.mul_lt_mul_of_pos_left hm53 (by positivity)
      rw [← pow_add] at this
      omega
    obtain ⟨w, rfl⟩ : ∃ w, u = s + 1 + w := ⟨u - (s + 1), by omega⟩
    obtain ⟨t, m', hR, hm', -, -, he⟩ := mulCoeff_large _ s hb1 hb2
    have hr : rneN (2 ^ (s + 1 + w) * m) (s + 1) = 2 ^ w * m := by
      have hd : 2 ^ (s + 1 + w) * m = 2 ^ (s + 1) * (2 ^ w * m) := by rw [pow_add, mul_assoc]
      have hpos : 0 < 2 ^ (s + 1) := by positivity
      rw [rneN, hd, Nat.mul_mod_right, Nat.mul_div_cancel_left _ hpos, if_pos (by omega), add_zero]
    rw [hr] at hR
    have huniq : w = t ∧ m = m' := by
      rcases lt_trichotomy w t with hlt | heq | hgt
      · exfalso
        obtain ⟨k, rfl⟩ : ∃ k, t = w + 1 + k := ⟨t - (w + 1), by omega⟩
        have : m = 2 * (2 ^ k * m') := by
          have hp : 0 < 2 ^ w := by positivity
          apply Nat.eq_of_mul_eq_mul_left hp
          rw [hR, pow_add, pow_succ]; ring
        omega
      · subst heq
        exact ⟨rfl, Nat.eq_of_mul_eq_mul_left (by positivity) hR⟩
      · exfalso
        obtain ⟨k, rfl⟩ : ∃ k, w = t + 1 + k := ⟨w - (t + 1), by omega⟩
        have : m' = 2 * (2 ^ k * m) := by
          have hp : 0 < 2 ^ t := by positivity
          apply Nat.eq_of_mul_eq_mul_left hp
          rw [← hR, pow_add, pow_succ]; ring
        omega
    obtain ⟨rfl, rfl⟩ := huniq
    rw [he, hst]
    have : 2 ^ (s + 1 + w) * m % 2 = 0 := by
      rw [show s + 1 + w = (s + w) + 1 by omega, pow_succ, mul_assoc, mul_left_comm, Nat.mul_mod_right]
    omega

/-- C64, what is computed instead, on every curve: for a scalar 2^u * m that is a float (m odd and below 2^53), `P * (2^u * m)` is
P added up 2^u * (2^(1074 + t) - 1) times, where t says how often m can be halved. -/
theorem C64_computed_partial (c : Curve) (hp : c.p.Prime) (h : Proper c) (P : Pt) :
    letI := Fact.mk hp
    ∀ A : (weierstrass c).Point, Denotes c P A → ∀ u m : Nat, m % 2 = 1 → m < 2 ^ 53 → 2 ^ u * m ≤ 2 ^ 1000 →
      ∃ R, mul c P (2 ^ u * m : Nat) = .ok R ∧ Denotes c R ((2 ^ u * (2 ^ (1074 + Spec.halvings m) - 1)) • A) := by
  have := Fact.mk hp
  intro A hA u m hm hm53 hle
  obtain ⟨R, r1, r2⟩ := denotes_mul h (n := ((2 ^ u * m : Nat) : Int)) (by rw [Nat.abs_cast]; exact_mod_cast hle) hA
  rw [coeff_float u m hm hm53] at r2
  exact ⟨R, r1, r2⟩

/-- The hypotheses are met by the base point of secp256r1 and the key 6 = 2 * 3, with 3 halved three times (3, 2, 1). -/
example : OnCurve secp256r1Curve secp256r1.G ∧ 6 = 2 ^ 1 * 3 ∧ Spec.halvings 3 = 3 :=
  ⟨Or.inr (by decide +kernel), by decide, by decide +kernel⟩

private def order : Nat := 0xFFFFFFFF00000000FFFFFFFFFFFFFFFFBCE6FAADA7179E84F3B9CAC2FC632551

private theorem order_eq : order = p256Order := by decide +kernel

private def every : Nat → (Nat → Bool) → Bool
  | 0, _ => true
  | n + 1, f => Bool.and (f n) (every n f)

private theorem every_spec {f : Nat → Bool} : ∀ {n : Nat}, every n f = true → ∀ i < n, f i = true
  | 0, _, i, h => by omega
  | n + 1, h, i, hi => by
    rw [every, Bool.and_eq_true] at h
    by_cases e : i = n
    · exact e ▸ h.1
    · exact every_spec h.2 i (by omega)

private def apart (d B : Nat) : Bool :=
  let x := Nat.mod (2 ^ d * (2 ^ (1074 + B) - 1) + 1) order
  every 55 fun A => Bool.or (Bool.and (Nat.beq d 0) (Nat.beq A B)) (Bool.not (Nat.beq (Nat.mod (2 ^ (1074 + A)) order) x))

set_option maxRecDepth 100000 in
private theorem all_apart : every 257 (fun d => every 55 fun B => Bool.or (Nat.beq B 0) (apart d B)) = true := by decide +kernel

private theorem apart_spec {d A B : Nat} (hd : d ≤ 256) (hA : A ≤ 54) (hB1 : 1 ≤ B) (hB : B ≤ 54)
    (h : 2 ^ (1074 + A) - 1 ≡ 2 ^ d * (2 ^ (1074 + B) - 1) [MOD p256Order]) : d = 0 ∧ A = B := by
  have h1 := every_spec (every_spec all_apart d (by omega)) B (by omega)
  rw [Bool.or_eq_true] at h1
  rcases h1 with h1 | h1
  · have := Nat.eq_of_beq_eq_true h1
    omega
  rw [apart] at h1
  have h2 := every_spec h1 A (by omega)
  rw [Bool.or_eq_true, Bool.and_eq_true] at h2
  rcases h2 with ⟨h2, h3⟩ | h2
  · exact ⟨Nat.eq_of_beq_eq_true h2, Nat.eq_of_beq_eq_true h3⟩
  · exfalso
    have h3 : (2 ^ (1074 + A)) % order = (2 ^ d * (2 ^ (1074 + B) - 1) + 1) % order := by
      have := h.add_right 1
      rw [Nat.sub_add_cancel Nat.one_le_two_pow, ← order_eq] at this
      exact this
    rw [Bool.not_eq_true'] at h2
    exact absurd h3 (Nat.ne_of_beq_eq_false h2)

private theorem order_of_finite : letI := Fact.mk p256_prime
    ∀ {A : (weierstrass secp256r1Curve).Point}, A ≠ 0 → addOrderOf A = p256Order := by
  have := Fact.mk p256_prime
  intro A hA0
  obtain ⟨G, hG, -⟩ := p256_order
  have hcard := (p256_multiples G hG).1
  have hd : addOrderOf A ∣ p256Order := by rw [← hcard]; exact addOrderOf_dvd_natCard A
  rcases (Nat.dvd_prime p256Order_prime).1 hd with h | h
  · exact absurd (AddMonoid.addOrderOf_eq_one_iff.1 h) hA0
  · exact h

private theorem halvings_bounds (m : Nat) (hm : m % 2 = 1) (hm53 : m < 2 ^ 53) : 1 ≤ Spec.halvings m ∧ Spec.halvings m ≤ 54 := by
  have hst : steps 54 m = Spec.halvings m := steps_halvings 54 m ⟨53, hm53.le, le_refl _⟩
  rw [← hst]
  exact ⟨(steps_bounds 54 m).1 (by omega) (by norm_num), (steps_bounds 54 m).2⟩

private theorem classes (u v m m' : Nat) (hu : u ≤ 256) (hv : v ≤ 256) (hm : m % 2 = 1) (hm' : m' % 2 = 1) (hm53 : m < 2 ^ 53)
    (hm53' : m' < 2 ^ 53) (h : 2 ^ u * (2 ^ (1074 + Spec.halvings m) - 1) ≡ 2 ^ v * (2 ^ (1074 + Spec.halvings m') - 1) [MOD p256Order])
    (huv : u ≤ v) : u = v ∧ Spec.halvings m = Spec.halvings m' := by
  obtain ⟨d, rfl⟩ : ∃ d, v = u + d := ⟨v - u, by omega⟩
  have hc : Nat.gcd p256Order (2 ^ u) = 1 := by
    apply Nat.Coprime.pow_right
    rw [Nat.coprime_comm, Nat.coprime_primes Nat.prime_two p256Order_prime]
    decide +kernel
  rw [pow_add 2 u d, mul_assoc] at h
  have h2 := Nat.ModEq.cancel_left_of_coprime hc h
  obtain ⟨e1, e2⟩ := apart_spec (by omega) (halvings_bounds m hm hm53).2 (halvings_bounds m' hm' hm53').1 (halvings_bounds m' hm' hm53').2 h2
  exact ⟨by omega, e2⟩

/-- C122, what is true for the scalars that are floats (2^u * m with m odd and below 2^53, at most 2^256; all scalars below 2^53
are among them): for every finite point P of secp256r1, `P * (2^u * m)` and `P * (2^v * m')` are the same point just when u = v
and m and m' can be halved equally often. -/
theorem C122_classes_partial (P : Pt) (hP : OnCurve secp256r1Curve P) (h0 : P ≠ zero) (u v m m' : Nat) (hm : m % 2 = 1)
    (hm' : m' % 2 = 1) (hm53 : m < 2 ^ 53) (hm53' : m' < 2 ^ 53) (hu : 2 ^ u * m ≤ 2 ^ 256) (hv : 2 ^ v * m' ≤ 2 ^ 256) :
    ∃ R S, mul secp256r1Curve P (2 ^ u * m : Nat) = .ok R ∧ mul secp256r1Curve P (2 ^ v * m' : Nat) = .ok S ∧
      (Same secp256r1Curve R S ↔ u = v ∧ Spec.halvings m = Spec.halvings m') := by
  have := Fact.mk p256_prime
  obtain ⟨A, hA⟩ := exists_denotes p256_proper hP
  have hA0 : A ≠ 0 := by
    rintro rfl
    exact h0 hA
  have small : ∀ k : Nat, k ≤ 2 ^ 256 → |(k : Int)| ≤ 2 ^ 1000 := by
    intro k hk
    rw [Nat.abs_cast]
    exact le_trans (by exact_mod_cast hk) (pow_le_pow_right₀ (by norm_num) (by norm_num : 256 ≤ 1000))
  obtain ⟨R, r1, r2⟩ := denotes_mul p256_proper (small _ hu) hA
  obtain ⟨S, s1, s2⟩ := denotes_mul p256_proper (small _ hv) hA
  refine ⟨R, S, r1, s1, ?_⟩
  have hexp : ∀ {u m : Nat}, m % 2 = 1 → 2 ^ u * m ≤ 2 ^ 256 → u ≤ 256 := by
    intro u m hm h
    have : 2 ^ u ≤ 2 ^ 256 := le_trans (Nat.le_mul_of_pos_right _ (by omega)) h
    exact (Nat.pow_le_pow_iff_right (by norm_num)).1 this
  rw [denotes_same p256_proper r2 s2, coeff_float u m hm hm53, coeff_float v m' hm' hm53', nsmul_eq_nsmul_iff_modEq, order_of_finite hA0]
  constructor
  · intro h
    rcases le_total u v with huv | huv
    · exact classes u v m m' (hexp hm hu) (hexp hm' hv) hm hm' hm53 hm53' h huv
    · obtain ⟨e1, e2⟩ := classes v u m' m (hexp hm' hv) (hexp hm hu) hm' hm hm53' hm53 h.symm huv
      exact ⟨e1.symm, e2.symm⟩
  · rintro ⟨rfl, e⟩
    rw [e]

/-- The hypotheses are met, on both sides of the equivalence: 3 and 5 are halved equally often (3, 2, 1 and 5, 2, 1), 3 and 7 are
not (7, 4, 2, 1), and 3 and 6 differ in their power of two. -/
example : OnCurve secp256r1Curve secp256r1.G ∧ secp256r1.G ≠ zero ∧ Spec.halvings 3 = Spec.halvings 5 ∧ Spec.halvings 3 ≠ Spec.halvings 7 :=
  ⟨Or.inr (by decide +kernel), by decide +kernel, by decide +kernel, by decide +kernel⟩

/-- C122, in particular: doubling a scalar below 2^53, any number of times, changes the point, whatever finite point of secp256r1
is multiplied. -/
theorem C122_doubled_partial (P : Pt) (hP : OnCurve secp256r1Curve P) (h0 : P ≠ zero) (k d : Nat) (hk0 : k ≠ 0) (hk : k < 2 ^ 53)
    (hd0 : d ≠ 0) (hd : 2 ^ d * k ≤ 2 ^ 256) :
    ∃ R S, mul secp256r1Curve P k = .ok R ∧ mul secp256r1Curve P (2 ^ d * k : Nat) = .ok S ∧ ¬ Same secp256r1Curve R S := by
  obtain ⟨t, m, hm, he⟩ := odd_part (n := (k : Int)) (by exact_mod_cast hk0)
  have hm0 : 0 ≤ m := by
    by_contra hc
    have : (2 : Int) ^ t * m < 0 := mul_neg_of_pos_of_neg (by positivity) (by omega)
    omega
  obtain ⟨m, rfl⟩ := Int.eq_ofNat_of_zero_le hm0
  have hk' : k = 2 ^ t * m := by exact_mod_cast he
  have hm2 : m % 2 = 1 := by omega
  have hmk : m ≤ k := by rw [hk']; exact Nat.le_mul_of_pos_left _ (by positivity)
  have hdk : 2 ^ d * k = 2 ^ (d + t) * m := by rw [hk', pow_add, mul_assoc]
  obtain ⟨R, S, h1, h2, h3⟩ := C122_classes_partial P hP h0 t (d + t) m m hm2 hm2 (by omega) (by omega)
    (by rw [← hk']; exact le_trans hk.le (Nat.pow_le_pow_right (by norm_num) (by norm_num))) (by rw [← hdk]; exact hd)
  rw [← hk'] at h1
  rw [← hdk] at h2
  refine ⟨R, S, h1, h2, fun h => ?_⟩
  have := (h3.1 h).1
  omega

/-- The hypotheses are met by the base point, the key 3 and its 100-fold double. -/
example : OnCurve secp256r1Curve secp256r1.G ∧ secp256r1.G ≠ zero ∧ 3 < 2 ^ 53 ∧ 2 ^ 100 * 3 ≤ 2 ^ 256 :=
  ⟨Or.inr (by decide +kernel), by decide +kernel, by decide, by decide +kernel⟩

end Neo.Props
