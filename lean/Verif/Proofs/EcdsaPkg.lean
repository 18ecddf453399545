import Verif.Model.EcdsaPkg
import Verif.Proofs.Bitcoin
import Verif.Proofs.P256Cofactor
import Verif.Spec.Ecdsa

/-! The `ecdsa` package computes in the group of the curve. -/

namespace Neo.EcdsaPkg
open Py Neo.EC Spec Spec.EC WeierstrassCurve WeierstrassCurve.Affine Neo.Bitcoin

/-! ### Inverses -/

theorem inverseLoop_spec (n a : ℤ) : ∀ (k : Nat) (c d : Nat) (uc ud : Int), c ≤ k →
    n ∣ uc * a - c → n ∣ ud * a - d →
    n ∣ (inverseLoop c d uc ud).2 * a - (inverseLoop c d uc ud).1 ∧ (inverseLoop c d uc ud).1 = Nat.gcd c d := by
  intro k
  induction k with
  | zero =>
    intro c d uc ud hk h1 h2
    have : c = 0 := by omega
    subst this
    rw [inverseLoop, dif_pos rfl]
    exact ⟨h2, (Nat.gcd_zero_left d).symm⟩
  | succ k ih =>
    intro c d uc ud hk h1 h2
    by_cases h : c = 0
    · subst h
      rw [inverseLoop, dif_pos rfl]
      exact ⟨h2, (Nat.gcd_zero_left d).symm⟩
    · rw [inverseLoop, dif_neg h]
      have hlt := Nat.mod_lt d (show c > 0 by omega)
      obtain ⟨r1, r2⟩ := ih (d % c) c (ud - (d / c : Nat) * uc) uc (by omega) (by
        have hd : (d : Int) = c * (d / c : Nat) + (d % c : Nat) := by exact_mod_cast (Nat.div_add_mod d c).symm
        have : (ud - (d / c : Nat) * uc) * a - (d % c : Nat) = (ud * a - d) - (d / c : Nat) * (uc * a - c) := by
          rw [show ((d % c : Nat) : Int) = d - c * (d / c : Nat) by omega]
          ring
        rw [this]
        exact dvd_sub h2 (Dvd.dvd.mul_left h1 _)) h1
      refine ⟨r1, r2.trans ?_⟩
      rw [Nat.gcd_comm, Nat.gcd_comm c d, Nat.gcd_comm, ← Nat.gcd_rec, Nat.gcd_comm]

theorem inverseMod_spec {p : Nat} [hp : Fact p.Prime] (a : Int) (ha : (a : ZMod p) ≠ 0) :
    ∃ i, inverseMod a p = .ok i ∧ (i : ZMod p) = (a : ZMod p)⁻¹ := by
  have hp0 : (p : Int) ≠ 0 := by exact_mod_cast hp.out.ne_zero
  have hnd : ¬ (p : Int) ∣ a := by rwa [← ZMod.intCast_zmod_eq_zero_iff_dvd]
  have hr0 := Int.emod_nonneg a hp0
  have hcast : (((a % (p : Int)).toNat : Nat) : Int) = a % p := Int.toNat_of_nonneg hr0
  obtain ⟨h1, h2⟩ := inverseLoop_spec p a _ (a % (p : Int)).toNat p 1 0 le_rfl
    (by rw [hcast, one_mul]; exact Int.dvd_self_sub_emod) (by simp)
  have hg : Nat.gcd (a % (p : Int)).toNat p = 1 := by
    rw [Nat.gcd_comm]
    refine (Nat.Prime.coprime_iff_not_dvd hp.out).2 fun hd => hnd ?_
    have : (p : Int) ∣ a % p := by rw [← hcast]; exact_mod_cast hd
    rw [← Int.emod_add_mul_ediv a p]
    exact dvd_add this (Dvd.intro _ rfl)
  rw [hg] at h2
  rw [h2] at h1
  have h1' : (((inverseLoop (a % (p : Int)).toNat p 1 0).2 : Int) : ZMod p) = (a : ZMod p)⁻¹ := by
    rw [← ZMod.intCast_zmod_eq_zero_iff_dvd] at h1
    push_cast at h1
    exact eq_inv_of_mul_eq_one_left (sub_eq_zero.1 h1)
  rw [inverseMod, if_neg (by rw [h2]; simp)]
  split
  · exact ⟨_, rfl, h1'⟩
  · refine ⟨_, rfl, ?_⟩
    push_cast
    rw [h1', ZMod.natCast_self, add_zero]

/-! ### Points -/

variable {b : CurveFp} {c : Curve} [hp : Fact c.p.Prime]

/-- The same curve, the coefficients being congruent. -/
structure SameCurve (b : CurveFp) (c : Curve) : Prop where
  p : b.p = c.p
  a : (b.a : ZMod c.p) = c.a
  b : (b.b : ZMod c.p) = c.b

/-- A point of the package stands for a point of the group; x is always reduced. -/
def PDenotes (c : Curve) : Point → (weierstrass c).Point → Prop
  | none, A => A = .zero
  | some P, A => 0 ≤ P.x ∧ P.x < c.p ∧ ∃ x y h, A = .some x y h ∧ (P.x : ZMod c.p) = x ∧ (P.y : ZMod c.p) = y

theorem contains_iff (hm : SameCurve b c) (x y : Int) :
    containsPoint b x y = true ↔ (weierstrass c).Equation (x : ZMod c.p) (y : ZMod c.p) := by
  rw [containsPoint, decide_eq_true_eq, ← Int.dvd_iff_emod_eq_zero, hm.p, ← ZMod.intCast_zmod_eq_zero_iff_dvd, EC.equation_iff']
  push_cast
  rw [hm.a, hm.b, sub_eq_zero]
  constructor <;> intro h <;> linear_combination h

theorem mkPoint_denotes (hm : SameCurve b c) (u v : Int) (hu0 : 0 ≤ u) (hu1 : u < c.p) {x y : ZMod c.p}
    (h : (weierstrass c).Nonsingular x y) (hx : (u : ZMod c.p) = x) (hy : (v : ZMod c.p) = y) :
    mkPoint b u v = .ok (some ⟨u, v⟩) ∧ PDenotes c (some ⟨u, v⟩) (.some x y h) := by
  refine ⟨?_, hu0, hu1, x, y, h, rfl, hx, hy⟩
  rw [mkPoint, if_pos]
  rw [contains_iff hm, hx, hy]
  exact h.1

theorem double_denotes (hm : SameCurve b c) (h : Proper c) (ht : NoTwoTorsion c) {P : Point} {A : (weierstrass c).Point}
    (hP : PDenotes c P A) : ∃ R, double b P = .ok R ∧ PDenotes c R (A + A) := by
  have hp0 : (c.p : Int) ≠ 0 := by exact_mod_cast hp.out.ne_zero
  cases P with
  | none =>
    rw [show A = 0 from hP]
    exact ⟨none, rfl, by rw [add_zero]; rfl⟩
  | some P =>
    obtain ⟨hx0, hx1, x, y, hn, rfl, hx, hy⟩ := hP
    have hy0 : y ≠ 0 := ht x y hn.1
    have h2 := two_ne h
    have hne : y ≠ (weierstrass c).negY x y := by
      rw [negY_eq]
      intro hh
      have : (2 : ZMod c.p) * y = 0 := by linear_combination hh
      rcases mul_eq_zero.mp this with h3 | h3
      · exact h2 h3
      · exact hy0 h3
    have hxy := fun hh : x = x ∧ y = (weierstrass c).negY x y => hne hh.2
    rw [Point.add_some hxy]
    have hsl : (weierstrass c).slope x x y y = (3 * x ^ 2 + c.a) / (2 * y) := by
      rw [Affine.slope_of_Y_ne rfl hne, negY_eq]
      simp only [weierstrass]
      congr 1 <;> ring
    obtain ⟨i, hi, hi'⟩ := inverseMod_spec (p := c.p) (2 * P.y) (by push_cast; rw [hy]; exact mul_ne_zero h2 hy0)
    rw [double, hm.p, hi]
    simp only
    refine ⟨_, (mkPoint_denotes hm _ _ (Int.emod_nonneg _ hp0) (Int.emod_lt_of_pos _ (by omega))
      (Affine.nonsingular_add hn hn hxy) ?_ ?_)⟩
    · rw [cast_emod]
      push_cast
      rw [hsl, hi', hm.a]
      push_cast
      rw [hx, hy]
      simp only [Affine.addX, weierstrass]
      field_simp
      ring
    · rw [cast_emod]
      push_cast
      rw [hsl, hi', hm.a]
      push_cast
      rw [hx, hy]
      simp only [Affine.addY, Affine.negAddY, Affine.negY, Affine.addX, weierstrass]
      field_simp
      ring

theorem x_inj {u v : Int} (h0 : 0 ≤ u) (h1 : u < c.p) (h2 : 0 ≤ v) (h3 : v < c.p) (h : (u : ZMod c.p) = v) : u = v := by
  rw [ZMod.intCast_eq_intCast_iff'] at h
  rwa [Int.emod_eq_of_lt h0 h1, Int.emod_eq_of_lt h2 h3] at h

theorem add_denotes (hm : SameCurve b c) (h : Proper c) (ht : NoTwoTorsion c) {P Q : Point} {A B : (weierstrass c).Point}
    (hP : PDenotes c P A) (hQ : PDenotes c Q B) : ∃ R, add b P Q = .ok R ∧ PDenotes c R (A + B) := by
  have hp0 : (c.p : Int) ≠ 0 := by exact_mod_cast hp.out.ne_zero
  cases Q with
  | none =>
    rw [show B = 0 from hQ, add_zero]
    exact ⟨P, by cases P <;> rfl, hP⟩
  | some Q =>
    cases P with
    | none =>
      rw [show A = 0 from hP, zero_add]
      exact ⟨some Q, rfl, hQ⟩
    | some P =>
      have hP' := hP
      obtain ⟨hx0, hx1, x, y, hn, rfl, hx, hy⟩ := hP
      obtain ⟨ku0, ku1, u, v, kn, rfl, hu, hv⟩ := hQ
      rw [add]
      by_cases hxu : P.x = Q.x
      · rw [if_pos hxu]
        have hxu' : x = u := by rw [← hx, ← hu, hxu]
        have hsum : (P.y + Q.y) % (b.p : Int) = 0 ↔ y = (weierstrass c).negY u v := by
          rw [← Int.dvd_iff_emod_eq_zero, hm.p, ← ZMod.intCast_zmod_eq_zero_iff_dvd, negY_eq]
          push_cast
          rw [hy, hv]
          exact add_eq_zero_iff_eq_neg
        by_cases hs : (P.y + Q.y) % (b.p : Int) = 0
        · rw [if_pos hs]
          refine ⟨none, rfl, ?_⟩
          exact Point.add_of_Y_eq hxu' (hsum.1 hs)
        · rw [if_neg hs]
          have hyv : y = v := (Affine.Y_eq_of_X_eq hn.1 kn.1 hxu').resolve_right fun h3 => hs (hsum.2 h3)
          subst hxu' hyv
          exact double_denotes hm h ht hP'
      · rw [if_neg hxu]
        have hxu' : x ≠ u := fun he => hxu (x_inj hx0 hx1 ku0 ku1 (by rw [hx, hu, he]))
        have hxy := fun hh : x = u ∧ y = (weierstrass c).negY u v => hxu' hh.1
        rw [Point.add_some hxy]
        have hd : u - x ≠ 0 := sub_ne_zero.2 (Ne.symm hxu')
        have hd' : x - u ≠ 0 := sub_ne_zero.2 hxu'
        have hsl : (weierstrass c).slope x u y v = (v - y) / (u - x) := by
          rw [Affine.slope_of_X_ne hxu', div_eq_div_iff hd' hd]
          ring
        obtain ⟨i, hi, hi'⟩ := inverseMod_spec (p := c.p) (Q.x - P.x) (by push_cast; rw [hx, hu]; exact hd)
        rw [hm.p, hi]
        simp only
        refine ⟨_, (mkPoint_denotes hm _ _ (Int.emod_nonneg _ hp0) (Int.emod_lt_of_pos _ (by omega))
          (Affine.nonsingular_add hn kn hxy) ?_ ?_)⟩
        · rw [cast_emod]
          push_cast
          rw [hsl, hi']
          push_cast
          rw [hx, hy, hu, hv]
          simp only [Affine.addX, weierstrass]
          field_simp
          ring
        · rw [cast_emod]
          push_cast
          rw [hsl, hi']
          push_cast
          rw [hx, hy, hu, hv]
          simp only [Affine.addY, Affine.negAddY, Affine.negY, Affine.addX, weierstrass]
          field_simp
          ring

/-! ### Multiples -/

theorem shift_succ (e j : Nat) : (e >>> j : Nat) = 2 * (e >>> (j + 1)) + (if e.testBit j then 1 else 0) := by
  rw [Nat.testBit_eq_decide_div_mod_eq, Nat.shiftRight_eq_div_pow, Nat.shiftRight_eq_div_pow, pow_succ, ← Nat.div_div_eq_div_mul]
  simp only [decide_eq_true_eq]
  split <;> omega

theorem mulLoop_denotes (hm : SameCurve b c) (h : Proper c) (ht : NoTwoTorsion c) {P N : Point} {A : (weierstrass c).Point}
    (hP : PDenotes c P A) (hN : PDenotes c N (-A)) (e3 e : Nat) : ∀ (j : Nat) (r : Point),
    PDenotes c r ((((e3 >>> (j + 1) : Nat) : ℤ) - (e >>> (j + 1) : Nat)) • A) →
    ∃ R, mulLoop b P N e3 e j r = .ok R ∧ PDenotes c R ((((e3 >>> 1 : Nat) : ℤ) - (e >>> 1 : Nat)) • A)
  | 0, r, hr => ⟨r, rfl, hr⟩
  | j + 1, r, hr => by
    obtain ⟨r1, h1, d1⟩ := double_denotes hm h ht hr
    have hbits : ∃ r2, addBits b P N (e3.testBit (j + 1)) (e.testBit (j + 1)) r1 = .ok r2 ∧
        PDenotes c r2 ((((e3 >>> (j + 1) : Nat) : ℤ) - (e >>> (j + 1) : Nat)) • A) := by
      have s3 := shift_succ e3 (j + 1)
      have s1 := shift_succ e (j + 1)
      rw [← add_zsmul] at d1
      rw [addBits]
      cases b3 : e3.testBit (j + 1) <;> cases b1 : e.testBit (j + 1) <;> rw [b3] at s3 <;> rw [b1] at s1
      · refine ⟨r1, rfl, ?_⟩
        convert d1 using 2
        simp only [Bool.false_eq_true, if_false] at s3 s1
        omega
      · obtain ⟨r2, h2, d2⟩ := add_denotes hm h ht d1 hN
        refine ⟨r2, by simpa using h2, ?_⟩
        convert d2 using 1
        rw [← neg_one_zsmul, ← add_zsmul]
        congr 1
        simp only [Bool.false_eq_true, if_false, if_true] at s3 s1
        omega
      · obtain ⟨r2, h2, d2⟩ := add_denotes hm h ht d1 hP
        refine ⟨r2, by simpa using h2, ?_⟩
        convert d2 using 1
        nth_rewrite 3 [← one_zsmul A]
        rw [← add_zsmul]
        congr 1
        simp only [Bool.false_eq_true, if_false, if_true] at s3 s1
        omega
      · refine ⟨r1, rfl, ?_⟩
        convert d1 using 2
        simp only [if_true] at s3 s1
        omega
    obtain ⟨r2, h2, d2⟩ := hbits
    rw [mulLoop, h1]
    simp only
    rw [h2]
    simp only
    exact mulLoop_denotes hm h ht hP hN e3 e j r2 d2

theorem mul_denotes (hm : SameCurve b c) (h : Proper c) (ht : NoTwoTorsion c) {P : Point} {A : (weierstrass c).Point}
    (hP : PDenotes c P A) (e : Nat) : ∃ R, mul b P e = .ok R ∧ PDenotes c R (e • A) := by
  unfold mul
  by_cases h0 : e = 0
  · rw [if_pos h0, h0, zero_nsmul]
    exact ⟨none, rfl, rfl⟩
  · rw [if_neg h0]
    cases P with
    | none =>
      rw [show A = 0 from hP, nsmul_zero]
      exact ⟨none, rfl, rfl⟩
    | some Q =>
      have hP' := hP
      obtain ⟨hx0, hx1, x, y, hn, rfl, hx, hy⟩ := hP'
      have hneg : -(Point.some x y hn) = Point.some x (-y) (by
          have := (Affine.nonsingular_neg x y).2 hn
          rwa [negY_eq] at this) := by
        rw [Point.neg_some]
        congr 1
        exact negY_eq x y
      obtain ⟨m1, m2⟩ := mkPoint_denotes hm Q.x (-Q.y) hx0 hx1 (x := x) (y := -y) (by
          have := (Affine.nonsingular_neg x y).2 hn
          rwa [negY_eq] at this) hx (by push_cast; rw [hy])
      simp only [m1]
      have hlog0 : 2 ^ Nat.log2 (3 * e) ≤ 3 * e := Nat.log2_self_le (by omega)
      have hlog1 : 3 * e < 2 ^ (Nat.log2 (3 * e) + 1) := Nat.lt_log2_self
      have hpos : 1 ≤ Nat.log2 (3 * e) := by
        by_contra hc
        rw [show Nat.log2 (3 * e) = 0 by omega] at hlog1
        omega
      obtain ⟨R, hR, hd⟩ := mulLoop_denotes hm h ht hP (hneg ▸ m2) (3 * e) e (Nat.log2 (3 * e) - 1) (some Q) (by
        rw [show Nat.log2 (3 * e) - 1 + 1 = Nat.log2 (3 * e) by omega, Nat.shiftRight_eq_div_pow, Nat.shiftRight_eq_div_pow]
        rw [pow_succ] at hlog1
        have e1 : 3 * e / 2 ^ Nat.log2 (3 * e) = 1 := by
          rw [Nat.div_eq_iff (by positivity)]
          omega
        have e2 : e / 2 ^ Nat.log2 (3 * e) = 0 := by
          rw [Nat.div_eq_zero_iff]
          omega
        rw [e1, e2]
        simpa using hP)
      refine ⟨R, hR, ?_⟩
      rw [← natCast_zsmul]
      convert hd using 2
      rw [Nat.shiftRight_eq_div_pow, Nat.shiftRight_eq_div_pow]
      omega

/-! ### secp256r1 -/

theorem nist_same : SameCurve nist256p secp256r1Curve := by
  refine ⟨rfl, ?_, ?_⟩
  · rw [ZMod.intCast_eq_intCast_iff]
    decide +kernel
  · rw [ZMod.intCast_eq_intCast_iff]
    decide +kernel

theorem order_eq : nist256p.order = p256Order := rfl

theorem stringToNumber_eq (b : Bytes) : stringToNumber b = beNumber b := (beNumber_le b).symm

/-- Every point is killed by the order. -/
theorem order_kills : letI := Fact.mk p256_prime
    ∀ A : (weierstrass secp256r1Curve).Point, p256Order • A = 0 := by
  have := Fact.mk p256_prime
  intro A
  obtain ⟨G, hG, ho⟩ := p256_order
  obtain ⟨k, -, rfl⟩ := (p256_multiples G hG).2 A
  rw [← mul_nsmul, mul_comm, mul_nsmul, ← ho, addOrderOf_nsmul_eq_zero, nsmul_zero]

theorem pdenotes_of_publicKey {Q : Pt} {A : (weierstrass secp256r1Curve).Point} (h : Spec.IsPublicKey Q A) :
    PDenotes secp256r1Curve (some Q) A := by
  obtain ⟨h0, ⟨x0, x1, y0, y1⟩, hd⟩ := h
  cases A with
  | zero => exact absurd hd h0
  | some x y hn => exact ⟨x0, x1, x, y, hn, rfl, hd.1, hd.2⟩

theorem mkPoint_ok {x y : Int} {P : Point} (h : mkPoint nist256p x y = .ok P) : P = some ⟨x, y⟩ ∧ containsPoint nist256p x y = true := by
  rw [mkPoint] at h
  split at h
  · next hc => exact ⟨(Except.ok.inj h).symm, hc⟩
  · cases h

/-- `from_string` accepts exactly the 64-byte encodings of finite points with coordinates below the order. -/
theorem fromString_iff (key : Bytes) (P : Point) :
    fromString nist256p key = .ok P ↔
      ∃ Q A, P = some Q ∧ IsUncompressed Q (4 :: key) ∧ Spec.IsPublicKey Q A ∧ Q.x < p256Order ∧ Q.y < p256Order := by
  have := Fact.mk p256_prime
  have hnp : (p256Order : Int) < secp256r1Curve.p := by decide +kernel
  constructor
  · intro h
    rw [fromString] at h
    by_cases hl : key.length ≠ 64
    · rw [if_pos hl] at h; cases h
    · rw [if_neg hl] at h
      simp only [stringToNumber_eq] at h
      obtain ⟨X, hX⟩ : ∃ X : Nat, X = beNumber (key.take 32) := ⟨_, rfl⟩
      obtain ⟨Y, hY⟩ : ∃ Y : Nat, Y = beNumber (key.drop 32) := ⟨_, rfl⟩
      rw [← hX, ← hY] at h
      cases hv : pointIsValid nist256p X Y with
      | error e => rw [hv] at h; cases h
      | ok v =>
        cases v with
        | false => rw [hv] at h; cases h
        | true =>
          rw [hv] at h
          obtain ⟨rfl, hc⟩ := mkPoint_ok h
          rw [pointIsValid] at hv
          by_cases hr : (X : Int) < 0 ∨ (nist256p.order : Int) ≤ X ∨ (Y : Int) < 0 ∨ (nist256p.order : Int) ≤ Y
          · rw [if_pos hr] at hv; cases hv
          · rw [order_eq] at hr
            have he := (contains_iff nist_same _ _).1 hc
            refine ⟨⟨X, Y⟩, .some _ _ (nonsingular_of_equation p256_proper he), rfl, ⟨key.take 32, key.drop 32, ?_, ?_, ?_, ?_, ?_⟩,
              ⟨?_, ⟨?_, ?_, ?_, ?_⟩, rfl, rfl⟩, ?_, ?_⟩
            · rw [List.take_append_drop]
            · rw [List.length_take]; omega
            · rw [List.length_drop]; omega
            · simp only [hX]
            · simp only [hY]
            · intro h0
              injection h0 with hx0 hy0
              rw [hx0, hy0] at he
              rw [EC.equation_iff'] at he
              apply p256_proper.b_ne
              simpa using he.symm
            all_goals simp only; omega
  · rintro ⟨Q, A, rfl, ⟨xb, yb, hk, l1, l2, e1, e2⟩, hpk, hx, hy⟩
    have hk' : key = xb ++ yb := (List.cons.inj hk).2
    have hpd := pdenotes_of_publicKey hpk
    obtain ⟨h0, ⟨x0, x1, y0, y1⟩, hd⟩ := hpk
    rw [fromString, if_neg (by rw [hk', List.length_append, l1, l2]; simp)]
    simp only [stringToNumber_eq]
    rw [hk', List.take_left' l1, List.drop_left' l1, ← e1, ← e2]
    have hcon : containsPoint nist256p Q.x Q.y = true := by
      rw [contains_iff nist_same]
      obtain ⟨-, -, x, y, hn, -, h3, h4⟩ := hpd
      rw [h3, h4]
      exact hn.1
    have hmk : mkPoint nist256p Q.x Q.y = .ok (some Q) := by rw [mkPoint, if_pos hcon]
    obtain ⟨R, hR, hRd⟩ := mul_denotes nist_same p256_proper p256_noTwoTorsion hpd nist256p.order
    rw [order_eq, order_kills A] at hRd
    have hRn : R = none := by
      cases R with
      | none => rfl
      | some R => obtain ⟨-, -, x, y, hn, h3, -⟩ := hRd; cases h3
    have hv : pointIsValid nist256p Q.x Q.y = .ok true := by
      rw [pointIsValid, if_neg (by rw [order_eq]; omega), if_neg (by rw [hcon]; simp), hmk]
      simp only
      rw [hR, hRn]
      rfl
    rw [hv]
    exact hmk

theorem val_of_range {x : ZMod secp256r1Curve.p} {X : Int} (h0 : 0 ≤ X) (h1 : X < secp256r1Curve.p) (h : (X : ZMod secp256r1Curve.p) = x) :
    (x.val : Int) = X := by
  have := NeZero.mk p256_prime.ne_zero
  rw [← h, ZMod.val_intCast, Int.emod_eq_of_lt h0 h1]

/-- `verifies` answers True exactly for valid signatures. -/
theorem verifies_iff {Q : Pt} {A : (weierstrass secp256r1Curve).Point} (hQ : Spec.IsPublicKey Q A) (z r s : Nat) :
    verifies nist256p (some Q) z r s = .ok true ↔ Spec.EcdsaValid z A r s := by
  have := Fact.mk p256_prime
  have := Fact.mk p256Order_prime
  have hn0 : p256Order ≠ 0 := p256Order_prime.ne_zero
  rw [verifies, Spec.EcdsaValid, order_eq]
  by_cases hr : r < 1 ∨ r > p256Order - 1
  · rw [if_pos hr]
    constructor
    · intro h; cases h
    · rintro ⟨h1, h2, -⟩; omega
  rw [if_neg hr]
  by_cases hs : s < 1 ∨ s > p256Order - 1
  · rw [if_pos hs]
    constructor
    · intro h; cases h
    · rintro ⟨-, -, h1, h2, -⟩; omega
  rw [if_neg hs]
  have hs0 : (((s : Int)) : ZMod p256Order) ≠ 0 := by
    rw [Int.cast_natCast, ne_eq, ZMod.natCast_eq_zero_iff]
    intro hd
    have := Nat.le_of_dvd (by omega) hd
    omega
  obtain ⟨i, hi, hiv⟩ := inverseMod_spec (p := p256Order) s hs0
  rw [hi]
  simp only
  -- the multipliers do not depend on which inverse is used
  have hu : ∀ (t w : Nat), s * w % p256Order = 1 → ((t * i : Int) % p256Order).toNat = t * w % p256Order := by
    intro t w hw
    have hwz : ((w : Nat) : ZMod p256Order) = (s : ZMod p256Order)⁻¹ := by
      refine eq_inv_of_mul_eq_one_right ?_
      have : ((s * w : Nat) : ZMod p256Order) = ((1 : Nat) : ZMod p256Order) := by
        rw [← hw, ZMod.natCast_mod]
      push_cast at this
      exact this
    have : ((t * i : Int) % p256Order) = ((t * w : Nat) : Int) % p256Order := by
      rw [← ZMod.intCast_eq_intCast_iff']
      push_cast
      rw [hiv, hwz]
      push_cast
      rfl
    rw [this]
    omega
  obtain ⟨G, hG, ho⟩ := p256_order
  have hGp : PDenotes secp256r1Curve (some ⟨nist256p.gx, nist256p.gy⟩) G := by
    refine pdenotes_of_publicKey ⟨by decide +kernel, ⟨by decide +kernel, by decide +kernel, by decide +kernel, by decide +kernel⟩, ?_⟩
    exact hG
  have hGu : ∀ G', Denotes secp256r1Curve secp256r1.G G' → G' = G := fun G' hG' =>
    (denotes_same p256_proper hG' hG).1 ⟨by simp, by simp⟩
  obtain ⟨M, hM, hMd⟩ := mul_denotes nist_same p256_proper p256_noTwoTorsion hGp ((z * i : Int) % p256Order).toNat
  obtain ⟨N, hN, hNd⟩ := mul_denotes nist_same p256_proper p256_noTwoTorsion (pdenotes_of_publicKey hQ) ((r * i : Int) % p256Order).toNat
  obtain ⟨S, hS, hSd⟩ := add_denotes nist_same p256_proper p256_noTwoTorsion hMd hNd
  rw [hM]
  simp only
  rw [hN]
  simp only
  rw [hS]
  -- an inverse as a natural number
  have hw0 : s * ((s : ZMod p256Order)⁻¹).val % p256Order = 1 := by
    have : ((s * ((s : ZMod p256Order)⁻¹).val : Nat) : ZMod p256Order) = ((1 : Nat) : ZMod p256Order) := by
      push_cast
      rw [ZMod.natCast_val, ZMod.cast_id, mul_inv_cancel₀]
      · exact_mod_cast hs0
    rw [ZMod.natCast_eq_natCast_iff'] at this
    rw [this]
    exact Nat.mod_eq_of_lt p256Order_prime.one_lt
  cases S with
  | none =>
    constructor
    · intro h; cases h
    · rintro ⟨-, -, -, -, h⟩
      obtain ⟨w, x, y, hn, h1, h2, -⟩ := h G hG
      rw [hu z w h1, hu r w h1, h2] at hSd
      cases hSd
  | some xy =>
    obtain ⟨x0, x1, x, y, hn, hsum, hx, hy⟩ := hSd
    have hval := val_of_range x0 x1 hx
    have hiff : xy.x % (p256Order : Int) = r ↔ x.val % p256Order = r := by
      rw [← hval, ← Int.natCast_mod]
      exact Int.natCast_inj
    constructor
    · intro h
      have hd := of_decide_eq_true (Except.ok.inj h)
      refine ⟨by omega, by omega, by omega, by omega, ?_⟩
      intro G' hG'
      rw [hGu G' hG']
      refine ⟨_, x, y, hn, hw0, ?_, hiff.1 hd⟩
      rw [← hu z _ hw0, ← hu r _ hw0]
      exact hsum
    · rintro ⟨-, -, -, -, h⟩
      obtain ⟨w, x', y', hn', h1, h2, h3⟩ := h G hG
      rw [hu z w h1, hu r w h1, h2] at hsum
      have hxx : x' = x := by injection hsum
      rw [hxx] at h3
      show Except.ok (decide (xy.x % (p256Order : Int) = r)) = .ok true
      rw [decide_eq_true (hiff.2 h3)]

theorem asBytes_iff (v : Val) (b : Bytes) : asBytes v = .ok b ↔ (v = .bytes b ∨ v = .bytearray b) := by
  cases v <;> simp [asBytes]

/-- What the package's `verify` answers: True exactly if the key is 64 bytes of coordinates, both below the group order, of a
finite point, the signature is 64 bytes r, s, the message is bytes, and (r, s) is a valid signature; otherwise it raises. -/
theorem verify_iff (hash : Bytes → Bytes) (hl : ∀ m, (hash m).length = 32) (key : Bytes) (sig msg : Val) :
    (verify nist256p hash key sig msg = .ok true ↔
      ∃ Q A rb sb m, IsUncompressed Q (4 :: key) ∧ Spec.IsPublicKey Q A ∧ Q.x < p256Order ∧ Q.y < p256Order ∧
        (sig = .bytes (rb ++ sb) ∨ sig = .bytearray (rb ++ sb)) ∧ rb.length = 32 ∧ sb.length = 32 ∧
        (msg = .bytes m ∨ msg = .bytearray m) ∧ Spec.EcdsaValid (beNumber (hash m)) A (beNumber rb) (beNumber sb)) ∧
    verify nist256p hash key sig msg ≠ .ok false := by
  rw [verify]
  cases hk : fromString nist256p key with
  | error e =>
    refine ⟨⟨fun h => (by cases h), ?_⟩, fun h => (by cases h)⟩
    rintro ⟨Q, A, rb, sb, m, h1, h2, h3, h4, -⟩
    rw [(fromString_iff key (some Q)).2 ⟨Q, A, rfl, h1, h2, h3, h4⟩] at hk
    cases hk
  | ok P =>
    obtain ⟨Q, A, rfl, h1, h2, h3, h4⟩ := (fromString_iff key P).1 hk
    simp only
    cases hm : asBytes msg with
    | error e =>
      refine ⟨⟨fun h => (by cases h), ?_⟩, fun h => (by cases h)⟩
      rintro ⟨Q, A, rb, sb, m, -, -, -, -, -, -, -, h8, -⟩
      rw [(asBytes_iff msg m).2 h8] at hm
      cases hm
    | ok m =>
      simp only
      rw [if_neg (by rw [hl]; simp)]
      cases hs : asBytes sig with
      | error e =>
        refine ⟨⟨fun h => (by cases h), ?_⟩, fun h => (by cases h)⟩
        rintro ⟨Q, A, rb, sb, m, -, -, -, -, h5, -⟩
        rw [(asBytes_iff sig _).2 h5] at hs
        cases hs
      | ok sb =>
        simp only
        by_cases hsl : sb.length ≠ 64
        · rw [if_pos hsl]
          refine ⟨⟨fun h => (by cases h), ?_⟩, fun h => (by cases h)⟩
          rintro ⟨Q, A, rb, sb', m, -, -, -, -, h5, h6, h7, -⟩
          rw [(asBytes_iff sig _).2 h5] at hs
          rw [← Except.ok.inj hs, List.length_append, h6, h7] at hsl
          exact absurd rfl hsl
        · rw [if_neg hsl]
          simp only [stringToNumber_eq]
          have hv := verifies_iff h2 (beNumber (hash m)) (beNumber (sb.take 32)) (beNumber (sb.drop 32))
          have hkey : (∃ Q A rb sb' m, IsUncompressed Q (4 :: key) ∧ Spec.IsPublicKey Q A ∧ Q.x < p256Order ∧ Q.y < p256Order ∧
              (sig = .bytes (rb ++ sb') ∨ sig = .bytearray (rb ++ sb')) ∧ rb.length = 32 ∧ sb'.length = 32 ∧
              (msg = .bytes m ∨ msg = .bytearray m) ∧ Spec.EcdsaValid (beNumber (hash m)) A (beNumber rb) (beNumber sb')) ↔
              Spec.EcdsaValid (beNumber (hash m)) A (beNumber (sb.take 32)) (beNumber (sb.drop 32)) := by
            constructor
            · rintro ⟨Q', A', rb, sb', m', g1, g2, g3, g4, g5, g6, g7, g8, g9⟩
              rw [(asBytes_iff sig _).2 g5] at hs
              rw [(asBytes_iff msg _).2 g8] at hm
              have hs' := Except.ok.inj hs
              have hm' := Except.ok.inj hm
              have hP := (fromString_iff key (some Q')).2 ⟨Q', A', rfl, g1, g2, g3, g4⟩
              rw [hk] at hP
              have hQ : Q = Q' := Option.some.inj (Except.ok.inj hP)
              subst hQ
              have hA : A' = A := (denotes_same (P := Q) (Q := Q) (c := secp256r1Curve) (hp := Fact.mk p256_prime) p256_proper g2.2.2 h2.2.2).1
                ⟨by simp, by simp⟩
              rw [← hs', ← hm', List.take_left' g6, List.drop_left' g6, ← hA]
              exact g9
            · intro h
              refine ⟨Q, A, sb.take 32, sb.drop 32, m, h1, h2, h3, h4, ?_, ?_, ?_, (asBytes_iff _ _).1 hm, h⟩
              · rw [List.take_append_drop]; exact (asBytes_iff _ _).1 hs
              · rw [List.length_take]; omega
              · rw [List.length_drop]; omega
          rw [hkey, ← hv]
          cases verifies nist256p (some Q) (beNumber (hash m)) (beNumber (sb.take 32)) (beNumber (sb.drop 32)) with
          | error e => exact ⟨⟨fun h => (by cases h), fun h => (by cases h)⟩, fun h => (by cases h)⟩
          | ok v => cases v <;> exact ⟨⟨fun h => (by cases h <;> rfl), fun h => (by cases h <;> rfl)⟩, fun h => (by cases h)⟩

end Neo.EcdsaPkg

namespace Neo

/-- The published packages `bitcoin` and `ecdsa` as modelled; `genK` is the nonce generator, `hash` SHA-256. -/
def pkgBtc (genK : Py.Str → Nat → Nat) (hash : Py.Bytes → Py.Bytes) : Btc := pyBtc genK (EcdsaPkg.verify EcdsaPkg.nist256p hash)

/-- The `ecdsa` package as modelled meets the contract used for `VerifySignature`. -/
theorem pkgBtc_verifies (genK) (P : Prims) : Spec.VerifiesEcdsa (pkgBtc genK P.sha256) P.sha256 := fun key sig msg =>
  (EcdsaPkg.verify_iff P.sha256 P.sha256_length key sig msg).1

end Neo
