import Verif.Proofs.ECOrder

/-! The curve secp256r1 has no point with y = 0: the polynomial X³ + aX + b has no root mod p.  A root r would satisfy
r^p = r; with g = X^p reduced mod the cubic (computed by the kernel) and an inverse v of g - X mod the cubic, v(r)(g(r) - r)
would be both 0 and 1. -/

namespace Neo.P256
open Neo.EC Spec.EC

/-- A polynomial of degree at most 2, by its coefficients. -/
structure Quad where
  c0 : Nat
  c1 : Nat
  c2 : Nat
  deriving DecidableEq

/-- The product of two polynomials, reduced mod X³ + aX + b and mod p; na and nb are -a and -b mod p. -/
def Quad.mul (p na nb : Nat) (u v : Quad) : Quad :=
  let d0 := u.c0 * v.c0
  let d1 := u.c0 * v.c1 + u.c1 * v.c0
  let d2 := u.c0 * v.c2 + u.c1 * v.c1 + u.c2 * v.c0
  let d3 := u.c1 * v.c2 + u.c2 * v.c1
  let d4 := u.c2 * v.c2
  ⟨(d0 + nb * d3) % p, (d1 + na * d3 + nb * d4) % p, (d2 + na * d4) % p⟩

/-- acc * base^e; the first number bounds the bits of e. -/
def Quad.pow (p na nb : Nat) : Nat → Quad → Nat → Quad → Quad
  | 0, _, _, acc => acc
  | k + 1, base, e, acc =>
    Quad.pow p na nb k (Quad.mul p na nb base base) (e / 2) (if e % 2 = 1 then Quad.mul p na nb acc base else acc)

/-- The value of the polynomial at r. -/
def Quad.eval {p : Nat} (r : ZMod p) (u : Quad) : ZMod p := u.c0 + u.c1 * r + u.c2 * r ^ 2

theorem Quad.eval_mul {p na nb : Nat} {r : ZMod p} (hr : r ^ 3 = na * r + nb) (u v : Quad) :
    (Quad.mul p na nb u v).eval r = u.eval r * v.eval r := by
  simp only [Quad.mul, Quad.eval, ZMod.natCast_mod]
  push_cast
  linear_combination (-(u.c1 * v.c2 + u.c2 * v.c1 : ZMod p) - (u.c2 * v.c2 : ZMod p) * r) * hr

theorem Quad.eval_pow {p na nb : Nat} {r : ZMod p} (hr : r ^ 3 = na * r + nb) : ∀ (k : Nat) (base : Quad) (e : Nat) (acc : Quad),
    e < 2 ^ k → (Quad.pow p na nb k base e acc).eval r = acc.eval r * base.eval r ^ e
  | 0, base, e, acc, h => by
    have : e = 0 := by simpa using h
    simp [Quad.pow, this]
  | k + 1, base, e, acc, h => by
    rw [Quad.pow, Quad.eval_pow hr k _ _ _ (by rw [pow_succ] at h; omega), Quad.eval_mul hr, ← pow_two, ← pow_mul]
    by_cases he : e % 2 = 1
    · rw [if_pos he, Quad.eval_mul hr, mul_assoc, ← pow_succ']
      congr 2
      omega
    · rw [if_neg he]
      congr 2
      omega

/-- The modulus of the field. -/
def fp : Nat := 115792089210356248762697446949407573530086143415290314195533631308867097853951

/-- -b mod p. -/
def fnb : Nat := fp - 41058363725152142129326129780047268409114441015993725554835256314039467401291

/-- X^p mod the cubic. -/
def frob : Quad := Quad.pow fp 3 fnb 256 ⟨0, 1, 0⟩ fp ⟨1, 0, 0⟩

set_option maxRecDepth 100000 in
theorem cert : Quad.mul fp 3 fnb ⟨frob.c0, frob.c1 + (fp - 1), frob.c2⟩
    ⟨76626890310466861426869089647039036757962535851890885406097439786770458211455, 74462945259064871768191128030512052509059297803194871526163573358218695456204, 34768139465301476436978405170953382516735956999154666452188405812258086013549⟩ = ⟨1, 0, 0⟩ := by
  decide +kernel

/-- No point of secp256r1 has y = 0. -/
theorem no_two_torsion (x : Int) : ¬ ((secp256r1Curve.p : Int) ∣ x ^ 3 + secp256r1Curve.a * x + secp256r1Curve.b) := by
  intro h
  have := Fact.mk p256_prime
  have hfp : secp256r1Curve.p = fp := by decide +kernel
  have hfact : Fact fp.Prime := Fact.mk (by rw [← hfp]; exact p256_prime)
  rw [hfp, ← ZMod.intCast_zmod_eq_zero_iff_dvd] at h
  push_cast at h
  have ha : ((secp256r1Curve.a : Int) : ZMod fp) = -((3 : Nat) : ZMod fp) := by
    have : (((secp256r1Curve.a + 3 : Int)) : ZMod fp) = 0 := by
      rw [ZMod.intCast_zmod_eq_zero_iff_dvd]; decide +kernel
    push_cast at this ⊢
    exact eq_neg_of_add_eq_zero_left this
  have hb : ((secp256r1Curve.b : Int) : ZMod fp) = -((fnb : Nat) : ZMod fp) := by
    have : (((secp256r1Curve.b + (fnb : Int) : Int)) : ZMod fp) = 0 := by
      rw [ZMod.intCast_zmod_eq_zero_iff_dvd]; decide +kernel
    rw [Int.cast_add, Int.cast_natCast] at this
    exact eq_neg_of_add_eq_zero_left this
  have hr : (x : ZMod fp) ^ 3 = ((3 : Nat) : ZMod fp) * x + (fnb : ZMod fp) := by
    rw [ha, hb] at h
    linear_combination h
  have hfrob : frob.eval (x : ZMod fp) = x := by
    rw [frob, Quad.eval_pow hr _ _ _ _ (by decide +kernel)]
    have h1 : (⟨1, 0, 0⟩ : Quad).eval (x : ZMod fp) = 1 := by simp [Quad.eval]
    have h2 : (⟨0, 1, 0⟩ : Quad).eval (x : ZMod fp) = x := by simp [Quad.eval]
    rw [h1, h2, one_mul, ZMod.pow_card]
  have h0 : (⟨frob.c0, frob.c1 + (fp - 1), frob.c2⟩ : Quad).eval (x : ZMod fp) = 0 := by
    have : (((fp - 1 : Nat)) : ZMod fp) = -1 := by
      rw [Nat.cast_sub hfact.out.one_lt.le, ZMod.natCast_self, zero_sub, Nat.cast_one]
    rw [Quad.eval] at hfrob ⊢
    simp only
    rw [Nat.cast_add, this]
    linear_combination hfrob
  have h1 := congrArg (Quad.eval (x : ZMod fp)) cert
  rw [Quad.eval_mul hr, h0, zero_mul] at h1
  simp [Quad.eval] at h1

end Neo.P256
