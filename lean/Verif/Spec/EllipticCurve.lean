import Mathlib.AlgebraicGeometry.EllipticCurve.Affine.Point
import Mathlib.Data.ZMod.Basic
import Verif.Model.ECCurve

/-!
# Specification of elliptic-curve points

The independent reference is Mathlib's group of points of a Weierstrass curve over the field of integers mod p
(`WeierstrassCurve.Affine.Point`, the chord-and-tangent group law with its point at infinity).
-/

namespace Spec.EC
open Neo.EC

/-- The curve y² = x³ + a·x + b over the integers mod p. -/
def weierstrass (c : Curve) : WeierstrassCurve.Affine (ZMod c.p) := ⟨0, 0, 0, (c.a : ZMod c.p), (c.b : ZMod c.p)⟩

/-- p is not 2 (that p is prime is stated separately), the curve is nonsingular, and b ≠ 0 (so that the pair (0, 0), which neocore uses for the point at
infinity, is not itself a solution of the equation). -/
structure Proper (c : Curve) : Prop where
  odd : c.p ≠ 2
  disc : 4 * (c.a : ZMod c.p) ^ 3 + 27 * (c.b : ZMod c.p) ^ 2 ≠ 0
  b_ne : (c.b : ZMod c.p) ≠ 0

/-- A neocore point object stands for a point of the group: infinity is the pair of integers (0, 0), every other point is
given by any integers congruent to its coordinates. -/
def Denotes (c : Curve) (P : Pt) : (weierstrass c).Point → Prop
  | .zero => P = ⟨0, 0⟩
  | .some x y _ => (P.x : ZMod c.p) = x ∧ (P.y : ZMod c.p) = y

/-- A neocore point object is a solution of the curve equation (as integers mod p) or the pair (0, 0). -/
def OnCurve (c : Curve) (P : Pt) : Prop :=
  P = ⟨0, 0⟩ ∨ (c.p : ℤ) ∣ P.y ^ 2 - (P.x ^ 3 + c.a * P.x + c.b)

/-- Congruence of both coordinates mod p. -/
def Same (c : Curve) (P Q : Pt) : Prop := (c.p : ℤ) ∣ P.x - Q.x ∧ (c.p : ℤ) ∣ P.y - Q.y

end Spec.EC
