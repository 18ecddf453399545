import Mathlib.Tactic.SplitIfs

/-!
# Halving with rounding (specification)
-/

namespace Spec

/-- Half of m, rounded to the nearest whole number, and of the two nearest to the even one. -/
def halfEven (m : Nat) : Nat := if m % 4 = 3 then m / 2 + 1 else m / 2

/-- How often m can be halved until nothing is left. -/
def halvings (m : Nat) : Nat := if m = 0 then 0 else 1 + halvings (halfEven m)
termination_by m
decreasing_by unfold halfEven; split_ifs <;> omega

end Spec
