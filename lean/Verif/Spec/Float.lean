import Mathlib.Data.Rat.Defs
import Mathlib.Algebra.Order.Ring.Rat

/-!
# What an IEEE-754 binary format can hold, and what rounding to it means

Independent of the model: a format has numbers m·2^e with |m| below 2^precision and e at least `minExp`.
-/

namespace Spec

/-- The finite numbers of a binary format (without its upper limit). -/
def OnGrid (precision : ℕ) (minExp : ℤ) (x : ℚ) : Prop :=
  ∃ m e : ℤ, |m| < 2 ^ precision ∧ minExp ≤ e ∧ x = m * 2 ^ e

/-- The last bit of the significand is 0: m is even, and e is as small as it can be. -/
def EvenSignificand (precision : ℕ) (minExp : ℤ) (x : ℚ) : Prop :=
  ∃ m e : ℤ, Even m ∧ |m| < 2 ^ precision ∧ (2 ^ (precision - 1) ≤ |m| ∧ minExp ≤ e ∨ e = minExp) ∧ x = m * 2 ^ e

/-- `y` is `x` rounded to nearest, ties to even. -/
structure RoundsTo (precision : ℕ) (minExp : ℤ) (x y : ℚ) : Prop where
  onGrid : OnGrid precision minExp y
  nearest : ∀ z, OnGrid precision minExp z → |y - x| ≤ |z - x|
  even : ∀ z, OnGrid precision minExp z → z ≠ y → |z - x| = |y - x| → EvenSignificand precision minExp y

end Spec
