import Mathlib.Data.Nat.Digits.Defs
import Mathlib.Data.Rat.Defs

/-!
# What an IEEE-754 interchange word is

Independent of the model: IEEE 754-2008, 3.4 (and Python's documentation of `struct`).
-/

namespace Spec

/-- `bs` are the bytes, least significant first, of the word with sign bit `neg`, an exponent field of `expBits` bits with the
content `expo` and a fraction field of `mant` bits with the content `frac`. -/
def IsWord (mant expBits : ℕ) (neg : Bool) (expo frac : ℕ) (bs : List UInt8) : Prop :=
  expo < 2 ^ expBits ∧ frac < 2 ^ mant ∧ 8 * bs.length = 1 + expBits + mant ∧
  Nat.ofDigits 256 (bs.map UInt8.toNat) = (if neg then 2 ^ (expBits + mant) else 0) + expo * 2 ^ mant + frac

/-- The magnitude such a word stands for when the exponent field is not all ones: (1 + frac / 2^mant) · 2^(expo - bias), or
(frac / 2^mant) · 2^(1 - bias) when the exponent field is 0. -/
def wordMagnitude (mant : ℕ) (bias : ℤ) (expo frac : ℕ) : ℚ :=
  if expo = 0 then (frac / 2 ^ mant) * 2 ^ (1 - bias) else (1 + frac / 2 ^ mant) * 2 ^ ((expo : ℤ) - bias)

end Spec
