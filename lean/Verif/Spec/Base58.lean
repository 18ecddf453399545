import Mathlib.Data.Nat.Digits.Defs
import Verif.Spec.Hex

/-!
# Base58 numerals (specification)
-/

namespace Spec.Base58

/-- The 58 digits: the ASCII digits and letters without `0`, `O`, `I` and `l`, in ASCII order. -/
def digits : List Char :=
  ((List.range 128).map Char.ofNat).filter fun c => c.isAlphanum && !(c ∈ ['0', 'O', 'I', 'l'])

/-- Texts made of these digits. -/
def IsText (s : List Char) : Prop := ∀ c ∈ s, c ∈ digits

/-- The number a text denotes, most significant digit first. -/
def number (s : List Char) : Nat := Nat.ofDigits 58 (s.reverse.map fun c => digits.idxOf c)

/-- `s` is the Base58 text of `b`: as many leading `1`s (the zero digit) as `b` has leading zero bytes, and the same
number. -/
def TextOf (b : List UInt8) (s : List Char) : Prop :=
  IsText s ∧ (s.takeWhile (· == '1')).length = (b.takeWhile (· == 0)).length ∧ number s = beNumber b

end Spec.Base58
