import Mathlib.Data.Rat.Defs
import Mathlib.Data.Rat.Floor

/-!
# The number a decimal text denotes (specification)
-/

namespace Spec

/-- The value of a digit. -/
def digit? (c : Char) : Option Nat := if '0' ≤ c ∧ c ≤ '9' then some (c.toNat - '0'.toNat) else none

/-- The number written in decimal digits (most significant first); the empty text is 0, anything but digits is nothing. -/
def digits? (s : List Char) : Option Nat := s.foldl (fun acc c => match acc, digit? c with | some a, some d => some (10 * a + d) | _, _ => none) (some 0)

/-- digits, or digits '.' digits; at least one digit in front, and one behind the point if there is one. -/
def mantissa? (s : List Char) : Option ℚ :=
  let whole := s.takeWhile (· != '.')
  match s.dropWhile (· != '.') with
  | [] => if whole = [] then none else (digits? whole).map fun n => (n : ℚ)
  | _ :: frac => if whole = [] ∨ frac = [] then none else (digits? (whole ++ frac)).map fun n => (n : ℚ) / 10 ^ frac.length

/-- Nothing, or 'e', a sign and digits. -/
def exponent? : List Char → Option ℤ
  | [] => some 0
  | 'e' :: '+' :: s => if s = [] then none else (digits? s).map fun n => (n : ℤ)
  | 'e' :: '-' :: s => if s = [] then none else (digits? s).map fun n => -(n : ℤ)
  | _ => none

/-- mantissa and exponent, without sign. -/
def unsigned? (s : List Char) : Option ℚ :=
  match mantissa? (s.takeWhile (· != 'e')), exponent? (s.dropWhile (· != 'e')) with
  | some m, some e => some (m * 10 ^ e)
  | _, _ => none

/-- The number a decimal text such as -12.5, 0.001 or 1e-08 denotes. -/
def textValue? : List Char → Option ℚ
  | '-' :: s => (unsigned? s).map fun q => -q
  | s => unsigned? s

end Spec
