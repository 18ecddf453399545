import Mathlib.Data.Nat.Digits.Defs

/-!
# Hexadecimal numerals (specification data, independent of the model)
-/

namespace Spec

/-- Value of a hexadecimal digit, either case. -/
def digit (c : Char) : Option Nat :=
  match c with
  | '0' => some 0 | '1' => some 1 | '2' => some 2 | '3' => some 3 | '4' => some 4
  | '5' => some 5 | '6' => some 6 | '7' => some 7 | '8' => some 8 | '9' => some 9
  | 'a' => some 10 | 'b' => some 11 | 'c' => some 12 | 'd' => some 13 | 'e' => some 14 | 'f' => some 15
  | 'A' => some 10 | 'B' => some 11 | 'C' => some 12 | 'D' => some 13 | 'E' => some 14 | 'F' => some 15
  | _ => none

/-- `t` consists of hexadecimal digits only. -/
def AllHex (t : List Char) : Prop := ∀ c ∈ t, (digit c).isSome

/-- The number a hexadecimal numeral denotes (most significant digit first). -/
def hexNumber (t : List Char) : Nat := Nat.ofDigits 16 (t.reverse.map fun c => (digit c).getD 0)

/-- The number a byte string denotes, least significant byte first. -/
def leNumber (d : List UInt8) : Nat := Nat.ofDigits 256 (d.map UInt8.toNat)

/-- The number a byte string denotes, most significant byte first. -/
def beNumber (d : List UInt8) : Nat := leNumber d.reverse

/-- Lower-case form of a hexadecimal numeral. -/
def lowerHex (t : List Char) : List Char := t.map fun c =>
  match c with
  | 'A' => 'a' | 'B' => 'b' | 'C' => 'c' | 'D' => 'd' | 'E' => 'e' | 'F' => 'f'
  | c => c

end Spec
