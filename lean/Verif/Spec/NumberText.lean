import Verif.Py.Float
import Verif.Spec.DecimalText

/-!
# The texts which stand for numbers (specification)

The grammar of the Python library reference for `float()`: white space, a sign, a decimal number with an optional fraction and
exponent, or one of the words inf, infinity and nan in any case; from version 3.6 on, single underscores between digits.
-/

namespace Spec
open Py

/-- Nothing, plus or minus. -/
def SignText (g : Str) (negative : Bool) : Prop :=
  (g = [] ∧ negative = false) ∨ (g = ['+'] ∧ negative = false) ∨ (g = ['-'] ∧ negative = true)

/-- The sign, applied. -/
def signed [Neg α] (negative : Bool) (a : α) : α := if negative then -a else a

/-- Nothing, or 'e' or 'E', a sign and digits. -/
def ExponentText (e : Str) (x : Int) : Prop :=
  (e = [] ∧ x = 0) ∨
  ∃ m g d neg, ∃ n : Nat, e = [m] ++ g ++ d ∧ (m = 'e' ∨ m = 'E') ∧ SignText g neg ∧ d ≠ [] ∧ digits? d = some n ∧ x = signed neg (n : Int)

/-- digits, or digits with a point in front, among or behind them; then an exponent. -/
def DecimalNumeral (b : Str) (q : ℚ) : Prop :=
  ∃ w p f e, ∃ n : Nat, ∃ x : Int, b = w ++ p ++ f ++ e ∧ (p = [] ∧ f = [] ∨ p = ['.']) ∧ w ++ f ≠ [] ∧ digits? (w ++ f) = some n ∧
    ExponentText e x ∧ q = n / 10 ^ f.length * 10 ^ x

/-- Blank, tab, newline, vertical tab, form feed and carriage return. -/
def SpaceText (s : Str) : Prop := ∀ c ∈ s, c ∈ [' ', '\t', '\n', '\x0b', '\x0c', '\r']

/-- `s` is `t` with underscores, each between two digits (and none at all unless they are allowed). -/
def Grouped (allowed : Bool) (s t : Str) : Prop :=
  t = s.filter (· != '_') ∧
  ∀ a b, s = a ++ '_' :: b → allowed = true ∧ (∃ a' c, a = a' ++ [c] ∧ (digit? c).isSome = true) ∧
    ∃ c b', b = c :: b' ∧ (digit? c).isSome = true

/-- A text that stands for a number, infinity or nan, and the float nearest to it. -/
def FloatText (underscores : Bool) (s : Str) (v : PyFloat) : Prop :=
  ∃ a t g b z neg, s = a ++ t ++ z ∧ SpaceText a ∧ SpaceText z ∧ Grouped underscores t (g ++ b) ∧ SignText g neg ∧
    ((∃ q, DecimalNumeral b q ∧ v = .ofRat (signed neg q)) ∨
     ((b.map Char.toLower = "inf".toList ∨ b.map Char.toLower = "infinity".toList) ∧ v = .inf neg) ∨
     (b.map Char.toLower = "nan".toList ∧ v = .nan))

/-- A text that stands for a number, and that number. -/
def NumberText (underscores : Bool) (s : Str) (q : ℚ) : Prop :=
  ∃ a t g b z neg, s = a ++ t ++ z ∧ SpaceText a ∧ SpaceText z ∧ Grouped underscores t (g ++ b) ∧ SignText g neg ∧
    ∃ r, DecimalNumeral b r ∧ q = signed neg r

end Spec
