import Verif.Py.Float

/-!
# `repr(float)` of CPython (also `str(float)`)

Models CPython (`Python/dtoa.c` mode 0, `Python/pystrtod.c` `format_float_short` with format code 'r'), not code of /repo.
-/

namespace Py

/-- Decimal digits of a number, most significant first; none for zero. -/
def decText (n : Nat) : Str :=
  if _h : n = 0 then [] else decText (n / 10) ++ [Char.ofNat (48 + n % 10)]
termination_by n
decreasing_by omega

/-- What `dtoa` returns for a positive float `x`: a decimal number d·10^e that rounds to `x`, with as few digits as any such
number has, the last one not 0. (CPython's choice is the one nearest to `x`; which of the shortest is chosen is left open here.) -/
def ShortestDecimal (x : ℚ) (d : Nat) (e : Int) : Prop :=
  0 < d ∧ d % 10 ≠ 0 ∧ roundQ (d * 10 ^ e) = x ∧
  ∀ (d' : Nat) (e' : Int), 0 < d' → roundQ (d' * 10 ^ e') = x → (decText d).length ≤ (decText d').length

/-- A choice of the shortest decimal for every positive float. -/
structure Dtoa where
  digits : ℚ → Nat
  exponent : ℚ → Int
  shortest : ∀ x, 0 < x → roundQ x = x → ShortestDecimal x (digits x) (exponent x)

/-- `format_float_short(.., 'r')` of digits d and a decimal exponent e: with decpt = (number of digits) + e, exponent notation
(at least two digits of exponent) if decpt ≤ -4 or decpt > 16, else positional notation with at least one digit after the
point. -/
def formatShort (d : Nat) (e : Int) : Str :=
  let ds := decText d
  let decpt : Int := ds.length + e
  if decpt ≤ -4 ∨ decpt > 16 then
    let x := decpt - 1
    let xs := decText x.natAbs
    ds.take 1 ++ (if ds.length = 1 then [] else '.' :: ds.drop 1) ++ ['e', if x < 0 then '-' else '+'] ++
      (List.replicate (2 - xs.length) '0' ++ xs)
  else if decpt ≤ 0 then ['0', '.'] ++ List.replicate (-decpt).toNat '0' ++ ds
  else if 0 ≤ e then ds ++ List.replicate e.toNat '0' ++ ['.', '0']
  else ds.take decpt.toNat ++ '.' :: ds.drop decpt.toNat

/-- `repr(x)` of a finite float. (The sign of zero is not represented; a quotient of integers is never -0.0 except 0 / negative,
which does not occur here.) -/
def reprFin (R : Dtoa) (q : ℚ) : Str :=
  if q = 0 then ['0', '.', '0']
  else if q < 0 then '-' :: formatShort (R.digits (-q)) (R.exponent (-q))
  else formatShort (R.digits q) (R.exponent q)

/-- `repr(x)`. -/
def PyFloat.repr (R : Dtoa) : PyFloat → Str
  | .nan => ['n', 'a', 'n']
  | .inf s => (if s then ['-'] else []) ++ ['i', 'n', 'f']
  | .fin q => reprFin R q

end Py
