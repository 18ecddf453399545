import Verif.Py.Float

/-!
# `float(text)` and `int(text)` of CPython 3.5 and 3.6

Models CPython (`Objects/floatobject.c` `PyFloat_FromString`, `Python/pystrtod.c`, `Python/dtoa.c` `_Py_dg_strtod`,
`Objects/longobject.c` `PyLong_FromString` with base 10), not code of /repo. Texts of more than 10^9 digits, which `_Py_dg_strtod` refuses, are not treated apart.
-/

namespace Py

/-- `Py_ISDIGIT`. -/
def isDigit (c : Char) : Bool := decide ('0' ≤ c) && decide (c ≤ '9')

/-- `Py_ISSPACE`. -/
def isSpace (c : Char) : Bool := c == ' ' || c == '\t' || c == '\n' || c == '\x0b' || c == '\x0c' || c == '\r'

/-- White space is skipped on both sides. -/
def stripSpace (s : Str) : Str := ((s.dropWhile isSpace).reverse.dropWhile isSpace).reverse

/-- `_Py_string_to_number_with_underscores` (3.6): underscores are dropped; there must be a digit on both sides. `prev` is the character
before. -/
def ungroup (prev : Char) : Str → Option Str
  | [] => if prev = '_' then none else some []
  | c :: s =>
    if c = '_' then if isDigit prev then ungroup c s else none
    else if prev = '_' ∧ isDigit c = false then none
    else (ungroup c s).map (c :: ·)

/-- 3.5 has no such rule. -/
def ungroupIf (underscores : Bool) (s : Str) : Option Str := if underscores then ungroup '\x00' s else some s

/-- An optional sign; the flag says minus. -/
def takeSign : Str → Bool × Str
  | '-' :: s => (true, s)
  | '+' :: s => (false, s)
  | s => (false, s)

/-- The number written in decimal digits. -/
def digitsVal (s : Str) : Nat := s.foldl (fun a c => 10 * a + (c.toNat - 48)) 0

/-- The exponent, up to the end of the text. (A malformed exponent is left unread, and what is left unread is an error.) -/
def scanExponent : Str → Option Int
  | [] => some 0
  | m :: r =>
    if m = 'e' ∨ m = 'E' then
      let d := (takeSign r).2
      if d ≠ [] ∧ d.all isDigit = true then some (if (takeSign r).1 then -(digitsVal d : Int) else digitsVal d) else none
    else none

/-- The digits after the point, and the rest. -/
def scanFraction : Str → Str × Str
  | '.' :: r => (r.takeWhile isDigit, r.dropWhile isDigit)
  | r => ([], r)

/-- `_Py_dg_strtod` after the sign, for a text that is a number up to its end. -/
def scanNumber (s : Str) : Option ℚ :=
  let w := s.takeWhile isDigit
  let fr := scanFraction (s.dropWhile isDigit)
  if w ++ fr.1 = [] then none
  else match scanExponent fr.2 with
    | some x => some (digitsVal (w ++ fr.1) / 10 ^ fr.1.length * 10 ^ x)
    | none => none

/-- `_Py_parse_inf_or_nan` after the sign. -/
def scanInfNan (negative : Bool) (s : Str) : Option PyFloat :=
  let t := s.map Char.toLower
  if t = ['i', 'n', 'f'] ∨ t = ['i', 'n', 'f', 'i', 'n', 'i', 't', 'y'] then some (.inf negative)
  else if t = ['n', 'a', 'n'] then some .nan
  else none

/-- `float(text)`. `ascii` is what `_PyUnicode_TransformDecimalAndSpaceToASCII` makes of a character: Unicode decimal digits become
ASCII digits, Unicode white space becomes a blank (ASCII characters stay as they are; bytes are not transformed). -/
def floatOfText (underscores : Bool) (ascii : Char → Char) (s : Str) : Except Err PyFloat :=
  match ungroupIf underscores (stripSpace (s.map ascii)) with
  | none => .error .valueError
  | some t =>
    let r := (takeSign t).2
    match scanNumber r with
    | some q => .ok (.ofRat (if (takeSign t).1 then -q else q))
    | none => match scanInfNan (takeSign t).1 r with
      | some v => .ok v
      | none => .error .valueError

/-- `int(text)`. -/
def intOfText (underscores : Bool) (ascii : Char → Char) (s : Str) : Except Err Int :=
  let t := stripSpace (s.map ascii)
  match ungroupIf underscores (takeSign t).2 with
  | none => .error .valueError
  | some d =>
    if d ≠ [] ∧ d.all isDigit = true then .ok (if (takeSign t).1 then -(digitsVal d : Int) else digitsVal d)
    else .error .valueError

end Py
