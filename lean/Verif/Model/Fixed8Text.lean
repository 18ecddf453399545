import Verif.Py.FloatText
import Verif.Model.Fixed8

/-! # Model of the text output of neocore/Fixed8.py -/

namespace Neo.Fixed8
open Py

/-- neocore/Fixed8.py:135-136 `ToString` (and 144-145 `__str__`): `str(self.value / Fixed8.D)`. -/
def toStr (R : Dtoa) (v : Int) : Except Err Str :=
  match intTrueDiv v D with
  | .ok f => .ok (f.repr R)
  | .error e => .error e

/-- neocore/Fixed8.py:138-142 `ToNeoJsonString`; `strval[-2:] == '.0'`, `strval[:-2]`. -/
def toNeoJsonStr (R : Dtoa) (v : Int) : Except Err Str :=
  match toStr R v with
  | .error e => .error e
  | .ok s => if s.drop (s.length - 2) = ['.', '0'] then .ok (s.take (s.length - 2)) else .ok s

end Neo.Fixed8
