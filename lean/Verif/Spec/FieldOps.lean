import Verif.Model.FieldOps
import Verif.Spec.Hex
import Mathlib.Data.Int.ModEq

/-!
# The number an operand stands for (specification)
-/

namespace Spec
open Neo.EC.FF

/-- An int stands for itself, an even number of hexadecimal digits for the number they write, a field value for its integer. -/
def Stands : Operand → Int → Prop
  | .int m, n => n = m
  | .hex s, n => (∃ k, s.length = 2 * k) ∧ AllHex s ∧ n = hexNumber s
  | .value v, n => n = v.value

/-- The outcome is a value of the field `f`, reduced, congruent to `k`. -/
def IsResidue (r : Except Py.Err Result) (f : Field) (k : Int) : Prop :=
  ∃ m, r = .ok (.value ⟨f, m⟩) ∧ 0 ≤ m ∧ m < f.p ∧ m ≡ k [ZMOD f.p]

end Spec
