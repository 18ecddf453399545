import Verif.Py.Core

/-!
# Reading what is left of a log (specification)
-/

namespace Spec
open Py

/-- Reading one record after another until a read raises gives these records. -/
inductive ReadsUntilError (rd : IOM α) : Stream → List α → Prop
  | stop {s e s'} : rd s = (.error e, s') → ReadsUntilError rd s []
  | next {s x s' xs} : rd s = (.ok x, s') → ReadsUntilError rd s' xs → ReadsUntilError rd s (x :: xs)

/-- Of the pieces `bs`, written one after another, exactly the first `j` are complete in `q`. -/
def CompletePieces (bs : List Bytes) (q : Bytes) (j : Nat) : Prop :=
  j ≤ bs.length ∧ (bs.take j).flatten <+: q ∧ (j < bs.length → ¬ (bs.take (j + 1)).flatten <+: q)

end Spec
