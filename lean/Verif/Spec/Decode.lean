import Verif.Spec.Hex
import Verif.Spec.Stream

/-!
# What bytes on the wire denote (specification data, independent of the reader model)
-/

namespace Spec
open Py

/-- A variable-length integer at the front of `rest`: the number and how many bytes it takes; `none` if the data ends
inside it.  One byte below 0xfd is itself; 0xfd, 0xfe, 0xff announce 2, 4, 8 little-endian bytes.  Nothing at all stands
for 0 (the convention of this library at the end of a stream).  Longer forms than necessary are allowed. -/
def varIntAt (rest : List UInt8) : Option (Nat × Nat) :=
  match rest with
  | [] => some (0, 0)
  | b :: t =>
    let w := if b = 0xfd then 2 else if b = 0xfe then 4 else if b = 0xff then 8 else 0
    if w = 0 then some (b.toNat, 1)
    else if t.length < w then none
    else some (leNumber (t.take w), 1 + w)

/-- When the stream ends strictly inside `bs`, the call raises. -/
def RefusesTruncation (rd : IOM α) (bs : Bytes) : Prop :=
  ∀ pre p : Bytes, p <+: bs → p ≠ bs → ∃ e s', rd ⟨pre ++ p, pre.length⟩ = (.error e, s')

end Spec
