import Verif.Spec.Stream

/-!
# The layout of lengths in the NEO network protocol (specification)
-/

namespace Spec

/-- `bs` is the variable-length integer `n` of the protocol: below 0xfd one byte; then, whichever is the first that fits, 0xfd and
two, 0xfe and four, or 0xff and eight bytes, least significant first. -/
def IsVarInt (n : Nat) (bs : List UInt8) : Prop :=
  (n < 0xfd ∧ ∃ b : UInt8, b.toNat = n ∧ bs = [b]) ∨
  (0xfd ≤ n ∧ n ≤ 0xffff ∧ ∃ d, TwosComplementLE 2 n d ∧ bs = 0xfd :: d) ∨
  (0xffff < n ∧ n ≤ 0xffffffff ∧ ∃ d, TwosComplementLE 4 n d ∧ bs = 0xfe :: d) ∨
  (0xffffffff < n ∧ n ≤ 0xffffffffffffffff ∧ ∃ d, TwosComplementLE 8 n d ∧ bs = 0xff :: d)

end Spec
