import Verif.Spec.Hex

/-!
# Two's complement, least significant byte first (specification data)
-/

namespace Spec

/-- `b` is the two's complement little-endian form of `v` in `b.length` bytes: `v` is in the signed range of that width
and the bytes denote `v` modulo `256 ^ width`. -/
def IsTwos (b : List UInt8) (v : Int) : Prop :=
  -(256 ^ b.length : Int) ≤ 2 * v ∧ 2 * v < 256 ^ b.length ∧ (256 ^ b.length : Int) ∣ (leNumber b : Int) - v

/-- `b` is a shortest nonempty two's complement form of `v`: what .NET's `BigInteger.ToByteArray` returns. -/
def IsMinimalTwos (b : List UInt8) (v : Int) : Prop :=
  b ≠ [] ∧ IsTwos b v ∧ ∀ b' : List UInt8, b' ≠ [] → IsTwos b' v → b.length ≤ b'.length

end Spec
