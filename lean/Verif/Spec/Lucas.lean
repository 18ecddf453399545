/-! # Lucas sequences (specification): the two textbook recurrences. -/

namespace Spec.Lucas

/-- U₀ = 0, U₁ = 1, Uₖ₊₂ = P·Uₖ₊₁ - Q·Uₖ. -/
def U (P Q : Int) : Nat → Int
  | 0 => 0
  | 1 => 1
  | k + 2 => P * U P Q (k + 1) - Q * U P Q k

/-- V₀ = 2, V₁ = P, Vₖ₊₂ = P·Vₖ₊₁ - Q·Vₖ. -/
def V (P Q : Int) : Nat → Int
  | 0 => 2
  | 1 => P
  | k + 2 => P * V P Q (k + 1) - Q * V P Q k

end Spec.Lucas
