import Verif.Props.Fixed8

/-! # C199: the named amounts of Fixed8 -/

namespace Neo.Props
open Py Fixed8

/-- C199. `Zero()` is neutral; `Satoshi()` is the least amount above it, `NegativeSatoshi()` the greatest below it, and they cancel;
`One()` (and `FD()`) is a hundred million satoshis, the amount `FromDecimal` makes of 1, and `FromDecimal(n)` is n times that. -/
theorem C199_named (a : Int) (n : Int) :
    Fixed8.add a Fixed8.zero = a ∧ Fixed8.add Fixed8.zero a = a ∧ Fixed8.sub a Fixed8.zero = a ∧ Fixed8.neg Fixed8.zero = Fixed8.zero ∧
    (Fixed8.lt Fixed8.zero a = true ↔ Fixed8.le satoshi a = true) ∧ (Fixed8.lt a Fixed8.zero = true ↔ Fixed8.le a negativeSatoshi = true) ∧
    Fixed8.neg satoshi = negativeSatoshi ∧ Fixed8.add satoshi negativeSatoshi = Fixed8.zero ∧
    fromDecimal (.int 1) = .ok one ∧ fromDecimal (.int 0) = .ok Fixed8.zero ∧ fromDecimal (.int n) = .ok (n * one) ∧
    one = 10 ^ 8 * satoshi := by
  have h0 : Fixed8.zero = 0 := rfl
  have h1 : satoshi = 1 := rfl
  have h2 : negativeSatoshi = -1 := rfl
  obtain ⟨-, l1, -, -, -, -⟩ := C27_order Fixed8.zero a
  obtain ⟨-, -, -, l2, -, -⟩ := C27_order satoshi a
  obtain ⟨-, l3, -, -, -, -⟩ := C27_order a Fixed8.zero
  obtain ⟨-, -, -, l4, -, -⟩ := C27_order a negativeSatoshi
  rw [l1, l2, l3, l4, (C27_exact a Fixed8.zero).1, (C27_exact Fixed8.zero a).1, (C27_exact a Fixed8.zero).2.1,
    (C27_exact Fixed8.zero a).2.2, (C27_exact satoshi a).2.2, (C27_exact satoshi negativeSatoshi).1, h0, h1, h2]
  refine ⟨by omega, by omega, by omega, rfl, by omega, by omega, rfl, rfl, rfl, rfl, rfl, rfl⟩

example : Fixed8.le satoshi 5 = true ∧ Fixed8.le (-7) negativeSatoshi = true ∧ fromDecimal (.int 3) = .ok 300000000 := by
  refine ⟨rfl, rfl, rfl⟩

end Neo.Props
