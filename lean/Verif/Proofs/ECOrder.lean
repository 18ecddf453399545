import Verif.Proofs.ECMul
import Verif.Proofs.P256Primes
import Verif.Proofs.K256Primes
import Mathlib.GroupTheory.OrderOfElement

/-! The base point of secp256r1 has order n: kernel evaluation of the model's own point addition. -/

namespace Neo.EC
open Py Spec.EC

/-- Field division with a bound on the rounds of `GCD`, for evaluation by the kernel. -/
def fDivFuel (k : Nat) (p l r : Int) : Option Int :=
  match gcdFuel k r p with
  | none => none
  | some g => some (Int.fmod (l * g.2.1) p)

theorem fDivFuel_eq {k : Nat} {p l r v : Int} (h : fDivFuel k p l r = some v) : fDiv p l r = v := by
  rw [fDivFuel] at h
  cases hg : gcdFuel k r p with
  | none => rw [hg] at h; cases h
  | some g =>
    rw [hg] at h
    rw [fDiv, modinv, gcdFuel_eq k hg]
    exact Option.some.inj h

/-- Point addition with a bound on the rounds of `GCD`. -/
def addFuel (k : Nat) (c : Curve) (P Q : Pt) : Option Pt :=
  if P.isZero then some Q
  else if Q.isZero then some P
  else if ptEq c P Q then
    if fEq c.p P.y 0 then some zero
    else match fDivFuel k c.p (fAdd c.p (fMul c.p 3 (fPow c.p P.x 2)) c.a) (fMul c.p 2 P.y) with
      | none => none
      | some l => some (addWithSlope c l P Q)
  else if fEq c.p P.x Q.x then some zero
  else match fDivFuel k c.p (fSub c.p P.y Q.y) (fSub c.p P.x Q.x) with
    | none => none
    | some l => some (addWithSlope c l P Q)

theorem addFuel_eq {k : Nat} {c : Curve} {P Q R : Pt} (h : addFuel k c P Q = some R) : add c P Q = R := by
  rw [addFuel] at h
  rw [add]
  split_ifs at h ⊢
  · exact Option.some.inj h
  · exact Option.some.inj h
  · exact Option.some.inj h
  · split at h
    · cases h
    · next l hl => rw [fDivFuel_eq hl]; exact Option.some.inj h
  · exact Option.some.inj h
  · split at h
    · cases h
    · next l hl => rw [fDivFuel_eq hl]; exact Option.some.inj h

/-- Double-and-add over the bits of `e` from the top. -/
def ladderFuel (c : Curve) (P : Pt) : List Bool → Pt → Option Pt
  | [], acc => some acc
  | b :: bs, acc =>
    match addFuel 400 c acc acc with
    | none => none
    | some acc2 =>
      match b with
      | false => ladderFuel c P bs acc2
      | true => match addFuel 400 c acc2 P with
        | none => none
        | some acc3 => ladderFuel c P bs acc3

/-- The number with the given bits, after `acc`. -/
def bitsVal : List Bool → Nat → Nat
  | [], acc => acc
  | b :: bs, acc => bitsVal bs (2 * acc + b.toNat)

theorem ladder_denotes {c : Curve} [hp : Fact c.p.Prime] (h : Proper c) {P : Pt} {A : (weierstrass c).Point}
    (hP : Denotes c P A) : ∀ (bs : List Bool) (acc : Pt) (m : Nat) {R : Pt}, Denotes c acc (m • A) →
    ladderFuel c P bs acc = some R → Denotes c R (bitsVal bs m • A)
  | [], acc, m, R, hacc, hR => by
    rw [ladderFuel] at hR
    cases hR
    exact hacc
  | b :: bs, acc, m, R, hacc, hR => by
    rw [ladderFuel] at hR
    split at hR
    · cases hR
    · next acc2 h2 =>
      have d2 := denotes_add h hacc hacc
      rw [addFuel_eq h2, ← add_nsmul, ← two_mul] at d2
      cases b with
      | false => exact ladder_denotes h hP bs acc2 (2 * m + 0) d2 hR
      | true =>
        simp only at hR
        split at hR
        · cases hR
        · next acc3 h3 =>
          have d3 := denotes_add h d2 hP
          rw [addFuel_eq h3, ← succ_nsmul] at d3
          exact ladder_denotes h hP bs acc3 (2 * m + 1) d3 hR

/-- The bits of n, top first. -/
def toBits (n : Nat) : List Bool := ((List.range 256).map (fun i => n.testBit i)).reverse

set_option maxRecDepth 100000 in
theorem p256_ladder : ladderFuel secp256r1Curve secp256r1.G
    (toBits 115792089210356248762697446949407573529996955224135760342422259061068512044369) zero = some zero := by
  decide +kernel

set_option maxRecDepth 100000 in
theorem k256_ladder : ladderFuel secp256k1.ec secp256k1.G
    (toBits 115792089237316195423570985008687907852837564279074904382605163141518161494337) zero = some zero := by
  decide +kernel

/-- The order of the base point of secp256r1. -/
def p256Order : Nat := 115792089210356248762697446949407573529996955224135760342422259061068512044369

/-- The order of the base point of secp256k1. -/
def k256Order : Nat := 115792089237316195423570985008687907852837564279074904382605163141518161494337

theorem p256_prime : secp256r1Curve.p.Prime :=
  P256.prime_115792089210356248762697446949407573530086143415290314195533631308867097853951

theorem p256Order_prime : p256Order.Prime :=
  P256.prime_115792089210356248762697446949407573529996955224135760342422259061068512044369

theorem k256_prime : secp256k1.ec.p.Prime := by
  have : secp256k1.ec.p = 115792089237316195423570985008687907853269984665640564039457584007908834671663 := by decide +kernel
  rw [this]
  exact K256.prime_115792089237316195423570985008687907853269984665640564039457584007908834671663

theorem k256Order_prime : k256Order.Prime :=
  K256.prime_115792089237316195423570985008687907852837564279074904382605163141518161494337

theorem proper_of_int {c : Curve} (h2 : c.p ≠ 2) (hd : ¬ (c.p : ℤ) ∣ 4 * c.a ^ 3 + 27 * c.b ^ 2) (hb : ¬ (c.p : ℤ) ∣ c.b) :
    Proper c := by
  refine ⟨h2, ?_, ?_⟩
  · intro h
    apply hd
    rw [← ZMod.intCast_zmod_eq_zero_iff_dvd]
    push_cast
    exact h
  · intro h
    apply hb
    rw [← ZMod.intCast_zmod_eq_zero_iff_dvd]
    exact h

theorem p256_proper : Proper secp256r1Curve :=
  proper_of_int (by decide +kernel) (by decide +kernel) (by decide +kernel)

theorem k256_proper : Proper secp256k1.ec :=
  proper_of_int (by decide +kernel) (by decide +kernel) (by decide +kernel)

theorem order_of_ladder {c : Curve} [hp : Fact c.p.Prime] (h : Proper c) {G : Pt} (hG : OnCurve c G) (hG0 : G ≠ zero) {n : Nat}
    (hn : n.Prime) (hbits : bitsVal (toBits n) 0 = n) (hl : ladderFuel c G (toBits n) zero = some zero) :
    ∃ A : (weierstrass c).Point, Denotes c G A ∧ addOrderOf A = n := by
  obtain ⟨A, hA⟩ := exists_denotes h hG
  refine ⟨A, hA, ?_⟩
  have hd := ladder_denotes h hA (toBits n) zero 0 (by rw [zero_nsmul]; exact denotes_zero) hl
  rw [hbits] at hd
  have h0 : n • A = 0 := (denotes_same h hd denotes_zero).1 ⟨by simp [zero], by simp [zero]⟩
  have := Fact.mk hn
  refine addOrderOf_eq_prime h0 ?_
  rintro rfl
  exact hG0 hA

theorem p256_order : letI := Fact.mk p256_prime
    ∃ A : (weierstrass secp256r1Curve).Point, Denotes secp256r1Curve secp256r1.G A ∧ addOrderOf A = p256Order := by
  have := Fact.mk p256_prime
  exact order_of_ladder p256_proper (Or.inr (by decide +kernel)) (by decide +kernel) p256Order_prime (by decide +kernel) p256_ladder

theorem k256_order : letI := Fact.mk k256_prime
    ∃ A : (weierstrass secp256k1.ec).Point, Denotes secp256k1.ec secp256k1.G A ∧ addOrderOf A = k256Order := by
  have := Fact.mk k256_prime
  exact order_of_ladder k256_proper (Or.inr (by decide +kernel)) (by decide +kernel) k256Order_prime (by decide +kernel) k256_ladder

end Neo.EC
