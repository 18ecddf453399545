import Verif.Props.KeyPair
import Verif.Proofs.P256Cofactor

/-!
# Private keys and public keys correspond one to one

Property C125.
-/

namespace Neo.Props
open Py Neo.EC Spec.EC Spec

theorem key_same_reduced {P Q : Pt} (hP : Reduced secp256r1Curve P) (hQ : Reduced secp256r1Curve Q)
    (h : Same secp256r1Curve P Q) : P = Q := by
  obtain ⟨a1, a2, a3, a4⟩ := hP
  obtain ⟨b1, b2, b3, b4⟩ := hQ
  obtain ⟨⟨i, hi⟩, ⟨j, hj⟩⟩ := h
  generalize (secp256r1Curve.p : Int) = p at *
  have small : ∀ x y k : Int, 0 ≤ x → x < p → 0 ≤ y → y < p → x - y = p * k → x = y := by
    intro x y k h1 h2 h3 h4 hk
    have : k = 0 := by
      by_contra hc
      rcases lt_or_gt_of_ne hc with h | h <;> nlinarith
    subst this
    omega
  cases P; cases Q
  simp only [Pt.mk.injEq]
  exact ⟨small _ _ i a1 a2 b1 b2 hi, small _ _ j a3 a4 b3 b4 hj⟩

theorem key_accepted {P : Prims} {B : Btc} (hB : DerivesPublicKeys B keyPairCurve) {b : Bytes} {w u : World} {kp : KeyPair}
    (h : b.length = 32) (e : KeyPair.init P B b w = (.ok kp, u)) : letI := Fact.mk p256_prime
    beNumber b < p256Order ∧ Reduced secp256r1Curve kp.publicKey ∧
      ∀ G, Denotes secp256r1Curve secp256r1.G G → Denotes secp256r1Curve kp.publicKey (beNumber b • G) := by
  obtain ⟨k1, k2⟩ := C47_derived P B hB b w h
  have hlt : beNumber b < p256Order := by
    by_contra hn
    have := k1 (by omega)
    rw [e] at this
    cases this
  obtain ⟨kp', w'', e', _, hr, hd, _⟩ := k2 hlt
  rw [e] at e'
  cases e'
  exact ⟨hlt, hr, hd⟩

/-- C125. Different 32-byte private keys never have the same public key. -/
theorem C125_injective (P : Prims) (B : Btc) (hB : DerivesPublicKeys B keyPairCurve) (b b' : Bytes) (w w' : World)
    (h : b.length = 32) (h' : b'.length = 32) (kp kp' : KeyPair) (u u' : World) (e : KeyPair.init P B b w = (.ok kp, u))
    (e' : KeyPair.init P B b' w' = (.ok kp', u')) (hk : kp.publicKey = kp'.publicKey) : b = b' := by
  have := Fact.mk p256_prime
  obtain ⟨G, hG, ho⟩ := base_exists
  obtain ⟨l1, _, d1⟩ := key_accepted hB h e
  obtain ⟨l2, _, d2⟩ := key_accepted hB h' e'
  have d1 := d1 G hG
  rw [hk] at d1
  have heq := (denotes_same p256_proper d1 (d2 G hG)).1 ⟨by simp, by simp⟩
  refine beNumber_inj (h.trans h'.symm) ?_
  have hm := nsmul_eq_nsmul_iff_modEq.1 heq
  rw [ho] at hm
  exact Nat.ModEq.eq_of_lt_of_lt hm l1 l2

/-- C125. Every point of secp256r1, given by its coordinates in 0..p-1, is the public key of exactly one 32-byte private key;
that key is 0 exactly for Infinity. -/
theorem C125_surjective (P : Prims) (B : Btc) (hB : DerivesPublicKeys B keyPairCurve) (w : World) (Q : Pt)
    (hQ : OnCurve secp256r1Curve Q) (hr : Reduced secp256r1Curve Q) :
    ∃ b : Bytes, (b.length = 32 ∧ ∃ kp u, KeyPair.init P B b w = (.ok kp, u) ∧ kp.publicKey = Q) ∧ (beNumber b = 0 ↔ Q = zero) ∧
      ∀ b' : Bytes, (b'.length = 32 ∧ ∃ kp u, KeyPair.init P B b' w = (.ok kp, u) ∧ kp.publicKey = Q) → b' = b := by
  have := Fact.mk p256_prime
  obtain ⟨G, hG, ho⟩ := base_exists
  obtain ⟨A, hA⟩ := exists_denotes p256_proper hQ
  obtain ⟨k, hk, hkA⟩ := (p256_multiples G hG).2 A
  have hN : p256Order < 2 ^ 256 := by decide +kernel
  obtain ⟨b, -, hl, hb⟩ := Bitcoin.intToBytes_big (v := (k : Int)) (by omega) (by exact_mod_cast hk.trans hN)
  have hb : beNumber b = k := by exact_mod_cast hb.symm
  obtain ⟨kp, u, e, -, hr', hd, -⟩ := (C47_derived P B hB b w hl).2 (by omega)
  have hd := hd G hG
  rw [hb, hkA] at hd
  have hpub : kp.publicKey = Q := key_same_reduced hr' hr ((denotes_same p256_proper hd hA).2 rfl)
  refine ⟨b, ⟨hl, kp, u, e, hpub⟩, ?_, ?_⟩
  · rw [hb]
    constructor
    · rintro rfl
      rw [zero_nsmul] at hkA
      subst hkA
      exact hA
    · intro hz
      have : A = 0 := (denotes_same p256_proper hA (B := 0) hz).1 ⟨by simp, by simp⟩
      rw [this] at hkA
      have hdvd := addOrderOf_dvd_of_nsmul_eq_zero hkA
      rw [ho] at hdvd
      exact Nat.eq_zero_of_dvd_of_lt hdvd hk
  · rintro b' ⟨hl', kp', u', e', hpub'⟩
    exact C125_injective P B hB b' b w w hl' hl kp' kp u' u e' e (hpub'.trans hpub.symm)

/-- The package as modelled meets the hypothesis, and the base point is such a point. -/
example : DerivesPublicKeys (pyBtc (fun _ _ => 1) (fun _ _ _ => .ok false)) keyPairCurve ∧ OnCurve secp256r1Curve secp256r1.G ∧
    Reduced secp256r1Curve secp256r1.G :=
  ⟨pyBtc_derives _ _, Or.inr (by decide +kernel), by unfold Reduced; decide +kernel⟩

end Neo.Props
