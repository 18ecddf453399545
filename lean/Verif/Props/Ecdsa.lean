import Verif.Proofs.ECOrder
import Verif.Props.Field

/-! Properties C70, C71: signatures. -/

namespace Neo.Props
open Py Neo.EC Spec.EC

theorem cast_eq_zero {n : Nat} (v : Int) : (v : ZMod n) = 0 ↔ (n : Int) ∣ v := ZMod.intCast_zmod_eq_zero_iff_dvd v n

/-- What `sign` computes: r is the x coordinate of G * k and s is (m + x r) / k mod n, reduced. -/
theorem sign_eq {E : ECDSA} {n : Nat} [hn : Fact n.Prime] (hE : E.n = some (n : Int)) {smul : Pt → Int → Except Err Pt}
    {m x k r s : Int} (hk : 0 < k) (hkn : ¬ (n : Int) ∣ k) (h : E.signWith smul m x k = .ok (r, s)) :
    (∃ R, smul E.G k = .ok R ∧ R.x = r) ∧ (s : ZMod n) * k = m + x * r ∧ 0 ≤ s ∧ s < n := by
  have := NeZero.mk hn.out.ne_zero
  rw [ECDSA.signWith] at h
  cases hs : smul E.G k with
  | error e => rw [hs] at h; cases h
  | ok R =>
    rw [hs] at h
    simp only [ECDSA.modN, hE] at h
    cases h
    refine ⟨⟨R, rfl, rfl⟩, ?_, fmod_range (p := n) _⟩
    have hk0 : (k : ZMod n) ≠ 0 := by rw [ne_eq, cast_eq_zero]; exact hkn
    rw [cast_fDiv _ hk hk0, cast_fAdd, cast_fMul, div_mul_cancel₀ _ hk0]

/-! ## C70, C100: recovering keys from leaked or repeated nonces -/

/-- C100, one signature: from any signature produced by `sign` (whatever the scalar multiplication returns) and its nonce,
`crack1` returns the private key mod n. -/
theorem C100_crack1 (E : ECDSA) (n : Nat) (hn : n.Prime) (hE : E.n = some (n : Int)) (smul : Pt → Int → Except Err Pt)
    (m x k r s : Int) (hk : 0 < k) (hkn : ¬ (n : Int) ∣ k) (hr : 0 < r) (hrn : ¬ (n : Int) ∣ r)
    (h : E.signWith smul m x k = .ok (r, s)) :
    ∃ y, E.crack1 r s m k = .ok y ∧ y ≡ x [ZMOD n] ∧ 0 ≤ y ∧ y < n := by
  have := Fact.mk hn
  have := NeZero.mk hn.ne_zero
  obtain ⟨_, hs, _⟩ := sign_eq hE hk hkn h
  have hr0 : (r : ZMod n) ≠ 0 := by rw [ne_eq, cast_eq_zero]; exact hrn
  refine ⟨fDiv n (fSub n (fMul n s k) m) r, by simp only [ECDSA.crack1, ECDSA.modN, hE]; rfl, ?_, fmod_range (p := n) _⟩
  rw [← ZMod.intCast_eq_intCast_iff, cast_fDiv _ hr hr0, cast_fSub, cast_fMul, hs]
  field_simp
  ring

private theorem crack1_any {E : ECDSA} {n : Nat} [hn : Fact n.Prime] (hE : E.n = some (n : Int)) {r s m k k' x : Int}
    (hr : 0 < r) (hrn : ¬ (n : Int) ∣ r) (hs : (s : ZMod n) * k = m + x * r) (hk : (k' : ZMod n) = k) :
    ∃ y, E.crack1 r s m k' = .ok y ∧ y ≡ x [ZMOD n] := by
  have hr0 : (r : ZMod n) ≠ 0 := by rw [ne_eq, cast_eq_zero]; exact hrn
  refine ⟨_, by simp only [ECDSA.crack1, ECDSA.modN, hE]; rfl, ?_⟩
  rw [← ZMod.intCast_eq_intCast_iff, cast_fDiv _ hr hr0, cast_fSub, cast_fMul, hk, hs]
  field_simp
  ring

private theorem crack2_both (E : ECDSA) (n : Nat) (hn : n.Prime) (hE : E.n = some (n : Int)) (smul : Pt → Int → Except Err Pt)
    (m1 m2 x k r s1 s2 : Int) (hk : 0 < k) (hkn : ¬ (n : Int) ∣ k) (hr : 0 < r) (hrn : ¬ (n : Int) ∣ r)
    (hm : ¬ (n : Int) ∣ m1 - m2)
    (h1 : E.signWith smul m1 x k = .ok (r, s1)) (h2 : E.signWith smul m2 x k = .ok (r, s2)) :
    (∃ a b, E.crack2Values r s1 s2 m1 m2 = .ok (a, b) ∧ a ≡ k [ZMOD n] ∧ b ≡ x [ZMOD n]) ∧
    (s2 < s1 → ∃ a b, E.crack2 r s1 s2 m1 m2 = .ok (a, b) ∧ a ≡ k [ZMOD n] ∧ b ≡ x [ZMOD n]) := by
  have := Fact.mk hn
  have := NeZero.mk hn.ne_zero
  obtain ⟨_, hs1, _⟩ := sign_eq hE hk hkn h1
  obtain ⟨_, hs2, _⟩ := sign_eq hE hk hkn h2
  have hdiff : ((s1 : ZMod n) - s2) * k = m1 - m2 := by linear_combination hs1 - hs2
  have hm0 : (m1 : ZMod n) - m2 ≠ 0 := by
    have := mt (cast_eq_zero (n := n) (m1 - m2)).1 hm
    push_cast at this
    exact this
  have hd0 : (s1 : ZMod n) - s2 ≠ 0 := by
    intro h0
    rw [h0, zero_mul] at hdiff
    exact hm0 hdiff.symm
  have hsec : (m1 - m2 : ZMod n) / (s1 - s2) = k := by rw [div_eq_iff hd0, ← hdiff]; ring
  constructor
  · have hd0' : ((fSub n s1 s2 : Int) : ZMod n) ≠ 0 := by rw [cast_fSub]; exact hd0
    have hsecret : ((fDiv n (m1 - m2) (fSub n s1 s2) : Int) : ZMod n) = k := by
      rw [cast_fDiv (r := fSub n s1 s2) _ (pos_of_cast_ne_zero (fmod_range (p := n) _).1 hd0') hd0', cast_fSub]
      push_cast
      exact hsec
    obtain ⟨y1, hy1, hx1⟩ := crack1_any hE hr hrn hs1 hsecret
    obtain ⟨y2, hy2, _⟩ := crack1_any hE hr hrn hs2 hsecret
    refine ⟨_, y1, ?_, (ZMod.intCast_eq_intCast_iff _ _ _).1 hsecret, hx1⟩
    simp only [ECDSA.crack2Values, ECDSA.modN, hE, bind, Except.bind]
    rw [hy1, hy2]
    rfl
  · intro hlt
    have hd0' : ((s1 - s2 : Int) : ZMod n) ≠ 0 := by push_cast; exact hd0
    have hsecret : ((fDiv n (m1 - m2) (s1 - s2) : Int) : ZMod n) = k := by
      rw [cast_fDiv _ (by omega) hd0']
      push_cast
      exact hsec
    obtain ⟨y1, hy1, hx1⟩ := crack1_any hE hr hrn hs1 hsecret
    obtain ⟨y2, hy2, _⟩ := crack1_any hE hr hrn hs2 hsecret
    refine ⟨_, y1, ?_, (ZMod.intCast_eq_intCast_iff _ _ _).1 hsecret, hx1⟩
    simp only [ECDSA.crack2, ECDSA.modN, hE, bind, Except.bind]
    rw [hy1, hy2]
    rfl

/-- C100, two signatures with the same nonce on messages different mod n: given the field values `sign` returned, `crack2`
returns the nonce and the private key. -/
theorem C100_crack2 (E : ECDSA) (n : Nat) (hn : n.Prime) (hE : E.n = some (n : Int)) (smul : Pt → Int → Except Err Pt)
    (m1 m2 x k r s1 s2 : Int) (hk : 0 < k) (hkn : ¬ (n : Int) ∣ k) (hr : 0 < r) (hrn : ¬ (n : Int) ∣ r)
    (hm : ¬ (n : Int) ∣ m1 - m2)
    (h1 : E.signWith smul m1 x k = .ok (r, s1)) (h2 : E.signWith smul m2 x k = .ok (r, s2)) :
    ∃ a b, E.crack2Values r s1 s2 m1 m2 = .ok (a, b) ∧ a ≡ k [ZMOD n] ∧ b ≡ x [ZMOD n] :=
  (crack2_both E n hn hE smul m1 m2 x k r s1 s2 hk hkn hr hrn hm h1 h2).1

/-- C70 with plain integers, two signatures with the same nonce on messages different mod n, for s2 < s1: `crack2` returns the
nonce and the private key. -/
theorem C70_crack2_partial (E : ECDSA) (n : Nat) (hn : n.Prime) (hE : E.n = some (n : Int)) (smul : Pt → Int → Except Err Pt)
    (m1 m2 x k r s1 s2 : Int) (hk : 0 < k) (hkn : ¬ (n : Int) ∣ k) (hr : 0 < r) (hrn : ¬ (n : Int) ∣ r)
    (hm : ¬ (n : Int) ∣ m1 - m2)
    (h1 : E.signWith smul m1 x k = .ok (r, s1)) (h2 : E.signWith smul m2 x k = .ok (r, s2)) (hlt : s2 < s1) :
    ∃ a b, E.crack2 r s1 s2 m1 m2 = .ok (a, b) ∧ a ≡ k [ZMOD n] ∧ b ≡ x [ZMOD n] :=
  (crack2_both E n hn hE smul m1 m2 x k r s1 s2 hk hkn hr hrn hm h1 h2).2 hlt

/-- C70 fails for plain integers with s1 < s2: the nonce returned is then always the negative of the true one. -/
theorem C70_crack2_sign_violated (E : ECDSA) (n : Nat) (hn : n.Prime) (hE : E.n = some (n : Int)) (r s1 s2 m1 m2 k : Int)
    (hlt : s1 < s2) (hs : ¬ (n : Int) ∣ s1 - s2) (hk : (s1 - s2) * k ≡ m1 - m2 [ZMOD n]) :
    ∃ a b, E.crack2 r s1 s2 m1 m2 = .ok (a, b) ∧ a ≡ -k [ZMOD n] := by
  have := Fact.mk hn
  have hcop : IsCoprime (s1 - s2) (n : Int) := by
    rw [isCoprime_comm, Prime.coprime_iff_not_dvd (Nat.prime_iff_prime_int.1 hn)]
    exact hs
  have h := C61_division_negative_violated n (m1 - m2) (s1 - s2) (by exact_mod_cast hn.pos) (by omega) hcop
  refine ⟨_, _, by simp only [ECDSA.crack2, ECDSA.crack1, ECDSA.modN, hE]; rfl, ?_⟩
  have h' := (ZMod.intCast_eq_intCast_iff _ _ _).2 h
  have hk' := (ZMod.intCast_eq_intCast_iff _ _ _).2 hk
  rw [← ZMod.intCast_eq_intCast_iff]
  push_cast at h' hk' ⊢
  have hd0 : (s1 : ZMod n) - s2 ≠ 0 := by
    have := mt (cast_eq_zero (n := n) (s1 - s2)).1 hs
    push_cast at this
    exact this
  refine mul_right_cancel₀ hd0 ?_
  rw [h', ← hk']
  ring

/-! ## C71: sign and verify -/

/-- `smul` computes multiples of points for non-negative scalars. -/
def CorrectSmul (c : Curve) [Fact c.p.Prime] (smul : Pt → Int → Except Err Pt) : Prop :=
  ∀ P (A : (weierstrass c).Point) (k : Int), 0 ≤ k → Denotes c P A → ∃ R, smul P k = .ok R ∧ Denotes c R (k • A)

/-- C71, what is true of `sign` and `verify`: on every proper curve with a base point killed by a prime order n, if scalar
multiplication were correct, every signature with s ≠ 0 that `sign` returns would be accepted by `verify` with the public key
G * x. -/
theorem C71_sign_verify_partial (E : ECDSA) (hp : E.ec.p.Prime) (hc : Proper E.ec) (n : Nat) (hn : n.Prime)
    (hE : E.n = some (n : Int)) (smul : Pt → Int → Except Err Pt) :
    letI := Fact.mk hp
    ∀ A : (weierstrass E.ec).Point, Denotes E.ec E.G A → n • A = 0 → CorrectSmul E.ec smul →
    ∀ m x k r s : Int, 0 < k → ¬ (n : Int) ∣ k → E.signWith smul m x k = .ok (r, s) → s ≠ 0 →
    ∀ Y, Denotes E.ec Y (x • A) → E.verifyWith smul m Y r s = .ok true := by
  have := Fact.mk hp
  have := Fact.mk hn
  have := NeZero.mk hn.ne_zero
  intro A hG hnA hsm m x k r s hk hkn hsig hs0 Y hY
  obtain ⟨⟨R, hR, hRx⟩, hs, hs1, hs2⟩ := sign_eq hE hk hkn hsig
  have hsn : (s : ZMod n) ≠ 0 := by
    rw [ne_eq, cast_eq_zero]
    intro hd
    exact absurd (Int.le_of_dvd (by omega) hd) (by omega)
  have hspos : 0 < s := by omega
  obtain ⟨R', hR', hRd⟩ := hsm E.G A k hk.le hG
  rw [hR] at hR'
  cases hR'
  obtain ⟨U, hU, hUd⟩ := hsm E.G A (fDiv n m s) (fmod_range (p := n) _).1 hG
  obtain ⟨V, hV, hVd⟩ := hsm Y (x • A) (fDiv n r s) (fmod_range (p := n) _).1 hY
  have hsum := denotes_add hc hUd hVd
  have hmult : fDiv n m s • A + fDiv n r s • x • A = k • A := by
    have hmod : (n : Int) ∣ (fDiv n m s + fDiv n r s * x) - k := by
      rw [← cast_eq_zero]
      push_cast
      rw [cast_fDiv _ hspos hsn, cast_fDiv _ hspos hsn]
      field_simp
      linear_combination -hs
    obtain ⟨q, hq⟩ := hmod
    rw [← mul_zsmul', ← add_zsmul, ← sub_eq_zero, sub_eq_add_neg, ← sub_zsmul, mul_comm x, hq, mul_comm, mul_zsmul, natCast_zsmul, hnA, zsmul_zero]
  rw [hmult] at hsum
  have hsame := (denotes_same hc hsum hRd).2 rfl
  rw [ECDSA.verifyWith]
  simp only [ECDSA.modN, hE, bind, Except.bind]
  rw [hU, hV]
  simp only [pure, Except.pure]
  congr 1
  rw [fEq_iff, ← hRx]
  exact ((ptEq_iff _ _).1 ((same_iff _ _).1 hsame)).1

/-- Repeated addition, a correct scalar multiplication. -/
def naiveMul (c : Curve) (P : Pt) (k : Int) : Except Err Pt := .ok ((fun Q => add c Q P)^[k.toNat] zero)

theorem naiveMul_correct (c : Curve) [Fact c.p.Prime] (hc : Proper c) : CorrectSmul c (naiveMul c) := by
  intro P A k hk hP
  refine ⟨_, rfl, ?_⟩
  obtain ⟨j, rfl⟩ := Int.eq_ofNat_of_zero_le hk
  rw [Int.toNat_natCast, natCast_zsmul]
  induction j with
  | zero => rw [zero_nsmul]; exact denotes_zero
  | succ j ih =>
    rw [Function.iterate_succ_apply', succ_nsmul]
    exact denotes_add hc (ih (by omega)) hP

/-- The hypotheses are met by the curve secp256k1 as constructed by the library, with repeated addition. -/
example : letI := Fact.mk k256_prime
    secp256k1.n = some (k256Order : Int) ∧ k256Order.Prime ∧ Proper secp256k1.ec ∧
    CorrectSmul secp256k1.ec (naiveMul secp256k1.ec) ∧
    ∃ A : (weierstrass secp256k1.ec).Point, Denotes secp256k1.ec secp256k1.G A ∧ k256Order • A = 0 := by
  have := Fact.mk k256_prime
  refine ⟨by decide +kernel, k256Order_prime, k256_proper, naiveMul_correct _ k256_proper, ?_⟩
  obtain ⟨A, hA, hord⟩ := k256_order
  exact ⟨A, hA, by rw [← hord]; exact addOrderOf_nsmul_eq_zero A⟩

/-- C71 fails: no message can be signed or verified with `ECDSA.secp256r1()` (the field object is passed in place of the
order, so that every operation mod n raises), and `SignSecp256R1` always raises. -/
theorem C71_secp256r1_violated (m x k r s : Int) (Y : Pt) :
    (∃ e, secp256r1.sign m x k = .error e ∧ (|k| < 2 ^ 1025 - 2 ^ 971 → e = .typeError)) ∧
    secp256r1.verify m Y r s = .error .typeError ∧ signSecp256R1 m x Y = .error .typeError := by
  have := Fact.mk p256_prime
  refine ⟨?_, rfl, rfl⟩
  rw [ECDSA.sign, ECDSA.signWith]
  cases h : mul secp256r1.ec secp256r1.G k with
  | error e =>
    refine ⟨e, rfl, fun hk => ?_⟩
    obtain ⟨A, hA⟩ := exists_denotes (c := secp256r1Curve) p256_proper (P := secp256r1.G) (Or.inr (by decide +kernel))
    obtain ⟨R, hR, _⟩ := denotes_mul_wide p256_proper hk hA
    have hR' : mul secp256r1.ec secp256r1.G k = .ok R := hR
    rw [hR'] at h
    cases h
  | ok R => exact ⟨.typeError, rfl, fun _ => rfl⟩

end Neo.Props
