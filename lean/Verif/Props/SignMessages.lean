import Verif.Props.NamedCurves -- not used: both need much memory, so they are not built at the same time
import Verif.Props.SignKeys
import Verif.Proofs.Primitives

/-!
# C188, C189: for which messages a signature is accepted; the form of the public key
-/

namespace Neo.Props
open Py Spec EC Spec.EC Neo.Bitcoin WeierstrassCurve

/-! ## C188 -/

/-- `d` is a private key of `Q`: `Q` has the coordinates of d times the base point. -/
def IsPrivateKeyOf (d : Int) (Q : Pt) : Prop :=
  letI := Fact.mk p256_prime
  ∀ G, Denotes secp256r1Curve secp256r1.G G → Denotes secp256r1Curve Q (d • G)

private theorem base_unique : letI := Fact.mk p256_prime
    ∀ G G' : (weierstrass secp256r1Curve).Point, Denotes secp256r1Curve secp256r1.G G → Denotes secp256r1Curve secp256r1.G G' → G' = G :=
  have := Fact.mk p256_prime
  fun _ _ h h' => (denotes_same p256_proper h' h).1 ⟨by simp, by simp⟩

private theorem base_ne_zero : letI := Fact.mk p256_prime
    ∀ G : (weierstrass secp256r1Curve).Point, Denotes secp256r1Curve secp256r1.G G → G ≠ 0 := by
  have := Fact.mk p256_prime
  rintro G hG rfl
  exact absurd (show secp256r1.G = ⟨0, 0⟩ from hG) (by decide +kernel)

/-- The digests (mod n) of which one signature under one key is valid, told apart by two bits. -/
private theorem digest_code (A : (weierstrass secp256r1Curve).Point) (r s : Nat) :
    ∃ Code : Nat → Bool × Bool → Prop, (∀ z, EcdsaValid z A r s → ∃ c, Code z c) ∧
      (∀ z z' c, Code z c → Code z' c → z % p256Order = z' % p256Order) ∧
      (secp256r1Curve.p ≤ r + p256Order → ∀ z c, Code z c → c.1 = true) := by
  classical
  have := Fact.mk p256_prime
  obtain ⟨G, hG, -⟩ := p256_order
  let Code (z : Nat) (c : Bool × Bool) : Prop := ∃ (x y : ZMod secp256r1Curve.p) (hn : _),
      (s : Int) • (Affine.Point.some x y hn : (weierstrass secp256r1Curve).Point) = (z : Int) • G + (r : Int) • A ∧
      x.val % p256Order = r ∧ c = (decide (x.val < p256Order), decide (y.val % 2 = 0))
  refine ⟨Code, ?_, ?_, ?_⟩
  · intro z hz
    obtain ⟨x, y, hn, h1, h2⟩ := valid_code hz G hG
    exact ⟨_, x, y, hn, h1, h2, rfl⟩
  · rintro z z' c ⟨x, y, hn, a1, a2, a3⟩ ⟨x', y', hn', b1, b2, b3⟩
    rw [a3] at b3
    obtain ⟨c1, c2⟩ := Prod.mk.inj b3
    have hR := point_of_code (hn := hn) (hn' := hn') a2 b2 (by simpa using c1) (by
      have : (y.val % 2 = 0) ↔ (y'.val % 2 = 0) := by simpa using c2
      omega)
    rw [hR, b1] at a1
    have h0 : ((z : Int) - z') • G = 0 := by
      rw [sub_zsmul, ← sub_eq_add_neg, sub_eq_zero]
      exact (add_right_cancel a1).symm
    have hd := order_dvd G _ (base_ne_zero G hG) h0
    exact ((Nat.modEq_iff_dvd).2 (by rw [← neg_sub] at hd; exact (Int.dvd_neg).1 hd) : z ≡ z' [MOD p256Order])
  · rintro hbig z c ⟨x, y, hn, a1, a2, rfl⟩
    have hlt := ZMod.val_lt x
    refine decide_eq_true ?_
    by_contra hc
    rw [Nat.mod_eq_sub_mod (by omega)] at a2
    have hp2 : secp256r1Curve.p < 2 * p256Order := by decide +kernel
    rw [Nat.mod_eq_of_lt (by omega)] at a2
    omega

/-- What acceptance of a signature says about the digest: it depends on the key and the signature only through these. -/
private theorem accepted_valid (P : Prims) (B : Btc) (hB : VerifiesEcdsa B P.sha256) {message : Val} {m rb sb : Bytes} {unhex : Bool} {w : World}
    {Q : Pt} (hr : rb.length = 32) (hm : MessageArg unhex message m)
    (h : AcceptedUnder B message (.bytes (rb ++ sb)) unhex w Q) :
    ∃ A, IsPublicKey Q A ∧ EcdsaValid (beNumber (P.sha256 m)) A (beNumber rb) (beNumber sb) := by
  obtain ⟨Q0, A, rb', sb', m', h1, h2, -, -, h5, h6, h7, h8, h9⟩ :=
    (C93_true_iff P B hB message _ (.point Q) unhex w (fun b e => by cases e)).1 h
  cases (show Q = Q0 from h1)
  have h5' : rb ++ sb = rb' ++ sb' := by
    rcases h5 with h5 | h5
    · exact Val.bytes.inj h5
    · cases h5
  obtain ⟨rfl, rfl⟩ := List.append_inj h5' (by omega)
  have hmm : m = m' := by
    cases unhex with
    | true =>
      rcases hm with a5 | ⟨⟨_, ae⟩, a5⟩ <;> rcases h8 with b5 | ⟨⟨_, be⟩, b5⟩
      · rw [a5] at b5; cases b5; rfl
      · rw [a5] at be; cases be
      · rw [b5] at ae; cases ae
      · rcases a5 with a5 | a5 <;> rcases b5 with b5 | b5 <;> rw [a5] at b5 <;> cases b5 <;> rfl
    | false =>
      rcases hm with ⟨t, a5, rfl⟩ | a5 | a5 <;> rcases h8 with ⟨t', b5, rfl⟩ | b5 | b5 <;> rw [a5] at b5 <;> cases b5 <;> rfl
  subst hmm
  exact ⟨A, h2, h9⟩

private theorem key_unique {Q : Pt} {A A' : (weierstrass secp256r1Curve).Point} (h : IsPublicKey Q A) (h' : IsPublicKey Q A') : A = A' :=
  have := Fact.mk p256_prime
  (denotes_same p256_proper h.2.2 h'.2.2).1 ⟨by simp, by simp⟩

/-- C188, what holds of every signature: under one key it is accepted for messages of at most four digests (mod n). The full claim
says one. -/
theorem C188_at_most_four_partial (P : Prims) (B : Btc) (hB : VerifiesEcdsa B P.sha256) (rb sb : Bytes) (hr : rb.length = 32) (Q : Pt) :
    ∃ digests : List Nat, digests.length ≤ 4 ∧ ∀ message m unhex w, MessageArg unhex message m →
      AcceptedUnder B message (.bytes (rb ++ sb)) unhex w Q → beNumber (P.sha256 m) % p256Order ∈ digests := by
  classical
  by_cases hQ : ∃ A, IsPublicKey Q A
  · obtain ⟨A, hA⟩ := hQ
    obtain ⟨Code, hcode, hinj, -⟩ := digest_code A (beNumber rb) (beNumber sb)
    refine ⟨([(true, true), (true, false), (false, true), (false, false)] : List (Bool × Bool)).map fun c =>
        if h : ∃ z, Code z c then h.choose % p256Order else 0, by simp, fun message m unhex w hm h => ?_⟩
    obtain ⟨A', hA', hv⟩ := accepted_valid P B hB hr hm h
    cases key_unique hA hA'
    obtain ⟨c, hc⟩ := hcode _ hv
    refine List.mem_map.2 ⟨c, by rcases c with ⟨_ | _, _ | _⟩ <;> simp, ?_⟩
    have he : ∃ z, Code z c := ⟨_, hc⟩
    rw [dif_pos he]
    exact hinj _ _ c he.choose_spec hc
  · refine ⟨[], by simp, fun message m unhex w hm h => ?_⟩
    obtain ⟨A', hA', -⟩ := accepted_valid P B hB hr hm h
    exact absurd ⟨A', hA'⟩ hQ

/-- C188, what holds unless r is below p - n (about 2^128 out of 2^256): at most two digests, and only if they give the private key
away: it is -(z1 + z2) / (2 r) mod n. So a key whose owner alone knows it accepts a signature for one digest only. -/
theorem C188_gives_key_away_partial (P : Prims) (B : Btc) (hB : VerifiesEcdsa B P.sha256) (rb sb : Bytes) (hr : rb.length = 32)
    (hbig : secp256r1Curve.p ≤ beNumber rb + p256Order) (Q : Pt) (message message' : Val) (m m' : Bytes) (unhex unhex' : Bool) (w w' : World)
    (hm : MessageArg unhex message m) (hm' : MessageArg unhex' message' m')
    (h : AcceptedUnder B message (.bytes (rb ++ sb)) unhex w Q) (h' : AcceptedUnder B message' (.bytes (rb ++ sb)) unhex' w' Q)
    (hne : beNumber (P.sha256 m) % p256Order ≠ beNumber (P.sha256 m') % p256Order) (d : Int) (hd : IsPrivateKeyOf d Q) :
    (p256Order : Int) ∣ 2 * beNumber rb * d + (beNumber (P.sha256 m) + beNumber (P.sha256 m')) := by
  have := Fact.mk p256_prime
  obtain ⟨G, hG, -⟩ := p256_order
  obtain ⟨A, hA, hv⟩ := accepted_valid P B hB hr hm h
  obtain ⟨A', hA', hv'⟩ := accepted_valid P B hB hr hm' h'
  cases key_unique hA hA'
  generalize beNumber (P.sha256 m) = z at *
  generalize beNumber (P.sha256 m') = z' at *
  generalize beNumber rb = r at *
  generalize beNumber sb = s at *
  obtain ⟨x, y, hn, a1, a2⟩ := valid_code hv G hG
  obtain ⟨x', y', hn', b1, b2⟩ := valid_code hv' G hG
  have hp2 : secp256r1Curve.p < 2 * p256Order := by decide +kernel
  have small : ∀ x : ZMod secp256r1Curve.p, x.val % p256Order = r → x.val < p256Order := by
    intro x hx
    by_contra hc
    have hlt := ZMod.val_lt x
    rw [Nat.mod_eq_sub_mod (by omega), Nat.mod_eq_of_lt (by omega)] at hx
    omega
  have hxx : x = x' := by
    refine ZMod.val_injective _ ?_
    have s1 := small x a2
    have s2 := small x' b2
    rw [Nat.mod_eq_of_lt s1] at a2
    rw [Nat.mod_eq_of_lt s2] at b2
    omega
  subst hxx
  have hAd : A = d • G := (denotes_same p256_proper hA.2.2 (hd G hG)).1 ⟨by simp, by simp⟩
  rcases Affine.Y_eq_of_X_eq hn.1 hn'.1 rfl with e | e
  · subst e
    exfalso
    rw [a1] at b1
    have h0 : ((z' : Int) - z) • G = 0 := by
      rw [sub_zsmul, ← sub_eq_add_neg, sub_eq_zero]
      exact (add_right_cancel b1).symm
    exact hne ((Nat.modEq_iff_dvd).2 (order_dvd G _ (base_ne_zero G hG) h0))
  · have hneg : (Affine.Point.some x y hn : (weierstrass secp256r1Curve).Point) = -(Affine.Point.some x y' hn') := by
      rw [Affine.Point.neg_some hn']
      simp only [e]
    rw [hneg, zsmul_neg, b1, hAd] at a1
    refine order_dvd G _ (base_ne_zero G hG) ?_
    rw [← mul_zsmul, ← add_zsmul, ← add_zsmul, ← neg_zsmul, ← sub_eq_zero, sub_eq_add_neg, ← sub_zsmul] at a1
    rw [← neg_eq_zero, ← neg_zsmul, ← a1]
    congr 1
    ring

/-- C188 is false of every two messages whose digests are neither equal nor opposite mod n: there is a key, of a known private key,
and a signature that is valid for both; VerifySignature accepts it for both (whatever form the messages come in) if the coordinates of
the key are below n. -/
theorem C188_any_two_messages_violated (P : Prims) (B : Btc) (hB : VerifiesEcdsa B P.sha256) (m m' : Bytes)
    (hne : ¬ (p256Order : Int) ∣ beNumber (P.sha256 m) - beNumber (P.sha256 m'))
    (hop : ¬ p256Order ∣ beNumber (P.sha256 m) + beNumber (P.sha256 m')) :
    ∃ (rb sb : Bytes) (Q : Pt) (d : Nat), rb.length = 32 ∧ sb.length = 32 ∧ IsPrivateKeyOf d Q ∧
      (Q.x < p256Order → Q.y < p256Order → ∀ message unhex w, MessageArg unhex message m ∨ MessageArg unhex message m' →
        AcceptedUnder B message (.bytes (rb ++ sb)) unhex w Q) := by
  have := Fact.mk p256_prime
  have := Fact.mk p256Order_prime
  obtain ⟨G, hG, -⟩ := p256_order
  have hgr : Reduced secp256r1Curve secp256r1.G := by unfold Reduced; decide +kernel
  have hgx : secp256r1.G.x < p256Order := by decide +kernel
  have hgp : 0 < secp256r1.G.x := by decide +kernel
  obtain ⟨r, hr⟩ : ∃ r : Nat, (r : Int) = secp256r1.G.x := ⟨secp256r1.G.x.toNat, by omega⟩
  have hn1 : p256Order < 256 ^ 32 := by decide +kernel
  have hr0 : (r : ZMod p256Order) ≠ 0 := by
    intro h0
    rw [ZMod.natCast_eq_zero_iff] at h0
    exact absurd (Nat.le_of_dvd (by omega) h0) (by omega)
  have h20 : (2 : ZMod p256Order) ≠ 0 := by
    intro h0
    have : ((2 : Nat) : ZMod p256Order) = 0 := by exact_mod_cast h0
    rw [ZMod.natCast_eq_zero_iff] at this
    exact absurd this (by decide +kernel)
  generalize hz : beNumber (P.sha256 m) = z at *
  generalize hz' : beNumber (P.sha256 m') = z' at *
  have hne' : (z : ZMod p256Order) - z' ≠ 0 := by
    intro h0
    refine hne ((ZMod.intCast_zmod_eq_zero_iff_dvd _ _).1 ?_)
    push_cast
    exact h0
  have hop' : (z : ZMod p256Order) + z' ≠ 0 := by
    intro h0
    refine hop ((ZMod.natCast_eq_zero_iff _ _).1 ?_)
    push_cast
    exact h0
  let sF : ZMod p256Order := ((z : ZMod p256Order) - z') / 2
  let dF : ZMod p256Order := -((z : ZMod p256Order) + z') / (2 * r)
  have hs0 : sF ≠ 0 := div_ne_zero hne' h20
  have hd0 : dF ≠ 0 := div_ne_zero (neg_ne_zero.2 hop') (mul_ne_zero h20 hr0)
  have hrd : (r : ZMod p256Order) * dF = -((z : ZMod p256Order) + z') / 2 := by
    show (r : ZMod p256Order) * (-((z : ZMod p256Order) + z') / (2 * r)) = _
    field_simp
  have e1 : (z : ZMod p256Order) + r * dF = sF := by
    rw [hrd]
    show _ = ((z : ZMod p256Order) - z') / 2
    field_simp
    ring
  have e2 : (z' : ZMod p256Order) + r * dF = -sF := by
    rw [hrd]
    show _ = -(((z : ZMod p256Order) - z') / 2)
    field_simp
    ring
  have hsv : sF.val ≠ 0 := fun h => hs0 ((ZMod.val_eq_zero _).1 h)
  have hsl : sF.val < p256Order := ZMod.val_lt _
  have hw : sF.val * (sF⁻¹).val % p256Order = 1 := by
    have : ((sF.val * (sF⁻¹).val : Nat) : ZMod p256Order) = ((1 : Nat) : ZMod p256Order) := by
      rw [Nat.cast_mul, ZMod.natCast_val, ZMod.cast_id, ZMod.natCast_val, ZMod.cast_id, mul_inv_cancel₀ hs0, Nat.cast_one]
    rw [ZMod.natCast_eq_natCast_iff'] at this
    rw [this]
    exact Nat.mod_eq_of_lt p256Order_prime.one_lt
  -- the key
  let A : (weierstrass secp256r1Curve).Point := (dF.val : Int) • G
  obtain ⟨Q, hQd, hQr⟩ : ∃ Q, Denotes secp256r1Curve Q A ∧ Reduced secp256r1Curve Q := by
    cases A with
    | zero => exact ⟨⟨0, 0⟩, rfl, by unfold Reduced; decide +kernel⟩
    | some x y hn =>
      refine ⟨⟨x.val, y.val⟩, ⟨by simp, by simp⟩, Int.natCast_nonneg _, ?_, Int.natCast_nonneg _, ?_⟩
      · exact Int.ofNat_lt.2 (ZMod.val_lt x)
      · exact Int.ofNat_lt.2 (ZMod.val_lt y)
  have hA0 : A ≠ 0 := by
    intro h
    have := order_dvd G _ (base_ne_zero G hG) h
    rw [← ZMod.intCast_zmod_eq_zero_iff_dvd, Int.cast_natCast, ZMod.natCast_val, ZMod.cast_id] at this
    exact hd0 this
  have hQ : IsPublicKey Q A := by
    refine ⟨?_, hQr, hQd⟩
    rintro rfl
    refine hA0 ?_
    exact (denotes_same p256_proper hQd (show Denotes secp256r1Curve ⟨0, 0⟩ 0 from rfl)).1 ⟨by simp, by simp⟩
  have hcomb : ∀ t : Nat, ∀ k : Int, (t : ZMod p256Order) + r * dF = (k : ZMod p256Order) * sF →
      (t * (sF⁻¹).val % p256Order) • G + (r * (sF⁻¹).val % p256Order) • A = k • G := by
    intro t k hk
    show _ + _ • ((dF.val : Int) • G) = _
    rw [← natCast_zsmul, ← natCast_zsmul, ← mul_zsmul, ← add_zsmul]
    refine order_zsmul ?_ G
    push_cast
    simp only [ZMod.natCast_val, ZMod.cast_id]
    rw [show (t : ZMod p256Order) * sF⁻¹ + r * sF⁻¹ * dF = (t + r * dF) * sF⁻¹ by ring, hk, mul_assoc, mul_inv_cancel₀ hs0, mul_one]
  have hxr : ∀ (x y : ZMod secp256r1Curve.p) (hn : _), (G = .some x y hn) → x.val % p256Order = r := by
    intro x y hn hc
    rw [hc] at hG
    have := EcdsaPkg.val_of_range hgr.1 hgr.2.1 hG.1
    rw [Nat.mod_eq_of_lt (by omega)]
    omega
  have hv : EcdsaValid z A r sF.val := by
    refine ⟨by omega, by omega, by omega, by omega, fun G' hG' => ?_⟩
    rw [base_unique G G' hG hG']
    have := hcomb z 1 (by rw [e1]; simp)
    rw [one_zsmul] at this
    rw [← base_unique G G' hG hG'] at *
    cases hc : G' with
    | zero => exact absurd hc (base_ne_zero G' hG')
    | some x y hn => exact ⟨_, x, y, hn, hw, by rw [← hc]; exact this, hxr x y hn hc⟩
  have hv' : EcdsaValid z' A r sF.val := by
    refine ⟨by omega, by omega, by omega, by omega, fun G' hG' => ?_⟩
    rw [base_unique G G' hG hG']
    have := hcomb z' (-1) (by rw [e2]; simp)
    rw [neg_zsmul, one_zsmul] at this
    rw [← base_unique G G' hG hG'] at *
    cases hc : G' with
    | zero => exact absurd hc (base_ne_zero G' hG')
    | some x y hn =>
      obtain ⟨y', hn', hneg⟩ : ∃ y' hn', -(Affine.Point.some x y hn) = .some x y' hn' := ⟨_, _, Affine.Point.neg_some hn⟩
      exact ⟨_, x, y', hn', hw, by rw [← hneg, ← hc]; exact this, hxr x y hn hc⟩
  have hbe : ∀ k : Nat, k < 256 ^ 32 → beNumber (natToLE 32 k).reverse = k := fun k hk => by
    rw [beNumber_le, List.reverse_reverse, leToNat_natToLE, Nat.mod_eq_of_lt hk]
  have hlen : ∀ k : Nat, (natToLE 32 k).reverse.length = 32 := fun k => by rw [List.length_reverse, natToLE_length]
  refine ⟨(natToLE 32 r).reverse, (natToLE 32 sF.val).reverse, Q, dF.val, hlen _, hlen _, ?_, ?_⟩
  · intro G' hG'
    rw [base_unique G G' hG hG']
    exact hQd
  · intro hx hy message unhex w hm
    refine (C93_true_iff P B hB _ _ _ _ _ (fun b e => by cases e)).2 ?_
    rcases hm with hm | hm
    · refine ⟨Q, A, _, _, m, rfl, hQ, hx, hy, .inl rfl, hlen _, hlen _, hm, ?_⟩
      rw [hz, hbe r (by omega), hbe _ (by omega)]
      exact hv
    · refine ⟨Q, A, _, _, m', rfl, hQ, hx, hy, .inl rfl, hlen _, hlen _, hm, ?_⟩
      rw [hz', hbe r (by omega), hbe _ (by omega)]
      exact hv'

/-- The texts `pay 1 NEO` and `pay 1000 NEO`. -/
def payOne : Bytes := utf8 "pay 1 NEO".toList
def payThousand : Bytes := utf8 "pay 1000 NEO".toList

/-- A public key made for them (`C188_any_two_messages_violated` says how). -/
def twoFacedKey : Pt := ⟨0x9872eedbe4a55e533b2c6b04676e52f9309f7bd079897e3b1df6d7120bfd6eb5,
  0xecc0a6870a9a9d39fe9ffa283ec3d25dc1eedd92882c36599ffaacd2633e92b5⟩

/-- And a signature. -/
def twoFacedSignature : Bytes :=
  (natToLE 32 0x6b17d1f2e12c4247f8bce6e563a440f277037d812deb33a0f4a13945d898c296).reverse ++
  (natToLE 32 0x35951e8e6cb218ecf156fe796b218033682d08c04c5020558bbd76d7e2ca89bb).reverse

/-- C188 is false with the real SHA-256: this one signature is accepted for both texts under this one key. -/
theorem C188_pay_violated (genK) (w : World) :
    VerifiesEcdsa (pkgBtc genK Hashes.sha256) realPrims.sha256 ∧
    realPrims.sha256 payOne ≠ realPrims.sha256 payThousand ∧
    AcceptedUnder (pkgBtc genK Hashes.sha256) (.bytes payOne) (.bytes twoFacedSignature) true w twoFacedKey ∧
    AcceptedUnder (pkgBtc genK Hashes.sha256) (.bytes payThousand) (.bytes twoFacedSignature) true w twoFacedKey := by
  have hany : ∀ m, AcceptedUnder (pkgBtc (fun _ _ => 1) Hashes.sha256) (.bytes m) (.bytes twoFacedSignature) true .fresh twoFacedKey →
      AcceptedUnder (pkgBtc genK Hashes.sha256) (.bytes m) (.bytes twoFacedSignature) true w twoFacedKey := fun m h =>
    (C93_true_iff realPrims _ (pkgBtc_verifies genK realPrims) _ _ (.point _) _ _ (fun b e => by cases e)).2
      ((C93_true_iff realPrims _ (pkgBtc_verifies (fun _ _ => 1) realPrims) _ _ (.point _) _ _ (fun b e => by cases e)).1 h)
  refine ⟨pkgBtc_verifies genK realPrims, by decide +kernel, hany _ ?_, hany _ ?_⟩
  · unfold AcceptedUnder; decide +kernel
  · unfold AcceptedUnder; decide +kernel

/-- These texts meet the hypotheses of `C188_any_two_messages_violated`, -/
example : ¬ (p256Order : Int) ∣ beNumber (realPrims.sha256 payOne) - beNumber (realPrims.sha256 payThousand) ∧
    ¬ p256Order ∣ beNumber (realPrims.sha256 payOne) + beNumber (realPrims.sha256 payThousand) := by decide +kernel
/-- and with the key and the signature those of `C188_gives_key_away_partial`. -/
example : (twoFacedSignature.take 32).length = 32 ∧ secp256r1Curve.p ≤ beNumber (twoFacedSignature.take 32) + p256Order ∧
    MessageArg true (.bytes payOne) payOne ∧ MessageArg true (.bytes payThousand) payThousand ∧
    beNumber (realPrims.sha256 payOne) % p256Order ≠ beNumber (realPrims.sha256 payThousand) % p256Order :=
  ⟨by decide +kernel, by decide +kernel, .inr ⟨⟨.binasciiError, by decide +kernel⟩, .inl rfl⟩,
    .inr ⟨⟨.binasciiError, by decide +kernel⟩, .inl rfl⟩, by decide +kernel⟩

/-! ## C189 -/

private theorem uncompressed_unique {Q : Pt} {b b' : Bytes} (h : IsUncompressed Q (4 :: b)) (h' : IsUncompressed Q (4 :: b')) : b = b' := by
  obtain ⟨xb, yb, e, l1, l2, hx, hy⟩ := h
  obtain ⟨xb', yb', e', l1', l2', hx', hy'⟩ := h'
  cases e
  cases e'
  have inj : ∀ u v : Bytes, u.length = 32 → v.length = 32 → beNumber u = beNumber v → u = v := by
    intro u v hu hv huv
    rw [beNumber_le, beNumber_le] at huv
    exact List.reverse_injective (leToNat_inj (by rw [List.length_reverse, List.length_reverse, hu, hv]) huv)
  rw [inj xb xb' l1 l1' (by omega), inj yb yb' l2 l2' (by omega)]

private theorem key_run (B : Btc) (message signature : Val) (key : PubKeyArg) (unhex : Bool) (w : World)
    (hw : ∀ b, key = .bytes b → b.length = 33 → w.curve = signatureCurve) (Q : Pt) (A : (weierstrass secp256r1Curve).Point)
    (hk : KeyArg key Q) (hQ : IsPublicKey Q A) :
    ∃ kb, IsUncompressed Q (4 :: kb) ∧ ∀ c', verifySignature.run B message signature key unhex w.curve =
      verifySignature.run B message signature (.bytes kb) unhex c' := by
  have := Fact.mk p256_prime
  have hself : ∀ c' kb, IsUncompressed Q (4 :: kb) → verifySignature.run B message signature (.bytes kb) unhex c' = match B.verify kb signature (verifySignature.messageVal message unhex) with
      | .ok res => .ok res
      | .error _ => .ok false := fun c' kb hk => by
    have := uncompressed_length hk
    exact run_ok (c := c') rfl (if_neg (by omega))
  have h256 : (secp256r1Curve.p : Int) < 2 ^ 256 := by decide +kernel
  cases key with
  | point Q0 =>
    have hk : Q0 = Q := hk
    subst hk
    obtain ⟨-, ⟨x0, x1, y0, y1⟩, -⟩ := hQ
    obtain ⟨kb, h1, h2, h3⟩ := keyBytes_point (Q := Q0) ⟨x0, by omega, y0, by omega⟩
    exact ⟨kb, h3, fun c' => (run_ok (c := w.curve) h1 (if_neg (by omega))).trans (hself c' kb h3).symm⟩
  | bytes kb =>
    rcases hk with hk | hk
    · exact ⟨kb, hk, fun c' => (hself _ kb hk).trans (hself c' kb hk).symm⟩
    · have hl : kb.length = 33 := by obtain ⟨xb, e, l, -⟩ := hk; rw [e, List.length_cons, l]
      obtain ⟨b, hb1, hb2⟩ := decompress_complete hk hQ.2.1 (denotes_onCurve hQ.2.2) hQ.1
      exact ⟨b, hb2, fun c' => (run_ok (c := w.curve) rfl ((if_pos hl).trans (by rw [hw kb rfl hl]; exact hb1))).trans (hself c' b hb2).symm⟩

/-- C189. Whether a public key is given as a point, as its 64 bytes of coordinates or as its 33-byte encoding does not matter for
VerifySignature, whatever the message, the signature and the `ecdsa` package are; the 33-byte form needs the curve parameters of the
`bitcoin` package to be those of secp256r1. -/
theorem C189_key_forms (B : Btc) (message signature : Val) (key key' : PubKeyArg) (unhex : Bool) (w : World)
    (hw : w.curve = signatureCurve) (Q : Pt) (A : (weierstrass secp256r1Curve).Point) (hQ : IsPublicKey Q A)
    (hk : KeyArg key Q) (hk' : KeyArg key' Q) :
    Neo.verifySignature B message signature key unhex w = Neo.verifySignature B message signature key' unhex w := by
  obtain ⟨kb, h1, h2⟩ := key_run B message signature key unhex w (fun _ _ _ => hw) Q A hk hQ
  obtain ⟨kb', h1', h2'⟩ := key_run B message signature key' unhex w (fun _ _ _ => hw) Q A hk' hQ
  show (verifySignature.run B message signature key unhex w.curve, w) = (verifySignature.run B message signature key' unhex w.curve, w)
  rw [h2 w.curve, h2' w.curve, uncompressed_unique h1 h1']

/-- C189. For the point and the 64 bytes neither the parameters of the `bitcoin` package matter nor whether it is a point of the curve. -/
theorem C189_two_forms (B : Btc) (message signature : Val) (unhex : Bool) (w w' : World) (Q : Pt) (kb : Bytes)
    (hk : IsUncompressed Q (4 :: kb)) :
    (Neo.verifySignature B message signature (.point Q) unhex w).1 = (Neo.verifySignature B message signature (.bytes kb) unhex w').1 := by
  have hl := uncompressed_length hk
  have hlt : ∀ b : Bytes, b.length = 32 → beNumber b < 2 ^ 256 := fun b hb => by
    have := leToNat_lt b.reverse
    rw [List.length_reverse, hb] at this
    rw [beNumber_le]
    exact lt_of_lt_of_eq this (by norm_num)
  obtain ⟨xb, yb, e, l1, l2, hx, hy⟩ := id hk
  have b1 := hlt xb l1
  have b2 := hlt yb l2
  obtain ⟨kb1, h1, h2, h3⟩ := keyBytes_point (Q := Q) ⟨by omega, by omega, by omega, by omega⟩
  cases uncompressed_unique hk h3
  show verifySignature.run B message signature (.point Q) unhex w.curve = verifySignature.run B message signature (.bytes kb) unhex w'.curve
  exact (run_ok (c := w.curve) h1 (if_neg (by omega))).trans (run_ok (c := w'.curve) rfl (if_neg (by omega))).symm

/-- The base point of secp256r1, its 64 bytes and its 33 bytes. -/
example : let Q := secp256r1.G
    let xb := (natToLE 32 Q.x.toNat).reverse
    let yb := (natToLE 32 Q.y.toNat).reverse
    (∃ A, IsPublicKey Q A) ∧ KeyArg (.point Q) Q ∧ KeyArg (.bytes (xb ++ yb)) Q ∧ KeyArg (.bytes (3 :: xb)) Q := by
  have := Fact.mk p256_prime
  obtain ⟨G, hG, -⟩ := p256_order
  exact ⟨⟨G, by decide +kernel, by unfold Reduced; decide +kernel, hG⟩, rfl,
    .inl ⟨_, _, rfl, by decide +kernel, by decide +kernel, by decide +kernel, by decide +kernel⟩,
    .inr ⟨_, rfl, by decide +kernel, by decide +kernel⟩⟩

/-- The state in which a 33-byte key works: once a KeyPair has been constructed, a curve of secp256r1 is in force. -/
example : { World.fresh with curve := signatureCurve }.curve = signatureCurve := rfl

end Neo.Props
