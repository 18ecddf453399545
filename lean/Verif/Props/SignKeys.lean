import Verif.Props.SignMore
import Verif.Props.KeyBijection

/-!
# C166: under how many keys a signature is accepted
-/

namespace Neo.Props
open Py Spec EC Spec.EC Neo.Bitcoin WeierstrassCurve

/-- The point of a valid signature, in full. -/
theorem valid_combination {z r s : Nat} {A : (weierstrass secp256r1Curve).Point} (h : EcdsaValid z A r s) :
    letI := Fact.mk p256_prime
    ∀ G, Denotes secp256r1Curve secp256r1.G G → ∃ (w : Nat) (x y : ZMod secp256r1Curve.p) (hn : _),
      ((s : ZMod p256Order) * w = 1) ∧ s * w % p256Order = 1 ∧
      ((z * w : Nat) : Int) • G + ((r * w : Nat) : Int) • A = .some x y hn ∧ x.val % p256Order = r := by
  have := Fact.mk p256_prime
  intro G hG
  obtain ⟨-, -, -, -, h⟩ := h
  obtain ⟨w, x, y, hn, h1, h2, h3⟩ := h G hG
  refine ⟨w, x, y, hn, ?_, h1, ?_, h3⟩
  · have : ((s * w : Nat) : ZMod p256Order) = ((1 : Nat) : ZMod p256Order) := by rw [← h1, ZMod.natCast_mod]
    push_cast at this
    exact this
  · rw [← h2, ← natCast_zsmul, ← natCast_zsmul]
    congr 1
    · exact order_zsmul (by rw [Int.cast_natCast, Int.cast_natCast, ZMod.natCast_mod]) G
    · exact order_zsmul (by rw [Int.cast_natCast, Int.cast_natCast, ZMod.natCast_mod]) A

/-- Every valid signature is valid under a second key, whose sum with the first is known. -/
theorem valid_second_key {z r s : Nat} {A : (weierstrass secp256r1Curve).Point} (h : EcdsaValid z A r s) :
    letI := Fact.mk p256_prime
    ∃ A', A' ≠ A ∧ EcdsaValid z A' r s ∧
      ∀ G, Denotes secp256r1Curve secp256r1.G G → (r : Int) • (A + A') = -((2 * z : Nat) : Int) • G := by
  have := Fact.mk p256_prime
  have := Fact.mk p256Order_prime
  obtain ⟨G, hG, -⟩ := p256_order
  have huniq : ∀ G', Denotes secp256r1Curve secp256r1.G G' → G' = G := fun G' hG' =>
    (denotes_same p256_proper hG' hG).1 ⟨by simp, by simp⟩
  have hr0 : (r : ZMod p256Order) ≠ 0 := by
    intro h0
    rw [ZMod.natCast_eq_zero_iff] at h0
    obtain ⟨r0, r1, -⟩ := h
    exact absurd (Nat.le_of_dvd r0 h0) (by omega)
  obtain ⟨k, hk⟩ : ∃ k : Nat, (r : ZMod p256Order) * k = 2 * z := by
    refine ⟨((r : ZMod p256Order)⁻¹ * (2 * z)).val, ?_⟩
    rw [ZMod.natCast_val, ZMod.cast_id, ← mul_assoc, mul_inv_cancel₀ hr0, one_mul]
  obtain ⟨w, x, y, hn, h1, h1', h2, h3⟩ := valid_combination h G hG
  have hkey : ((z * w : Nat) : Int) • G + ((r * w : Nat) : Int) • (-A - (k : Int) • G) = -Affine.Point.some x y hn := by
    rw [← h2]
    have e : ((r * w : Nat) : Int) • ((k : Int) • G) = ((2 * (z * w) : Nat) : Int) • G := by
      rw [← mul_zsmul]
      refine order_zsmul ?_ G
      push_cast
      rw [show (r : ZMod p256Order) * w * k = (r * k) * w by ring, hk]
      ring
    rw [zsmul_sub, e, zsmul_neg]
    rw [show ((2 * (z * w) : Nat) : Int) = 2 * ((z * w : Nat) : Int) by push_cast; ring, mul_comm, mul_zsmul, two_zsmul]
    abel
  refine ⟨-A - (k : Int) • G, ?_, ?_, ?_⟩
  · intro e
    rw [e, h2] at hkey
    have h2R : (2 : Int) • Affine.Point.some x y hn = 0 := by
      rw [two_zsmul]
      nth_rewrite 1 [hkey]
      exact neg_add_cancel _
    have hd := order_dvd _ _ (by intro h; cases h) h2R
    exact absurd hd (by decide +kernel)
  · obtain ⟨r0, r1, s0, s1, -⟩ := h
    refine ⟨r0, r1, s0, s1, fun G' hG' => ?_⟩
    rw [huniq G' hG']
    obtain ⟨y', hn', hneg⟩ : ∃ y' hn', -(Affine.Point.some x y hn) = .some x y' hn' := ⟨_, _, Affine.Point.neg_some hn⟩
    refine ⟨w, x, y', hn', h1', ?_, h3⟩
    rw [← hneg, ← hkey, ← natCast_zsmul, ← natCast_zsmul]
    congr 1
    · exact order_zsmul (by rw [Int.cast_natCast, Int.cast_natCast, ZMod.natCast_mod]) G
    · exact order_zsmul (by rw [Int.cast_natCast, Int.cast_natCast, ZMod.natCast_mod]) _
  · intro G' hG'
    rw [huniq G' hG', show A + (-A - (k : Int) • G) = -((k : Int) • G) by abel, zsmul_neg, ← mul_zsmul, neg_zsmul]
    congr 1
    refine order_zsmul ?_ G
    push_cast
    rw [hk]

/-- The two facts about its point that determine the key of a valid signature. -/
theorem valid_code {z r s : Nat} {A : (weierstrass secp256r1Curve).Point} (h : EcdsaValid z A r s) :
    letI := Fact.mk p256_prime
    ∀ G, Denotes secp256r1Curve secp256r1.G G → ∃ (x y : ZMod secp256r1Curve.p) (hn : _),
      (s : Int) • (Affine.Point.some x y hn : (weierstrass secp256r1Curve).Point) = (z : Int) • G + (r : Int) • A ∧
      x.val % p256Order = r := by
  have := Fact.mk p256_prime
  intro G hG
  obtain ⟨w, x, y, hn, h1, -, h2, h3⟩ := valid_combination h G hG
  refine ⟨x, y, hn, ?_, h3⟩
  rw [← h2, zsmul_add, ← mul_zsmul, ← mul_zsmul]
  congr 1
  · refine order_zsmul ?_ G
    push_cast
    rw [show (s : ZMod p256Order) * (z * w) = z * (s * w) by ring, h1, mul_one]
  · refine order_zsmul ?_ A
    push_cast
    rw [show (s : ZMod p256Order) * (r * w) = r * (s * w) by ring, h1, mul_one]

/-- Points with the same x mod n are the same if the x coordinates are on the same side of n and the y coordinates have the same
parity. -/
theorem point_of_code {r : Nat} {x y x' y' : ZMod secp256r1Curve.p} : letI := Fact.mk p256_prime
    ∀ {hn : (weierstrass secp256r1Curve).Nonsingular x y} {hn' : (weierstrass secp256r1Curve).Nonsingular x' y'},
    x.val % p256Order = r → x'.val % p256Order = r → (x.val < p256Order ↔ x'.val < p256Order) → y.val % 2 = y'.val % 2 →
    (Affine.Point.some x y hn : (weierstrass secp256r1Curve).Point) = Affine.Point.some x' y' hn' := by
  have := Fact.mk p256_prime
  intro hn hn' hx hx' hs hp
  have hp2 : secp256r1Curve.p < 2 * p256Order := by decide +kernel
  have l1 := ZMod.val_lt x
  have l2 := ZMod.val_lt x'
  have hv : x.val = x'.val := by
    have m1 := Nat.div_add_mod x.val p256Order
    have m2 := Nat.div_add_mod x'.val p256Order
    by_cases hc : x.val < p256Order
    · have hc' := hs.1 hc
      rw [Nat.mod_eq_of_lt hc] at hx
      rw [Nat.mod_eq_of_lt hc'] at hx'
      omega
    · have hc' : ¬ x'.val < p256Order := fun h => hc (hs.2 h)
      rw [Nat.mod_eq_sub_mod (by omega), Nat.mod_eq_of_lt (by omega)] at hx hx'
      omega
  have hxx : x = x' := ZMod.val_injective _ hv
  subst hxx
  have hyy : y = y' := by
    rcases Affine.Y_eq_of_X_eq hn.1 hn'.1 rfl with e | e
    · exact e
    · have e' : y = -y' := by
        rw [e]
        simp [Affine.negY, weierstrass]
      by_cases h0 : y' = 0
      · rw [e', h0, neg_zero]
      · have hodd : secp256r1Curve.p % 2 = 1 := by decide +kernel
        have hval : y.val = secp256r1Curve.p - y'.val := by
          rw [e', ZMod.neg_val, if_neg h0]
        have := ZMod.val_lt y'
        omega
  subst hyy
  rfl

/-- Equal points: equal keys. -/
private theorem key_of_point {z r s : Nat} {A A' : (weierstrass secp256r1Curve).Point} (h : EcdsaValid z A r s) : letI := Fact.mk p256_prime
    ∀ G : (weierstrass secp256r1Curve).Point, (z : Int) • G + (r : Int) • A = (z : Int) • G + (r : Int) • A' → A = A' := by
  have := Fact.mk p256_prime
  intro G e
  by_contra hne
  have h0 : (r : Int) • (A - A') = 0 := by
    rw [zsmul_sub, sub_eq_zero]
    exact add_left_cancel e
  have hd := order_dvd _ _ (sub_ne_zero.2 hne) h0
  obtain ⟨r0, r1, -⟩ := h
  exact absurd (Int.le_of_dvd (by omega) hd) (by omega)

/-- The keys under which a signature of a message is accepted. -/
def AcceptedUnder (B : Btc) (message signature : Val) (unhex : Bool) (w : World) (Q : Pt) : Prop :=
  (Neo.verifySignature B message signature (.point Q) unhex w).1 = .ok true

/-- Two bits that tell the keys of one signature apart; the first is fixed if r is not very small. -/
private theorem accepted_code (P : Prims) (B : Btc) (hB : VerifiesEcdsa B P.sha256) (message signature : Val) (unhex : Bool) (w : World) :
    ∃ Code : Pt → Bool × Bool → Prop, (∀ Q, AcceptedUnder B message signature unhex w Q → ∃ c, Code Q c) ∧
      (∀ Q Q' c, Code Q c → Code Q' c → Q = Q') ∧
      ∀ rb sb : Bytes, rb.length = 32 → signature = .bytes (rb ++ sb) → secp256r1Curve.p ≤ beNumber rb + p256Order →
        ∀ Q c, Code Q c → c.1 = true := by
  classical
  have := Fact.mk p256_prime
  obtain ⟨G, hG, -⟩ := p256_order
  have hpt : ∀ Q b, PubKeyArg.point Q = .bytes b → b.length = 33 → w.curve = signatureCurve := fun Q b e => by cases e
  -- the code of an accepted key
  let Code (Q : Pt) (c : Bool × Bool) : Prop := ∃ (A : (weierstrass secp256r1Curve).Point) (rb sb m : Bytes)
      (x y : ZMod secp256r1Curve.p) (hn : _), IsPublicKey Q A ∧
      (signature = .bytes (rb ++ sb) ∨ signature = .bytearray (rb ++ sb)) ∧ rb.length = 32 ∧ sb.length = 32 ∧ MessageArg unhex message m ∧
      EcdsaValid (beNumber (P.sha256 m)) A (beNumber rb) (beNumber sb) ∧
      (beNumber sb : Int) • (Affine.Point.some x y hn : (weierstrass secp256r1Curve).Point) =
        (beNumber (P.sha256 m) : Int) • G + (beNumber rb : Int) • A ∧
      x.val % p256Order = beNumber rb ∧ c = (decide (x.val < p256Order), decide (y.val % 2 = 0))
  have hcode : ∀ Q, AcceptedUnder B message signature unhex w Q → ∃ c, Code Q c := by
    intro Q hQ
    obtain ⟨Q', A, rb, sb, m, h1, h2, -, -, h5, h6, h7, h8, h9⟩ := (C93_true_iff P B hB message _ _ unhex w (hpt Q)).1 hQ
    obtain ⟨x, y, hn, e1, e2⟩ := valid_code h9 G hG
    cases (show Q = Q' from h1)
    exact ⟨_, A, rb, sb, m, x, y, hn, h2, h5, h6, h7, h8, h9, e1, e2, rfl⟩
  have hinj : ∀ Q Q' c, Code Q c → Code Q' c → Q = Q' := by
    rintro Q Q' c ⟨A, rb, sb, m, x, y, hn, a1, a2, a3, a4, a5, a6, a7, a8, a9⟩ ⟨A', rb', sb', m', x', y', hn', b1, b2, b3, b4, b5, b6, b7, b8, b9⟩
    have hsig : rb ++ sb = rb' ++ sb' := by
      rcases a2 with a2 | a2 <;> rcases b2 with b2 | b2 <;> rw [a2] at b2
      · exact Val.bytes.inj b2
      · cases b2
      · cases b2
      · exact Val.bytearray.inj b2
    obtain ⟨rfl, rfl⟩ := List.append_inj hsig (by omega)
    have hm : m = m' := by
      cases unhex with
      | true =>
        rcases a5 with a5 | ⟨⟨_, ae⟩, a5⟩ <;> rcases b5 with b5 | ⟨⟨_, be⟩, b5⟩
        · rw [a5] at b5; cases b5; rfl
        · rw [a5] at be; cases be
        · rw [b5] at ae; cases ae
        · rcases a5 with a5 | a5 <;> rcases b5 with b5 | b5 <;> rw [a5] at b5 <;> cases b5 <;> rfl
      | false =>
        rcases a5 with ⟨t, a5, rfl⟩ | a5 | a5 <;> rcases b5 with ⟨t', b5, rfl⟩ | b5 | b5 <;> rw [a5] at b5 <;> cases b5 <;> rfl
    subst hm
    rw [a9] at b9
    obtain ⟨c1, c2⟩ := Prod.mk.inj b9
    have hR := point_of_code (hn := hn) (hn' := hn') a8 b8 (by simpa using c1) (by
      have : (y.val % 2 = 0) ↔ (y'.val % 2 = 0) := by simpa using c2
      omega)
    have hA : A = A' := key_of_point a6 G (by rw [← a7, ← b7, hR])
    subst hA
    have hs := (denotes_same p256_proper a1.2.2 b1.2.2).2 rfl
    exact key_same_reduced a1.2.1 b1.2.1 hs
  refine ⟨Code, hcode, hinj, ?_⟩
  rintro rb sb hl hsig hbig Q c ⟨A, rb', sb', m, x, y, hn, a1, a2, a3, a4, a5, a6, a7, a8, rfl⟩
  have hrb : rb = rb' := by
    rcases a2 with a2 | a2 <;> rw [hsig] at a2
    · exact (List.append_inj (Val.bytes.inj a2) (by omega)).1
    · cases a2
  subst hrb
  have hlt := ZMod.val_lt x
  refine decide_eq_true ?_
  by_contra hc
  rw [Nat.mod_eq_sub_mod (by omega)] at a8
  have hp2 : secp256r1Curve.p < 2 * p256Order := by decide +kernel
  rw [Nat.mod_eq_of_lt (by omega)] at a8
  omega

/-- C166. A signature of a message, whatever it is, is accepted under at most four public keys. -/
theorem C166_at_most_four (P : Prims) (B : Btc) (hB : VerifiesEcdsa B P.sha256) (message signature : Val) (unhex : Bool) (w : World) :
    ∃ keys : List Pt, keys.length ≤ 4 ∧ ∀ Q, AcceptedUnder B message signature unhex w Q → Q ∈ keys := by
  classical
  obtain ⟨Code, hcode, hinj, -⟩ := accepted_code P B hB message signature unhex w
  refine ⟨([(true, true), (true, false), (false, true), (false, false)] : List (Bool × Bool)).map fun c =>
      if h : ∃ Q, Code Q c then h.choose else zero, by simp, fun Q hQ => ?_⟩
  obtain ⟨c, hc⟩ := hcode Q hQ
  refine List.mem_map.2 ⟨c, by rcases c with ⟨_ | _, _ | _⟩ <;> simp, ?_⟩
  have he : ∃ Q, Code Q c := ⟨Q, hc⟩
  rw [dif_pos he]
  exact hinj _ _ c he.choose_spec hc

/-- C166. Unless r is below p - n (about 2^128 out of 2^256), under at most two. -/
theorem C166_at_most_two (P : Prims) (B : Btc) (hB : VerifiesEcdsa B P.sha256) (message : Val) (rb sb : Bytes) (hr : rb.length = 32)
    (hbig : secp256r1Curve.p ≤ beNumber rb + p256Order) (unhex : Bool) (w : World) :
    ∃ Q1 Q2 : Pt, ∀ Q, AcceptedUnder B message (.bytes (rb ++ sb)) unhex w Q → Q = Q1 ∨ Q = Q2 := by
  classical
  obtain ⟨Code, hcode, hinj, hfst⟩ := accepted_code P B hB message (.bytes (rb ++ sb)) unhex w
  refine ⟨if h : ∃ Q, Code Q (true, true) then h.choose else zero, if h : ∃ Q, Code Q (true, false) then h.choose else zero, fun Q hQ => ?_⟩
  obtain ⟨⟨c1, c2⟩, hc⟩ := hcode Q hQ
  cases (show c1 = true from hfst rb sb hr rfl hbig Q _ hc)
  have he : ∃ Q, Code Q (true, c2) := ⟨Q, hc⟩
  cases c2 with
  | true => left; rw [dif_pos he]; exact hinj _ _ _ hc he.choose_spec
  | false => right; rw [dif_pos he]; exact hinj _ _ _ hc he.choose_spec

/-- C166. The numbers are not smaller: with every key that accepts there is a second public key, a different point, under which (r, s) is a valid signature
of the same message; and if it is finite and its coordinates are below the group order (which the `ecdsa` package asks for),
VerifySignature accepts it. -/
theorem C166_second_key (P : Prims) (B : Btc) (hB : VerifiesEcdsa B P.sha256) (message signature : Val) (unhex : Bool) (w : World)
    (Q : Pt) (h : AcceptedUnder B message signature unhex w Q) : letI := Fact.mk p256_prime
    ∃ A A' : (weierstrass secp256r1Curve).Point, IsPublicKey Q A ∧ A' ≠ A ∧
      ∀ Q', IsPublicKey Q' A' → Q'.x < p256Order → Q'.y < p256Order → Q' ≠ Q ∧ AcceptedUnder B message signature unhex w Q' := by
  have := Fact.mk p256_prime
  have hpt : ∀ Q b, PubKeyArg.point Q = .bytes b → b.length = 33 → w.curve = signatureCurve := fun Q b e => by cases e
  obtain ⟨Q0, A, rb, sb, m, h1, h2, h3, h4, h5, h6, h7, h8, h9⟩ := (C93_true_iff P B hB message _ _ unhex w (hpt Q)).1 h
  cases (show Q = Q0 from h1)
  obtain ⟨A', hne, hv, -⟩ := valid_second_key h9
  refine ⟨A, A', h2, hne, fun Q' i1 i2 i3 => ⟨?_, ?_⟩⟩
  · rintro rfl
    exact hne ((denotes_same p256_proper i1.2.2 h2.2.2).1 ⟨by simp, by simp⟩)
  · exact (C93_true_iff P B hB message _ _ unhex w (hpt Q')).2 ⟨Q', A', rb, sb, m, rfl, i1, i2, i3, h5, h6, h7, h8, hv⟩

/-- And it happens: a message and signature that are accepted under the key of the private key 1 and under its negative. -/
theorem C166_two_keys : ∃ (P : Prims) (B : Btc) (message signature : Val) (w : World) (Q Q' : Pt),
    VerifiesEcdsa B P.sha256 ∧ Q ≠ Q' ∧ AcceptedUnder B message signature true w Q ∧ AcceptedUnder B message signature true w Q' := by
  have := Fact.mk p256_prime
  have := Fact.mk p256Order_prime
  obtain ⟨G, hG, -⟩ := p256_order
  have huniq : ∀ G', Denotes secp256r1Curve secp256r1.G G' → G' = G := fun G' hG' =>
    (denotes_same p256_proper hG' hG).1 ⟨by simp, by simp⟩
  have hgr : Reduced secp256r1Curve secp256r1.G := by unfold Reduced; decide +kernel
  have hgx : secp256r1.G.x < p256Order := by decide +kernel
  have hgy : secp256r1.G.y < p256Order := by decide +kernel
  have hgp : 0 < secp256r1.G.x := by decide +kernel
  have hg0 : secp256r1.G ≠ ⟨0, 0⟩ := by decide +kernel
  obtain ⟨r, hr⟩ : ∃ r : Nat, (r : Int) = secp256r1.G.x := ⟨secp256r1.G.x.toNat, by omega⟩
  have hr1 : r < 256 ^ 32 := by
    have : p256Order < 256 ^ 32 := by decide +kernel
    omega
  have hr0 : (r : ZMod p256Order) ≠ 0 := by
    intro h0
    rw [ZMod.natCast_eq_zero_iff] at h0
    exact absurd (Nat.le_of_dvd (by omega) h0) (by omega)
  have hv : EcdsaValid 0 G r r := by
    refine ⟨by omega, by omega, by omega, by omega, fun G' hG' => ?_⟩
    rw [huniq G' hG']
    cases hc : G with
    | zero => rw [hc] at hG; exact absurd hG hg0
    | some x y hn =>
      have hw : r * ((r : ZMod p256Order)⁻¹).val % p256Order = 1 := by
        have : ((r * ((r : ZMod p256Order)⁻¹).val : Nat) : ZMod p256Order) = ((1 : Nat) : ZMod p256Order) := by
          rw [Nat.cast_mul, ZMod.natCast_val, ZMod.cast_id, mul_inv_cancel₀ hr0, Nat.cast_one]
        rw [ZMod.natCast_eq_natCast_iff'] at this
        rw [this]
        exact Nat.mod_eq_of_lt p256Order_prime.one_lt
      refine ⟨((r : ZMod p256Order)⁻¹).val, x, y, hn, hw, ?_, ?_⟩
      · rw [hw, Nat.zero_mul, Nat.zero_mod, zero_nsmul, one_nsmul, zero_add]
      · rw [hc] at hG
        have := EcdsaPkg.val_of_range hgr.1 hgr.2.1 hG.1
        rw [Nat.mod_eq_of_lt (by omega)]
        omega
  obtain ⟨A', hne, hv', hsum⟩ := valid_second_key hv
  have hA' : A' = -G := by
    have h0 := hsum G hG
    rw [Nat.mul_zero, Nat.cast_zero, neg_zero, zero_zsmul] at h0
    by_contra hn
    have := order_dvd (G + A') r (fun h => hn (eq_neg_of_add_eq_zero_right h)) h0
    exact absurd (Int.le_of_dvd (by omega) this) (by omega)
  subst hA'
  have hQ' : Denotes secp256r1Curve ⟨secp256r1.G.x, secp256r1Curve.p - secp256r1.G.y⟩ (-G) := by
    cases hc : G with
    | zero => rw [hc] at hG; exact absurd hG hg0
    | some x y hn =>
      rw [hc] at hG
      rw [Affine.Point.neg_some hn]
      refine ⟨hG.1, ?_⟩
      have := hG.2
      simp only [Affine.negY, weierstrass]
      push_cast
      rw [this]
      simp
  have hlen : ∀ k : Nat, (natToLE 32 k).reverse.length = 32 := fun k => by rw [List.length_reverse, natToLE_length]
  have hbe : beNumber (natToLE 32 r).reverse = r := by
    rw [beNumber_le, List.reverse_reverse, leToNat_natToLE, Nat.mod_eq_of_lt hr1]
  have hz : beNumber ((default : Prims).sha256 []) = 0 := by decide +kernel
  have hB := pkgBtc_verifies (fun _ _ => 1) default
  have acc : ∀ (Q : Pt) (A : (weierstrass secp256r1Curve).Point), IsPublicKey Q A → Q.x < p256Order → Q.y < p256Order → EcdsaValid 0 A r r →
      AcceptedUnder (pkgBtc (fun _ _ => 1) (default : Prims).sha256) (.bytes []) (.bytes ((natToLE 32 r).reverse ++ (natToLE 32 r).reverse)) true
        World.fresh Q := by
    intro Q A h1 h2 h3 h4
    refine (C93_true_iff default _ hB _ _ _ _ _ (fun b e => by cases e)).2
      ⟨Q, A, _, _, [], rfl, h1, h2, h3, .inl rfl, hlen _, hlen _, .inl rfl, ?_⟩
    rw [hz, hbe]
    exact h4
  refine ⟨default, pkgBtc (fun _ _ => 1) (default : Prims).sha256, .bytes [], .bytes ((natToLE 32 r).reverse ++ (natToLE 32 r).reverse),
    World.fresh, secp256r1.G, ⟨secp256r1.G.x, secp256r1Curve.p - secp256r1.G.y⟩, hB, by decide +kernel,
    acc _ G ⟨hg0, hgr, hG⟩ hgx hgy hv, acc _ (-G) ⟨by decide +kernel, by unfold Reduced; decide +kernel, hQ'⟩ (by decide +kernel) (by decide +kernel) hv'⟩

end Neo.Props
