import Verif.Proofs.Bitcoin

/-! `bitcoin.decompress` under the secp256r1 parameters. -/

namespace Neo.Bitcoin
open Py Spec EC Spec.EC

private theorem sqrt_power {p : Nat} [hp : Fact p.Prime] (h3 : p % 4 = 3) {N beta : Nat} (hb : beta = N ^ ((p + 1) / 4) % p)
    {y : Int} (h0 : 0 < y) (h1 : y < p) (he : (y : ZMod p) ^ 2 = N) : (beta : Int) = y ∨ (beta : Int) = p - y := by
  have hbz : (beta : ZMod p) = (N : ZMod p) ^ ((p + 1) / 4) := by rw [hb, ZMod.natCast_mod, Nat.cast_pow]
  have hsq : (beta : ZMod p) ^ 2 = (y : ZMod p) ^ 2 := by
    rw [hbz, ← he, ← pow_mul, ← pow_mul, show 2 * ((p + 1) / 4 * 2) = p + 1 by omega, pow_succ, ZMod.pow_card, sq]
  have hlt : beta < p := hb ▸ Nat.mod_lt _ hp.out.pos
  have hcast : ∀ u v : Int, 0 ≤ u → u < p → 0 ≤ v → v < p → (u : ZMod p) = v → u = v := by
    intro u v u0 u1 v0 v1 h
    rw [ZMod.intCast_eq_intCast_iff', Int.emod_eq_of_lt u0 u1, Int.emod_eq_of_lt v0 v1] at h
    exact h
  rcases sq_eq_sq_iff_eq_or_eq_neg.1 hsq with h | h
  · left
    exact hcast _ _ (by omega) (by exact_mod_cast hlt) h0.le h1 (by push_cast; exact h)
  · right
    refine hcast _ _ (by omega) (by exact_mod_cast hlt) (by omega) (by omega) ?_
    push_cast
    rw [h]
    simp

private theorem sig_mod4 : signatureCurve.p % 4 = 3 := by decide +kernel

/-- A compressed encoding of a finite point is expanded to the coordinates of that point. -/
theorem decompress_complete {Q : Pt} {key : Bytes} (hk : IsCompressed Q key)
    (hr : Reduced secp256r1Curve Q) (ho : OnCurve secp256r1Curve Q) (h0 : Q ≠ ⟨0, 0⟩) :
    ∃ b, btcDecompress signatureCurve key = .ok b ∧ IsUncompressed Q (4 :: b) := by
  have := Fact.mk p256_prime
  obtain ⟨xb, rfl, hl, hx⟩ := hk
  obtain ⟨x0, x1, y0, y1⟩ := hr
  have hdvd := ho.resolve_left h0
  have hy : Q.y ≠ 0 := by
    intro hy
    rw [hy, zero_pow (by norm_num), zero_sub, Int.dvd_neg] at hdvd
    exact P256.no_two_torsion Q.x hdvd
  have h256 : (secp256r1Curve.p : Int) < 2 ^ 256 := by decide +kernel
  rw [btcDecompress]
  have hf : ((if Q.y % 2 = 0 then 2 else 3 : UInt8) = 2 ∨ (if Q.y % 2 = 0 then 2 else 3 : UInt8) = 3) := by
    split
    · exact .inl rfl
    · exact .inr rfl
  rw [if_pos hf]
  simp only
  rw [List.take_of_length_le hl.le, ← beNumber_le]
  generalize hb : (beNumber xb * beNumber xb * beNumber xb + signatureCurve.a * beNumber xb + signatureCurve.b) ^
    ((signatureCurve.p + 1) / 4) % signatureCurve.p = beta
  have hyb : (beta : Int) = Q.y ∨ (beta : Int) = secp256r1Curve.p - Q.y := by
    refine sqrt_power (p := secp256r1Curve.p) sig_mod4 hb.symm (by omega) y1 ?_
    rw [← ZMod.intCast_zmod_eq_zero_iff_dvd, Int.cast_sub, sub_eq_zero, Int.cast_pow] at hdvd
    rw [hdvd, hx]
    rw [show secp256r1Curve.a = ((signatureCurve.a : Nat) : Int) from rfl, show secp256r1Curve.b = ((signatureCurve.b : Nat) : Int) from rfl]
    simp only [Int.cast_add, Int.cast_mul, Int.cast_pow, Int.cast_natCast, Nat.cast_add, Nat.cast_mul]
    ring
  have hps : (signatureCurve.p : Int) = secp256r1Curve.p := rfl
  have hfn : ((if Q.y % 2 = 0 then 2 else 3 : UInt8)).toNat = if Q.y % 2 = 0 then 2 else 3 := by split <;> rfl
  rw [hfn]
  have hodd : signatureCurve.p % 2 = 1 := by decide +kernel
  generalize hY : (if (beta + if Q.y % 2 = 0 then 2 else 3) % 2 ≠ 0 then signatureCurve.p - beta else beta) = Y
  have hYe : (Y : Int) = Q.y := by
    rw [← hY]
    rw [← hps] at hyb y1
    generalize signatureCurve.p = p at *
    by_cases hpar : Q.y % 2 = 0
    · rw [if_pos hpar]; split <;> omega
    · rw [if_neg hpar]; split <;> omega
  refine ⟨_, rfl, ?_⟩
  obtain ⟨e1, e2⟩ := btcEncode_spec (v := beNumber xb) (by omega)
  obtain ⟨e3, e4⟩ := btcEncode_spec (v := Y) (by omega)
  exact ⟨_, _, rfl, e1, e3, by rw [e2, hx], by rw [e4, hYe]⟩

/-- What `decompress` gives, if it is a finite reduced point at all, is the point the key encodes. -/
theorem decompress_sound {Q : Pt} {key b : Bytes} (hl : key.length = 33) (h : btcDecompress signatureCurve key = .ok b)
    (hQ : IsUncompressed Q (4 :: b)) (hy : Q.y < secp256r1Curve.p) : IsCompressed Q key := by
  match key with
  | [] => cases hl
  | f :: xb =>
    have hxl : xb.length = 32 := by simpa using hl
    rw [btcDecompress] at h
    by_cases hf : f = 2 ∨ f = 3
    · rw [if_pos hf] at h
      simp only at h
      rw [List.take_of_length_le hxl.le, ← beNumber_le] at h
      generalize hb : (beNumber xb * beNumber xb * beNumber xb + signatureCurve.a * beNumber xb + signatureCurve.b) ^
        ((signatureCurve.p + 1) / 4) % signatureCurve.p = beta at h
      have hodd : signatureCurve.p % 2 = 1 := by decide +kernel
      have hlt : beta < signatureCurve.p := by
        rw [← hb]; exact Nat.mod_lt _ (by decide +kernel)
      have h256 : signatureCurve.p < 2 ^ 256 := by decide +kernel
      have hps : (signatureCurve.p : Int) = secp256r1Curve.p := rfl
      rw [← hps] at hy
      generalize hY : (if (beta + f.toNat) % 2 ≠ 0 then signatureCurve.p - beta else beta) = Y at h
      have hYl : Y ≤ signatureCurve.p := by rw [← hY]; split <;> omega
      have hYp : Y % 2 = f.toNat % 2 := by
        rw [← hY]
        generalize signatureCurve.p = p at *
        split <;> omega
      obtain ⟨e1, e2⟩ := btcEncode_spec (v := beNumber xb) ((beNumber_lt xb).trans_eq (by rw [hxl]; norm_num))
      obtain ⟨e3, e4⟩ := btcEncode_spec (v := Y) (by omega)
      have h := Except.ok.inj h
      rw [← h] at hQ
      generalize btcDecompress.btcEncode (beNumber xb) = xe at *
      generalize btcDecompress.btcEncode Y = ye at *
      obtain ⟨xb', yb', heq, hl1, hl2, hx', hy'⟩ := hQ
      have heq := (List.cons.inj heq).2
      obtain ⟨rfl, rfl⟩ := List.append_inj heq (by rw [e1, hl1])
      refine ⟨xb, ?_, hxl, by rw [hx', e2]⟩
      rw [e4] at hy'
      clear hb h hY
      rcases hf with rfl | rfl
      · rw [if_pos (by have : (2 : UInt8).toNat = 2 := rfl; omega)]
      · rw [if_neg (by have : (3 : UInt8).toNat = 3 := rfl; omega)]
    · rw [if_neg hf] at h
      cases h

end Neo.Bitcoin
