import Verif.Proofs.P256NoTorsion
import Verif.Spec.PointEncoding
import Verif.Proofs.IO
import Verif.Proofs.Hex
import Verif.Props.Field

/-! Encoding and decoding of curve points. -/

namespace Neo.EC
open Py Spec Spec.EC

theorem beNumber_le (b : Bytes) : beNumber b = leToNat b.reverse := by rw [beNumber, leNumber_eq]

theorem leToNat_snoc_zero (b : Bytes) : leToNat (b ++ [0]) = leToNat b := by
  rw [leToNat_append]; simp [leToNat]

theorem beNumber_lt (b : Bytes) : beNumber b < 256 ^ b.length := by
  rw [beNumber_le, ← List.length_reverse]
  exact leToNat_lt _

theorem beNumber_inj {a b : Bytes} (hl : a.length = b.length) (h : beNumber a = beNumber b) : a = b := by
  rw [beNumber_le, beNumber_le] at h
  exact List.reverse_injective (leToNat_inj (by simpa using hl) h)

variable {c : Curve} [hp : Fact c.p.Prime]

theorem rhs_range (x : Int) : 0 ≤ rhs c x ∧ rhs c x < c.p :=
  have := NeZero.mk hp.out.ne_zero
  fmod_range (p := c.p) _

/-- What `decompress_from_curve` returns is on the curve, with the x given and the y of the parity asked for. -/
theorem decompress_sound {x flag : Int} {P : Pt} (h : decompressFromCurve c x flag = .ok P) :
    P.x = x ∧ (c.p : ℤ) ∣ P.y ^ 2 - (P.x ^ 3 + c.a * P.x + c.b) ∧ 0 ≤ P.y ∧ P.y < c.p ∧
      (c.p ≠ 2 → flag = 0 ∨ flag = 1 → P.y % 2 = flag ∨ P.y = 0) := by
  have hpos : 0 < c.p := hp.out.pos
  rw [decompressFromCurve] at h
  cases hs : sqrtCQ (rhs c x) c.p with
  | none => rw [hs] at h; cases h
  | some r =>
    rw [hs] at h
    obtain ⟨h1, h2, h3⟩ := Props.C97_sound _ _ hpos _ hs
    have hr : (r : ZMod c.p) * r = x ^ 3 + c.a * x + c.b := by
      have := (ZMod.intCast_eq_intCast_iff _ _ _).2 h1
      rw [cast_rhs] at this
      push_cast at this
      exact this
    have hdvd : ∀ b : Int, (b : ZMod c.p) * b = r * r → (c.p : ℤ) ∣ b ^ 2 - (x ^ 3 + c.a * x + c.b) := by
      intro b hb
      rw [← ZMod.intCast_zmod_eq_zero_iff_dvd]
      push_cast
      rw [← hr, ← hb]
      ring
    have hm : Int.fmod r 2 = r % 2 := Int.fmod_eq_emod_of_nonneg _ (by norm_num)
    simp only [hm] at h
    by_cases hb : (if r % 2 ≠ 0 then (1 : Int) else 0) ≠ flag
    · rw [if_pos hb] at h
      cases h
      have hf : Int.fmod ((c.p : Int) - r) c.p = if r = 0 then 0 else (c.p : Int) - r := by
        split
        · next h0 => rw [h0, sub_zero, Int.fmod_self]
        · next h0 =>
          rw [Int.fmod_eq_emod_of_nonneg _ (by omega), Int.emod_eq_of_lt (by omega) (by omega)]
      refine ⟨rfl, hdvd _ ?_, ?_, ?_, ?_⟩
      · rw [cast_fmod]; push_cast; rw [ZMod.natCast_self]; ring
      · simp only [hf]; split <;> omega
      · simp only [hf]; split <;> omega
      · intro hp2 hfl
        simp only [hf]
        have hodd : (c.p : Int) % 2 = 1 := by
          have := (hp.out.eq_two_or_odd).resolve_left hp2
          omega
        split
        · right; rfl
        · left
          rcases hfl with rfl | rfl
          · split at hb <;> omega
          · split at hb <;> omega
    · rw [if_neg hb] at h
      cases h
      refine ⟨rfl, hdvd _ rfl, h2, h3, ?_⟩
      intro _ hfl
      left
      simp only
      rw [not_not] at hb
      rw [← hb]
      split <;> omega

/-- Decompression finds every point of the curve from its x and the parity of its y, when p ≡ 3 mod 4. -/
theorem decompress_complete (h3 : c.p % 4 = 3) {x y : Int} (h0 : 0 ≤ y) (h1 : y < c.p)
    (he : (c.p : ℤ) ∣ y ^ 2 - (x ^ 3 + c.a * x + c.b)) : decompressFromCurve c x (y % 2) = .ok ⟨x, y⟩ := by
  have hpos : 0 < c.p := hp.out.pos
  have he' : (y : ZMod c.p) ^ 2 = x ^ 3 + c.a * x + c.b := by
    have := (ZMod.intCast_zmod_eq_zero_iff_dvd _ _).2 he
    push_cast at this
    exact sub_eq_zero.1 this
  obtain ⟨r, hs⟩ := Props.C65_complete_partial c.p hp.out (Or.inr h3) (rhs c x) (rhs_range x).1 (rhs_range x).2 ⟨y, by
    rw [← ZMod.intCast_eq_intCast_iff, cast_rhs]
    push_cast
    rw [← he']
    ring⟩
  obtain ⟨hr1, hr2, hr3⟩ := Props.C97_sound _ _ hpos _ hs
  have hr : (r : ZMod c.p) * r = y * y := by
    have := (ZMod.intCast_eq_intCast_iff _ _ _).2 hr1
    rw [cast_rhs, ← he'] at this
    push_cast at this
    rw [this]; ring
  have hodd : (c.p : Int) % 2 = 1 := by omega
  rw [decompressFromCurve, hs]
  have hm : Int.fmod r 2 = r % 2 := Int.fmod_eq_emod_of_nonneg _ (by norm_num)
  simp only [hm]
  have hcases : r = y ∨ (r ≠ 0 ∧ r = c.p - y) := by
    rcases mul_self_eq_mul_self_iff.1 hr with h | h
    · left
      have := (ZMod.intCast_eq_intCast_iff' _ _ _).1 h
      rwa [Int.emod_eq_of_lt hr2 hr3, Int.emod_eq_of_lt h0 h1] at this
    · have h' : ((r + y : Int) : ZMod c.p) = 0 := by push_cast; rw [h]; ring
      rw [ZMod.intCast_zmod_eq_zero_iff_dvd] at h'
      obtain ⟨k, hk⟩ := h'
      by_cases hz : r = 0 ∧ y = 0
      · left; rw [hz.1, hz.2]
      · right
        have hk1 : k = 1 := by
          have h4 : 0 < r + y := by omega
          have h5 : r + y < 2 * c.p := by omega
          rw [hk] at h4 h5
          have hpp : (0 : Int) < c.p := by exact_mod_cast hpos
          have h6 : 0 < k := by
            by_contra hh
            nlinarith
          have h7 : k < 2 := by
            by_contra hh
            nlinarith
          omega
        rw [hk1] at hk
        omega
  rcases hcases with rfl | ⟨hr0, rfl⟩
  · rw [if_neg]
    rw [not_not]
    split <;> omega
  · rw [if_pos]
    · congr 2
      have : (c.p : Int) - (c.p - y) = y := by ring
      rw [this, Int.fmod_eq_emod_of_nonneg _ (by omega), Int.emod_eq_of_lt h0 h1]
    · split <;> omega

/-! ## Decoding bytes -/

theorem decode_compressed (hl : expectedByteLen c = 32) (h3 : c.p % 4 = 3) {P : Pt} {ba : Bytes} (h : IsCompressed P ba)
    (h0 : 0 ≤ P.y) (h1 : P.y < c.p) (he : (c.p : ℤ) ∣ P.y ^ 2 - (P.x ^ 3 + c.a * P.x + c.b)) :
    decodeBytes c ba = .ok P := by
  obtain ⟨xb, rfl, hx, hpx⟩ := h
  have hX : ((leToNat (xb.reverse ++ [0]) : Nat) : Int) = P.x := by rw [leToNat_snoc_zero, ← beNumber_le, hpx]
  have key := decompress_complete h3 h0 h1 he
  rw [decodeBytes]
  by_cases hy : P.y % 2 = 0
  · rw [if_pos hy, if_neg (by decide), if_pos (by decide), if_neg (by rw [List.length_cons, hx, hl]; decide)]
    simp only [hX]
    rw [hy] at key
    exact key
  · rw [if_neg hy, if_neg (by decide), if_pos (by decide), if_neg (by rw [List.length_cons, hx, hl]; decide)]
    simp only [hX]
    rw [show P.y % 2 = 1 by omega] at key
    exact key

omit hp in
theorem decode_uncompressed (hl : expectedByteLen c = 32) {P : Pt} {ba : Bytes} (h : IsUncompressed P ba) :
    decodeBytes c ba = .ok P := by
  obtain ⟨xb, yb, rfl, hx, hy, hpx, hpy⟩ := h
  rw [decodeBytes, if_neg (by decide), if_neg (by decide), if_pos (by decide), if_neg (by
    rw [List.length_cons, List.length_append, hx, hy, hl]; decide)]
  rw [hl]
  simp only
  rw [List.take_left' hx, List.drop_left' hx, leToNat_snoc_zero, leToNat_snoc_zero, ← beNumber_le, ← beNumber_le, ← hpx, ← hpy]

theorem decode_inv (hl : expectedByteLen c = 32) (h2 : c.p ≠ 2) {P : Pt} {ba : Bytes} (h : decodeBytes c ba = .ok P) :
    (ba.head? = some 0 ∧ P = zero) ∨
    (((c.p : ℤ) ∣ P.y ^ 2 - (P.x ^ 3 + c.a * P.x + c.b) ∧ 0 ≤ P.y ∧ P.y < c.p) ∧ (P.y ≠ 0 → IsCompressed P ba)) ∨
    IsUncompressed P ba := by
  cases ba with
  | nil => rw [decodeBytes] at h; cases h
  | cons f rest =>
    rw [decodeBytes] at h
    by_cases hf0 : f = 0
    · rw [if_pos hf0] at h
      cases h
      exact Or.inl ⟨by rw [hf0]; rfl, rfl⟩
    rw [if_neg hf0] at h
    by_cases hf2 : f = 2 ∨ f = 3
    · rw [if_pos hf2] at h
      by_cases hlen : (f :: rest).length ≠ expectedByteLen c + 1
      · rw [if_pos hlen] at h; cases h
      rw [if_neg hlen, not_not] at *
      simp only [leToNat_snoc_zero, ← beNumber_le] at h
      obtain ⟨s1, s2, s3, s4, s5⟩ := decompress_sound h
      refine Or.inr (Or.inl ⟨⟨s2, s3, s4⟩, fun hy0 => ⟨rest, ?_, ?_, s1⟩⟩)
      · congr 1
        rcases hf2 with rfl | rfl
        · have := (s5 h2 (Or.inl rfl)).resolve_right hy0
          rw [if_pos (by rw [this]; rfl)]
        · have := (s5 h2 (Or.inr rfl)).resolve_right hy0
          rw [if_neg (by rw [this]; decide)]
      · rw [hl, List.length_cons] at hlen
        omega
    rw [if_neg hf2] at h
    by_cases hf4 : f = 4
    · rw [if_pos hf4] at h
      by_cases hlen : (f :: rest).length ≠ 2 * expectedByteLen c + 1
      · rw [if_pos hlen] at h; cases h
      rw [if_neg hlen, not_not] at *
      rw [hl] at h hlen
      simp only [leToNat_snoc_zero, ← beNumber_le] at h
      cases h
      rw [List.length_cons] at hlen
      refine Or.inr (Or.inr ⟨rest.take 32, rest.drop 32, ?_, ?_, ?_, rfl, rfl⟩)
      · rw [List.take_append_drop, hf4]
      · rw [List.length_take]; omega
      · rw [List.length_drop]; omega
    rw [if_neg hf4] at h
    split at h <;> cases h

/-! ## Encoding -/

omit hp in
theorem intToBytes_beNumber {v : Int} (h0 : 0 ≤ v) (h1 : v < 2 ^ 256) :
    ∃ b : Bytes, intToBytes v 32 .little false = .ok b ∧ b.length = 32 ∧ v = beNumber b.reverse := by
  have hp256 : (256 : Int) ^ 32 = 2 ^ 256 := by norm_num
  refine ⟨natToLE 32 v.toNat, ?_, natToLE_length _ _, ?_⟩
  · rw [intToBytes, if_neg (by decide), if_neg (by omega), if_pos (by rw [hp256]; exact h1)]
    rfl
  · rw [beNumber_le, List.reverse_reverse, leToNat_natToLE_of_lt, Int.toNat_of_nonneg h0]
    have : (256 : Nat) ^ 32 = 2 ^ 256 := by norm_num
    rw [this]
    have h2 : ((v.toNat : Nat) : Int) < ((2 ^ 256 : Nat) : Int) := by
      rw [Int.toNat_of_nonneg h0]
      refine lt_of_lt_of_eq h1 ?_
      norm_num
    exact_mod_cast h2

omit hp in
/-- The encoding of a finite point with 256-bit coordinates is the hex text of its SEC 1 encoding. -/
theorem encodePoint_spec {P : Pt} (hi : isInfinity c P = false) (hx0 : 0 ≤ P.x) (hx1 : P.x < 2 ^ 256) (hy0 : 0 ≤ P.y)
    (hy1 : P.y < 2 ^ 256) (compressed : Bool) :
    ∃ ba, encodePoint c P compressed = .ok (hexlify ba) ∧ (if compressed then IsCompressed P ba else IsUncompressed P ba) := by
  obtain ⟨xb, hxb, hxl, hxn⟩ := intToBytes_beNumber hx0 hx1
  obtain ⟨yb, hyb, hyl, hyn⟩ := intToBytes_beNumber hy0 hy1
  cases compressed with
  | true =>
    refine ⟨(if P.y % 2 = 0 then 2 else 3) :: xb.reverse, ?_, ?_⟩
    · rw [encodePoint, hi, hxb]
      simp
    · rw [if_pos rfl]
      exact ⟨_, rfl, by rw [List.length_reverse, hxl], hxn⟩
  | false =>
    refine ⟨4 :: (xb.reverse ++ yb.reverse), ?_, ?_⟩
    · rw [encodePoint, hi, hxb, hyb]
      simp
    · rw [if_neg (by decide)]
      exact ⟨_, _, rfl, by rw [List.length_reverse, hxl], by rw [List.length_reverse, hyl], hxn, hyn⟩

theorem isInfinity_of_onCurve (h : Proper c) {P : Pt} (ho : OnCurve c P) (h0 : P ≠ zero) : isInfinity c P = false := by
  obtain ⟨A, hA⟩ := exists_denotes h ho
  rw [Bool.eq_false_iff, ne_eq, isInfinity, ← same_iff, denotes_same h hA denotes_zero]
  rintro rfl
  exact h0 hA

end Neo.EC
