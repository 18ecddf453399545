import Verif.Props.PublicKey

/-! More about C65 and C78: when a square root is found, and exactly what a truncated public key in a stream decodes to. -/

namespace Neo.Props
open Py Neo.EC Spec Spec.EC

/-- C65, as far as it goes: modulo a prime `square_root` finds a root exactly when the prime is 2 or 3 mod 4, the number is
reduced, and a root exists.  Missing (and false, `C65_incomplete_violated`): primes that are 1 mod 4, numbers not reduced. -/
theorem C65_found_iff_partial (p : Nat) (hprime : p.Prime) (v : Int) :
    (∃ r, sqrtCQ v p = some r) ↔ (p = 2 ∨ p % 4 = 3) ∧ 0 ≤ v ∧ v < p ∧ ∃ w : Int, w * w ≡ v [ZMOD p] := by
  constructor
  · rintro ⟨r, hr⟩
    refine ⟨?_, ?_, ?_, r, (C97_sound v p hprime.pos r hr).1⟩
    · by_contra hc
      rw [C65_incomplete_violated.1 p v (by have := hprime.eq_two_or_odd; omega)] at hr
      cases hr
    · by_contra hc
      rw [C65_incomplete_violated.2 p v hprime.pos (by omega)] at hr
      cases hr
    · by_contra hc
      rw [C65_incomplete_violated.2 p v hprime.pos (by omega)] at hr
      cases hr
  · rintro ⟨h1, h2, h3, h4⟩
    exact C65_complete_partial p hprime h1 v h2 h3 h4

example : ∃ r, sqrtCQ 2 7 = some r := (C65_found_iff_partial 7 (by decide) 2).2 ⟨by decide, by decide, by decide, 3, by decide⟩
example : ¬ ∃ r, sqrtCQ 9 7 = some r := fun h => absurd ((C65_found_iff_partial 7 (by decide) 9).1 h).2.2.1 (by decide)

private theorem decompress_iff (xb : Bytes) (f : Nat) (P : Pt) :
    decompressFromCurve secp256r1Curve (leToNat (xb.reverse ++ [0]) : Nat) ((f : Int) % 2) = .ok P ↔
      P.x = beNumber xb ∧ OnCurve secp256r1Curve P ∧ P ≠ zero ∧ 0 ≤ P.y ∧ P.y < secp256r1Curve.p ∧ P.y % 2 = f % 2 := by
  have := Fact.mk p256_prime
  have hX : ((leToNat (xb.reverse ++ [0]) : Nat) : Int) = beNumber xb := by rw [leToNat_snoc_zero, ← beNumber_le]
  rw [hX]
  constructor
  · intro h
    obtain ⟨h1, h2, h3, h4, h5⟩ := decompress_sound h
    have hy : P.y ≠ 0 := by
      intro hy
      rw [hy, zero_pow (by norm_num), zero_sub, Int.dvd_neg] at h2
      exact P256.no_two_torsion P.x h2
    refine ⟨h1, Or.inr h2, ?_, h3, h4, (h5 (by decide +kernel) (by omega)).resolve_right hy⟩
    rintro rfl
    exact hy rfl
  · rintro ⟨h1, h2, h3, h4, h5, h6⟩
    have := decompress_complete (c := secp256r1Curve) (by decide +kernel) h4 h5 (h2.resolve_left h3)
    rw [h6, h1] at this
    rw [this, ← h1]

/-- C78, exactly: what `Deserialize_Secp256r1` makes of a first byte and whatever bytes are left in the stream.  After 02 or 03
it takes up to 32 bytes, however few there are, as a big-endian x, and the key is accepted if and only if some point of the
curve has that x: a truncated key is refused only when its shortened x happens not to be on the curve.  After 00 it is Infinity
whatever follows, and any other first byte raises.  Missing (and false, `C78_truncated_violated`): that truncated keys raise. -/
theorem C78_stream_iff_partial (pre : Bytes) (f : UInt8) (rest : Bytes) :
    (f = 0 → deserializeSecp256r1 ⟨pre ++ f :: rest, pre.length⟩ = (.ok zero, ⟨pre ++ f :: rest, pre.length + 1⟩)) ∧
    (f = 2 ∨ f = 3 →
      (∀ P, (deserializeSecp256r1 ⟨pre ++ f :: rest, pre.length⟩).1 = .ok P ↔
        P.x = beNumber (rest.take 32) ∧ OnCurve secp256r1Curve P ∧ P ≠ zero ∧ 0 ≤ P.y ∧ P.y < secp256r1Curve.p ∧
          P.y % 2 = f.toNat % 2) ∧
      (deserializeSecp256r1 ⟨pre ++ f :: rest, pre.length⟩).2 =
        ⟨pre ++ f :: rest, pre.length + 1 + (rest.take 32).length⟩) ∧
    (f = 4 ∨ f = 6 ∨ f = 7 → (deserializeSecp256r1 ⟨pre ++ f :: rest, pre.length⟩).1 = .error .notImplemented) ∧
    (f ∉ [0, 2, 3, 4, 6, 7] → (deserializeSecp256r1 ⟨pre ++ f :: rest, pre.length⟩).1 = .error .exc) := by
  have hb : Reader.readByte ⟨pre ++ f :: rest, pre.length⟩ = (.ok (f.toNat : Int), ⟨pre ++ f :: rest, pre.length + 1⟩) := by
    simpa using yields_readByte f pre rest
  have hn : ∀ n : Nat, n < 256 → ((f.toNat : Int) = n ↔ f = UInt8.ofNat n) := by
    intro n hn
    constructor
    · intro h
      have h' : f.toNat = n := by exact_mod_cast h
      rw [← h']
      simp
    · rintro rfl
      simp only [UInt8.toNat_ofNat']
      rw [Nat.mod_eq_of_lt hn]
  have n0 := hn 0 (by decide)
  have n2 := hn 2 (by decide)
  have n3 := hn 3 (by decide)
  have n4 := hn 4 (by decide)
  have n6 := hn 6 (by decide)
  have n7 := hn 7 (by decide)
  norm_num at n0 n2 n3 n4 n6 n7
  rw [deserializeSecp256r1, decodeFromReader, IOM.bind_ok hb]
  refine ⟨?_, ?_, ?_, ?_⟩
  · rintro rfl
    rfl
  · intro hf
    rw [if_neg (by rcases hf with rfl | rfl <;> decide), if_pos (by rcases hf with rfl | rfl <;> decide)]
    have hr := read_nat_apply 32 ⟨pre ++ f :: rest, pre.length + 1⟩ (by decide)
    have hd : (pre ++ f :: rest).drop (pre.length + 1) = rest := by
      rw [show pre ++ f :: rest = (pre ++ [f]) ++ rest by simp, List.drop_left' (by simp)]
    simp only [hd] at hr
    have hr' : Reader.readBytes 32 ⟨pre ++ f :: rest, pre.length + 1⟩ = _ := hr
    rw [IOM.bind_ok hr', IOM.lift_apply]
    exact ⟨fun P => decompress_iff _ _ P, rfl⟩
  · intro hf
    rcases hf with rfl | rfl | rfl <;> rfl
  · intro hf
    simp only [List.mem_cons, List.not_mem_nil, or_false, not_or] at hf
    rw [if_neg (fun h => hf.1 (n0.1 (by exact_mod_cast h))), if_neg (by rw [n2, n3]; tauto), if_neg (by rw [n4, n6, n7]; tauto)]
    rfl

-- a key cut off after 02 and one byte of x: 05 is the x of a point, so it is accepted
example : ∃ P, (deserializeSecp256r1 ⟨[2, 5], 0⟩).1 = .ok P := by
  refine ⟨⟨5, 31468013646237722594854082025316614106172411895747863909393730389177298123724⟩, ?_⟩
  refine ((C78_stream_iff_partial [] 2 [5]).2.1 (Or.inl rfl)).1 _ |>.2 ⟨rfl, Or.inr (by decide +kernel), by decide +kernel, by decide +kernel,
    by decide +kernel, by decide +kernel⟩

end Neo.Props
