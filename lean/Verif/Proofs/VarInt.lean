import Verif.Proofs.IO

/-! Lemmas about the variable-length integer format and the formats built on it. -/

namespace Neo
open Py Spec Writer Reader

/-- The bytes `WriteVarInt` produces for `n < 2^64` in byte order `e`. -/
def varIntBytes (e : Endian) (n : Nat) : Bytes :=
  if n < 0xfd then [UInt8.ofNat n]
  else if n ≤ 0xffff then 0xfd :: e.arrange (natToLE 2 n)
  else if n ≤ 0xffffffff then 0xfe :: e.arrange (natToLE 4 n)
  else 0xff :: e.arrange (natToLE 8 n)

/-- Return value of `WriteVarInt`. -/
def varIntRet (n : Nat) : Option Nat :=
  if n < 0xfd then none else if n ≤ 0xffff then some 2 else if n ≤ 0xffffffff then some 4 else some 8

theorem appends_u (c : Char) (w : Nat) (hc : fmtOfChar c = some (.intFmt false w)) (v : Val) (n : Nat)
    (hv : v.index? = some (n : Int)) (e : Endian) (h : n < 256 ^ w) :
    Appends (packInt c e v) w (e.arrange (natToLE w n)) := by
  have hc' := cast_pow256 w
  have hr : inRange false w n := by simp only [inRange, Bool.false_eq_true, if_false]; omega
  have := appends_int hc hv e hr
  rwa [Int.emod_eq_of_lt (by omega) (by omega), Int.toNat_natCast] at this

theorem yields_u (c : Char) (w : Nat) (hc : fmtOfChar c = some (.intFmt false w)) (hw : w ≤ 8) (n : Nat)
    (e : Endian) (h : n < 256 ^ w) : Yields (unpackInt c e w) (e.arrange (natToLE w n)) n := by
  have hc' := cast_pow256 w
  have hr : inRange false w n := by simp only [inRange, Bool.false_eq_true, if_false]; omega
  have := yields_int hc hw e hr
  rwa [Int.emod_eq_of_lt (by omega) (by omega), Int.toNat_natCast] at this

theorem appends_writeVarInt (e : Endian) (n : Nat) (h : n < 2 ^ 64) :
    Appends (writeVarInt (.int n) e) (varIntRet n) (varIntBytes e n) := by
  have hi : (Val.int (n : Int)).index? = some (n : Int) := rfl
  unfold varIntRet varIntBytes
  simp only [writeVarInt, hi]
  rw [if_neg (by omega)]
  by_cases h1 : n < 0xfd
  · rw [if_pos (by omega), if_pos h1, if_pos h1]
    have := appends_bind (f := fun _ => (pure none : IOM (Option Nat))) (appends_writeByte_int n (by omega)) (appends_pure none)
    simpa using this
  · rw [if_neg (by omega), if_neg h1, if_neg h1]
    by_cases h2 : n ≤ 0xffff
    · rw [if_pos (by omega), if_pos h2, if_pos h2]
      have := appends_bind (f := fun _ => do let k ← writeUInt16 (.int n) e; return some k)
        (appends_writeByte_int 0xfd (by omega))
        (appends_bind (appends_u 'H' 2 rfl _ n hi e (by omega)) (appends_pure (some 2)))
      simpa [writeUInt16] using this
    · rw [if_neg (by omega), if_neg h2, if_neg h2]
      by_cases h3 : n ≤ 0xffffffff
      · rw [if_pos (by omega), if_pos h3, if_pos h3]
        have := appends_bind (f := fun _ => do let k ← writeUInt32 (.int n) e; return some k)
          (appends_writeByte_int 0xfe (by omega))
          (appends_bind (appends_u 'I' 4 rfl _ n hi e (by omega)) (appends_pure (some 4)))
        simpa [writeUInt32] using this
      · rw [if_neg (by omega), if_neg h3, if_neg h3]
        have := appends_bind (f := fun _ => do let k ← writeUInt64 (.int n) e; return some k)
          (appends_writeByte_int 0xff (by omega))
          (appends_bind (appends_u 'Q' 8 rfl _ n hi e (by omega)) (appends_pure (some 8)))
        simpa [writeUInt64] using this

theorem yields_check (n max : Int) (h : n ≤ max) : Yields (checkMax max n) [] n := by
  unfold checkMax; rw [if_neg (by omega)]; exact yields_pure n

theorem yields_readVarInt_cons (m : UInt8) (bs : Bytes) (n max : Int) (hm : n ≤ max) (h0 : (m.toNat : Int) ≠ 0)
    (hrd : Yields (readVarIntValue m.toNat) bs n) : Yields (readVarInt max) (m :: bs) n := by
  have := yields_bind (f := fun fb : Int => if fb = 0 then (pure fb : IOM Int) else readVarIntValue fb >>= checkMax max)
    (yields_readByte m) (v' := n) (b' := bs) (by
      rw [if_neg h0]
      have := yields_bind hrd (yields_check _ _ hm)
      simpa using this)
  simpa [readVarInt] using this

theorem yields_readVarInt_zero (max : Int) : Yields (readVarInt max) [0] 0 := by
  have := yields_bind (f := fun fb : Int => if fb = 0 then (pure fb : IOM Int) else readVarIntValue fb >>= checkMax max)
    (yields_readByte 0) (v' := 0) (b' := []) (by
      rw [if_pos (by rfl)]; exact yields_pure _)
  simpa [readVarInt] using this

theorem yields_readVarInt (n : Nat) (h : n < 2 ^ 64) (max : Int) (hm : (n : Int) ≤ max) :
    Yields (readVarInt max) (varIntBytes .little n) n := by
  unfold varIntBytes
  by_cases h1 : n < 0xfd
  · rw [if_pos h1]
    have hb : (UInt8.ofNat n).toNat = n := by simp; omega
    by_cases h0 : n = 0
    · subst h0; exact yields_readVarInt_zero max
    · apply yields_readVarInt_cons _ _ _ _ hm (by omega)
      unfold readVarIntValue
      rw [hb, if_neg (by omega), if_neg (by omega), if_neg (by omega)]
      exact yields_pure _
  · rw [if_neg h1]
    by_cases h2 : n ≤ 0xffff
    · rw [if_pos h2]
      exact yields_readVarInt_cons _ _ _ _ hm (by decide) (yields_u 'H' 2 rfl (by omega) n .little (by omega))
    · rw [if_neg h2]
      by_cases h3 : n ≤ 0xffffffff
      · rw [if_pos h3]
        exact yields_readVarInt_cons _ _ _ _ hm (by decide) (yields_u 'I' 4 rfl (by omega) n .little (by omega))
      · rw [if_neg h3]
        exact yields_readVarInt_cons _ _ _ _ hm (by decide) (yields_u 'Q' 8 rfl (by omega) n .little (by omega))

theorem varIntBytes_length (e : Endian) (n : Nat) : (varIntBytes e n).length =
    if n < 0xfd then 1 else if n ≤ 0xffff then 3 else if n ≤ 0xffffffff then 5 else 9 := by
  unfold varIntBytes
  split
  · rfl
  · split
    · simp [natToLE_length]
    · split <;> simp [natToLE_length]

end Neo
