import Verif.Py.Core

/-! Lemmas about byte strings, base-256 digits and hexadecimal text. -/

namespace Py

theorem natToLE_length (k n : Nat) : (natToLE k n).length = k := by
  induction k generalizing n with
  | zero => rfl
  | succ k ih => simp [natToLE, ih]

theorem leToNat_lt (bs : Bytes) : leToNat bs < 256 ^ bs.length := by
  induction bs with
  | nil => simp [leToNat]
  | cons b bs ih =>
    have hb := b.toNat_lt
    simp only [leToNat, List.length_cons, Nat.pow_succ]
    omega

theorem leToNat_natToLE (k n : Nat) : leToNat (natToLE k n) = n % 256 ^ k := by
  induction k generalizing n with
  | zero => simp [natToLE, leToNat, Nat.mod_one]
  | succ k ih =>
    simp only [natToLE, leToNat, ih, UInt8.toNat_ofNat']
    rw [show 256 ^ (k + 1) = 256 * 256 ^ k from by rw [Nat.pow_succ, Nat.mul_comm], Nat.mod_mul]
    simp

theorem leToNat_natToLE_of_lt {k n : Nat} (h : n < 256 ^ k) : leToNat (natToLE k n) = n := by
  rw [leToNat_natToLE, Nat.mod_eq_of_lt h]

theorem natToLE_leToNat (bs : Bytes) : natToLE bs.length (leToNat bs) = bs := by
  induction bs with
  | nil => rfl
  | cons b bs ih =>
    have hb := b.toNat_lt
    have h1 : (b.toNat + 256 * leToNat bs) % 256 = b.toNat := by omega
    have h2 : (b.toNat + 256 * leToNat bs) / 256 = leToNat bs := by omega
    simp only [List.length_cons, natToLE, leToNat, h1, h2, ih]
    simp

theorem leToNat_inj {a b : Bytes} (hl : a.length = b.length) (h : leToNat a = leToNat b) : a = b := by
  rw [← natToLE_leToNat a, ← natToLE_leToNat b, hl, h]

theorem leToNat_append (a b : Bytes) : leToNat (a ++ b) = leToNat a + 256 ^ a.length * leToNat b := by
  induction a with
  | nil => simp [leToNat]
  | cons x a ih =>
    simp only [List.cons_append, leToNat, ih, List.length_cons, Nat.pow_succ]
    grind

theorem leToNat_replicate_zero (k : Nat) : leToNat (List.replicate k 0) = 0 := by
  induction k with
  | zero => rfl
  | succ k ih => simp [List.replicate_succ, leToNat, ih]

@[simp] theorem Endian.arrange_length (e : Endian) (bs : Bytes) : (e.arrange bs).length = bs.length := by
  cases e <;> simp [Endian.arrange]

@[simp] theorem Endian.arrange_arrange (e : Endian) (bs : Bytes) : e.arrange (e.arrange bs) = bs := by
  cases e <;> simp [Endian.arrange]

theorem intToBytes_length {v : Int} {len : Nat} {e : Endian} {s : Bool} {bs : Bytes}
    (h : intToBytes v len e s = .ok bs) : bs.length = len := by
  unfold intToBytes at h
  split at h <;> split at h
  · simp only [Except.ok.injEq] at h; subst h; simp [natToLE_length]
  · simp at h
  · simp at h
  · split at h
    · simp only [Except.ok.injEq] at h; subst h; simp [natToLE_length]
    · simp at h

theorem pow256_pos (k : Nat) : (0 : Int) < 256 ^ k := Int.pow_pos (by decide)

theorem cast_pow256 (k : Nat) : ((256 ^ k : Nat) : Int) = 256 ^ k := by simp

theorem pow256_even {k : Nat} (hk : 0 < k) : ∃ m : Nat, (256 ^ k : Nat) = 2 * m := by
  obtain ⟨j, rfl⟩ := Nat.exists_eq_succ_of_ne_zero (by omega : k ≠ 0)
  exact ⟨128 * 256 ^ j, by rw [Nat.pow_succ]; omega⟩

theorem intFromBytes_toBytes {v : Int} {len : Nat} {e : Endian} {s : Bool} {bs : Bytes}
    (h : intToBytes v len e s = .ok bs) : intFromBytes bs e s = v := by
  have hl := intToBytes_length h
  have hpos := pow256_pos len
  have hc := cast_pow256 len
  unfold intToBytes at h
  cases s
  · simp only [Bool.false_eq_true, if_false] at h
    split at h
    · simp at h
    · split at h
      · rename_i h0 h1
        simp only [Except.ok.injEq] at h
        subst h
        have hlt : v.toNat < 256 ^ len := by omega
        simp [intFromBytes, leToNat_natToLE_of_lt hlt]
        omega
      · simp at h
  · simp only [if_true] at h
    split at h
    · rename_i h0
      simp only [Except.ok.injEq] at h
      subst h
      have hm0 := Int.emod_nonneg v (Int.ne_of_gt hpos)
      have hm1 := Int.emod_lt_of_pos v hpos
      have hlt : (v % 256 ^ len).toNat < 256 ^ len := by omega
      simp only [intFromBytes, Endian.arrange_arrange, leToNat_natToLE_of_lt hlt, Endian.arrange_length,
        natToLE_length, Bool.true_and, Bool.and_eq_true, decide_eq_true_eq]
      by_cases hlen : len = 0
      · subst hlen; simp at *; omega
      · obtain ⟨m, hm⟩ := pow256_even (Nat.pos_of_ne_zero hlen)
        by_cases hv : 0 ≤ v
        · have : v % 256 ^ len = v := Int.emod_eq_of_lt hv (by omega)
          rw [this]
          rw [if_neg (by omega)]
          omega
        · have : v % 256 ^ len = v + 256 ^ len := by
            rw [← Int.add_emod_right]
            exact Int.emod_eq_of_lt (by omega) (by omega)
          rw [this]
          rw [if_pos (by omega)]
          omega
    · simp at h

/-! ### hex -/

theorem hexVal_hexDigit {n : Nat} (h : n < 16) : hexVal (hexDigit n) = some n := by
  have : ∀ m, m < 16 → hexVal (hexDigit m) = some m := by decide
  exact this n h

theorem hexVal_lt {c : UInt8} {n : Nat} (h : hexVal c = some n) : n < 16 := by
  unfold hexVal at h
  simp only at h
  split at h
  · simp at h; omega
  · split at h
    · simp at h; omega
    · split at h
      · simp at h; omega
      · simp at h

theorem hexlify_length (bs : Bytes) : (hexlify bs).length = 2 * bs.length := by
  induction bs with
  | nil => rfl
  | cons b bs ih => simp [hexlify, ih]; omega

theorem unhexlify_hexlify (bs : Bytes) : unhexlify (hexlify bs) = .ok bs := by
  induction bs with
  | nil => rfl
  | cons b bs ih =>
    have hb := b.toNat_lt
    simp only [hexlify, unhexlify, ih]
    rw [hexVal_hexDigit (by omega), hexVal_hexDigit (by omega)]
    have : 16 * (b.toNat / 16) + b.toNat % 16 = b.toNat := by omega
    simp [this]

theorem hexlify_append (a b : Bytes) : hexlify (a ++ b) = hexlify a ++ hexlify b := by
  induction a with
  | nil => rfl
  | cons x a ih => simp [hexlify, ih]

theorem hexlify_inj {a b : Bytes} (h : hexlify a = hexlify b) : a = b := by
  have := congrArg unhexlify h
  simpa [unhexlify_hexlify] using this

theorem hexDigit_lt {n : Nat} (h : n < 16) : (hexDigit n).toNat < 128 := by
  have : ∀ m, m < 16 → (hexDigit m).toNat < 128 := by decide
  exact this n h

theorem hexlify_ascii (bs : Bytes) : ∀ c ∈ hexlify bs, c.toNat < 128 := by
  induction bs with
  | nil => simp [hexlify]
  | cons b bs ih =>
    have hb := b.toNat_lt
    intro c hc
    simp only [hexlify, List.mem_cons] at hc
    rcases hc with rfl | rfl | hc
    · exact hexDigit_lt (by omega)
    · exact hexDigit_lt (by omega)
    · exact ih c hc

/-- `b` consists of an even number of ASCII hex digits. -/
def hexLike (b : Bytes) : Bool := b.length % 2 == 0 && b.all (fun c => (hexVal c).isSome)

theorem unhexlify_error {b : Bytes} {e : Err} (h : unhexlify b = .error e) : e = .binasciiError := by
  fun_induction unhexlify b with
  | case1 => simp at h
  | case2 => simpa using h.symm
  | case3 => simp at h
  | case4 _ _ _ _ _ _ _ _ heq ih => simp at h; subst h; exact ih heq
  | case5 => simpa using h.symm

theorem unhexlify_ok_iff (b : Bytes) : (∃ r, unhexlify b = .ok r) ↔ hexLike b = true := by
  fun_induction unhexlify b with
  | case1 => simp [hexLike]
  | case2 a => simp [hexLike]
  | case3 a b rest x y hx hy r hr ih =>
    rw [hr] at ih
    simp [hexLike] at ih ⊢
    simp [hx, hy]
    exact ⟨by omega, ih.2⟩
  | case4 a b rest x y hx hy e he ih =>
    rw [he] at ih
    simp [hexLike] at ih ⊢
    intro h1
    simp [hx, hy]
    exact ih (by omega)
  | case5 a b rest h =>
    simp [hexLike]
    intro h1 h2 h3
    exfalso
    obtain ⟨u, hu⟩ := Option.isSome_iff_exists.mp h2
    obtain ⟨w, hw⟩ := Option.isSome_iff_exists.mp h3
    exact h _ _ hu hw

theorem unhexlify_length {b r : Bytes} (h : unhexlify b = .ok r) : b.length = 2 * r.length := by
  fun_induction unhexlify b generalizing r with
  | case1 => simp at h; subst h; rfl
  | case2 => simp at h
  | case3 a b rest x y hx hy r' hr ih =>
    simp at h; subst h
    have := ih hr
    simp; omega
  | case4 => simp at h
  | case5 => simp at h

theorem unhexlify_not_hexLike {b : Bytes} (h : hexLike b = false) : unhexlify b = .error .binasciiError := by
  cases hu : unhexlify b with
  | ok r => have := (unhexlify_ok_iff b).mp ⟨r, hu⟩; simp [h] at this
  | error e => rw [unhexlify_error hu]

theorem unhexlify_hexLike {b : Bytes} (h : hexLike b = true) : ∃ r, unhexlify b = .ok r ∧ b.length = 2 * r.length := by
  obtain ⟨r, hr⟩ := (unhexlify_ok_iff b).mpr h
  exact ⟨r, hr, unhexlify_length hr⟩

/-! ### ASCII text -/

theorem charOfNat_toNat {n : Nat} (h : n < 128) : (Char.ofNat n).toNat = n := by
  have : n.isValidChar := Or.inl (by omega)
  simp [Char.ofNat, this, Char.toNat, Char.ofNatAux]

theorem asciiBytes_asciiStr {bs : Bytes} (h : ∀ c ∈ bs, c.toNat < 128) : asciiBytes? (asciiStr bs) = some bs := by
  unfold asciiBytes? asciiStr
  have h1 : ((bs.map fun b => Char.ofNat b.toNat).all fun c => decide (c.toNat < 128)) = true := by
    simp only [List.all_map, List.all_eq_true, Function.comp, decide_eq_true_eq]
    intro c hc
    rw [charOfNat_toNat (h c hc)]; exact h c hc
  rw [if_pos h1]
  simp only [List.map_map, Option.some.injEq]
  conv => rhs; rw [← List.map_id bs]
  apply List.map_congr_left
  intro c hc
  simp [charOfNat_toNat (h c hc)]

theorem asciiStr_inj {a b : Bytes} (ha : ∀ c ∈ a, c.toNat < 128) (hb : ∀ c ∈ b, c.toNat < 128)
    (h : asciiStr a = asciiStr b) : a = b := by
  have := congrArg asciiBytes? h
  rw [asciiBytes_asciiStr ha, asciiBytes_asciiStr hb] at this
  exact Option.some.inj this

theorem unhexlifyVal_hexStr (bs : Bytes) : unhexlifyVal (.str (asciiStr (hexlify bs))) = .ok bs := by
  simp [unhexlifyVal, asciiBytes_asciiStr (hexlify_ascii bs), unhexlify_hexlify]

end Py
