import Verif.Model.Primitives
import Mathlib.Tactic.SplitIfs
import Mathlib.Data.List.GetD

/-! AES decryption inverts encryption; the concrete primitives form a `Neo.Prims`. -/

namespace Neo.Aes
open Py

private theorem all_u8 {p : UInt8 → Prop} (h : ∀ i : Fin 256, p (UInt8.ofNat i.val)) (x : UInt8) : p x := by
  have := h ⟨x.toNat, x.toNat_lt⟩
  simpa using this

theorem invSbox_sbox (x : UInt8) : invSbox (sbox x) = x := by
  refine all_u8 (p := fun x => invSbox (sbox x) = x) ?_ x
  decide +kernel

private theorem msb (x : UInt8) : decide (x.toNat < 128) = !x.toNat.testBit 7 := by
  refine all_u8 (p := fun x => decide (x.toNat < 128) = !x.toNat.testBit 7) ?_ x
  decide +kernel

private theorem xtime_eq (x : UInt8) : xtime x = (x <<< 1) ^^^ (if x.toNat.testBit 7 then 0x1b else 0) := by
  unfold xtime
  have h := msb x
  cases hb : x.toNat.testBit 7 <;> rw [hb] at h <;> simp at h
  · rw [if_pos h]; simp
  · rw [if_neg (by omega)]; simp

theorem xtime_xor (x y : UInt8) : xtime (x ^^^ y) = xtime x ^^^ xtime y := by
  rw [xtime_eq, xtime_eq, xtime_eq, UInt8.toNat_xor, Nat.testBit_xor]
  have h : (x ^^^ y) <<< 1 = (x <<< 1) ^^^ (y <<< 1) := by
    apply UInt8.toBitVec_inj.1
    ext i hi
    simp
    cases i <;> simp
  rw [h]
  cases x.toNat.testBit 7 <;> cases y.toNat.testBit 7
  · simp
  · simp; ac_rfl
  · simp; ac_rfl
  · have e : ∀ a b c : UInt8, a ^^^ c ^^^ (b ^^^ c) = a ^^^ b := by
      intro a b c
      rw [UInt8.xor_assoc, UInt8.xor_comm b c, ← UInt8.xor_assoc c c b, UInt8.xor_self, UInt8.zero_xor]
    simp [e]

theorem mul_xor (x y : UInt8) : mul9 (x ^^^ y) = mul9 x ^^^ mul9 y ∧ mulB (x ^^^ y) = mulB x ^^^ mulB y ∧
    mulD (x ^^^ y) = mulD x ^^^ mulD y ∧ mulE (x ^^^ y) = mulE x ^^^ mulE y := by
  refine ⟨?_, ?_, ?_, ?_⟩ <;> simp only [mul9, mulB, mulD, mulE, xtime_xor] <;> ac_rfl

/-- The sixteen products of coefficients of `InvMixColumns` and `MixColumns`, summed by column distance. -/
private theorem coeffs (x : UInt8) :
    mulE (xtime x) ^^^ mulB x ^^^ mulD x ^^^ mul9 (xtime x ^^^ x) = x ∧
    mulE (xtime x ^^^ x) ^^^ mulB (xtime x) ^^^ mulD x ^^^ mul9 x = 0 ∧
    mulE x ^^^ mulB (xtime x ^^^ x) ^^^ mulD (xtime x) ^^^ mul9 x = 0 ∧
    mulE x ^^^ mulB x ^^^ mulD (xtime x ^^^ x) ^^^ mul9 (xtime x) = 0 := by
  refine all_u8 (p := fun x =>
    mulE (xtime x) ^^^ mulB x ^^^ mulD x ^^^ mul9 (xtime x ^^^ x) = x ∧
    mulE (xtime x ^^^ x) ^^^ mulB (xtime x) ^^^ mulD x ^^^ mul9 x = 0 ∧
    mulE x ^^^ mulB (xtime x ^^^ x) ^^^ mulD (xtime x) ^^^ mul9 x = 0 ∧
    mulE x ^^^ mulB x ^^^ mulD (xtime x ^^^ x) ^^^ mul9 (xtime x) = 0) ?_ x
  decide +kernel

theorem invMix_mix (a b c d : UInt8) :
    invMixByte (mixByte a b c d) (mixByte b c d a) (mixByte c d a b) (mixByte d a b c) = a := by
  have ha := (coeffs a).1
  have hb := (coeffs b).2.1
  have hc := (coeffs c).2.2.1
  have hd := (coeffs d).2.2.2
  have h : invMixByte (mixByte a b c d) (mixByte b c d a) (mixByte c d a b) (mixByte d a b c) =
      (mulE (xtime a) ^^^ mulB a ^^^ mulD a ^^^ mul9 (xtime a ^^^ a)) ^^^
      (mulE (xtime b ^^^ b) ^^^ mulB (xtime b) ^^^ mulD b ^^^ mul9 b) ^^^
      (mulE c ^^^ mulB (xtime c ^^^ c) ^^^ mulD (xtime c) ^^^ mul9 c) ^^^
      (mulE d ^^^ mulB d ^^^ mulD (xtime d ^^^ d) ^^^ mul9 (xtime d)) := by
    simp only [invMixByte, mixByte, (mul_xor _ _).1, (mul_xor _ _).2.1, (mul_xor _ _).2.2.1, (mul_xor _ _).2.2.2]
    ac_rfl
  rw [h, ha, hb, hc, hd]
  simp

theorem invMixColumns_mixColumns : ∀ x : Bytes, invMixColumns (mixColumns x) = x
  | [] => rfl
  | [_] => rfl
  | [_, _] => rfl
  | [_, _, _] => rfl
  | a :: b :: c :: d :: rest => by
    rw [mixColumns, invMixColumns, invMix_mix, invMix_mix, invMix_mix, invMix_mix, invMixColumns_mixColumns rest]

theorem mixColumns_length : ∀ x : Bytes, (mixColumns x).length = x.length
  | [] => rfl
  | [_] => rfl
  | [_, _] => rfl
  | [_, _, _] => rfl
  | a :: b :: c :: d :: rest => by simp [mixColumns, mixColumns_length rest]

theorem invMixColumns_length : ∀ x : Bytes, (invMixColumns x).length = x.length
  | [] => rfl
  | [_] => rfl
  | [_, _] => rfl
  | [_, _, _] => rfl
  | a :: b :: c :: d :: rest => by simp [invMixColumns, invMixColumns_length rest]

theorem shiftRows_length (x : Bytes) : (shiftRows x).length = x.length := by
  unfold shiftRows; split <;> rfl

theorem invShiftRows_length (x : Bytes) : (invShiftRows x).length = x.length := by
  unfold invShiftRows; split <;> rfl

theorem invShiftRows_shiftRows (x : Bytes) (h : x.length = 16) : invShiftRows (shiftRows x) = x := by
  match x, h with
  | [a0, a1, a2, a3, b0, b1, b2, b3, c0, c1, c2, c3, d0, d1, d2, d3], _ => rfl

theorem addRoundKey_twice (k x : Bytes) (h : k.length = x.length) : addRoundKey k (addRoundKey k x) = x := by
  induction k generalizing x with
  | nil => cases x with
    | nil => rfl
    | cons a x => simp at h
  | cons b k ih => cases x with
    | nil => simp at h
    | cons a x =>
      have := ih x (by simpa using h)
      simp only [addRoundKey, List.zipWith_cons_cons] at this ⊢
      rw [this, UInt8.xor_assoc, UInt8.xor_self, UInt8.xor_zero]

theorem addRoundKey_length (k x : Bytes) (h : k.length = x.length) : (addRoundKey k x).length = x.length := by
  simp [addRoundKey, h]

private theorem map_inv (x : Bytes) : (x.map sbox).map invSbox = x := by
  rw [List.map_map]
  conv => rhs; rw [← List.map_id x]
  congr 1
  funext y; exact invSbox_sbox y

theorem encRounds_length : ∀ (ks : List Bytes) (x : Bytes), (∀ k ∈ ks, k.length = 16) → x.length = 16 → (encRounds ks x).length = 16
  | [], x, _, hx => hx
  | [k], x, hk, hx => by
    rw [encRounds, addRoundKey_length, shiftRows_length, List.length_map, hx]
    rw [shiftRows_length, List.length_map, hx]; exact hk k (by simp)
  | k :: k' :: ks, x, hk, hx => by
    rw [encRounds]
    refine encRounds_length (k' :: ks) _ (fun q hq => hk q (by simp [List.mem_cons.1 hq])) ?_
    have : (mixColumns (shiftRows (x.map sbox))).length = 16 := by
      rw [mixColumns_length, shiftRows_length, List.length_map, hx]
    rw [addRoundKey_length _ _ (by rw [this]; exact hk k (by simp)), this]

theorem decRounds_encRounds : ∀ (ks : List Bytes) (x : Bytes), (∀ k ∈ ks, k.length = 16) → x.length = 16 →
    decRounds ks (encRounds ks x) = x
  | [], x, _, _ => rfl
  | [k], x, hk, hx => by
    have hs : (x.map sbox).length = 16 := by rw [List.length_map, hx]
    rw [encRounds, decRounds, addRoundKey_twice, invShiftRows_shiftRows _ hs, map_inv]
    rw [shiftRows_length, hs]; exact hk k (by simp)
  | k :: k' :: ks, x, hk, hx => by
    have hs : (x.map sbox).length = 16 := by rw [List.length_map, hx]
    have hm : (mixColumns (shiftRows (x.map sbox))).length = 16 := by rw [mixColumns_length, shiftRows_length, hs]
    have hk0 : k.length = (mixColumns (shiftRows (x.map sbox))).length := by rw [hm]; exact hk k (by simp)
    rw [encRounds, decRounds, decRounds_encRounds (k' :: ks) _ (fun q hq => hk q (by simp [List.mem_cons.1 hq]))
      (by rw [addRoundKey_length _ _ hk0, hm]), addRoundKey_twice _ _ hk0, invMixColumns_mixColumns,
      invShiftRows_shiftRows _ hs, map_inv]

theorem decBlock_encBlock (ks : List Bytes) (x : Bytes) (hk : ∀ k ∈ ks, k.length = 16) (hx : x.length = 16) :
    decBlock ks (encBlock ks x) = x := by
  cases ks with
  | nil => rfl
  | cons k ks =>
    have hk0 : k.length = x.length := by rw [hx]; exact hk k (by simp)
    show addRoundKey k (decRounds ks (encRounds ks (addRoundKey k x))) = x
    rw [decRounds_encRounds ks _ (fun q hq => hk q (by simp [hq])) (by rw [addRoundKey_length _ _ hk0, hx]), addRoundKey_twice _ _ hk0]

theorem encBlock_length (ks : List Bytes) (x : Bytes) (hk : ∀ k ∈ ks, k.length = 16) (hx : x.length = 16) :
    (encBlock ks x).length = 16 := by
  cases ks with
  | nil => exact hx
  | cons k ks =>
    have hk0 : k.length = x.length := by rw [hx]; exact hk k (by simp)
    exact encRounds_length ks _ (fun q hq => hk q (by simp [hq])) (by rw [addRoundKey_length _ _ hk0, hx])

theorem decRounds_length : ∀ (ks : List Bytes) (x : Bytes), (∀ k ∈ ks, k.length = 16) → x.length = 16 → (decRounds ks x).length = 16
  | [], x, _, hx => hx
  | [k], x, hk, hx => by
    have hk0 : k.length = x.length := by rw [hx]; exact hk k (by simp)
    rw [decRounds, List.length_map, invShiftRows_length, addRoundKey_length _ _ hk0, hx]
  | k :: k' :: ks, x, hk, hx => by
    have h := decRounds_length (k' :: ks) x (fun q hq => hk q (by simp [List.mem_cons.1 hq])) hx
    have hk0 : k.length = (decRounds (k' :: ks) x).length := by rw [h]; exact hk k (by simp)
    rw [decRounds, List.length_map, invShiftRows_length, invMixColumns_length, addRoundKey_length _ _ hk0, h]

theorem decBlock_length (ks : List Bytes) (x : Bytes) (hk : ∀ k ∈ ks, k.length = 16) (hx : x.length = 16) :
    (decBlock ks x).length = 16 := by
  cases ks with
  | nil => exact hx
  | cons k ks =>
    have h := decRounds_length ks x (fun q hq => hk q (by simp [hq])) hx
    have hk0 : k.length = (decRounds ks x).length := by rw [h]; exact hk k (by simp)
    exact (addRoundKey_length _ _ hk0).trans h

private theorem chunks_length (n : Nat) : ∀ (k : Nat) (b : Bytes), n * k ≤ b.length → ∀ c ∈ Hashes.chunks n k b, c.length = n
  | 0, b, _, c, hc => by simp [Hashes.chunks] at hc
  | k + 1, [], h, c, hc => by simp [Hashes.chunks] at hc
  | k + 1, a :: b, h, c, hc => by
    have hmul : n * (k + 1) = n * k + n := by rw [Nat.mul_add, Nat.mul_one]
    simp only [Hashes.chunks, List.mem_cons] at hc
    rcases hc with rfl | hc
    · rw [List.length_take]; omega
    · exact chunks_length n k _ (by rw [List.length_drop]; omega) c hc

private theorem expand_lengths : ∀ (k i : Nat) (rcon : UInt8) (ws : List Bytes), 8 ≤ ws.length → (∀ w ∈ ws, w.length = 4) →
    (expandFrom k i rcon ws).length = k + ws.length ∧ ∀ w ∈ expandFrom k i rcon ws, w.length = 4
  | 0, _, _, ws, _, hw => by simpa [expandFrom] using hw
  | k + 1, i, rcon, ws, h8, hw => by
    have get : ∀ j, j < 8 → (ws.getD j []).length = 4 := by
      intro j hj
      rw [List.getD_eq_getElem _ _ (by omega)]
      exact hw _ (List.getElem_mem _)
    have h0 := get 0 (by omega)
    have h7 := get 7 (by omega)
    have step : ∀ (i' : Nat) (rcon' : UInt8) (t : Bytes), t.length = 4 →
        (expandFrom k i' rcon' (List.zipWith (· ^^^ ·) (ws.getD 7 []) t :: ws)).length = k + 1 + ws.length ∧
        ∀ w ∈ expandFrom k i' rcon' (List.zipWith (· ^^^ ·) (ws.getD 7 []) t :: ws), w.length = 4 := by
      intro i' rcon' t ht
      have := expand_lengths k i' rcon' (List.zipWith (· ^^^ ·) (ws.getD 7 []) t :: ws) (by simp; omega)
        (by
          intro w hwm
          rcases List.mem_cons.1 hwm with rfl | hwm
          · rw [List.length_zipWith, h7, ht]; rfl
          · exact hw w hwm)
      rw [List.length_cons] at this
      exact ⟨by omega, this.2⟩
    rw [expandFrom]
    simp only
    split_ifs
    · refine step _ _ _ ?_
      generalize ws.getD 0 [] = p at h0
      match p, h0 with
      | [p, q, r, s], _ => rfl
    · exact step _ _ _ (by rw [List.length_map, h0])
    · exact step _ _ _ h0

private theorem chunks_count (n : Nat) (hn : 0 < n) : ∀ (k : Nat) (b : Bytes), n * k ≤ b.length → (Hashes.chunks n k b).length = k
  | 0, b, _ => by simp [Hashes.chunks]
  | k + 1, [], h => by
    have hmul : n * (k + 1) = n * k + n := by rw [Nat.mul_add, Nat.mul_one]
    rw [List.length_nil] at h; omega
  | k + 1, a :: b, h => by
    have hmul : n * (k + 1) = n * k + n := by rw [Nat.mul_add, Nat.mul_one]
    simp only [Hashes.chunks, List.length_cons]
    rw [chunks_count n hn k _ (by rw [List.length_drop]; omega)]

private theorem flatten_length4 : ∀ ws : List Bytes, (∀ w ∈ ws, w.length = 4) → ws.flatten.length = 4 * ws.length
  | [], _ => rfl
  | w :: ws, h => by
    rw [List.flatten_cons, List.length_append, flatten_length4 ws (fun v hv => h v (by simp [hv])), h w (by simp),
      List.length_cons]
    omega

/-- The round keys of a 32-byte key have 16 bytes each, and there are fifteen. -/
theorem roundKeys_lengths (key : Bytes) (h : key.length = 32) : (roundKeys key).length = 15 ∧ ∀ k ∈ roundKeys key, k.length = 16 := by
  have hc : (Hashes.chunks 4 8 key).length = 8 := chunks_count 4 (by omega) 8 key (by omega)
  have hcl := chunks_length 4 8 key (by omega)
  have he := expand_lengths 52 8 1 (Hashes.chunks 4 8 key).reverse (by simp [hc])
    (fun w hw => hcl w (List.mem_reverse.1 hw))
  rw [List.length_reverse, hc] at he
  have hf : (expandFrom 52 8 1 (Hashes.chunks 4 8 key).reverse).reverse.flatten.length = 240 := by
    rw [flatten_length4 _ (fun w hw => he.2 w (List.mem_reverse.1 hw)), List.length_reverse, he.1]
  exact ⟨chunks_count 16 (by omega) 15 _ (by omega), chunks_length 16 15 _ (by omega)⟩

private theorem ecb_length (f : Bytes → Bytes) (hf : ∀ x : Bytes, x.length = 16 → (f x).length = 16) :
    ∀ (n : Nat) (x : Bytes), 16 * n ≤ x.length → (ecb f n x).length = x.length
  | 0, x, _ => rfl
  | n + 1, x, h => by
    rw [ecb, List.length_append, hf _ (by rw [List.length_take]; omega), ecb_length f hf n _ (by rw [List.length_drop]; omega),
      List.length_drop]
    omega

private theorem ecb_inverse (f g : Bytes → Bytes) (hf : ∀ x : Bytes, x.length = 16 → (f x).length = 16)
    (hgf : ∀ x : Bytes, x.length = 16 → g (f x) = x) :
    ∀ (n : Nat) (x : Bytes), 16 * n ≤ x.length → ecb g n (ecb f n x) = x
  | 0, x, _ => rfl
  | n + 1, x, h => by
    have ht : (x.take 16).length = 16 := by rw [List.length_take]; omega
    have hl := hf _ ht
    rw [ecb, ecb, List.take_left' hl, List.drop_left' hl, hgf _ ht,
      ecb_inverse f g hf hgf n _ (by rw [List.length_drop]; omega), List.take_append_drop]

theorem enc_length (key x : Bytes) : (enc key x).length = x.length := by
  unfold enc
  split_ifs with h
  · exact ecb_length _ (fun y hy => encBlock_length _ y (roundKeys_lengths key h).2 hy) _ _ (by omega)
  · rfl

theorem dec_length (key x : Bytes) : (dec key x).length = x.length := by
  unfold dec
  split_ifs with h
  · exact ecb_length _ (fun y hy => decBlock_length _ y (roundKeys_lengths key h).2 hy) _ _ (by omega)
  · rfl

/-- AES-256 in ECB mode: decryption inverts encryption. -/
theorem dec_enc (key x : Bytes) : dec key (enc key x) = x := by
  have hl := enc_length key x
  unfold dec
  split_ifs with h
  · rw [hl]
    unfold enc
    rw [if_pos h]
    exact ecb_inverse _ _ (fun y hy => encBlock_length _ y (roundKeys_lengths key h).2 hy)
      (fun y hy => decBlock_encBlock _ y (roundKeys_lengths key h).2 hy) _ _ (by omega)
  · rw [enc, if_neg h]

end Neo.Aes

namespace Neo.Kdf
open Py Hashes

theorem hmac_length (k m : Bytes) : (hmac k m).length = 32 := sha256_length _

theorem pbkdf2Blocks_length (pw salt : Bytes) : ∀ n i, (pbkdf2Blocks pw salt n i).length = 32 * n
  | 0, _ => rfl
  | n + 1, i => by
    rw [pbkdf2Blocks, List.length_append, hmac_length, pbkdf2Blocks_length pw salt n]; omega

theorem scrypt_length (n r p : Nat) (pw salt : Bytes) (len : Nat) : (scrypt n r p pw salt len).length = len := by
  simp only [scrypt, pbkdf2]
  rw [List.length_take, pbkdf2Blocks_length]
  omega

end Neo.Kdf

namespace Neo
open Py

/-- The primitives as they are: SHA-256, RIPEMD-160, scrypt, AES-256. -/
def realPrims : Prims where
  sha256 := Hashes.sha256
  ripemd160 := Hashes.ripemd160
  scrypt := Kdf.scrypt
  aesEnc := Aes.enc
  aesDec := Aes.dec
  sha256_length := Hashes.sha256_length
  ripemd160_length := Hashes.ripemd160_length
  scrypt_length := Kdf.scrypt_length
  aesEnc_length := Aes.enc_length
  aesDec_length := Aes.dec_length
  aes_inverse := fun k x _ _ => Aes.dec_enc k x

end Neo
