import Verif.Model.Helper
import Verif.Proofs.Base58
import Verif.Proofs.Utf8
import Verif.Spec.Address
import Verif.Props.UInt

/-!
# C37–C42, C49–C51: Base58, addresses, np-utils conversions, hash helpers

`P : Prims` is an arbitrary choice of the hash functions.
-/

namespace Neo.Props
open Py Spec Base58

/-! ### C37 -/

/-- C37. `b58encode` produces the Base58 text of its argument, and no other text is its Base58 text. -/
theorem C37_encode (b : Bytes) (s : Str) : encode b = s ↔ Spec.Base58.TextOf b s := by
  rw [textOf_iff, decode_eq_iff, eq_comm]

/-- C37. `b58decode` succeeds exactly on the texts over the Base58 alphabet and gives the byte string denoted; on every other
string it raises `ValueError`. -/
theorem C37_decode (s : Str) :
    (∀ b, decode s = .ok b ↔ Spec.Base58.TextOf b s) ∧ ((∃ b, decode s = .ok b) ↔ Spec.Base58.IsText s) ∧
      (¬ Spec.Base58.IsText s → decode s = .error .valueError) := by
  have h : (∃ b, decode s = .ok b) ↔ Spec.Base58.IsText s := by
    rw [decode_ok_iff, Spec.Base58.IsText, alphabet_eq]
  refine ⟨fun b => (textOf_iff b s).symm, h, ?_⟩
  intro hn
  cases hd : decode s with
  | ok b => exact absurd (h.mp ⟨b, hd⟩) hn
  | error e => rw [decode_error s e hd]

/-- C37. Both round trips. -/
theorem C37_roundtrip (b : Bytes) (s : Str) : decode (encode b) = .ok b ∧ (decode s = .ok b → encode b = s) :=
  ⟨decode_encode b, encode_decode⟩

/-- C37. Checked Base58: exactly the encodings decode, to what was encoded, whatever the hash is. -/
theorem C37_check (dbl : Bytes → Bytes) (hd : ∀ x, 4 ≤ (dbl x).length) (b : Bytes) (s : Str) :
    decodeCheck dbl s = .ok b ↔ s = encodeCheck dbl b := by
  unfold decodeCheck encodeCheck
  have h4 : ∀ x, ((dbl x).take 4).length = 4 := by intro x; simp [hd x]
  constructor
  · intro h
    cases hdec : decode s with
    | error e => rw [hdec] at h; simp at h
    | ok r =>
      rw [hdec] at h
      simp only at h
      by_cases hc : last4 r ≠ (dbl (butLast4 r)).take 4
      · rw [if_pos hc] at h; simp at h
      · rw [if_neg hc] at h
        push Not at hc
        simp only [Except.ok.injEq] at h
        rw [← encode_decode hdec, ← h, ← hc, butLast4, last4, List.take_append_drop]
  · rintro rfl
    rw [decode_encode]
    have e1 : butLast4 (b ++ (dbl b).take 4) = b := by
      unfold butLast4
      rw [List.length_append, h4, Nat.add_sub_cancel]
      simp
    have e2 : last4 (b ++ (dbl b).take 4) = (dbl b).take 4 := by
      unfold last4
      rw [List.length_append, h4, Nat.add_sub_cancel]
      simp
    simp only [e1, e2, ne_eq, not_true_eq_false, if_false]

example : encode [0, 0, 255, 1] = "11LQY".toList := by
  rw [C37_encode]; refine ⟨by unfold Spec.Base58.IsText; decide +kernel, by decide, by decide +kernel⟩
example : Spec.Base58.digits = "123456789ABCDEFGHJKLMNPQRSTUVWXYZabcdefghijkmnopqrstuvwxyz".toList := by decide +kernel

/-! ### C38 -/

private theorem chk_length (P : Prims) (x : Bytes) : ((binDblSha256 P x).take 4).length = 4 := by
  simp [binDblSha256, P.sha256_length]

private theorem split4 (x y : Bytes) (hy : y.length = 4) : butLast4 (x ++ y) = x ∧ last4 (x ++ y) = y := by
  unfold butLast4 last4
  rw [List.length_append, hy, Nat.add_sub_cancel]
  simp

/-- C38. The address of a script hash is its NEO address. -/
theorem C38_address (P : Prims) (h : Bytes) (s : Str) (hl : h.length = 20) :
    toAddress P h = s ↔ NeoAddress (fun x => P.sha256 (P.sha256 x)) h s := by
  unfold NeoAddress Base58Check toAddress scripthashToAddress
  rw [← C37_encode]
  simp only [hl, true_and, addressVersion, binDblSha256, List.cons_append, List.nil_append]

/-- C38. `address_to_scripthash` inverts it. -/
theorem C38_roundtrip (P : Prims) (h : Bytes) : cliAddressToScripthash P (toAddress P h) = .ok h := by
  unfold cliAddressToScripthash toAddress scripthashToAddress
  simp only
  rw [decode_encode]
  obtain ⟨e1, e2⟩ := split4 (addressVersion :: h) _ (chk_length P (addressVersion :: h))
  simp only [List.cons_append] at e1 e2 ⊢
  rw [e1, e2]
  simp [binDblSha256]

/-- C38. Different script hashes have different addresses. -/
theorem C38_injective (P : Prims) (h h' : Bytes) (e : toAddress P h = toAddress P h') : h = h' := by
  have h1 := C38_roundtrip P h
  rw [e, C38_roundtrip] at h1
  simpa using h1.symm

/-! ### C39 -/

private theorem head_nine (n : Nat) (h1 : 9 * 58 ^ 33 ≤ n) (h2 : n < 10 * 58 ^ 33) : n / 58 ^ 33 = 9 :=
  Nat.div_eq_of_lt_le h1 (by simpa using h2)

private theorem version_bounds (v : UInt8) (w : Bytes) (hl : w.length = 24)
    (h1 : 9 * 58 ^ 33 ≤ v.toNat * 256 ^ 24) (h2 : (v.toNat + 1) * 256 ^ 24 ≤ 10 * 58 ^ 33) :
    (encode (v :: w)).length = 34 ∧ (encode (v :: w)).head? = some 'A' := by
  have hv : v ≠ 0 := by rintro rfl; simp at h1
  obtain ⟨b1, b2⟩ := leToNat_cons_bounds v w
  rw [hl] at b1 b2
  have c1 : 58 ^ 33 ≤ leToNat (v :: w).reverse := by omega
  have c2 : leToNat (v :: w).reverse < 58 ^ (33 + 1) := by omega
  rw [encode_cons v w hv, encodeInt_length c1 c2, encodeInt_head? _ _ c1 c2]
  refine ⟨rfl, ?_⟩
  rw [head_nine _ (le_trans h1 b1) (lt_of_lt_of_le b2 h2)]
  rfl

private theorem address_shape (P : Prims) (h : Bytes) (hl : h.length = 20) :
    (toAddress P h).length = 34 ∧ (toAddress P h).head? = some 'A' := by
  unfold toAddress scripthashToAddress
  simp only [List.cons_append]
  apply version_bounds
  · rw [List.length_append, hl, chk_length]
  · decide
  · decide

/-- C39. Every generated address has 34 characters, starts with `A` and is accepted. -/
theorem C39_generated_valid (P : Prims) (h : Bytes) (hl : h.length = 20) :
    (toAddress P h).length = 34 ∧ (toAddress P h).head? = some 'A' ∧ isValidPublicAddress P (toAddress P h) = .ok true := by
  obtain ⟨h1, h2⟩ := address_shape P h hl
  refine ⟨h1, h2, ?_⟩
  unfold isValidPublicAddress
  rw [if_pos ⟨h1, h2⟩]
  have : decodeCheck (binDblSha256 P) (toAddress P h) = .ok (addressVersion :: h) := by
    rw [C37_check _ (by intro x; simp [binDblSha256, P.sha256_length])]
    rfl
  rw [this]

example : ∃ h : Bytes, h.length = 20 := ⟨List.replicate 20 7, by simp⟩

/-! ### C40 -/

/-- C90 (part): it never raises. -/
theorem C90_total (P : Prims) (s : Str) : ∃ b, isValidPublicAddress P s = .ok b := by
  unfold isValidPublicAddress
  split
  · cases h : decodeCheck (binDblSha256 P) s with
    | ok => exact ⟨_, rfl⟩
    | error e =>
      have : e = .valueError := by
        unfold decodeCheck at h
        cases hd : decode s with
        | error e' => rw [hd] at h; simp at h; rw [← h]; exact decode_error s e' hd
        | ok r => rw [hd] at h; simp only at h; split at h <;> simp at h; exact h.symm
      subst this
      exact ⟨false, by simp [Err.isValueError]⟩
  · exact ⟨_, rfl⟩

/-- C40 (exact characterisation): accepted are exactly the Base58Check texts with 34 characters starting with `A`; these
have a 20-byte payload, and a version byte 22, 23 or 24. Every NEO address is accepted. -/
theorem C40_accepted_partial (P : Prims) (s : Str) :
    (isValidPublicAddress P s = .ok true ↔
      ∃ (v : UInt8) (h : Bytes), Base58Check (fun x => P.sha256 (P.sha256 x)) v h s ∧ h.length = 20 ∧
        (v = 22 ∨ v = 23 ∨ v = 24) ∧ s.length = 34 ∧ s.head? = some 'A') ∧
    ((∃ h, NeoAddress (fun x => P.sha256 (P.sha256 x)) h s) → isValidPublicAddress P s = .ok true) := by
  have hdc : ∀ b, decodeCheck (binDblSha256 P) s = .ok b ↔ s = encodeCheck (binDblSha256 P) b := fun b =>
    C37_check _ (by intro x; simp [binDblSha256, P.sha256_length]) b s
  refine ⟨⟨?_, ?_⟩, ?_⟩
  · intro hv
    unfold isValidPublicAddress at hv
    by_cases hs : s.length = 34 ∧ s.head? = some 'A'
    · rw [if_pos hs] at hv
      cases hd : decodeCheck (binDblSha256 P) s with
      | error e =>
        rw [hd] at hv
        simp only at hv
        split at hv <;> simp at hv
      | ok b =>
        have he := (hdc b).mp hd
        unfold encodeCheck at he
        have hlen4 := chk_length P b
        -- the decoded data is not empty and does not start with zero
        cases hdata : b ++ (binDblSha256 P b).take 4 with
        | nil =>
          have := congrArg List.length hdata
          rw [List.length_append, hlen4] at this
          simp at this
        | cons v w =>
          rw [hdata] at he
          have hv0 : v ≠ 0 := by
            rintro rfl
            have : s.head? = some '1' := by
              rw [he]
              unfold encode
              have hle := (List.dropWhile_suffix (l := w) (· == (0 : UInt8))).length_le
              simp only [List.dropWhile_cons, beq_self_eq_true, if_true, List.length_cons]
              rw [show w.length + 1 - (List.dropWhile (· == 0) w).length =
                (w.length - (List.dropWhile (· == 0) w).length) + 1 by omega, List.replicate_succ]
              rfl
            rw [hs.2] at this
            exact absurd this (by decide)
          rw [encode_cons v w hv0] at he
          obtain ⟨b1, b2⟩ := leToNat_cons_bounds v w
          generalize hn : leToNat (v :: w).reverse = n at he b1 b2
          have hlen : (encodeInt n).length = 34 := by rw [← he]; exact hs.1
          have c1 : 58 ^ 33 ≤ n := by
            rw [encodeInt_eq, List.length_map, List.length_reverse] at hlen
            exact (Nat.lt_digits_length_iff (by omega) n).mp (by omega)
          have c2 : n < 58 ^ (33 + 1) := by
            rw [encodeInt_eq, List.length_map, List.length_reverse] at hlen
            exact (Nat.digits_length_le_iff (by omega) n).mp (by omega)
          have hhead := encodeInt_head? n 33 c1 c2
          rw [← he, hs.2] at hhead
          have h9 : n / 58 ^ 33 = 9 := by
            have hlt : n / 58 ^ 33 < 58 := by rw [Nat.div_lt_iff_lt_mul (by positivity)]; omega
            have := congrArg (Option.map val) hhead
            simp only [Option.map_some, Option.some.injEq] at this
            rw [val_chr hlt] at this
            rw [← this]; decide
          have d1 : 9 * 58 ^ 33 ≤ n := by
            have := Nat.div_mul_le_self n (58 ^ 33); rw [h9] at this; exact this
          have d2 : n < 10 * 58 ^ 33 := by
            have := Nat.lt_div_mul_add (a := n) (b := 58 ^ 33) (by positivity); rw [h9] at this; omega
          have hv1 : 1 ≤ v.toNat := by
            have : v.toNat ≠ 0 := fun h => hv0 (UInt8.toNat_inj.mp h)
            omega
          have hv255 := v.toNat_lt
          have hw24 : w.length = 24 := by
            apply le_antisymm
            · by_contra hcon
              have : 256 ^ 25 ≤ 256 ^ w.length := Nat.pow_le_pow_right (by omega) (by omega)
              have : 256 ^ 25 ≤ n := by nlinarith
              omega
            · by_contra hcon
              have : 256 ^ w.length ≤ 256 ^ 23 := Nat.pow_le_pow_right (by omega) (by omega)
              have : n < 256 ^ 24 := lt_of_lt_of_le b2 (by nlinarith)
              omega
          rw [hw24] at b1 b2
          have hb21 : b.length = 21 := by
            have := congrArg List.length hdata
            rw [List.length_append, hlen4, List.length_cons, hw24] at this
            omega
          cases b with
          | nil => simp at hb21
          | cons v' h =>
            simp only [List.cons_append, List.cons.injEq] at hdata
            obtain ⟨rfl, hdata⟩ := hdata
            refine ⟨v', h, ?_, by simpa using hb21, ?_, hs⟩
            · unfold Base58Check
              rw [← C37_encode]
              exact ((hdc _).mp hd).symm
            · have e1 : 22 ≤ v'.toNat := by omega
              have e2 : v'.toNat ≤ 24 := by omega
              have : v'.toNat = 22 ∨ v'.toNat = 23 ∨ v'.toNat = 24 := by omega
              rcases this with h | h | h
              · exact .inl (UInt8.toNat_inj.mp h)
              · exact .inr (.inl (UInt8.toNat_inj.mp h))
              · exact .inr (.inr (UInt8.toNat_inj.mp h))
    · rw [if_neg hs] at hv; simp at hv
  · rintro ⟨v, h, hc, _, _, hs⟩
    unfold isValidPublicAddress
    rw [if_pos hs]
    have : decodeCheck (binDblSha256 P) s = .ok (v :: h) := by
      rw [hdc]
      unfold Base58Check at hc
      rw [← C37_encode] at hc
      exact hc.symm
    rw [this]
  · rintro ⟨h, hl, hc⟩
    have : toAddress P h = s := (C38_address P h s hl).mpr ⟨hl, hc⟩
    rw [← this]
    exact (C39_generated_valid P h hl).2.2

/-- C90: every NEO address (of any script hash) is accepted. -/
theorem C90_accepts_addresses (P : Prims) (h : Bytes) (s : Str) (hs : NeoAddress (fun x => P.sha256 (P.sha256 x)) h s) :
    isValidPublicAddress P s = .ok true :=
  (C40_accepted_partial P s).2 ⟨h, hs⟩

/-- C40 fails: texts with version byte 24 are accepted although they are not the address of any script hash. -/
theorem C40_accepts_foreign_violated (P : Prims) : ∃ s, isValidPublicAddress P s = .ok true ∧
    Base58Check (fun x => P.sha256 (P.sha256 x)) 24 (List.replicate 20 0) s ∧
    ¬ ∃ h, NeoAddress (fun x => P.sha256 (P.sha256 x)) h s := by
  let h : Bytes := List.replicate 20 0
  let c := (binDblSha256 P ((24 : UInt8) :: h)).take 4
  have hc : c.length = 4 := chk_length P _
  refine ⟨encode ((24 : UInt8) :: (h ++ c)), ?_, ?_, ?_⟩
  · rw [(C40_accepted_partial P _).1]
    refine ⟨24, h, ?_, by simp [h], by simp, ?_⟩
    · unfold Base58Check
      rw [← C37_encode]
      rfl
    · have hn : 24 * 256 ^ 24 ≤ leToNat ((24 : UInt8) :: (h ++ c)).reverse ∧
          leToNat ((24 : UInt8) :: (h ++ c)).reverse < 24 * 256 ^ 24 + 256 ^ 4 := by
        rw [List.reverse_cons, leToNat_append, List.reverse_append, leToNat_append]
        have h0 : leToNat h.reverse = 0 := by
          simp only [h, List.reverse_replicate]; exact leToNat_replicate_zero 20
        have hlt := leToNat_lt c.reverse
        rw [List.length_reverse, hc] at hlt
        rw [h0]
        simp only [List.length_append, List.length_reverse, hc, h, List.length_replicate, leToNat]
        have : (24 : UInt8).toNat = 24 := rfl
        rw [this]
        constructor <;> omega
      generalize hm : leToNat ((24 : UInt8) :: (h ++ c)).reverse = n at hn
      have c1 : 58 ^ 33 ≤ n := by omega
      have c2 : n < 58 ^ (33 + 1) := by omega
      rw [encode_cons 24 _ (by decide), hm, encodeInt_length c1 c2, encodeInt_head? _ _ c1 c2]
      refine ⟨rfl, ?_⟩
      have : n / 58 ^ 33 = 9 := by apply Nat.div_eq_of_lt_le <;> omega
      rw [this]
      rfl
  · unfold Base58Check
    rw [← C37_encode]
    rfl
  · rintro ⟨h', hl', hc'⟩
    unfold Base58Check at hc'
    rw [← C37_encode] at hc'
    have := encode_inj hc'
    simp at this

/-! ### C41 -/

/-- C41 (exact characterisation of what the code does): it succeeds exactly on Base58Check texts (of any version byte and
any payload length, and on the text of the bare checksum of nothing) and gives the payload; a wrong checksum raises
ConversionError. -/
theorem C41_accepted_partial (P : Prims) (s : Str) (h : Bytes) :
    (cliAddressToScripthash P s = .ok h ↔ (∃ v, Base58Check (fun x => P.sha256 (P.sha256 x)) v h s) ∨
      (h = [] ∧ Spec.Base58.TextOf ((P.sha256 (P.sha256 [])).take 4) s)) ∧
    (∀ data, decode s = .ok data → data ≠ [] → (¬ ∃ h, cliAddressToScripthash P s = .ok h) →
      cliAddressToScripthash P s = .error .conversion) := by
  have hshort : ∀ data : Bytes, data.length ≤ 4 → butLast4 data = [] ∧ last4 data = data := by
    intro d hd
    unfold butLast4 last4
    rw [show d.length - 4 = 0 by omega]
    simp
  refine ⟨⟨?_, ?_⟩, ?_⟩
  · intro hok
    unfold cliAddressToScripthash at hok
    cases hdec : decode s with
    | error e => rw [hdec] at hok; simp at hok
    | ok data =>
      rw [hdec] at hok
      cases data with
      | nil => simp at hok
      | cons v w =>
        simp only at hok
        by_cases hc : last4 (v :: w) ≠ (P.sha256 (P.sha256 (butLast4 (v :: w)))).take 4
        · rw [if_pos hc] at hok; simp at hok
        · rw [if_neg hc] at hok
          push Not at hc
          simp only [Except.ok.injEq] at hok
          have hsplit : butLast4 (v :: w) ++ last4 (v :: w) = v :: w := by
            unfold butLast4 last4; exact List.take_append_drop _ _
          cases hb : butLast4 (v :: w) with
          | nil =>
            right
            rw [hb] at hok hc hsplit
            refine ⟨by simpa using hok.symm, ?_⟩
            rw [textOf_iff, hdec, ← hc]
            simp only [List.nil_append] at hsplit
            rw [hsplit]
          | cons v' w' =>
            left
            rw [hb] at hok hc hsplit
            simp only [List.drop_succ_cons, List.drop_zero] at hok
            subst hok
            refine ⟨v', ?_⟩
            unfold Base58Check
            rw [textOf_iff, hdec, ← hsplit, hc]
            rfl
  · rintro (⟨v, hc⟩ | ⟨rfl, hc⟩)
    · unfold Base58Check at hc
      rw [textOf_iff] at hc
      unfold cliAddressToScripthash
      rw [hc]
      obtain ⟨e1, e2⟩ := split4 (v :: h) _ (chk_length P (v :: h))
      simp only [List.cons_append, binDblSha256] at e1 e2
      simp only [List.cons_append, List.nil_append]
      rw [e1, e2]
      simp
    · rw [textOf_iff] at hc
      unfold cliAddressToScripthash
      rw [hc]
      have hl : ((P.sha256 (P.sha256 [])).take 4).length = 4 := chk_length P []
      obtain ⟨e1, e2⟩ := hshort _ (le_of_eq hl)
      generalize hd : (P.sha256 (P.sha256 [])).take 4 = d at hl e1 e2
      cases d with
      | nil => simp at hl
      | cons a d =>
        simp only [e1, e2, hd, ne_eq, not_true_eq_false, if_false, List.drop_nil]
  · intro data hd hne hno
    unfold cliAddressToScripthash at hno ⊢
    rw [hd] at hno ⊢
    cases data with
    | nil => exact absurd rfl hne
    | cons v w =>
      simp only at hno ⊢
      split
      · rfl
      · rename_i hc
        rw [if_neg hc] at hno
        exact absurd ⟨_, rfl⟩ hno

/-- C41 fails: payloads of every length under every version byte are accepted (for instance the texts of other block
chains' addresses), the empty text raises IndexError, and a text with a character outside the alphabet raises ValueError. -/
theorem C41_rejects_foreign_violated (P : Prims) :
    (∀ (v : UInt8) (h : Bytes), ∃ s, Base58Check (fun x => P.sha256 (P.sha256 x)) v h s ∧
      cliAddressToScripthash P s = .ok h) ∧
    cliAddressToScripthash P [] = .error .indexError ∧
    (∀ s, ¬ Spec.Base58.IsText s → cliAddressToScripthash P s = .error .valueError) := by
  refine ⟨?_, ?_, ?_⟩
  · intro v h
    have : Base58Check (fun x => P.sha256 (P.sha256 x)) v h
        (encode ([v] ++ h ++ (P.sha256 (P.sha256 ([v] ++ h))).take 4)) := by
      unfold Base58Check; rw [← C37_encode]
    exact ⟨_, this, ((C41_accepted_partial P _ h).1).mpr (.inl ⟨v, this⟩)⟩
  · unfold cliAddressToScripthash
    have : decode [] = .ok [] := by
      have := decode_encode []
      have e : encode [] = [] := by
        show List.replicate 0 '1' ++ encodeInt 0 = []
        rw [encodeInt]
        rfl
      rwa [e] at this
    rw [this]
  · intro s hs
    unfold cliAddressToScripthash
    rw [(C37_decode s).2.2 hs]

example : ¬ Spec.Base58.IsText "A0".toList := by
  intro h; have := h '0' (by simp); revert this; decide +kernel

/-! ### C42 -/

private theorem utf8_ascii (b : Bytes) (h : ∀ c ∈ b, c.toNat < 128) : utf8 (asciiStr b) = b := by
  induction b with
  | nil => rfl
  | cons a b ih =>
    have ha : a.toNat < 128 := h a (by simp)
    have e : asciiStr (a :: b) = [Char.ofNat a.toNat] ++ asciiStr b := rfl
    rw [e, utf8_append, ih (fun c hc => h c (by simp [hc]))]
    have : utf8 [Char.ofNat a.toNat] = [a] := by
      have key : ∀ n : Fin 128, utf8 [Char.ofNat n.val] = [UInt8.ofNat n.val] := by decide +kernel
      have := key ⟨a.toNat, ha⟩
      simpa using this
    rw [this]; rfl

private theorem take2_append (t : Str) : (['0', 'x'] ++ t).take 2 = ['0', 'x'] := by simp

theorem unhexStr {s : Str} {b : Bytes} (h : unhexlifyVal (.str s) = .ok b) :
    fromHex s = .ok b ∧ s.length = 2 * b.length := by
  unfold unhexlifyVal at h
  simp only at h
  cases ha : asciiBytes? s with
  | none => rw [ha] at h; simp at h
  | some x =>
    rw [ha] at h
    simp only at h
    unfold asciiBytes? at ha
    split at ha
    · rename_i hall
      simp only [Option.some.injEq] at ha
      subst ha
      have hall' : ∀ c ∈ s, c.toNat < 128 := by simpa using hall
      clear hall
      have hl := unhexlify_length h
      rw [List.length_map] at hl
      refine ⟨?_, hl⟩
      clear hl
      induction hn : s.length using Nat.strong_induction_on generalizing s b with
      | _ n ih =>
        match s, hall' with
        | [], _ => simp [unhexlify] at h; subst h; rw [fromHex]
        | [c], _ => simp [unhexlify] at h
        | c :: d :: rest, hall' =>
          simp only [List.map_cons, unhexlify] at h
          have hc := hall' c (by simp)
          have hd := hall' d (by simp)
          have e1 : hexVal (UInt8.ofNat c.toNat) = hexValChar c := by simp [hexValChar, hc]
          have e2 : hexVal (UInt8.ofNat d.toNat) = hexValChar d := by simp [hexValChar, hd]
          rw [e1, e2] at h
          cases hx : hexValChar c with
          | none => rw [hx] at h; simp at h
          | some x =>
            cases hy : hexValChar d with
            | none => rw [hx, hy] at h; simp at h
            | some y =>
              rw [hx, hy] at h
              simp only at h
              cases hr : unhexlify (rest.map fun c => UInt8.ofNat c.toNat) with
              | error e => rw [hr] at h; simp at h
              | ok r =>
                rw [hr] at h
                simp only [Except.ok.injEq] at h
                subst h
                have := ih rest.length (by rw [← hn]; simp) (s := rest) (b := r) hr
                  (fun z hz => hall' z (by simp [hz])) rfl
                have hsp : isHexSpace c = false := by
                  cases hsp : isHexSpace c with
                  | false => rfl
                  | true =>
                    have := hexSpace_not_digit c hsp
                    rw [← hexValChar_eq_digit, hx] at this
                    simp at this
                rw [fromHex, hsp, hx, hy, this]
                rfl
    · simp at ha

theorem unhexStr_of_hex {s : Str} (n : Nat) (hl : s.length = 2 * n) (h : AllHex s) :
    ∃ b, unhexlifyVal (.str s) = .ok b := by
  have hascii : ∀ c ∈ s, c.toNat < 128 := by
    intro c hc
    by_contra hcon
    have := h c hc
    rw [digit_none_of_ge c hcon] at this
    simp at this
  unfold unhexlifyVal
  simp only
  have : asciiBytes? s = some (s.map fun c => UInt8.ofNat c.toNat) := by
    unfold asciiBytes?
    rw [if_pos (by simpa using hascii)]
  rw [this]
  simp only
  clear this
  induction n generalizing s with
  | zero =>
    have : s = [] := List.length_eq_zero_iff.mp (by omega)
    subst this; exact ⟨[], rfl⟩
  | succ n ih =>
    match s, hl with
    | c :: d :: rest, hl =>
      obtain ⟨b, hb⟩ := ih (s := rest) (by simp at hl; omega) (fun c hc => h c (by simp [hc])) (fun c hc => hascii c (by simp [hc]))
      have hc := hascii c (by simp)
      have hd := hascii d (by simp)
      have e1 : hexVal (UInt8.ofNat c.toNat) = digit c := by rw [← hexValChar_eq_digit]; simp [hexValChar, hc]
      have e2 : hexVal (UInt8.ofNat d.toNat) = digit d := by rw [← hexValChar_eq_digit]; simp [hexValChar, hd]
      obtain ⟨x, hx⟩ := Option.isSome_iff_exists.mp (h c (by simp))
      obtain ⟨y, hy⟩ := Option.isSome_iff_exists.mp (h d (by simp))
      refine ⟨UInt8.ofNat (16 * x + y) :: b, ?_⟩
      simp only [List.map_cons, unhexlify, e1, e2, hx, hy, hb]

private theorem allHex_no_x {t : Str} (h : AllHex t) : t.take 2 ≠ ['0', 'x'] := by
  intro hx
  have : 'x' ∈ t := List.mem_of_mem_take (i := 2) (by rw [hx]; simp)
  exact absurd (h 'x' this) (by decide)

/-- C42. `scripthash_to_address` succeeds exactly on forty hexadecimal digits, read as the script hash's bytes in order, and
on `0x` followed by forty hexadecimal digits, read as the bytes in reverse order; the result is the address of the script
hash. -/
theorem C42_scripthash_to_address (P : Prims) (s : Str) (a : Str) :
    cliScripthashToAddress P s = .ok a ↔
      ∃ h t : List _, h.length = 20 ∧ t.length = 40 ∧ AllHex t ∧ a = toAddress P h ∧
        ((s = t ∧ beNumber h = hexNumber t) ∨ (s = ['0', 'x'] ++ t ∧ leNumber h = hexNumber t)) := by
  constructor
  · intro hok
    unfold cliScripthashToAddress at hok
    simp only at hok
    by_cases hp : s.take 2 ≠ ['0', 'x']
    · rw [if_pos hp] at hok
      cases hu : unhexlifyVal (.str s) with
      | error e => rw [hu] at hok; simp at hok
      | ok b =>
        rw [hu] at hok
        simp only at hok
        cases hps : UInt.parseString 20 (['0', 'x'] ++ hexStr b.reverse) with
        | error e => rw [hps] at hok; simp at hok
        | ok d =>
          rw [hps] at hok
          simp only [Except.ok.injEq] at hok
          obtain ⟨t, ht, hl, hall, hd, hn⟩ := (C33_parse_iff 20 _ d).mp hps
          obtain ⟨hfh, hsl⟩ := unhexStr hu
          obtain ⟨hs1, hs2⟩ := fromHex_tight hfh hsl
          have htx : t = hexStr b.reverse := by
            rcases ht with ht | ht
            · exact absurd (by rw [← ht]; exact take2_append _) (allHex_no_x hall)
            · simpa using ht.symm
          have hb20 : b.length = 20 := by
            rw [htx, hexStr_length, List.length_reverse] at hl; omega
          have hbd : b = d := by
            apply leNumber_inj (by rw [hb20, hd])
            rw [hn, htx, hexStr_number, List.reverse_reverse, leNumber_eq]
          refine ⟨d, s, hd, by omega, hs1, hok.symm, .inl ⟨rfl, ?_⟩⟩
          rw [← hbd]
          unfold beNumber
          rw [leNumber_eq]
          exact hs2
    · push Not at hp
      rw [if_neg (by simpa using hp)] at hok
      cases hps : UInt.parseString 20 s with
      | error e => rw [hps] at hok; simp at hok
      | ok d =>
        rw [hps] at hok
        simp only [Except.ok.injEq] at hok
        obtain ⟨t, ht, hl, hall, hd, hn⟩ := (C33_parse_iff 20 _ d).mp hps
        refine ⟨d, t, hd, by omega, hall, hok.symm, .inr ⟨?_, hn⟩⟩
        rcases ht with ht | ht
        · subst ht; exact absurd hp (allHex_no_x hall)
        · exact ht
  · rintro ⟨h, t, hl, ht, hall, rfl, (⟨rfl, hn⟩ | ⟨rfl, hn⟩)⟩
    · unfold cliScripthashToAddress
      simp only
      rw [if_pos (allHex_no_x hall)]
      obtain ⟨b, hb⟩ := unhexStr_of_hex 20 ht hall
      obtain ⟨hfh, hsl⟩ := unhexStr hb
      obtain ⟨hs1, hs2⟩ := fromHex_tight hfh hsl
      have hbh : b = h := by
        have e := hn
        unfold beNumber at e
        rw [← hs2] at e
        have := leNumber_inj (a := b.reverse) (b := h.reverse) (by simp; omega) (by rw [leNumber_eq, e])
        simpa using congrArg List.reverse this
      rw [hb]
      simp only
      have : UInt.parseString 20 (['0', 'x'] ++ hexStr b.reverse) = .ok h := by
        rw [C33_parse_iff]
        refine ⟨hexStr b.reverse, .inr rfl, by rw [hexStr_length, List.length_reverse]; omega, hexStr_allHex _, hl, ?_⟩
        rw [hexStr_number, List.reverse_reverse, hbh, leNumber_eq]
      rw [this]
    · unfold cliScripthashToAddress
      simp only
      rw [if_neg (by rw [take2_append]; simp)]
      have : UInt.parseString 20 (['0', 'x'] ++ t) = .ok h := by
        rw [C33_parse_iff]
        exact ⟨t, .inr rfl, ht, hall, hl, hn⟩
      rw [this]

/-- C42. Whatever fails, fails with ConversionError. -/
theorem C42_failures (P : Prims) (s : Str) (e : Err) (h : cliScripthashToAddress P s = .error e) : e = .conversion := by
  unfold cliScripthashToAddress at h
  simp only at h
  split at h
  · simpa using h.symm
  · simp at h

/-- C42. Both forms of a script hash give its address, which `address_to_scripthash` turns back into the script hash. -/
theorem C42_both_orders (P : Prims) (h : Bytes) (hl : h.length = 20) :
    cliScripthashToAddress P (hexStr h) = .ok (toAddress P h) ∧
    cliScripthashToAddress P (['0', 'x'] ++ hexStr h.reverse) = .ok (toAddress P h) ∧
    cliAddressToScripthash P (toAddress P h) = .ok h := by
  refine ⟨?_, ?_, C38_roundtrip P h⟩
  · rw [C42_scripthash_to_address]
    refine ⟨h, hexStr h, hl, by rw [hexStr_length]; omega, hexStr_allHex _, rfl, .inl ⟨rfl, ?_⟩⟩
    unfold beNumber
    rw [hexStr_number, leNumber_eq]
  · rw [C42_scripthash_to_address]
    refine ⟨h, hexStr h.reverse, hl, by rw [hexStr_length, List.length_reverse]; omega, hexStr_allHex _, rfl, .inr ⟨rfl, ?_⟩⟩
    rw [hexStr_number, List.reverse_reverse, leNumber_eq]

/-! ### C49 -/

/-- C49. Defined exactly on two `bytes` objects of one length; the result has that length and holds the exclusive or of the
bytes at each position. -/
theorem C49_xor (a b : Val) (r : Bytes) :
    xorBytes a b = .ok r ↔ ∃ x y, a = .bytes x ∧ b = .bytes y ∧ x.length = y.length ∧ r.length = x.length ∧
      ∀ i, i < r.length → r[i]? = some (x.getD i 0 ^^^ y.getD i 0) := by
  constructor
  · intro h
    unfold xorBytes at h
    split at h
    · rename_i x y
      by_cases hl : x.length ≠ y.length
      · rw [if_pos hl] at h; simp at h
      · rw [if_neg hl] at h
        push Not at hl
        simp only [Except.ok.injEq] at h
        subst h
        refine ⟨x, y, rfl, rfl, hl, by simp [hl], ?_⟩
        intro i hi
        rw [List.length_zipWith] at hi
        have h1 : i < x.length := by omega
        have h2 : i < y.length := by omega
        simp [h1, h2]
    · simp at h
  · rintro ⟨x, y, rfl, rfl, hl, hr, hi⟩
    simp only [xorBytes, hl, ne_eq, not_true_eq_false, if_false, Except.ok.injEq]
    apply List.ext_getElem?
    intro i
    by_cases h : i < r.length
    · rw [hi i h]
      have h1 : i < x.length := by omega
      have h2 : i < y.length := by omega
      simp [h1, h2]
    · rw [List.getElem?_eq_none (by simp; omega), List.getElem?_eq_none (by omega)]

private theorem zip_xor_self : ∀ x y : Bytes, x.length = y.length →
    List.zipWith (· ^^^ ·) (List.zipWith (· ^^^ ·) x y) y = x
  | [], [], _ => rfl
  | a :: x, b :: y, h => by
    simp only [List.zipWith_cons_cons]
    rw [zip_xor_self x y (by simpa using h), UInt8.xor_assoc, UInt8.xor_self, UInt8.xor_zero]

/-- C49. Commutative; associative; xor-ing twice with the same key restores the input. -/
theorem C49_laws (x y z : Bytes) (h1 : x.length = y.length) (h2 : y.length = z.length) :
    xorBytes (.bytes x) (.bytes y) = xorBytes (.bytes y) (.bytes x) ∧
    (∃ u v, xorBytes (.bytes x) (.bytes y) = .ok u ∧ xorBytes (.bytes y) (.bytes z) = .ok v ∧
      xorBytes (.bytes u) (.bytes z) = xorBytes (.bytes x) (.bytes v) ∧ xorBytes (.bytes u) (.bytes y) = .ok x) := by
  have hok : ∀ a b : Bytes, a.length = b.length → xorBytes (.bytes a) (.bytes b) = .ok (List.zipWith (· ^^^ ·) a b) := by
    intro a b h; simp [xorBytes, h]
  refine ⟨?_, _, _, hok x y h1, hok y z h2, ?_, ?_⟩
  · rw [hok x y h1, hok y x h1.symm, List.zipWith_comm]
    congr 2
    funext a b
    exact UInt8.xor_comm _ _
  · rw [hok _ _ (by simp [h1, h2]), hok _ _ (by simp [h1, h2])]
    congr 1
    apply List.ext_getElem?
    intro i
    simp only [List.getElem?_zipWith]
    cases x[i]? <;> cases y[i]? <;> cases z[i]? <;> simp [UInt8.xor_assoc]
  · rw [hok _ _ (by simp [h1]), zip_xor_self x y h1]

example : xorBytes (.bytes [1, 2]) (.bytes [3, 255]) = .ok [2, 253] := by decide

/-! ### C50 -/

private theorem base256Digits_eq (n : Nat) : base256Digits n = (Nat.digits 256 n).map UInt8.ofNat := by
  induction n using Nat.strong_induction_on with
  | _ n ih =>
    rw [base256Digits]
    split
    · rename_i h; subst h; simp
    · rename_i h
      rw [ih _ (by omega), Nat.digits_def' (by omega) (by omega : 0 < n)]
      simp

private theorem pad_eq (w : Int) (b : Bytes) :
    base256Encode.pad w b = b.reverse ++ List.replicate (w.toNat - b.length) 0 := by
  unfold base256Encode.pad
  simp only
  split
  · rw [List.reverse_append, List.reverse_replicate]
  · rename_i h
    rw [show w.toNat - b.length = 0 by omega]; simp

/-- C50. Negative numbers raise ValueError; a number `n ≥ 0` gives its little-endian base-256 form, which has the larger of
`w`, 1 and the number of bytes `n` needs. -/
theorem C50_base256 (n w : Int) :
    (n < 0 → base256Encode n w = .error .valueError) ∧
    (0 ≤ n → ∃ b, base256Encode n w = .ok b ∧ (leNumber b : Int) = n ∧ intFromBytes b .little false = n ∧
      b.length = max w.toNat (max 1 (Nat.digits 256 n.toNat).length)) := by
  constructor
  · intro h
    unfold base256Encode
    rw [if_neg (by omega), if_neg (by omega)]
  · intro h
    have fin : ∀ b : Bytes, (leNumber b : Int) = n → intFromBytes b .little false = n := by
      intro b hb
      rw [← hb, leNumber_eq]
      simp [intFromBytes, Endian.arrange]
    by_cases h0 : n = 0
    · subst h0
      refine ⟨_, rfl, ?_⟩
      rw [pad_eq]
      have hz : leNumber (([0] : Bytes).reverse ++ List.replicate (w.toNat - ([0] : Bytes).length) 0) = 0 := by
        rw [leNumber_eq, leToNat_append, leToNat_replicate_zero]; rfl
      refine ⟨by rw [hz]; rfl, fin _ (by rw [hz]; rfl), ?_⟩
      simp
      omega
    · have hpos : n > 0 := by omega
      refine ⟨base256Encode.pad w (base256Digits n.toNat).reverse, ?_, ?_⟩
      · unfold base256Encode; rw [if_pos hpos]
      have key : leNumber (base256Encode.pad w (base256Digits n.toNat).reverse) = n.toNat := by
        rw [pad_eq, List.reverse_reverse, leNumber_eq, leToNat_append, leToNat_replicate_zero]
        simp only [Nat.mul_zero, Nat.add_zero]
        have := leToNat_bytesOf n.toNat
        rw [bytesOf_eq, ← base256Digits_eq] at this
        exact this
      refine ⟨by rw [key]; omega, fin _ (by rw [key]; omega), ?_⟩
      rw [pad_eq]
      simp only [List.length_append, List.reverse_reverse, List.length_reverse, List.length_replicate]
      have hlen : (base256Digits n.toNat).length = (Nat.digits 256 n.toNat).length := by rw [base256Digits_eq]; simp
      have h1 : 1 ≤ (Nat.digits 256 n.toNat).length := by
        have : Nat.digits 256 n.toNat ≠ [] := by rw [Ne, Nat.digits_eq_nil_iff_eq_zero]; omega
        exact List.length_pos_iff.mpr this
      rw [hlen]
      omega

example : base256Encode 258 4 = .ok [2, 1, 0, 0] := by
  simp [base256Encode, base256Encode.pad, base256Digits]
example : base256Encode 0 0 = .ok [0] := by decide

/-! ### C51 -/

private theorem hash160_text (P : Prims) (d : Bytes) : unhexlify (utf8 (binHash160 P d)) = .ok (binHash160Bytes P d) := by
  unfold binHash160 binHash160Bytes hexStr
  rw [utf8_ascii _ (hexlify_ascii _), unhexlify_hexlify]

private theorem finish_eq (P : Prims) (d : Bytes) : toScriptHash.finish P d = .ok (binHash160Bytes P d) := by
  unfold toScriptHash.finish
  rw [hash160_text]
  simp [UInt.construct, binHash160Bytes, P.ripemd160_length]

/-- C51. The text-valued helpers are the hexadecimal forms of the byte-valued ones (64 and 40 digits). -/
theorem C51_hex_forms (P : Prims) (d : Bytes) :
    doubleSha256 P d = hexStr (binDblSha256 P d) ∧ (doubleSha256 P d).length = 64 ∧ AllHex (doubleSha256 P d) ∧
    binHash160 P d = hexStr (binHash160Bytes P d) ∧ (binHash160 P d).length = 40 ∧ AllHex (binHash160 P d) ∧
    binDblSha256 P d = P.sha256 (P.sha256 d) ∧ binHash160Bytes P d = P.ripemd160 (P.sha256 d) := by
  refine ⟨rfl, ?_, hexStr_allHex _, rfl, ?_, hexStr_allHex _, rfl, rfl⟩
  · unfold doubleSha256; rw [hexStr_length, P.sha256_length]
  · unfold binHash160; rw [hexStr_length, P.ripemd160_length]

/-- C51. `ToScriptHash` without unhexlifying is the 20-byte hash of the data. -/
theorem C51_to_script_hash (P : Prims) (d : Bytes) :
    toScriptHash P d false = .ok (P.ripemd160 (P.sha256 d)) ∧ (P.ripemd160 (P.sha256 d)).length = 20 ∧
    toScriptHash P (hexlify d) true = toScriptHash P d false := by
  have h1 : toScriptHash P d false = .ok (P.ripemd160 (P.sha256 d)) := by
    unfold toScriptHash
    rw [if_neg (by simp), finish_eq]; rfl
  refine ⟨h1, P.ripemd160_length _, ?_⟩
  rw [h1]
  unfold toScriptHash
  by_cases hd : d = []
  · subst hd
    rw [if_neg (by simp [hexlify]), hexlify, finish_eq]; rfl
  · have : 1 ≤ d.length := List.length_pos_iff.mpr hd
    rw [if_pos (by simp [hexlify_length]; omega), unhexlify_hexlify]
    simp only [finish_eq]; rfl

/-- C51. A successful `ToScriptHash` always gives 20 bytes. -/
theorem C51_script_hash_length (P : Prims) (d h : Bytes) (unhex : Bool) (e : toScriptHash P d unhex = .ok h) :
    h.length = 20 := by
  unfold toScriptHash at e
  split at e
  · split at e
    · simp at e
    · rw [finish_eq] at e; simp at e; rw [← e]; exact P.ripemd160_length _
  · rw [finish_eq] at e; simp at e; rw [← e]; exact P.ripemd160_length _

/-- C51. `random_key` is 64 hexadecimal digits for every entropy. -/
theorem C51_random_key (P : Prims) (entropy : Bytes) :
    (randomKey P entropy).length = 64 ∧ AllHex (asciiStr (randomKey P entropy)) ∧
      unhexlify (randomKey P entropy) = .ok (P.sha256 entropy) := by
  refine ⟨by simp [randomKey, hexlify_length, P.sha256_length], hexStr_allHex _, unhexlify_hexlify _⟩

end Neo.Props
