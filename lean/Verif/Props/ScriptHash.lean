import Verif.Props.Address

/-! # C204, C205, C206: what ToScriptHash hashes; which addresses and redeem scripts are well formed -/

namespace Neo.Props
open Py Spec

/-- `d` is the ASCII text of the bytes `m` in hexadecimal: two digits for each byte, together the same number. -/
def HexTextOf (m d : Bytes) : Prop :=
  d.length = 2 * m.length ∧ AllHex (d.map fun b => Char.ofNat b.toNat) ∧
    hexNumber (d.map fun b => Char.ofNat b.toNat) = beNumber m

private theorem digit_hexVal (c : UInt8) : digit (Char.ofNat c.toNat) = hexVal c := by
  have : ∀ i : Fin 256, digit (Char.ofNat (UInt8.ofNat i.val).toNat) = hexVal (UInt8.ofNat i.val) := by decide +kernel
  have h := this ⟨c.toNat, c.toNat_lt⟩
  simpa using h

private theorem hexVal_lt {c : UInt8} {n : Nat} (h : hexVal c = some n) : n < 16 := by
  simp only [hexVal] at h
  have := c.toNat_lt
  split_ifs at h <;> simp at h <;> omega

private theorem hexNumber_cons (c : Char) (t : List Char) :
    hexNumber (c :: t) = (digit c).getD 0 * 16 ^ t.length + hexNumber t := by
  unfold hexNumber
  rw [List.reverse_cons, List.map_append, Nat.ofDigits_append]
  simp
  ring

private theorem beNumber_cons (c : UInt8) (t : Bytes) : beNumber (c :: t) = c.toNat * 256 ^ t.length + beNumber t := by
  unfold beNumber leNumber
  rw [List.reverse_cons, List.map_append, Nat.ofDigits_append]
  simp
  ring

private theorem beNumber_lt (m : Bytes) : beNumber m < 256 ^ m.length := by
  induction m with
  | nil => simp [beNumber, leNumber]
  | cons c t ih =>
    rw [beNumber_cons, List.length_cons, pow_succ]
    have := c.toNat_lt
    have : c.toNat * 256 ^ t.length + 256 ^ t.length ≤ 256 ^ t.length * 256 := by nlinarith [Nat.pow_pos (n := t.length) (show 0 < 256 by norm_num)]
    omega

private theorem hexNumber_lt (t : List Char) (h : AllHex t) : hexNumber t < 16 ^ t.length := by
  induction t with
  | nil => simp [hexNumber]
  | cons c t ih =>
    have ih := ih fun x hx => h x (by simp [hx])
    have hc : (digit c).getD 0 < 16 := by
      unfold digit
      split <;> simp
    rw [hexNumber_cons, List.length_cons, pow_succ]
    have : (digit c).getD 0 * 16 ^ t.length + 16 ^ t.length ≤ 16 ^ t.length * 16 := by nlinarith [Nat.pow_pos (n := t.length) (show 0 < 16 by norm_num)]
    omega

/-- `binascii.unhexlify`, by what it means. -/
theorem unhexlify_iff : ∀ d m : Bytes, unhexlify d = .ok m ↔ HexTextOf m d
  | [], m => by
    constructor
    · intro h
      cases Except.ok.inj h
      exact ⟨rfl, by simp [AllHex], rfl⟩
    · intro h
      have : m = [] := List.length_eq_zero_iff.1 (by have := h.1; rw [List.length_nil] at this; omega)
      rw [this]; rfl
  | [c], m => by
    constructor
    · intro h; cases h
    · intro h; have := h.1; simp at this; omega
  | a :: b :: rest, m => by
    have ih := unhexlify_iff rest
    constructor
    · intro h
      cases ha : hexVal a with
      | none => simp [unhexlify, ha] at h
      | some x =>
        cases hb : hexVal b with
        | none => simp [unhexlify, ha, hb] at h
        | some y =>
          cases hr : unhexlify rest with
          | error e => simp [unhexlify, ha, hb, hr] at h
          | ok r =>
            simp [unhexlify, ha, hb, hr] at h
            obtain ⟨h1, h2, h3⟩ := (ih r).1 hr
            subst h
            refine ⟨by simp [h1]; omega, ?_, ?_⟩
            · intro c hc
              simp only [List.map_cons, List.mem_cons] at hc
              rcases hc with rfl | rfl | hc
              · rw [digit_hexVal, ha]; rfl
              · rw [digit_hexVal, hb]; rfl
              · exact h2 c hc
            · have hx := hexVal_lt ha
              have hy := hexVal_lt hb
              rw [List.map_cons, List.map_cons, hexNumber_cons, hexNumber_cons, digit_hexVal, digit_hexVal, ha, hb, h3, beNumber_cons]
              simp only [Option.getD_some, List.length_cons, List.length_map, h1, pow_succ, pow_mul]
              rw [show UInt8.toNat (16 * UInt8.ofNat x + UInt8.ofNat y) = 16 * x + y by
                simp [UInt8.toNat_add, UInt8.toNat_mul]; omega]
              ring
    · rintro ⟨h1, h2, h3⟩
      obtain ⟨c, m', rfl⟩ : ∃ c m', m = c :: m' := by
        cases m with
        | nil => simp at h1
        | cons c m' => exact ⟨c, m', rfl⟩
      have hl : rest.length = 2 * m'.length := by simp at h1; omega
      have ha : (digit (Char.ofNat a.toNat)).isSome := h2 _ (by simp)
      have hb : (digit (Char.ofNat b.toNat)).isSome := h2 _ (by simp)
      have h2' : AllHex (rest.map fun b => Char.ofNat b.toNat) := fun x hx => h2 x (by simp only [List.map_cons, List.mem_cons]; exact .inr (.inr hx))
      rw [digit_hexVal] at ha hb
      obtain ⟨x, ha⟩ := Option.isSome_iff_exists.1 ha
      obtain ⟨y, hb⟩ := Option.isSome_iff_exists.1 hb
      have hx := hexVal_lt ha
      have hy := hexVal_lt hb
      rw [List.map_cons, List.map_cons, hexNumber_cons, hexNumber_cons, digit_hexVal, digit_hexVal, ha, hb, beNumber_cons] at h3
      simp only [Option.getD_some, List.length_cons, List.length_map, hl, pow_succ, pow_mul] at h3
      norm_num at h3
      have e1 := hexNumber_lt _ h2'
      have e2 := beNumber_lt m'
      rw [List.length_map, hl, pow_mul, show 16 ^ 2 = 256 by norm_num] at e1
      generalize hK : 256 ^ m'.length = K at h3 e1 e2
      generalize hN : hexNumber (rest.map fun b => Char.ofNat b.toNat) = N at h3 e1
      have h4 : (16 * x + y) * K + N = c.toNat * K + beNumber m' := by rw [← h3]; ring
      have h5 : 16 * x + y = c.toNat := by
        have hK0 : 0 < K := by omega
        have q1 := Nat.add_mul_div_right N (16 * x + y) hK0
        have q2 := Nat.add_mul_div_right (beNumber m') c.toNat hK0
        rw [Nat.div_eq_of_lt e1, Nat.zero_add] at q1
        rw [Nat.div_eq_of_lt e2, Nat.zero_add] at q2
        rw [← q1, ← q2, Nat.add_comm N, Nat.add_comm (beNumber m'), h4]
      have h6 : N = beNumber m' := by rw [h5] at h4; omega
      have hr := (ih m').2 ⟨hl, h2', hN.trans h6⟩
      simp only [unhexlify, ha, hb, hr, h5, UInt8.ofNat_toNat]

/-- C204. Without `unhex` the data itself is hashed. -/
theorem C204_raw (P : Prims) (d : Bytes) : toScriptHash P d false = .ok (P.ripemd160 (P.sha256 d)) := (C51_to_script_hash P d).1

/-- C204 for every text but those of one character: with `unhex` (the default) the bytes the text stands for are hashed; a text that is
not hexadecimal, or has an odd number of digits, raises. -/
theorem C204_unhex_partial (P : Prims) (d : Bytes) (hl : d.length ≠ 1) :
    (∀ m, HexTextOf m d → toScriptHash P d true = .ok (P.ripemd160 (P.sha256 m))) ∧
    ((∀ m, ¬ HexTextOf m d) → toScriptHash P d true = .error .binasciiError) := by
  have key : ∀ m, unhexlify d = .ok m → toScriptHash P d true = .ok (P.ripemd160 (P.sha256 m)) := by
    intro m hm
    rw [← C204_raw P m]
    unfold toScriptHash
    by_cases h0 : d = []
    · subst h0
      cases Except.ok.inj hm
      rfl
    · have : 1 < d.length := by have := List.length_pos_iff.2 h0; omega
      simp only [this, decide_true, Bool.and_self, if_true, hm, Bool.and_false]
      rfl
  constructor
  · intro m hm
    exact key m ((unhexlify_iff d m).2 hm)
  · intro h
    cases hd : unhexlify d with
    | ok m => exact absurd ((unhexlify_iff d m).1 hd) (h m)
    | error e =>
      have he := unhexlify_error hd
      subst he
      have : 1 < d.length := by
        have h0 : d ≠ [] := by rintro rfl; cases hd
        have := List.length_pos_iff.2 h0
        omega
      unfold toScriptHash
      simp only [this, decide_true, Bool.and_self, if_true, hd]

/-- C204. Which data raise: exactly those that are neither hexadecimal text nor a single byte. -/
theorem C204_raises_iff_partial (P : Prims) (d : Bytes) :
    (∃ e, toScriptHash P d true = .error e) ↔ d.length ≠ 1 ∧ ∀ m, ¬ HexTextOf m d := by
  constructor
  · rintro ⟨e, he⟩
    by_cases h1 : d.length = 1
    · unfold toScriptHash at he
      simp only [h1, lt_self_iff_false, decide_false, Bool.false_and] at he
      have := C204_raw P d
      unfold toScriptHash at this
      simp only [Bool.and_false] at this
      rw [if_neg (by simp)] at this he
      rw [this] at he
      cases he
    · refine ⟨h1, fun m hm => ?_⟩
      rw [(C204_unhex_partial P d h1).1 m hm] at he
      cases he
  · rintro ⟨h1, h2⟩
    exact ⟨_, (C204_unhex_partial P d h1).2 h2⟩

/-- C204 fails for every single byte: no single byte is hexadecimal text, yet it is hashed as it is, and so gets the script hash of
its own hexadecimal text. -/
theorem C204_single_byte_violated (P : Prims) (c : UInt8) :
    (∀ m, ¬ HexTextOf m [c]) ∧ toScriptHash P [c] true = .ok (P.ripemd160 (P.sha256 [c])) ∧
    ∃ d, HexTextOf [c] d ∧ toScriptHash P d true = toScriptHash P [c] true := by
  have h1 : toScriptHash P [c] true = .ok (P.ripemd160 (P.sha256 [c])) := C204_raw P [c]
  refine ⟨fun m h => ?_, h1, hexlify [c], (unhexlify_iff _ _).1 (unhexlify_hexlify [c]), ?_⟩
  · have := h.1
    simp at this
    omega
  · rw [h1, (C51_to_script_hash P [c]).2.2, C204_raw]

/-- "21ac" in either case stands for two bytes; "xy" and "21a" stand for nothing. -/
example : HexTextOf [0x21, 0xac] [0x32, 0x31, 0x41, 0x63] ∧ (∀ m, ¬ HexTextOf m [0x78, 0x79]) ∧ ∀ m, ¬ HexTextOf m [0x32, 0x31, 0x61] := by
  refine ⟨(unhexlify_iff _ _).1 rfl, fun m h => ?_, fun m h => ?_⟩ <;> cases (unhexlify_iff _ _).2 h

/-! ### C205 -/

/-- C205. -/
theorem C205_valid_iff (P : Prims) (h : Bytes) :
    (isValidPublicAddress P (scripthashToAddress P h) = .ok true ↔ h.length = 20) ∧
    (h.length ≠ 20 → isValidPublicAddress P (scripthashToAddress P h) = .ok false) ∧
    toAddress P h = scripthashToAddress P h := by
  have key : isValidPublicAddress P (scripthashToAddress P h) = .ok true ↔ h.length = 20 := by
    constructor
    · intro hv
      obtain ⟨v, h', hb, hl, _⟩ := ((C40_accepted_partial P _).1).1 hv
      have := ((C41_accepted_partial P _ h').1).2 (.inl ⟨v, hb⟩)
      rw [show scripthashToAddress P h = toAddress P h from rfl, C38_roundtrip] at this
      rw [Except.ok.inj this]
      exact hl
    · intro hl
      exact (C39_generated_valid P h hl).2.2
  refine ⟨key, fun hl => ?_, rfl⟩
  obtain ⟨b, hb⟩ := C90_total P (scripthashToAddress P h)
  cases b with
  | false => exact hb
  | true => exact absurd (key.1 hb) hl

example : ([1, 2, 3] : Bytes).length ≠ 20 ∧ (List.replicate 20 (7 : UInt8)).length = 20 := by decide

/-! ### C206 -/

/-- A NEO script: push the bytes `m` (1 to 75 of them: the opcode is their number), then CHECKSIG (0xac). -/
def PushThenChecksig (m script : Bytes) : Prop :=
  ∃ n : UInt8, script = [n] ++ m ++ [0xac] ∧ n.toNat = m.length ∧ 1 ≤ m.length ∧ m.length ≤ 75

private theorem unhex_append : ∀ {d m t : Bytes}, unhexlify d = .ok m → unhexlify (d ++ t) = (unhexlify t).map (m ++ ·)
  | [], m, t, h => by
    cases Except.ok.inj h
    rw [List.nil_append]
    cases unhexlify t <;> rfl
  | [c], m, t, h => by cases h
  | a :: b :: rest, m, t, h => by
    cases ha : hexVal a with
    | none => simp [unhexlify, ha] at h
    | some x =>
      cases hb : hexVal b with
      | none => simp [unhexlify, ha, hb] at h
      | some y =>
        cases hr : unhexlify rest with
        | error e => simp [unhexlify, ha, hb, hr] at h
        | ok r =>
          have ih := unhex_append (t := t) hr
          simp only [unhexlify, ha, hb, hr] at h
          cases Except.ok.inj h
          simp only [List.cons_append, unhexlify, ha, hb, ih]
          cases unhexlify t <;> rfl

private theorem redeem_eq {d m : Bytes} (h : unhexlify d = .ok m) : pubkeyToRedeem d = .ok ([0x21] ++ m ++ [0xac]) := by
  have h1 : unhexlify ([0x32, 0x31] ++ d) = .ok ([0x21] ++ m) := by
    rw [unhex_append (show unhexlify [0x32, 0x31] = .ok [0x21] from rfl), h]; rfl
  unfold pubkeyToRedeem
  rw [unhex_append h1]
  rfl

/-- C206 for the text of a compressed public key (33 bytes): the script pushes the key and checks a signature; the hash is the hash160
of it. The other texts: no script for what is not hexadecimal, a script that does not push the key for the rest. -/
theorem C206_redeem_iff_partial (P : Prims) (d m : Bytes) (h : HexTextOf m d) :
    ∃ script, pubkeyToRedeem d = .ok script ∧ pubkeyToPubhash P d = .ok (P.ripemd160 (P.sha256 script)) ∧
      (PushThenChecksig m script ↔ m.length = 33) := by
  have hr : pubkeyToRedeem d = .ok ([0x21] ++ m ++ [0xac]) := redeem_eq ((unhexlify_iff d m).2 h)
  refine ⟨_, hr, ?_, ?_⟩
  · simp only [pubkeyToPubhash, hr]; rfl
  · constructor
    · rintro ⟨n, h1, h2, _⟩
      simp only [List.cons_append, List.nil_append, List.cons.injEq] at h1
      rw [← h2, ← h1.1]
      rfl
    · intro hm
      exact ⟨0x21, rfl, by rw [hm]; rfl, by omega, by omega⟩

/-- C206. Everything else raises. -/
theorem C206_raises (P : Prims) (d : Bytes) (h : ∀ m, ¬ HexTextOf m d) :
    pubkeyToRedeem d = .error .binasciiError ∧ pubkeyToPubhash P d = .error .binasciiError := by
  have h1 : pubkeyToRedeem d = .error .binasciiError := by
    unfold pubkeyToRedeem
    refine unhexlify_not_hexLike ((hexLike_false_iff _).2 fun hx => ?_)
    have hd : HexText d := by
      refine ⟨?_, fun c hc => hx.2 c (by simp [hc])⟩
      have := hx.1
      simp at this
      omega
    obtain ⟨m, hm⟩ := (unhexlify_ok_iff d).2 ((hexLike_iff d).2 hd)
    exact h m ((unhexlify_iff d m).1 hm)
  exact ⟨h1, by simp only [pubkeyToPubhash, h1]⟩

/-- C206 fails for every key of another length, such as the 65 bytes of an uncompressed one: the script pushes 33 bytes of it and goes
on to execute the rest. -/
theorem C206_length_violated (P : Prims) (m : Bytes) (hm : m.length ≠ 33) :
    ∃ d script, HexTextOf m d ∧ pubkeyToRedeem d = .ok script ∧ (∃ h, pubkeyToPubhash P d = .ok h) ∧ ¬ PushThenChecksig m script ∧
      (33 < m.length → ∃ rest, script = [0x21] ++ m.take 33 ++ rest ∧ rest = m.drop 33 ++ [0xac] ∧ rest ≠ [0xac]) := by
  have h := (unhexlify_iff _ _).1 (unhexlify_hexlify m)
  obtain ⟨script, h1, h2, h3⟩ := C206_redeem_iff_partial P _ m h
  refine ⟨_, script, h, h1, ⟨_, h2⟩, fun e => hm (h3.1 e), fun hl => ?_⟩
  rw [redeem_eq (unhexlify_hexlify m)] at h1
  rw [← Except.ok.inj h1]
  refine ⟨_, ?_, rfl, fun e => ?_⟩
  · rw [← List.append_assoc, List.append_assoc [0x21] (List.take 33 m), List.take_append_drop]
  · have := congrArg List.length e
    simp at this
    omega

/-- An uncompressed key has 65 bytes. -/
example : (List.replicate 65 (4 : UInt8)).length ≠ 33 ∧ 33 < (List.replicate 65 (4 : UInt8)).length := by decide

end Neo.Props
