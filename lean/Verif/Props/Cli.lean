import Verif.Props.KeyPair
import Verif.Model.Cli
import Verif.Spec.BytesLiteral

/-!
# C111–C115: the `np-utils` command and the address version

`P`, `B` as in Verif/Props/KeyPair.lean.
-/

namespace Neo.Props
open Py Spec Base58 EC Spec.EC

/-! ## C111 -/

private theorem wallet_init {P : Prims} {B : Btc} {r : Bytes} {w w' : World} {kp : KeyPair} {s : Str} {w2 : World}
    (h : KeyPair.init P B r w = (.ok kp, w')) (he : KeyPair.exportWIF P kp w' = (.ok s, w2)) :
    KeyPair.createWallet P B r w = match KeyPair.getAddress P kp with
      | .error e => (.error e, w2)
      | .ok a => (.ok (s, a), w2) := by
  rw [KeyPair.createWallet, h]
  simp only
  rw [he]
  rfl

/-- C111. For every random key from 1 to the group order − 1, `create_wallet()` returns the WIF of the key and the address of
its public key (key times base point), a valid address; the WIF gives the key back, and a key pair made from that key has
the same address. -/
theorem C111_wallet (P : Prims) (B : Btc) (hB : DerivesPublicKeys B keyPairCurve) (random : Bytes) (w : World)
    (hl : random.length = 32) (h0 : 0 < beNumber random) (hn : beNumber random < p256Order) :
    letI := Fact.mk p256_prime
    ∃ wif address w', KeyPair.createWallet P B random w = (.ok (wif, address), w') ∧
      wif.length = 52 ∧ Wif (fun x => P.sha256 (P.sha256 x)) random wif ∧
      KeyPair.privateKeyFromWIF P (some wif) = .ok random ∧
      (∃ Q, AddressOf (fun x => P.sha256 (P.sha256 x)) (fun x => P.ripemd160 (P.sha256 x)) Q address ∧
        Reduced secp256r1Curve Q ∧
        ∀ G, Denotes secp256r1Curve secp256r1.G G → Denotes secp256r1Curve Q (beNumber random • G)) ∧
      address.length = 34 ∧ isValidPublicAddress P address = .ok true ∧
      ∀ w1, ∃ kp w2, KeyPair.init P B random w1 = (.ok kp, w2) ∧ KeyPair.getAddress P kp = .ok address := by
  obtain ⟨kp, w', e, _, hr, hd, _⟩ := (C47_derived P B hB random w hl).2 hn
  obtain ⟨hi, _⟩ := derived_finite hB e hl (by omega)
  obtain ⟨a, h1, h2, _, h4, h5⟩ := (C48_address P kp (reduced_coords hr)).1 hi
  obtain ⟨s, w2, k1, k2, k3, k4⟩ := C43_roundtrip P B random kp w w' e w'
  rw [hl] at k3 k4
  refine ⟨s, a, w2, ?_, k2, k3, k4, ⟨kp.publicKey, h2, hr, hd⟩, h4, h5, ?_⟩
  · rw [wallet_init e k1, h1]
  · intro w1
    refine ⟨kp, (KeyPair.init P B random w1).2, Prod.ext ?_ rfl, h1⟩
    exact (show KeyPair.construct P B keyPairCurve random = _ from congrArg Prod.fst e)

/-- C111. For all other draws (the number 0, or one from the group order on) it raises: no wallet is printed. -/
theorem C111_no_wallet (P : Prims) (B : Btc) (hB : DerivesPublicKeys B keyPairCurve) (random : Bytes) (w : World)
    (hl : random.length = 32) (h : beNumber random = 0 ∨ p256Order ≤ beNumber random) :
    ∃ e, (KeyPair.createWallet P B random w).1 = .error e := by
  have := Fact.mk p256_prime
  rcases h with h | h
  · have hpos : 0 < p256Order := by decide
    obtain ⟨kp, w', e, _, hr, hd, _⟩ := (C47_derived P B hB random w hl).2 (by omega)
    obtain ⟨s, w2, k1, _⟩ := C43_roundtrip P B random kp w w' e w'
    obtain ⟨G, hG, _⟩ := base_exists
    have hz := hd G hG
    rw [h, zero_nsmul] at hz
    have hz' : kp.publicKey = zero := hz
    have hinf : isInfinity secp256r1Curve kp.publicKey = true := by rw [hz']; decide +kernel
    refine ⟨.binasciiError, ?_⟩
    rw [wallet_init e k1, (C48_address P kp (reduced_coords hr)).2 hinf]
  · refine ⟨.exc, ?_⟩
    have := (C47_derived P B hB random w hl).1 h
    rw [KeyPair.createWallet]
    revert this
    cases KeyPair.init P B random w with
    | mk a w' => intro h; simp only at h; subst h; rfl

/-- C111. `np-utils --create-wallet` prints exactly these two texts, as a JSON object with the members private_key and address, and
exits normally; when `create_wallet` raises it prints nothing and ends in that exception. -/
theorem C111_main (P : Prims) (B : Btc) (random : Bytes) (w : World) :
    (∀ wif address w', KeyPair.createWallet P B random w = (.ok (wif, address), w') →
      cliMain P B { createWallet := true } random w = (([['{'], "  \"private_key\": \"".toList ++ wif ++ ['"', ','],
        "  \"address\": \"".toList ++ address ++ ['"'], ['}']], .ok), w')) ∧
    (∀ e w', KeyPair.createWallet P B random w = (.error e, w') →
      cliMain P B { createWallet := true } random w = (([], .uncaught e), w')) := by
  constructor
  · intro wif address w' h
    rw [cliMain, if_neg (by simp)]
    simp only [h]
    simp [walletJson]
  · intro e w' h
    rw [cliMain, if_neg (by simp)]
    simp only [h]
    simp

/-- The key 1 (31 zero bytes and a one) meets the hypotheses of `C111_wallet`. -/
example : let random : Bytes := List.replicate 31 0 ++ [1]
    random.length = 32 ∧ 0 < beNumber random ∧ beNumber random < p256Order := by decide +kernel
/-- The all-ones draw meets those of `C111_no_wallet`. -/
example : p256Order ≤ beNumber (List.replicate 32 255) := by decide +kernel

/-! ## C112 -/

/-- C112. With `ADDRESS_VERSION` set to any byte value the address of every script hash is its Base58Check text with that version
byte; `address_to_scripthash` turns it back into the script hash. -/
theorem C112_version (P : Prims) (v : UInt8) (h : Bytes) :
    ∃ s, scripthashToAddressV P v.toNat h = .ok s ∧ Base58Check (fun x => P.sha256 (P.sha256 x)) v h s ∧
      cliAddressToScripthash P s = .ok h := by
  have hv : (0 : Int) ≤ (v.toNat : Int) ∧ (v.toNat : Int) < 256 := by have := v.toNat_lt; omega
  have hb : UInt8.ofNat ((v.toNat : Int)).toNat = v := by simp
  have hs : Base58Check (fun x => P.sha256 (P.sha256 x)) v h (encode (v :: h ++ (binDblSha256 P (v :: h)).take 4)) := by
    rw [Base58Check, ← C37_encode]
    rfl
  refine ⟨_, ?_, hs, ?_⟩
  · rw [scripthashToAddressV, if_pos hv]
    simp only [hb]
  · exact ((C41_accepted_partial P _ h).1).mpr (.inl ⟨v, hs⟩)

/-- C112. Setting 23 changes nothing, values outside 0..255 raise a ValueError, and no two pairs (version, script hash) share an
address. -/
theorem C112_settings (P : Prims) (v v' : Int) (h h' : Bytes) :
    scripthashToAddressV P 23 h = .ok (scripthashToAddress P h) ∧
    ((v < 0 ∨ 256 ≤ v) → scripthashToAddressV P v h = .error .valueError) ∧
    (∀ s, scripthashToAddressV P v h = .ok s → scripthashToAddressV P v' h' = .ok s → v = v' ∧ h = h') := by
  refine ⟨rfl, ?_, ?_⟩
  · intro hv
    rw [scripthashToAddressV, if_neg (by omega)]
  · intro s h1 h2
    rw [scripthashToAddressV] at h1 h2
    by_cases hv : 0 ≤ v ∧ v < 256
    swap
    · rw [if_neg hv] at h1; cases h1
    by_cases hv' : 0 ≤ v' ∧ v' < 256
    swap
    · rw [if_neg hv'] at h2; cases h2
    rw [if_pos hv] at h1
    rw [if_pos hv'] at h2
    have he := (Except.ok.inj h1).trans (Except.ok.inj h2).symm
    have hd := congrArg decode he
    rw [decode_encode, decode_encode] at hd
    have hd := Except.ok.inj hd
    have hl1 : ((binDblSha256 P (UInt8.ofNat v.toNat :: h)).take 4).length = 4 := by simp [binDblSha256, P.sha256_length]
    have hl2 : ((binDblSha256 P (UInt8.ofNat v'.toNat :: h')).take 4).length = 4 := by simp [binDblSha256, P.sha256_length]
    obtain ⟨e, _⟩ := List.append_inj' hd (by rw [hl1, hl2])
    simp only [List.cons.injEq] at e
    refine ⟨?_, e.2⟩
    have := congrArg UInt8.toNat e.1
    simp only [UInt8.toNat_ofNat'] at this
    omega

example : (0 : Int) ≤ 42 ∧ (42 : Int) < 256 := by decide

/-! ## C113 -/

/-- One escaped byte of a literal with this quote. -/
def token (q : Char) (b : UInt8) : List Char → Bool
  | ['\\', 'x', c, d] => match digit c, digit d with
    | some x, some y => UInt8.ofNat (16 * x + y) == b
    | _, _ => false
  | ['\\', 'n'] => b == 10
  | ['\\', 'r'] => b == 13
  | ['\\', 't'] => b == 9
  | ['\\', '\\'] => b == 92
  | ['\\', '\''] => b == 39
  | ['\\', '"'] => b == 34
  | [c] => c != q && c != '\\' && decide (32 ≤ c.toNat) && decide (c.toNat < 127) && UInt8.ofNat c.toNat == b
  | _ => false

theorem token_ok : ∀ n : Fin 256, ∀ q ∈ [(39 : UInt8), 34],
    token (Char.ofNat q.toNat) (UInt8.ofNat n.1) (reprByte q (UInt8.ofNat n.1)) = true := by decide +kernel

theorem body_token (q : Char) (hq : q ≠ '\\') (b : UInt8) (t rest : List Char) (h : token q b t = true) :
    literalBody q (t ++ rest) = (literalBody q rest).map (b :: ·) := by
  unfold token at h
  split at h
  · rename_i c d
    split at h
    · rename_i x y hx hy
      simp only [List.cons_append, List.nil_append, literalBody, hx, hy]
      rw [← eq_of_beq h]
      cases literalBody q rest <;> rfl
    · cases h
  · rw [eq_of_beq h]; simp only [List.cons_append, List.nil_append, literalBody]
  · rw [eq_of_beq h]; simp only [List.cons_append, List.nil_append, literalBody]
  · rw [eq_of_beq h]; simp only [List.cons_append, List.nil_append, literalBody]
  · rw [eq_of_beq h]; simp only [List.cons_append, List.nil_append, literalBody]
  · rw [eq_of_beq h]; simp only [List.cons_append, List.nil_append, literalBody]
  · rw [eq_of_beq h]; simp only [List.cons_append, List.nil_append, literalBody]
  · rename_i c
    simp only [Bool.and_eq_true, bne_iff_ne, ne_eq, decide_eq_true_eq, beq_iff_eq] at h
    obtain ⟨⟨⟨⟨h1, h2⟩, h3⟩, h4⟩, h5⟩ := h
    rw [List.cons_append, List.nil_append, literalBody.eq_def]
    split <;> rename_i heq
    · cases heq
    all_goals first
      | (simp only [List.cons.injEq] at heq; exact absurd heq.1 h2)
      | skip
    simp only [List.cons.injEq] at heq
    obtain ⟨rfl, rfl⟩ := heq
    rw [if_neg h1, if_neg (by rintro (h | h | h) <;> [exact h2 h; omega; omega]), h5]
  · cases h

/-- The third line is a Python literal of the script hash. -/
theorem literal_repr (h : Bytes) : bytesLiteral (reprBytes h) = some h := by
  have key : ∀ q : UInt8, (q = 39 ∨ q = 34) → ∀ h : Bytes,
      literalBody (Char.ofNat q.toNat) (h.flatMap (reprByte q) ++ [Char.ofNat q.toNat]) = some h := by
    intro q hq h
    induction h with
    | nil => rcases hq with rfl | rfl <;> rfl
    | cons b t ih =>
      rw [List.flatMap_cons, List.append_assoc, body_token (b := b) _ (by rcases hq with rfl | rfl <;> decide), ih]
      · rfl
      · have := token_ok ⟨b.toNat, b.toNat_lt⟩ q (by rcases hq with rfl | rfl <;> simp)
        simpa using this
  rw [reprBytes]
  split_ifs
  · exact key 34 (.inr rfl) h
  · exact key 39 (.inl rfl) h

/-- C113. For every script hash of twenty bytes, `np-utils --address-to-scripthash` of its address prints three lines and exits
normally: the script hash in big-endian hexadecimal, in little-endian hexadecimal, and as a Python literal. -/
theorem C113_print (P : Prims) (B : Btc) (h : Bytes) (r : Bytes) (w : World) :
    ∃ l, cliMain P B { addressToScripthash := some (toAddress P h) } r w = (([
        "Scripthash big endian:  0x".toList ++ hexStr h.reverse,
        "Scripthash little endian: ".toList ++ hexStr h,
        "Scripthash neo-python format: ".toList ++ l], .ok), w) ∧ bytesLiteral l = some h := by
  refine ⟨reprBytes h, ?_, literal_repr h⟩
  rw [cliMain, if_neg (by simp)]
  simp only [cliAddress, C38_roundtrip]
  simp

/-- C113. Each of the two hexadecimal texts, given back to `np-utils --scripthash-to-address`, prints that address last and exits
normally. -/
theorem C113_back (P : Prims) (B : Btc) (h : Bytes) (hl : h.length = 20) (r : Bytes) (w : World) :
    cliMain P B { scripthashToAddress := some (['0', 'x'] ++ hexStr h.reverse) } r w = (([toAddress P h], .ok), w) ∧
    ∃ lines, cliMain P B { scripthashToAddress := some (hexStr h) } r w = ((lines ++ [toAddress P h], .ok), w) := by
  obtain ⟨h1, h2, _⟩ := C42_both_orders P h hl
  constructor
  · rw [cliMain, if_neg (by simp)]
    simp only [cliScripthash, h2]
    simp
  · have hm : ∃ lines, cliScripthash P (hexStr h) = (lines ++ [toAddress P h], .ok) := ⟨_, by rw [cliScripthash, h1]⟩
    obtain ⟨lines, hm⟩ := hm
    refine ⟨lines, ?_⟩
    rw [cliMain, if_neg (by simp)]
    simp only [hm]
    simp

example : (List.replicate 20 (7 : UInt8)).length = 20 := by decide
example : bytesLiteral "b'#\\xba\\'\\n\"'".toList = some [0x23, 0xba, 0x27, 0x0a, 0x22] := by decide +kernel

/-! ## C114, C115 -/

private theorem hexNumber_lt {t : Str} (_h : AllHex t) : hexNumber t < 16 ^ t.length := by
  have := Nat.ofDigits_lt_base_pow_length (b := 16) (l := t.reverse.map fun c => (digit c).getD 0) (by decide) (by
    intro x hx
    obtain ⟨c, _, rfl⟩ := List.mem_map.1 hx
    unfold digit
    split <;> simp)
  simpa [hexNumber] using this

/-- C114. `np-utils --scripthash-to-address` ends for every argument either normally, its last line the address of a script hash
the argument writes, or with exit status 1 and the last line "Wrong format"; never in an uncaught exception. -/
theorem C114_ends (P : Prims) (B : Btc) (s : Str) (r : Bytes) (w : World) :
    (∃ lines a, cliMain P B { scripthashToAddress := some s } r w = ((lines ++ [a], .ok), w) ∧
      ∃ h t : List _, h.length = 20 ∧ t.length = 40 ∧ AllHex t ∧ NeoAddress (fun x => P.sha256 (P.sha256 x)) h a ∧
        ((s = t ∧ beNumber h = hexNumber t) ∨ (s = ['0', 'x'] ++ t ∧ leNumber h = hexNumber t))) ∨
    (∃ lines, cliMain P B { scripthashToAddress := some s } r w = ((lines ++ ["Wrong format".toList], .one), w) ∧
      ¬ ∃ t, t.length = 40 ∧ AllHex t ∧ (s = t ∨ s = ['0', 'x'] ++ t)) := by
  have hm : cliMain P B { scripthashToAddress := some s } r w = (cliScripthash P s, w) := by
    rw [cliMain, if_neg (by simp)]
    simp only [List.nil_append]
    rw [if_neg (by simp)]
    generalize cliScripthash P s = c
    obtain ⟨l, e⟩ := c
    by_cases he : e = .ok
    · subst he; simp
    · simp [he]
  cases hc : cliScripthashToAddress P s with
  | ok a =>
    left
    refine ⟨_, a, by rw [hm, cliScripthash, hc], ?_⟩
    obtain ⟨h, t, h1, h2, h3, h4, h5⟩ := (C42_scripthash_to_address P s a).1 hc
    exact ⟨h, t, h1, h2, h3, (C38_address P h a h1).1 h4.symm, h5⟩
  | error e =>
    right
    have := C42_failures P s e hc
    subst this
    refine ⟨_, by rw [hm, cliScripthash, hc], ?_⟩
    rintro ⟨t, h1, h2, h3⟩
    have hn := hexNumber_lt h2
    rw [h1, show (16 : Nat) ^ 40 = 256 ^ 20 by norm_num] at hn
    have hle := leToNat_natToLE_of_lt hn
    have hll : (natToLE 20 (hexNumber t)).length = 20 := natToLE_length 20 _
    rcases h3 with rfl | rfl
    · have := (C42_scripthash_to_address P _ (toAddress P (natToLE 20 (hexNumber s)).reverse)).2
        ⟨(natToLE 20 (hexNumber s)).reverse, s, by rw [List.length_reverse, hll], h1, h2, rfl, .inl ⟨rfl, by
          rw [beNumber, List.reverse_reverse, leNumber_eq, hle]⟩⟩
      rw [hc] at this
      cases this
    · have := (C42_scripthash_to_address P _ (toAddress P (natToLE 20 (hexNumber t)))).2
        ⟨natToLE 20 (hexNumber t), t, hll, h1, h2, rfl, .inr ⟨rfl, by rw [leNumber_eq, hle]⟩⟩
      rw [hc] at this
      cases this

example : "Z".toList.length ≠ 40 := by decide

private theorem main_address (P : Prims) (B : Btc) (s : Str) (r : Bytes) (w : World) :
    cliMain P B { addressToScripthash := some s } r w = (cliAddress P s, w) := by
  rw [cliMain, if_neg (by simp)]
  simp only
  generalize cliAddress P s = c
  obtain ⟨l, e⟩ := c
  by_cases he : e = .ok
  · subst he; simp
  · simp [he]

/-- C115, for non-empty Base58 texts: `np-utils --address-to-scripthash` ends normally, with three lines, or prints one message and
exits with status 1. The full claim ranges over all texts. -/
theorem C115_ends_partial (P : Prims) (B : Btc) (s : Str) (r : Bytes) (w : World) (hs : Spec.Base58.IsText s) (h0 : s ≠ []) :
    (∃ h l1 l2 l3, cliAddressToScripthash P s = .ok h ∧
      cliMain P B { addressToScripthash := some s } r w = (([l1, l2, l3], .ok), w)) ∨
    (cliMain P B { addressToScripthash := some s } r w = ((["Invalid address: invalid checksum".toList], .one), w)) := by
  obtain ⟨data, hd, hne⟩ : ∃ data, decode s = .ok data ∧ data ≠ [] := by
    obtain ⟨data, hd⟩ := (C37_decode s).2.1.2 hs
    refine ⟨data, hd, ?_⟩
    rintro rfl
    exact h0 ((encode_decode hd).symm.trans (by decide +kernel))
  rw [main_address]
  cases hc : cliAddressToScripthash P s with
  | ok h => left; exact ⟨h, _, _, _, rfl, by rw [cliAddress, hc]⟩
  | error e =>
    right
    have := (C41_accepted_partial P s []).2 data hd hne (by rintro ⟨h, hh⟩; rw [hc] at hh; cases hh)
    rw [cliAddress, this]

/-- C115 fails for the empty text and for every text that is not Base58: an uncaught IndexError or ValueError. -/
theorem C115_traceback_violated (P : Prims) (B : Btc) (r : Bytes) (w : World) :
    cliMain P B { addressToScripthash := some [] } r w = (([], .uncaught .indexError), w) ∧
    ∀ s, ¬ Spec.Base58.IsText s → cliMain P B { addressToScripthash := some s } r w = (([], .uncaught .valueError), w) := by
  obtain ⟨_, h2, h3⟩ := C41_rejects_foreign_violated P
  refine ⟨by rw [main_address, cliAddress, h2], ?_⟩
  intro s hs
  rw [main_address, cliAddress, h3 s hs]

example : ¬ Spec.Base58.IsText "A0".toList := by
  intro h; have := h '0' (by simp); revert this; decide +kernel

/-! ## C187 -/

/-- One call of np-utils after the other, up to the first that does not end normally: all the lines, and how the last one ended. -/
def callsInTurn (P : Prims) (B : Btc) (random : Bytes) : List CliArgs → World → (List Str × CliExit) × World
  | [], w => (([], .ok), w)
  | args :: rest, w =>
    match cliMain P B args random w with
    | ((lines, .ok), w') =>
      match callsInTurn P B random rest w' with
      | ((lines', e), w'') => ((lines ++ lines', e), w'')
    | r => r

/-- The options that are given, one per call, in the order address, script hash, wallet. -/
def oneAtATime (args : CliArgs) : List CliArgs :=
  (match args.addressToScripthash with | none => [] | some a => [{ addressToScripthash := some a }]) ++
  (match args.scripthashToAddress with | none => [] | some s => [{ scripthashToAddress := some s }]) ++
  (if args.createWallet then [{ createWallet := true }] else [])

private theorem main_scripthash (P : Prims) (B : Btc) (s : Str) (r : Bytes) (w : World) :
    cliMain P B { scripthashToAddress := some s } r w = (cliScripthash P s, w) := by
  rw [cliMain, if_neg (by simp)]
  simp only
  generalize cliScripthash P s = c
  obtain ⟨l, e⟩ := c
  by_cases he : e = .ok
  · subst he; simp
  · simp [he]

/-- C187. Several options in one call of np-utils do what one call for each of them does, in the order address, script hash, wallet,
up to the first that does not end normally. -/
theorem C187_options (P : Prims) (B : Btc) (args : CliArgs) (random : Bytes) (w : World) (h : oneAtATime args ≠ []) :
    cliMain P B args random w = callsInTurn P B random (oneAtATime args) w := by
  obtain ⟨a, s, c⟩ := args
  have ha := fun a => main_address P B a random w
  have hs := fun s => main_scripthash P B s random w
  have hc : cliMain P B { createWallet := true } random w = match KeyPair.createWallet P B random w with
      | (.ok (wif, address), w) => ((walletJson wif address, .ok), w)
      | (.error e, w) => (([], .uncaught e), w) := by
    rw [cliMain, if_neg (by simp)]
    cases KeyPair.createWallet P B random w with
    | mk r w' => cases r <;> simp
  cases a with
  | none =>
    cases s with
    | none =>
      cases c with
      | false => exact absurd rfl h
      | true =>
        show _ = callsInTurn P B random [{ createWallet := true }] w
        rw [callsInTurn, hc]
        cases KeyPair.createWallet P B random w with
        | mk r w' => cases r <;> simp [callsInTurn]
    | some s =>
      cases c with
      | false =>
        show _ = callsInTurn P B random [{ scripthashToAddress := some s }] w
        rw [callsInTurn, hs]
        obtain ⟨l, e⟩ := cliScripthash P s
        cases e <;> simp [callsInTurn]
      | true =>
        show _ = callsInTurn P B random [{ scripthashToAddress := some s }, { createWallet := true }] w
        rw [callsInTurn, hs, cliMain, if_neg (by simp)]
        simp only
        generalize cliScripthash P s = q
        obtain ⟨l, e⟩ := q
        cases e with
        | ok =>
          simp only [callsInTurn, hc]
          cases KeyPair.createWallet P B random w with
          | mk r w' => cases r <;> simp
        | one => simp
        | uncaught e => simp
  | some a =>
    cases s with
    | none =>
      cases c with
      | false =>
        show _ = callsInTurn P B random [{ addressToScripthash := some a }] w
        rw [callsInTurn, ha]
        obtain ⟨l, e⟩ := cliAddress P a
        cases e <;> simp [callsInTurn]
      | true =>
        show _ = callsInTurn P B random [{ addressToScripthash := some a }, { createWallet := true }] w
        rw [callsInTurn, ha, cliMain, if_neg (by simp)]
        simp only
        generalize cliAddress P a = q
        obtain ⟨l, e⟩ := q
        cases e with
        | ok =>
          simp only [callsInTurn, hc]
          cases KeyPair.createWallet P B random w with
          | mk r w' => cases r <;> simp
        | one => simp
        | uncaught e => simp
    | some s =>
      have tail : ∀ c, callsInTurn P B random (oneAtATime ⟨none, some s, c⟩) w =
          match cliScripthash P s with
          | (l, .ok) => if c then
              match KeyPair.createWallet P B random w with
              | (.ok (wif, address), w) => ((l ++ walletJson wif address, .ok), w)
              | (.error e, w) => ((l, .uncaught e), w)
            else ((l, .ok), w)
          | r => (r, w) := by
        intro c
        cases c with
        | false =>
          show callsInTurn P B random [{ scripthashToAddress := some s }] w = _
          rw [callsInTurn, hs]
          obtain ⟨l, e⟩ := cliScripthash P s
          cases e <;> simp [callsInTurn]
        | true =>
          show callsInTurn P B random [{ scripthashToAddress := some s }, { createWallet := true }] w = _
          rw [callsInTurn, hs]
          generalize cliScripthash P s = q
          obtain ⟨l, e⟩ := q
          cases e with
          | ok =>
            simp only [callsInTurn, hc]
            cases KeyPair.createWallet P B random w with
            | mk r w' => cases r <;> simp
          | one => simp
          | uncaught e => simp
      show _ = callsInTurn P B random ({ addressToScripthash := some a } :: oneAtATime ⟨none, some s, c⟩) w
      rw [callsInTurn, ha, cliMain, if_neg (by simp)]
      simp only
      generalize cliAddress P a = q1
      obtain ⟨l1, e1⟩ := q1
      cases e1 with
      | ok =>
        simp only [tail]
        generalize cliScripthash P s = q
        obtain ⟨l, e⟩ := q
        cases e with
        | ok =>
          cases c with
          | true =>
            cases KeyPair.createWallet P B random w with
            | mk r w' => cases r <;> simp
          | false => simp
        | one => simp
        | uncaught e => simp
      | one => simp
      | uncaught e => simp

/-- C187. Without an option np-utils prints nothing (on standard output) and exits with status 1. -/
theorem C187_none (P : Prims) (B : Btc) (args : CliArgs) (random : Bytes) (w : World) (h : oneAtATime args = []) :
    cliMain P B args random w = (([], .one), w) := by
  obtain ⟨a, s, c⟩ := args
  have ha : a = none := by cases a with | none => rfl | some a => cases s <;> simp [oneAtATime] at h
  subst ha
  have hs : s = none := by cases s with | none => rfl | some s => simp [oneAtATime] at h
  subst hs
  have hc : c = false := by cases c with | false => rfl | true => simp [oneAtATime] at h
  subst hc
  rw [cliMain, if_pos (by simp)]

/-- Two options, the first of which fails: the second is not run. -/
example (P : Prims) (B : Btc) (r : Bytes) (w : World) :
    cliMain P B { addressToScripthash := some [], createWallet := true } r w = (([], .uncaught .indexError), w) := by
  rw [C187_options P B _ r w (by simp [oneAtATime])]
  show callsInTurn P B r [{ addressToScripthash := some [] }, { createWallet := true }] w = _
  rw [callsInTurn, (C115_traceback_violated P B r w).1]

end Neo.Props
