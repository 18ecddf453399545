import Verif.Props.SignVerify
import Verif.Props.KeyPair
import Verif.Proofs.Primitives

/-! # C207, C208: the private keys `Sign` takes -/

namespace Neo.Props
open Py Spec Neo.Bitcoin

/-- Double SHA-256. -/
def dblSha (b : Bytes) : Bytes := Hashes.sha256 (Hashes.sha256 b)

/-- The forms of the private key with the number `d`: 32 bytes; 64 hexadecimal digits, lower or upper case, as a text or as its ASCII
bytes; either with a compression mark behind; the number itself; the WIF text. -/
inductive KeyForm (d : Nat) : Val → Prop
  | bytes (b : Bytes) : b.length = 32 → beNumber b = d → KeyForm d (.bytes b)
  | bytearray (b : Bytes) : b.length = 32 → beNumber b = d → KeyForm d (.bytearray b)
  | bytesMarked (b : Bytes) (mark : UInt8) : b.length = 32 → beNumber b = d → KeyForm d (.bytes (b ++ [mark]))
  | hex (t : Str) : t.length = 64 → AllHex t → hexNumber t = d → KeyForm d (.str t)
  | hexMarked (t : Str) (x y : Char) : t.length = 64 → AllHex t → hexNumber t = d → KeyForm d (.str (t ++ [x, y]))
  | hexAscii (b : Bytes) : b.length = 64 → AllHex (b.map fun c => Char.ofNat c.toNat) →
      hexNumber (b.map fun c => Char.ofNat c.toNat) = d → KeyForm d (.bytes b)
  | number (v : Val) : v.index? = some (d : Int) → KeyForm d v
  | wif (key : Bytes) (s : Str) : Wif dblSha key s → beNumber key = d → KeyForm d (.str s)

private theorem wif_text {key : Bytes} {s : Str} (h : Wif dblSha key s) :
    s.length = 52 ∧ b58checkToBin s = .ok (key ++ [0x01]) := by
  obtain ⟨hl, ht⟩ := h
  have h4 : ((dblSha ([0x80] ++ (key ++ [0x01]))).take 4).length = 4 := by
    rw [List.length_take, dblSha, Hashes.sha256_length]; rfl
  constructor
  · have hs : s = Base58.encode _ := (Base58.decode_eq_iff _ _).1 ((Base58.textOf_iff _ _).1 ht)
    rw [hs]
    refine wif_length ((key ++ [0x01]) ++ (dblSha ([0x80] ++ (key ++ [0x01]))).take 4) ?_
    rw [List.length_append, h4]
    simp [hl]
  · rw [b58checkToBin, b58_data ht]
    generalize hc : (dblSha ([0x80] ++ (key ++ [0x01]))).take 4 = chk at h4
    have hb : Base58.butLast4 ([0x80] ++ (key ++ [0x01]) ++ chk) = [0x80] ++ (key ++ [0x01]) := by
      rw [Base58.butLast4, List.length_append, h4, Nat.add_sub_cancel, List.take_left]
    have hlst : Base58.last4 ([0x80] ++ (key ++ [0x01]) ++ chk) = chk := by
      rw [Base58.last4, List.length_append, h4, Nat.add_sub_cancel, List.drop_left]
    simp only [hb, hlst]
    rw [if_pos (show (Hashes.sha256 (Hashes.sha256 ([0x80] ++ (key ++ [0x01])))).take 4 = chk from hc)]
    rfl

private theorem decode_form {d : Nat} {v : Val} (h : KeyForm d v) : decodePrivkey v = .ok (d : Int) := by
  cases h with
  | bytes b hl hd => rw [decodePrivkey, decode_bytes32 hl, hd]
  | bytearray b hl hd => rw [decodePrivkey, decode_bytes32 hl, hd]
  | bytesMarked b mark hl hd =>
    rw [decodePrivkey, decodePrivkeyBytes, if_pos (.inr (by simp [hl])), ← hl, List.take_left, beNumber_rev, hd]
  | hex t hl ha hd => rw [decodePrivkey, decode_text64 hl, (fromDigits_hex t ha).1, hd]
  | hexMarked t x y hl ha hd =>
    rw [decodePrivkey, decodePrivkeyStr, if_neg (by simp [hl]), if_pos (.inr (by simp [hl])), ← hl, List.take_left,
      (fromDigits_hex t ha).1, hd]
  | hexAscii b hl ha hd =>
    rw [decodePrivkey, decodePrivkeyBytes, if_neg (by omega), if_pos (.inl hl), List.take_of_length_le hl.le]
    rw [show asciiStr b = b.map fun c => Char.ofNat c.toNat from rfl, (fromDigits_hex _ ha).1, hd]
  | number v hv => cases v <;> simp_all [Val.index?, decodePrivkey]
  | wif key s hw hd =>
    obtain ⟨h52, hb⟩ := wif_text hw
    rw [decodePrivkey, decodePrivkeyStr, if_neg (by omega), if_neg (by omega), hb]
    simp only
    rw [if_pos (.inr (by simp [hw.1])), ← hw.1, List.take_left, beNumber_rev, hd]

private theorem sign_congr (P : Prims) (genK verify) (message : Val) {v v' : Val} (w : World)
    (h : decodePrivkey v = decodePrivkey v') :
    Neo.sign P (pyBtc genK verify) message v w = Neo.sign P (pyBtc genK verify) message v' w := by
  have : ∀ c hsh, (pyBtc genK verify).ecdsaRawSign c hsh v = (pyBtc genK verify).ecdsaRawSign c hsh v' := by
    intro c hsh
    show Bitcoin.ecdsaRawSign c genK hsh v = Bitcoin.ecdsaRawSign c genK hsh v'
    rw [Bitcoin.ecdsaRawSign, Bitcoin.ecdsaRawSign, h]
  rw [Neo.sign, Neo.sign]
  simp only [this]

/-- In every history `Sign` returns 64 bytes for a hexadecimal message whatever number the key is read as. -/
private theorem sign_ok (P : Prims) (genK verify) (nfc : Str → Str) (history : List LibCall) (message v : Val) (m : Bytes) (d : Int)
    (hm : unhexlifyVal message = .ok m) (hv : decodePrivkey v = .ok d) :
    ∃ sig : Bytes, sig.length = 64 ∧
      (Neo.sign P (pyBtc genK verify) message v (after P (pyBtc genK verify) nfc history)).1 = .ok sig := by
  generalize hw : after P (pyBtc genK verify) nfc history = w
  have hc : 0 < w.curve.p ∧ w.curve.p ≤ 2 ^ 256 ∧ 0 < w.curve.n ∧ w.curve.n ≤ 2 ^ 256 := by
    rcases after_curve P (pyBtc genK verify) nfc history with h | h <;> rw [← hw, h] <;> decide +kernel
  obtain ⟨p0, p1, n0, n1⟩ := hc
  have hr : ∃ u r s, (pyBtc genK verify).ecdsaRawSign w.curve (hexStr (P.sha256 m)) v = .ok (u, r, s) ∧
      0 ≤ r ∧ r < 2 ^ 256 ∧ 0 ≤ s ∧ s < 2 ^ 256 := by
    show ∃ u r s, Bitcoin.ecdsaRawSign w.curve genK (hexStr (P.sha256 m)) v = .ok (u, r, s) ∧ _
    rw [Bitcoin.ecdsaRawSign, hexStr, unhexlifyVal_hexStr, hv]
    simp only
    refine ⟨_, _, _, rfl, ?_⟩
    generalize (genK _ _ : Nat) = k
    have hx : 0 ≤ (fastMultiply w.curve ⟨w.curve.gx, w.curve.gy⟩ k).x ∧ (fastMultiply w.curve ⟨w.curve.gx, w.curve.gy⟩ k).x < w.curve.p :=
      ⟨Int.emod_nonneg _ (by omega), Int.emod_lt_of_pos _ (by omega)⟩
    generalize (fastMultiply w.curve ⟨w.curve.gx, w.curve.gy⟩ k).x = x at hx ⊢
    generalize ht : (inv k (w.curve.n : Int) * (_ + _)) % (w.curve.n : Int) = t
    have t1 : 0 ≤ t := by rw [← ht]; exact Int.emod_nonneg _ (by omega)
    have t2 : t < w.curve.n := by rw [← ht]; exact Int.emod_lt_of_pos _ (by omega)
    refine ⟨hx.1, by omega, ?_, ?_⟩ <;> split <;> omega
  obtain ⟨u, r, s, h1, h2, h3, h4, h5⟩ := hr
  obtain ⟨rb, r1, r2, r3⟩ := intToBytes_big h2 h3
  obtain ⟨sb, s1, s2, s3⟩ := intToBytes_big h4 h5
  exact ⟨rb ++ sb, by simp [r2, s2], (C92_sign _ _ _ _ _ _).2 ⟨m, u, r, s, rb, sb, hm, h1, rfl, r2, s2, r3, s3⟩⟩

/-! ### C207 -/

/-- C207. All forms of a private key give the same signature, on every message and in every state of the process. -/
theorem C207_forms_agree (P : Prims) (genK verify) (message : Val) (d : Nat) (v v' : Val) (h : KeyForm d v) (h' : KeyForm d v') (w : World) :
    Neo.sign P (pyBtc genK verify) message v w = Neo.sign P (pyBtc genK verify) message v' w :=
  sign_congr P genK verify message w ((decode_form h).trans (decode_form h').symm)

/-- C207. And `Sign` takes every one of them: for a hexadecimal message, after whatever calls, it returns 64 bytes. -/
theorem C207_accepted (P : Prims) (genK verify) (nfc : Str → Str) (history : List LibCall) (message : Val) (m : Bytes) (d : Nat) (v : Val)
    (hm : unhexlifyVal message = .ok m) (h : KeyForm d v) :
    ∃ sig : Bytes, sig.length = 64 ∧
      (Neo.sign P (pyBtc genK verify) message v (after P (pyBtc genK verify) nfc history)).1 = .ok sig :=
  sign_ok P genK verify nfc history message v m d hm (decode_form h)

/-- C207. In particular a key pair signs alike with its `PrivateKey` and with its `Export()`. -/
theorem C207_exported (genK verify) (B : Btc) (b : Bytes) (kp : KeyPair) (w w' w1 : World)
    (h : KeyPair.init realPrims B b w = (.ok kp, w')) (message : Val) :
    ∃ s w2, KeyPair.exportWIF realPrims kp w1 = (.ok s, w2) ∧
      Neo.sign realPrims (pyBtc genK verify) message (.str s) w2 = Neo.sign realPrims (pyBtc genK verify) message (.bytes kp.privateKey) w2 := by
  obtain ⟨s, w2, h1, -, h3, h4⟩ := C43_roundtrip realPrims B b kp w w' h w1
  have hk : kp.privateKey = b.drop (b.length - 32) := (private_key h).1
  refine ⟨s, w2, h1, C207_forms_agree _ _ _ _ (beNumber kp.privateKey) _ _ (.wif _ _ (by rw [hk]; exact h3) rfl) (.bytes _ ?_ rfl) _⟩
  rw [hk]; exact h3.1

open EC Spec.EC in
/-- C80, for every form of the private key: what `Sign` returns is accepted by `VerifySignature` under the public key with that number
exactly if r is in 1..n-1, s is not 0, and both coordinates of the public key are below n. -/
theorem C80_any_form_partial (P : Prims) (genK : Str → Nat → Nat) (w : World) (hw : w.curve = signatureCurve)
    (message privateKey : Val) (m : Bytes) (d : Nat) (hd : d < 2 ^ 256) (hm : unhexlifyVal message = .ok m) (hp : KeyForm d privateKey)
    (hk : ¬ p256Order ∣ genK (hexStr (P.sha256 m)) d) : letI := Fact.mk p256_prime
    ∃ rb sb, (Neo.sign P (pkgBtc genK P.sha256) message privateKey w).1 = .ok (rb ++ sb) ∧ rb.length = 32 ∧ sb.length = 32 ∧
      ∀ G, Denotes secp256r1Curve secp256r1.G G →
      ∀ message' unhex keyArg Q, MessageArg unhex message' m → KeyArg keyArg Q → IsPublicKey Q (d • G) →
        ∃ answer, (Neo.verifySignature (pkgBtc genK P.sha256) message' (.bytes (rb ++ sb)) keyArg unhex w).1 = .ok answer ∧
          (answer = true ↔ 1 ≤ beNumber rb ∧ beNumber rb < p256Order ∧ 1 ≤ beNumber sb ∧ Q.x < p256Order ∧ Q.y < p256Order) := by
  obtain ⟨key, -, hl, hn⟩ := intToBytes_big (v := (d : Int)) (by omega) (by exact_mod_cast hd)
  have hn : beNumber key = d := by exact_mod_cast hn.symm
  obtain ⟨rb, sb, h1, h2, h3, -, h4⟩ := C80_round_trip_partial P genK w hw message (.bytes key) m key hm ⟨hl, .inl rfl⟩ (by rw [hn]; exact hk)
  rw [hn] at h4
  refine ⟨rb, sb, ?_, h2, h3, h4⟩
  rw [← h1]
  exact congrArg Prod.fst (C207_forms_agree P genK _ message d _ _ hp (.bytes key hl hn) w)

example : KeyForm 171 (.str ("00000000000000000000000000000000000000000000000000000000000000aB".toList)) ∧ KeyForm 171 (.int 171) ∧
    KeyForm 171 (.bytes (List.replicate 31 0 ++ [0xab])) := by
  refine ⟨.hex _ (by decide) ?_ (by decide +kernel), .number _ rfl, .bytes _ (by decide) (by decide +kernel)⟩
  unfold AllHex
  decide +kernel

/-! ### C208 -/

/-- `Sign` of the message with the key `v` returns, after the calls `history`. -/
def Accepts (P : Prims) (B : Btc) (nfc : Str → Str) (history : List LibCall) (message v : Val) : Prop :=
  ∃ sig, (Neo.sign P B message v (after P B nfc history)).1 = .ok sig

private theorem accepts_iff (P : Prims) (genK verify) (nfc : Str → Str) (history : List LibCall) (message v : Val) (m : Bytes)
    (hm : unhexlifyVal message = .ok m) : Accepts P (pyBtc genK verify) nfc history message v ↔ ∃ d, decodePrivkey v = .ok d := by
  constructor
  · rintro ⟨sig, h⟩
    obtain ⟨m', u, r, s, rb, sb, h1, h2, -⟩ := (C92_sign _ _ _ _ _ _).1 h
    have h2 : Bitcoin.ecdsaRawSign _ genK (hexStr (P.sha256 m')) v = .ok (u, r, s) := h2
    rw [Bitcoin.ecdsaRawSign, hexStr, unhexlifyVal_hexStr] at h2
    cases hd : decodePrivkey v with
    | ok d => exact ⟨d, rfl⟩
    | error e => rw [hd] at h2; cases h2
  · rintro ⟨d, hd⟩
    obtain ⟨sig, -, h⟩ := sign_ok P genK verify nfc history message v m d hm hd
    exact ⟨sig, h⟩

/-- C208 fails: `Sign` takes every number, 0 and the multiples of the group order among them, every 32 bytes, every 64 bytes, every
text of 64 characters whatsoever, and half of a key in hexadecimal. -/
theorem C208_no_key_violated (P : Prims) (genK verify) (nfc : Str → Str) (history : List LibCall) (message : Val) (m : Bytes)
    (hm : unhexlifyVal message = .ok m) :
    (∀ n, Accepts P (pyBtc genK verify) nfc history message (.int n)) ∧
    (∀ b : Bytes, b.length = 32 ∨ b.length = 64 → Accepts P (pyBtc genK verify) nfc history message (.bytes b)) ∧
    (∀ t : Str, t.length = 64 → Accepts P (pyBtc genK verify) nfc history message (.str t)) ∧
    (∀ t : Str, t.length = 32 → AllHex t → Accepts P (pyBtc genK verify) nfc history message (.str t)) := by
  refine ⟨fun n => (accepts_iff _ _ _ _ _ _ _ m hm).2 ⟨n, rfl⟩, fun b hb => (accepts_iff _ _ _ _ _ _ _ m hm).2 ?_,
    fun t ht => (accepts_iff _ _ _ _ _ _ _ m hm).2 ⟨_, decode_text64 ht⟩, fun t ht ha => (accepts_iff _ _ _ _ _ _ _ m hm).2 ?_⟩
  · rcases hb with hb | hb
    · exact ⟨_, decode_bytes32 hb⟩
    · exact ⟨_, by rw [decodePrivkey, decodePrivkeyBytes, if_neg (by omega), if_pos (.inl hb)]⟩
  · obtain ⟨d, hd, -⟩ := fromHex_of_allHex 16 ht ha
    refine ⟨(leToNat d.reverse : Nat), ?_⟩
    rw [decodePrivkey, decodePrivkeyStr, if_pos (.inl ht), List.take_of_length_le ht.le, hd]

/-- C208 fails silently: a character that is no hexadecimal digit, after a `1`, counts as -1: the mistyped key signs as another key. -/
theorem C208_typo_violated (P : Prims) (genK verify) (message : Val) (w : World) (pre post : Str) (c : Char) (hc : digit c = none)
    (hI : c ≠ 'İ') (hl : (pre ++ ['1', c] ++ post).length = 64) :
    Neo.sign P (pyBtc genK verify) message (.str (pre ++ ['1', c] ++ post)) w =
    Neo.sign P (pyBtc genK verify) message (.str (pre ++ ['0', 'f'] ++ post)) w := by
  apply sign_congr
  rw [decodePrivkey, decodePrivkey, decode_text64 hl, decode_text64 (by simpa using hl)]
  congr 1
  rw [List.flatMap_append, List.flatMap_append, List.flatMap_append, List.flatMap_append, fromDigits_append,
    fromDigits_append, fromDigits_append _ (pre.flatMap hexDigits ++ ['0', 'f'].flatMap hexDigits), fromDigits_append _ (pre.flatMap hexDigits)]
  have h1 : ['1', c].flatMap hexDigits = [1, -1] := by
    rw [List.flatMap_cons, List.flatMap_cons, hexDigits_bad hc hI]; rfl
  have h2 : ['0', 'f'].flatMap hexDigits = [0, 15] := rfl
  rw [h1, h2]
  rfl

/-- C208 fails silently for WIF texts as well: a character that no Base58 text has (`0`, `O`, `I`, `l`), after a `2`, stands for `1z`. -/
theorem C208_wif_typo_violated (P : Prims) (genK verify) (message : Val) (w : World) (first : Char) (pre post : Str) (c : Char)
    (hf : first ≠ '1') (hc : c ∉ Spec.Base58.digits)
    (hl : (first :: pre ++ ['2', c] ++ post).length ∉ [32, 33, 64, 66]) :
    Neo.sign P (pyBtc genK verify) message (.str (first :: pre ++ ['2', c] ++ post)) w =
    Neo.sign P (pyBtc genK verify) message (.str (first :: pre ++ ['1', 'z'] ++ post)) w := by
  apply sign_congr
  have hl' : (first :: pre ++ ['1', 'z'] ++ post).length ∉ [32, 33, 64, 66] := by simpa using hl
  simp only [List.mem_cons, List.not_mem_nil, or_false, not_or] at hl hl'
  have hd : digit58 c = -1 := by
    rw [digit58, List.idxOf?_eq_none_iff.2 (by rw [← Base58.alphabet_eq]; exact hc)]
  have h0 : ∀ t : Str, ((first :: t).takeWhile (· == '1')).length = 0 := fun t => by
    rw [List.takeWhile_cons, if_neg (by simpa using hf)]; rfl
  have e : b58checkToBin (first :: pre ++ ['2', c] ++ post) = b58checkToBin (first :: pre ++ ['1', 'z'] ++ post) := by
    have hv : fromDigits 58 ((first :: pre ++ ['2', c] ++ post).map digit58) =
        fromDigits 58 ((first :: pre ++ ['1', 'z'] ++ post).map digit58) := by
      rw [List.map_append, List.map_append, List.map_append, List.map_append, fromDigits_append, fromDigits_append,
        fromDigits_append _ (List.map digit58 (first :: pre) ++ List.map digit58 ['1', 'z']), fromDigits_append _ (List.map digit58 (first :: pre))]
      have h1 : ['2', c].map digit58 = [1, -1] := by
        rw [List.map_cons, List.map_cons, hd]; rfl
      have h2 : ['1', 'z'].map digit58 = [0, 57] := by decide
      rw [h1, h2]
      rfl
    simp only [b58checkToBin, hv]
    simp only [List.cons_append, h0]
  simp only [decodePrivkey, decodePrivkeyStr]
  rw [if_neg (by omega), if_neg (by omega), if_neg (by omega), if_neg (by omega), e]

/-- C208, the arguments that are not texts: `Sign` of a hexadecimal message raises exactly for objects that are neither numbers nor
bytes of length 32, 33, 64 or 66. -/
theorem C208_raises_iff_partial (P : Prims) (genK verify) (nfc : Str → Str) (history : List LibCall) (message v : Val) (m : Bytes)
    (hm : unhexlifyVal message = .ok m) (hs : ∀ t, v ≠ .str t) :
    ¬ Accepts P (pyBtc genK verify) nfc history message v ↔
      v.index? = none ∧ ∀ b, v = .bytes b ∨ v = .bytearray b → b.length ≠ 32 ∧ b.length ≠ 33 ∧ b.length ≠ 64 ∧ b.length ≠ 66 := by
  rw [accepts_iff P genK verify nfc history message v m hm]
  have hb : ∀ b : Bytes, (∃ d, decodePrivkeyBytes b = .ok d) ↔ b.length = 32 ∨ b.length = 33 ∨ b.length = 64 ∨ b.length = 66 := by
    intro b
    rw [decodePrivkeyBytes]
    by_cases h1 : b.length = 32 ∨ b.length = 33
    · rw [if_pos h1]
      exact ⟨fun _ => by omega, fun _ => ⟨_, rfl⟩⟩
    · rw [if_neg h1]
      by_cases h2 : b.length = 64 ∨ b.length = 66
      · rw [if_pos h2]
        exact ⟨fun _ => by omega, fun _ => ⟨_, rfl⟩⟩
      · rw [if_neg h2]
        exact ⟨(fun ⟨d, h⟩ => by cases h), fun h => by omega⟩
  cases v with
  | bytes b =>
    show ¬ (∃ d, decodePrivkeyBytes b = .ok d) ↔ _
    rw [hb]
    constructor
    · rintro h
      refine ⟨rfl, fun b' e => ?_⟩
      rcases e with e | e <;> cases e
      omega
    · rintro ⟨-, h⟩
      have := h b (.inl rfl)
      omega
  | bytearray b =>
    show ¬ (∃ d, decodePrivkeyBytes b = .ok d) ↔ _
    rw [hb]
    constructor
    · rintro h
      refine ⟨rfl, fun b' e => ?_⟩
      rcases e with e | e <;> cases e
      omega
    · rintro ⟨-, h⟩
      have := h b (.inr rfl)
      omega
  | str t => exact absurd rfl (hs t)
  | int n => simp [decodePrivkey, Val.index?]
  | bigInteger n => simp [decodePrivkey, Val.index?]
  | bool n => simp [decodePrivkey, Val.index?]
  | none => simp [decodePrivkey, Val.index?]
  | uint k n => simp [decodePrivkey, Val.index?]
  | other => simp [decodePrivkey, Val.index?]

/-- C208, Base58 texts: of those of other lengths, `Sign` takes exactly those that are the Base58Check text of some version byte with
32 or 33 bytes. -/
theorem C208_base58_partial (P : Prims) (genK verify) (nfc : Str → Str) (history : List LibCall) (message : Val) (m : Bytes)
    (hm : unhexlifyVal message = .ok m) (t : Str) (ht : Spec.Base58.IsText t)
    (hl : t.length ≠ 32 ∧ t.length ≠ 33 ∧ t.length ≠ 64 ∧ t.length ≠ 66) :
    Accepts P (pyBtc genK verify) nfc history message (.str t) ↔
      ∃ version payload, (payload.length = 32 ∨ payload.length = 33) ∧ Base58Check dblSha version payload t := by
  rw [accepts_iff P genK verify nfc history message (.str t) m hm]
  obtain ⟨data, hdata⟩ := (Base58.decode_ok_iff t).2 (fun c hc => by rw [← Base58.alphabet_eq]; exact ht c hc)
  have hT := (Base58.textOf_iff data t).2 hdata
  have h4 : ∀ b, ((dblSha b).take 4).length = 4 := fun b => by
    rw [List.length_take, dblSha, Hashes.sha256_length]; rfl
  rw [decodePrivkey, decodePrivkeyStr, if_neg (by omega), if_neg (by omega), b58checkToBin, b58_data hT]
  constructor
  · rintro ⟨d, h⟩
    by_cases hc : (Hashes.sha256 (Hashes.sha256 (Base58.butLast4 data))).take 4 = Base58.last4 data
    · rw [if_pos hc] at h
      simp only at h
      by_cases hp : ((Base58.butLast4 data).drop 1).length = 32 ∨ ((Base58.butLast4 data).drop 1).length = 33
      · cases hbl : Base58.butLast4 data with
        | nil => rw [hbl] at hp; simp at hp
        | cons version payload =>
          rw [hbl] at hp hc
          refine ⟨version, payload, hp, ?_⟩
          rw [Base58Check]
          have : [version] ++ payload ++ (dblSha ([version] ++ payload)).take 4 = data := by
            rw [show (dblSha ([version] ++ payload)).take 4 = Base58.last4 data from hc,
              show [version] ++ payload = Base58.butLast4 data from hbl.symm, Base58.butLast4, Base58.last4, List.take_append_drop]
          rw [this]
          exact hT
      · rw [if_neg hp] at h
        cases h
    · rw [if_neg hc] at h
      cases h
  · rintro ⟨version, payload, hp, hB⟩
    have he : data = [version] ++ payload ++ (dblSha ([version] ++ payload)).take 4 := by
      have := (Base58.textOf_iff _ _).1 hB
      rw [hdata] at this
      exact Except.ok.inj this
    have h4 := h4 ([version] ++ payload)
    generalize hc : (dblSha ([version] ++ payload)).take 4 = chk at h4 he
    have hb : Base58.butLast4 data = [version] ++ payload := by
      rw [he, Base58.butLast4, List.length_append, h4, Nat.add_sub_cancel, List.take_left]
    have hlst : Base58.last4 data = chk := by
      rw [he, Base58.last4, List.length_append, h4, Nat.add_sub_cancel, List.drop_left]
    simp only [hb, hlst]
    rw [if_pos (show (Hashes.sha256 (Hashes.sha256 ([version] ++ payload))).take 4 = chk from hc)]
    simp only
    rw [if_pos (show (([version] ++ payload).drop 1).length = 32 ∨ (([version] ++ payload).drop 1).length = 33 from hp)]
    exact ⟨_, rfl⟩

example : digit 'g' = none ∧ (("00".toList : Str) ++ ['1', 'g'] ++ List.replicate 60 'a').length = 64 ∧
    unhexlifyVal (.str ['0', 'A']) = .ok [10] ∧ Val.index? .none = none ∧
    'l' ∉ Spec.Base58.digits ∧ (('K' :: List.replicate 20 'w' ++ ['2', 'l'] ++ List.replicate 29 'x' : Str)).length = 52 := by decide +kernel

end Neo.Props
