import Verif.Model.Bitcoin
import Verif.Spec.Ecdsa
import Verif.Proofs.P256Cofactor
import Verif.Proofs.Decompress
import Verif.Props.KeyPair

/-!
# C52, C53: the signature curve, Sign and VerifySignature
-/

namespace Neo.Props
open Py Spec EC Spec.EC Neo.Bitcoin

/-! ## C52 -/

/-- The library calls that can touch the process-wide state, and the signing calls. (All others are pure functions.) -/
inductive LibCall where
  | keyPair (key : Bytes)
  | setupSignatureCurve
  | default
  | exportWIF (kp : KeyPair)
  | privateKeyFromNEP2 (text passphrase : Str)
  | createWallet (random : Bytes)
  | sign (message privateKey : Val)
  | verifySignature (message signature : Val) (key : PubKeyArg) (unhex : Bool)

/-- The state after a call, whether it returned or raised. -/
def LibCall.run (P : Prims) (B : Btc) (nfc : Str → Str) : LibCall → World → World
  | .keyPair b, w => (KeyPair.init P B b w).2
  | .setupSignatureCurve, w => (Neo.setupSignatureCurve w).2
  | .default, w => (cryptoDefault w).2
  | .exportWIF kp, w => (KeyPair.exportWIF P kp w).2
  | .privateKeyFromNEP2 s pw, w => (KeyPair.privateKeyFromNEP2 P B nfc s pw w).2
  | .createWallet r, w => (KeyPair.createWallet P B r w).2
  | .sign m k, w => (Neo.sign P B m k w).2
  | .verifySignature m s k u, w => (Neo.verifySignature B m s k u w).2

/-- The state of a process after these calls. -/
def after (P : Prims) (B : Btc) (nfc : Str → Str) (history : List LibCall) : World :=
  history.foldl (fun w call => call.run P B nfc w) World.fresh

/-- The calls that set the curve whatever their arguments are. -/
def LibCall.SetsUp : LibCall → Prop
  | .keyPair _ | .setupSignatureCurve | .default | .exportWIF _ | .createWallet _ => True
  | _ => False

/-- The two places that set the curve use the same numbers: those of secp256r1. -/
theorem C91_same_parameters : keyPairCurve = signatureCurve ∧ signatureCurve.p = secp256r1Curve.p ∧
    (signatureCurve.a : Int) = secp256r1Curve.a ∧ (signatureCurve.b : Int) = secp256r1Curve.b ∧
    ((signatureCurve.gx : Int), (signatureCurve.gy : Int)) = (secp256r1.G.x, secp256r1.G.y) ∧ signatureCurve.n = p256Order := by
  decide +kernel

private theorem kp_curve : keyPairCurve = signatureCurve := C91_same_parameters.1

/-- The invariant: the curve is one of the two, and it is secp256r1 once `_Instance` is set. -/
private def Inv (w : World) : Prop := (w.curve = .initial ∨ w.curve = signatureCurve) ∧ (w.inst = true → w.curve = signatureCurve)

private theorem default_world {w : World} (h : Inv w) : Inv (cryptoDefault w).2 ∧ (cryptoDefault w).2.curve = signatureCurve := by
  rw [cryptoDefault]
  split
  · next hi => exact ⟨h, h.2 hi⟩
  · exact ⟨⟨.inr rfl, fun _ => rfl⟩, rfl⟩

private theorem init_world (P : Prims) (B : Btc) (b : Bytes) {w : World} :
    Inv (KeyPair.init P B b w).2 ∧ (KeyPair.init P B b w).2.curve = signatureCurve := by
  show Inv ⟨keyPairCurve, w.inst⟩ ∧ keyPairCurve = signatureCurve
  exact ⟨⟨.inr kp_curve, fun _ => kp_curve⟩, kp_curve⟩

private theorem sign_world (P : Prims) (B : Btc) (m k : Val) (w : World) : (Neo.sign P B m k w).2 = w := by
  rw [Neo.sign]
  split
  · rfl
  · split
    · rfl
    · split
      · rfl
      · split <;> rfl

private theorem nep2_world (P : Prims) (B : Btc) (nfc : Str → Str) (s pw : Str) (w : World) :
    (KeyPair.privateKeyFromNEP2 P B nfc s pw w).2 = w ∨
    ∃ b, (KeyPair.privateKeyFromNEP2 P B nfc s pw w).2 = (KeyPair.init P B b w).2 := by
  rw [KeyPair.privateKeyFromNEP2]
  cases KeyPair.decryptNEP2 P nfc s pw with
  | error e => exact .inl rfl
  | ok r =>
    obtain ⟨k, ah⟩ := r
    refine .inr ⟨k, ?_⟩
    simp only
    rcases KeyPair.init P B k w with ⟨r1, r2⟩
    cases r1 with
    | error e => rfl
    | ok kp =>
      simp only
      cases KeyPair.getAddress P kp with
      | error e => rfl
      | ok a => simp only; split <;> rfl

private theorem wallet_world (P : Prims) (B : Btc) (b : Bytes) {w : World} :
    Inv (KeyPair.createWallet P B b w).2 ∧ (KeyPair.createWallet P B b w).2.curve = signatureCurve := by
  rw [KeyPair.createWallet]
  have h := init_world P B b (w := w)
  revert h
  rcases KeyPair.init P B b w with ⟨r1, r2⟩
  intro h
  cases r1 with
  | error e => exact h
  | ok kp =>
    have hd := default_world h.1
    show Inv (match KeyPair.getAddress P kp with
      | .error e => ((.error e, (cryptoDefault r2).2) : Except Err (Str × Str) × World)
      | .ok a => (.ok (Base58.encode (KeyPair.wifBytes P kp), a), (cryptoDefault r2).2)).2 ∧ (match KeyPair.getAddress P kp with
      | .error e => ((.error e, (cryptoDefault r2).2) : Except Err (Str × Str) × World)
      | .ok a => (.ok (Base58.encode (KeyPair.wifBytes P kp), a), (cryptoDefault r2).2)).2.curve = _
    cases KeyPair.getAddress P kp <;> exact hd

private theorem run_inv (P : Prims) (B : Btc) (nfc : Str → Str) (call : LibCall) {w : World} (h : Inv w) :
    Inv (call.run P B nfc w) ∧ (call.SetsUp ∨ w.curve = signatureCurve → (call.run P B nfc w).curve = signatureCurve) := by
  cases call with
  | keyPair b => exact ⟨(init_world P B b).1, fun _ => (init_world P B b).2⟩
  | setupSignatureCurve => exact ⟨⟨.inr rfl, fun _ => rfl⟩, fun _ => rfl⟩
  | default => exact ⟨(default_world h).1, fun _ => (default_world h).2⟩
  | exportWIF kp => exact ⟨(default_world h).1, fun _ => (default_world h).2⟩
  | privateKeyFromNEP2 s pw =>
    rw [LibCall.run]
    rcases nep2_world P B nfc s pw w with e | ⟨b, e⟩
    · rw [e]; exact ⟨h, fun hs => hs.resolve_left id⟩
    · rw [e]; exact ⟨(init_world P B b).1, fun _ => (init_world P B b).2⟩
  | createWallet r => exact ⟨(wallet_world P B r).1, fun _ => (wallet_world P B r).2⟩
  | sign m k =>
    rw [LibCall.run, sign_world]
    exact ⟨h, fun hs => hs.resolve_left id⟩
  | verifySignature m s k u => exact ⟨h, fun hs => hs.resolve_left id⟩

private theorem foldl_inv (P : Prims) (B : Btc) (nfc : Str → Str) : ∀ (history : List LibCall) (w : World), Inv w →
    Inv (history.foldl (fun w call => call.run P B nfc w) w) ∧
    ((∃ call ∈ history, call.SetsUp) ∨ w.curve = signatureCurve →
      (history.foldl (fun w call => call.run P B nfc w) w).curve = signatureCurve)
  | [], w, h => ⟨h, fun hs => hs.resolve_left (by simp)⟩
  | call :: rest, w, h => by
    obtain ⟨h1, h2⟩ := run_inv P B nfc call h
    obtain ⟨i1, i2⟩ := foldl_inv P B nfc rest _ h1
    refine ⟨i1, ?_⟩
    rintro (⟨c, hc, hs⟩ | hw)
    · rcases List.mem_cons.1 hc with rfl | hc
      · exact i2 (.inr (h2 (.inl hs)))
      · exact i2 (.inl ⟨c, hc, hs⟩)
    · exact i2 (.inr (h2 (.inr hw)))

/-- In every history the curve in force is one of the two. -/
theorem after_curve (P : Prims) (B : Btc) (nfc : Str → Str) (history : List LibCall) :
    (after P B nfc history).curve = .initial ∨ (after P B nfc history).curve = signatureCurve :=
  (foldl_inv P B nfc history World.fresh ⟨.inl rfl, by rintro ⟨⟩⟩).1.1

/-- C91, what is true: once any KeyPair has been constructed (or the construction has raised), or `SetupSignatureCurve`,
`Default`, `Export` or `create_wallet` has been called, the curve is secp256r1 in every later state, and `Sign` and
`VerifySignature` give what they give in a process where `SetupSignatureCurve` was called first. -/
theorem C91_after_setup (P : Prims) (B : Btc) (nfc : Str → Str) (history : List LibCall)
    (h : ∃ call ∈ history, call.SetsUp) :
    (after P B nfc history).curve = signatureCurve ∧
    (∀ m k, (Neo.sign P B m k (after P B nfc history)).1 = (Neo.sign P B m k (after P B nfc [.setupSignatureCurve])).1) ∧
    (∀ m s k u, (Neo.verifySignature B m s k u (after P B nfc history)).1 =
      (Neo.verifySignature B m s k u (after P B nfc [.setupSignatureCurve])).1) := by
  have hc : (after P B nfc history).curve = signatureCurve :=
    (foldl_inv P B nfc history World.fresh ⟨.inl rfl, by rintro ⟨⟩⟩).2 (.inl h)
  have hs : (after P B nfc [.setupSignatureCurve]).curve = signatureCurve := rfl
  refine ⟨hc, ?_, ?_⟩
  · intro m k
    have key : ∀ w w' : World, w.curve = w'.curve → (Neo.sign P B m k w).1 = (Neo.sign P B m k w').1 := by
      intro w w' hw
      rw [Neo.sign, Neo.sign, hw]
      cases unhexlifyVal m with
      | error e => rfl
      | ok m' =>
        simp only
        cases B.ecdsaRawSign w'.curve (hexStr (P.sha256 m')) k with
        | error e => rfl
        | ok r =>
          obtain ⟨v, r, s⟩ := r
          simp only
          cases intToBytes r 32 .big false with
          | error e => rfl
          | ok rb =>
            simp only
            cases intToBytes s 32 .big false <;> rfl
    exact key _ _ (hc.trans hs.symm)
  · intro m s k u
    show verifySignature.run B m s k u _ = verifySignature.run B m s k u _
    rw [hc, hs]

/-- C91 holds of key pairs themselves in every history: `KeyPair` sets its curve itself. -/
theorem C91_keyPair (P : Prims) (B : Btc) (nfc : Str → Str) (history : List LibCall) (b : Bytes) :
    (KeyPair.init P B b (after P B nfc history)).1 = (KeyPair.init P B b (after P B nfc [.setupSignatureCurve])).1 := rfl

example : ∃ history : List LibCall, ∃ call ∈ history, call.SetsUp := ⟨[.sign .none .none, .keyPair []], .keyPair [], by simp, trivial⟩

/-- C52 fails: in a process that has only called `Sign`, `VerifySignature` and pure functions the curve is secp256k1. -/
theorem C52_fresh_process_violated (P : Prims) (B : Btc) (nfc : Str → Str) (history : List LibCall)
    (h : ∀ call ∈ history, ∃ m s k u, call = .sign m k ∨ call = .verifySignature m s (.bytes u) true) :
    (after P B nfc history).curve = .initial ∧ BtcCurve.initial ≠ signatureCurve := by
  refine ⟨?_, by decide +kernel⟩
  have key : ∀ (history : List LibCall) (w : World),
      (∀ call ∈ history, ∃ m s k u, call = .sign m k ∨ call = .verifySignature m s (.bytes u) true) →
      history.foldl (fun w call => call.run P B nfc w) w = w := by
    intro history
    induction history with
    | nil => intro w _; rfl
    | cons c rest ih =>
      intro w hc
      obtain ⟨m, s, k, u, hcc⟩ := hc c (by simp)
      have : c.run P B nfc w = w := by
        rcases hcc with rfl | rfl
        · exact sign_world P B m k w
        · rfl
      rw [List.foldl_cons, this]
      exact ih w (fun c hc' => hc c (by simp [hc']))
  rw [after, key history _ h]
  rfl

/-! ## C53: Sign -/

private theorem ofBig (b : Bytes) (hb : b.length = 32) : intToBytes (beNumber b) 32 .big false = .ok b := by
  have := beNumber_lt b
  rw [hb, show (256 : Nat) ^ 32 = 2 ^ 256 by norm_num] at this
  obtain ⟨b', r1, r2, r3⟩ := intToBytes_big (v := (beNumber b : Int)) (by omega) (by exact_mod_cast this)
  rw [r1, beNumber_inj (a := b') (b := b) (by omega) (by omega)]

private theorem to_big (v : Int) : (∃ b : Bytes, intToBytes v 32 .big false = .ok b ∧ b.length = 32 ∧ v = beNumber b) ∨
    intToBytes v 32 .big false = .error .overflowError := by
  by_cases h : 0 ≤ v ∧ v < 2 ^ 256
  · exact .inl (intToBytes_big h.1 h.2)
  · exact .inr (intToBytes_big_error (by omega))

private theorem sign_value {P : Prims} {B : Btc} {message privateKey : Val} {w : World} {m : Bytes} {v r s : Int}
    {ri si : Except Err Bytes} (hm : unhexlifyVal message = .ok m)
    (hs : B.ecdsaRawSign w.curve (hexStr (P.sha256 m)) privateKey = .ok (v, r, s))
    (h1 : intToBytes r 32 .big false = ri) (h2 : intToBytes s 32 .big false = si) :
    (Neo.sign P B message privateKey w).1 = match (generalizing := false) ri, si with
      | .error e, _ => .error e
      | .ok _, .error e => .error e
      | .ok rb, .ok sb => .ok (rb ++ sb) := by
  rw [Neo.sign, hm]
  simp only
  rw [hs]
  simp only
  rw [h1]
  cases ri with
  | error e => rfl
  | ok rb =>
    simp only
    rw [h2]
    cases si <;> rfl

/-- C92, Sign: it returns a value exactly if the message is hexadecimal, `ecdsa_raw_sign` of the SHA-256 of its bytes returns
r and s, and these are 256-bit numbers; the value is then the 32 bytes of r followed by the 32 bytes of s, big-endian. -/
theorem C92_sign (P : Prims) (B : Btc) (message privateKey : Val) (w : World) (sig : Bytes) :
    (Neo.sign P B message privateKey w).1 = .ok sig ↔
    ∃ m v r s rb sb, unhexlifyVal message = .ok m ∧
      B.ecdsaRawSign w.curve (hexStr (P.sha256 m)) privateKey = .ok (v, r, s) ∧
      sig = rb ++ sb ∧ rb.length = 32 ∧ sb.length = 32 ∧ r = beNumber rb ∧ s = beNumber sb := by
  constructor
  · intro h
    cases hm : unhexlifyVal message with
    | error e => rw [Neo.sign, hm] at h; cases h
    | ok m =>
      cases hs : B.ecdsaRawSign w.curve (hexStr (P.sha256 m)) privateKey with
      | error e =>
        rw [Neo.sign, hm] at h
        simp only at h
        rw [hs] at h
        cases h
      | ok t =>
        obtain ⟨v, r, s⟩ := t
        rcases to_big r with ⟨rb, r1, r2, r3⟩ | r1
        · rcases to_big s with ⟨sb, s1, s2, s3⟩ | s1
          · rw [sign_value hm hs r1 s1] at h
            have h := Except.ok.inj h
            exact ⟨m, v, r, s, rb, sb, rfl, hs, h.symm, r2, s2, r3, s3⟩
          · rw [sign_value hm hs r1 s1] at h
            cases h
        · rw [sign_value hm hs r1 (Eq.refl (intToBytes s 32 .big false))] at h
          cases h
  · rintro ⟨m, v, r, s, rb, sb, hm, hs, rfl, hl1, hl2, rfl, rfl⟩
    exact sign_value hm hs (ofBig rb hl1) (ofBig sb hl2)

/-- main.py `inv` of one. -/
private theorem inv_one (n : Int) (hn : 1 < n) : inv 1 n = 1 := by
  rw [inv, if_neg (by decide), Int.emod_eq_of_lt (by decide) hn, invLoop, dif_neg (by decide)]
  exact Int.emod_eq_of_lt (by decide) hn

private theorem fastMultiply_one (c : BtcCurve) (hx : c.gx < c.p) (hy : c.gy < c.p) (h0 : c.gy ≠ 0) (hp : 1 < c.p) :
    fastMultiply c ⟨c.gx, c.gy⟩ 1 = ⟨c.gx, c.gy⟩ := by
  rw [fastMultiply, jacobianMultiply, if_neg, if_pos rfl, fromJacobian]
  · simp only
    rw [inv_one _ (by exact_mod_cast hp)]
    simp only [one_pow, mul_one]
    rw [Int.emod_eq_of_lt (by omega) (by exact_mod_cast hx), Int.emod_eq_of_lt (by omega) (by exact_mod_cast hy)]
  · simp only [Nat.cast_eq_zero]
    omega

/-- C52 fails visibly: with the `bitcoin` package and the nonce 1, the same message and key signed first thing in a process and
after `SetupSignatureCurve` give r = x of the base point of secp256k1 and of secp256r1. -/
theorem C52_sign_violated (P : Prims) (nfc : Str → Str) (verify) (m : Bytes) :
    ∃ sig sig', (Neo.sign P (pyBtc (fun _ _ => 1) verify) (.bytes (hexlify m)) (.bytes (List.replicate 32 1))
        (after P (pyBtc (fun _ _ => 1) verify) nfc [])).1 = .ok sig ∧
      (Neo.sign P (pyBtc (fun _ _ => 1) verify) (.bytes (hexlify m)) (.bytes (List.replicate 32 1))
        (after P (pyBtc (fun _ _ => 1) verify) nfc [.setupSignatureCurve])).1 = .ok sig' ∧
      beNumber (sig.take 32) = BtcCurve.initial.gx ∧ beNumber (sig'.take 32) = signatureCurve.gx ∧ sig ≠ sig' := by
  have hdk : decodePrivkey (.bytes (List.replicate 32 1)) = .ok (leToNat (List.replicate 32 (1 : UInt8)).reverse) := rfl
  have key : ∀ c : BtcCurve, c.gx < c.p → c.gy < c.p → c.gy ≠ 0 → 1 < c.p → c.gx < 2 ^ 256 → 0 < c.n → c.n ≤ 2 ^ 256 →
      ∀ w : World, w.curve = c → ∃ sig, (Neo.sign P (pyBtc (fun _ _ => 1) verify) (.bytes (hexlify m)) (.bytes (List.replicate 32 1)) w).1 = .ok sig ∧
        beNumber (sig.take 32) = c.gx := by
    intro c hx hy h0 hp hx2 hn0 hn2 w hw
    have hr : ∃ v s, ecdsaRawSign c (fun _ _ => 1) (hexStr (P.sha256 m)) (.bytes (List.replicate 32 1)) = .ok (v, (c.gx : Int), s) ∧
        0 ≤ s ∧ s < 2 ^ 256 := by
      rw [ecdsaRawSign, hexStr, unhexlifyVal_hexStr, hdk]
      simp only [Nat.cast_one]
      rw [fastMultiply_one c hx hy h0 hp]
      generalize ht : (inv 1 (c.n : Int) * (_ + _)) % (c.n : Int) = t
      have t1 : 0 ≤ t := by rw [← ht]; exact Int.emod_nonneg _ (by omega)
      have t2 : t < c.n := by rw [← ht]; exact Int.emod_lt_of_pos _ (by omega)
      refine ⟨_, _, rfl, ?_, ?_⟩
      · split <;> omega
      · split <;> omega
    obtain ⟨v, s, h1, h2, h3⟩ := hr
    obtain ⟨rb, r1, r2, r3⟩ := intToBytes_big (v := (c.gx : Int)) (by omega) (by exact_mod_cast hx2)
    obtain ⟨sb, s1, s2, s3⟩ := intToBytes_big h2 h3
    refine ⟨rb ++ sb, ?_, ?_⟩
    · rw [C92_sign]
      refine ⟨m, v, _, s, rb, sb, unhexlify_hexlify m, ?_, rfl, r2, s2, r3, s3⟩
      rw [hw]
      exact h1
    · rw [List.take_append_of_le_length r2.ge, List.take_of_length_le r2.le]
      omega
  obtain ⟨sig, h1, h2⟩ := key .initial (by decide +kernel) (by decide +kernel) (by decide +kernel) (by decide +kernel)
    (by decide +kernel) (by decide +kernel) (by decide +kernel) (after P (pyBtc (fun _ _ => 1) verify) nfc []) rfl
  obtain ⟨sig', h3, h4⟩ := key signatureCurve (by decide +kernel) (by decide +kernel) (by decide +kernel) (by decide +kernel)
    (by decide +kernel) (by decide +kernel) (by decide +kernel) (after P (pyBtc (fun _ _ => 1) verify) nfc [.setupSignatureCurve]) rfl
  refine ⟨sig, sig', h1, h3, h2, h4, ?_⟩
  rintro rfl
  rw [h2] at h4
  exact absurd h4 (by decide +kernel)

/-! ## C53: VerifySignature -/

/-- The public-key arguments `VerifySignature` can take apart: a point with 256-bit coordinates, or bytes that, if there are 33
of them, begin with 2 or 3. -/
def KeyArgUsable : PubKeyArg → Prop
  | .point Q => 0 ≤ Q.x ∧ Q.x < 2 ^ 256 ∧ 0 ≤ Q.y ∧ Q.y < 2 ^ 256
  | .bytes b => b.length = 33 → b.head? = some 2 ∨ b.head? = some 3

theorem run_ok {B : Btc} {message signature : Val} {key : PubKeyArg} {unhex : Bool} {c : BtcCurve} {kb kb' : Bytes}
    (h1 : verifySignature.keyBytes key = .ok kb) (h2 : (if kb.length = 33 then btcDecompress c kb else .ok kb) = .ok kb') :
    verifySignature.run B message signature key unhex c = match B.verify kb' signature (verifySignature.messageVal message unhex) with
      | .ok res => .ok res
      | .error _ => .ok false := by
  rw [verifySignature.run, h1]
  simp only
  rw [h2]
  rfl

theorem keyBytes_point {Q : Pt} (h : 0 ≤ Q.x ∧ Q.x < 2 ^ 256 ∧ 0 ≤ Q.y ∧ Q.y < 2 ^ 256) :
    ∃ kb, verifySignature.keyBytes (.point Q) = .ok kb ∧ kb.length = 64 ∧ IsUncompressed Q (4 :: kb) := by
  obtain ⟨x0, x1, y0, y1⟩ := h
  obtain ⟨xb, e1, e2, e3⟩ := intToBytes_big x0 x1
  obtain ⟨yb, f1, f2, f3⟩ := intToBytes_big y0 y1
  refine ⟨xb ++ yb, ?_, by rw [List.length_append, e2, f2], xb, yb, rfl, e2, f2, e3, f3⟩
  rw [verifySignature.keyBytes, e1]
  simp only
  rw [f1]

/-- C53, what is true of totality: VerifySignature returns True or False, whatever the message, the signature and the state, if
and only if the public-key argument is a point with 256-bit coordinates, or bytes that do not have length 33 without beginning
with 2 or 3. -/
theorem C53_total_partial (B : Btc) (message signature : Val) (key : PubKeyArg) (unhex : Bool) (w : World) :
    (∃ b, (Neo.verifySignature B message signature key unhex w).1 = .ok b) ↔ KeyArgUsable key := by
  show (∃ b, verifySignature.run B message signature key unhex w.curve = .ok b) ↔ _
  have htot : ∀ kb', ∃ b, (match B.verify kb' signature (verifySignature.messageVal message unhex) with
      | .ok res => .ok res
      | .error _ => .ok false : Except Err Bool) = .ok b := by
    intro kb'
    cases B.verify kb' signature (verifySignature.messageVal message unhex) <;> exact ⟨_, rfl⟩
  cases key with
  | point Q =>
    constructor
    · rintro ⟨b, h⟩
      by_contra hk
      rw [KeyArgUsable] at hk
      rw [verifySignature.run, verifySignature.keyBytes] at h
      by_cases hx : 0 ≤ Q.x ∧ Q.x < 2 ^ 256
      · obtain ⟨xb, e1, e2, e3⟩ := intToBytes_big hx.1 hx.2
        rw [e1] at h
        simp only at h
        rw [intToBytes_big_error (by omega)] at h
        cases h
      · rw [intToBytes_big_error (by omega)] at h
        cases h
    · intro hk
      obtain ⟨kb, h1, h2, _⟩ := keyBytes_point hk
      rw [run_ok (c := w.curve) h1 (if_neg (by omega))]
      exact htot kb
  | bytes kb =>
    constructor
    · rintro ⟨b, h⟩ hl
      rw [verifySignature.run, verifySignature.keyBytes] at h
      simp only at h
      rw [if_pos hl] at h
      match kb with
      | [] => cases hl
      | f :: xb =>
        by_cases hf : f = 2 ∨ f = 3
        · simpa using hf
        · rw [btcDecompress, if_neg hf] at h
          cases h
    · intro hk
      by_cases hl : kb.length = 33
      · have : ∃ kb', btcDecompress w.curve kb = .ok kb' := by
          match kb with
          | [] => cases hl
          | f :: xb =>
            rw [btcDecompress, if_pos (by simpa using hk hl)]
            exact ⟨_, rfl⟩
        obtain ⟨kb', h2⟩ := this
        rw [run_ok (c := w.curve) rfl ((if_pos hl).trans h2)]
        exact htot kb'
      · rw [run_ok (c := w.curve) rfl (if_neg hl)]
        exact htot kb

/-- C53 fails: VerifySignature raises for every 33-byte key beginning with another byte, and for every point object with a
coordinate that is negative or does not fit in 32 bytes, whatever the other arguments are. -/
theorem C53_total_violated (B : Btc) (message signature : Val) (unhex : Bool) (w : World) :
    (∀ f xb, xb.length = 32 → f ≠ 2 → f ≠ 3 →
      (Neo.verifySignature B message signature (.bytes (f :: xb)) unhex w).1 = .error .exc) ∧
    (∀ Q : Pt, Q.x < 0 ∨ 2 ^ 256 ≤ Q.x →
      (Neo.verifySignature B message signature (.point Q) unhex w).1 = .error .overflowError) := by
  constructor
  · intro f xb hl h2 h3
    show verifySignature.run B message signature (.bytes (f :: xb)) unhex w.curve = _
    rw [verifySignature.run, verifySignature.keyBytes]
    simp only
    rw [if_pos (by rw [List.length_cons, hl]), btcDecompress, if_neg (by tauto)]
  · intro Q h
    show verifySignature.run B message signature (.point Q) unhex w.curve = _
    rw [verifySignature.run, verifySignature.keyBytes, intToBytes_big_error h]

theorem uncompressed_inj {Q Q' : Pt} {b : Bytes} (h : IsUncompressed Q b) (h' : IsUncompressed Q' b) : Q = Q' := by
  obtain ⟨x, y, e, l1, l2, e1, e2⟩ := h
  obtain ⟨x', y', e', l1', l2', e1', e2'⟩ := h'
  rw [e] at e'
  obtain ⟨rfl, rfl⟩ := List.append_inj (List.cons.inj e').2 (by omega)
  cases Q; cases Q'
  simp only [Pt.mk.injEq] at *
  omega

private theorem message_iff (unhex : Bool) (message : Val) (m : Bytes) :
    (verifySignature.messageVal message unhex = .bytes m ∨ verifySignature.messageVal message unhex = .bytearray m) ↔
      MessageArg unhex message m := by
  cases unhex with
  | true =>
    unfold verifySignature.messageVal
    rw [if_pos rfl, MessageArg]
    cases unhexlifyVal message with
    | ok m' => simp
    | error e => simp
  | false =>
    unfold verifySignature.messageVal
    rw [if_neg (by decide), MessageArg]
    cases message <;> simp [eq_comm]

theorem uncompressed_length {Q : Pt} {b : Bytes} (h : IsUncompressed Q (4 :: b)) : b.length = 64 := by
  obtain ⟨x, y, e, l1, l2, -, -⟩ := h
  rw [(List.cons.inj e).2, List.length_append, l1, l2]

/-- C93, agreement with ECDSA (soundness): if VerifySignature returns True, then the key argument is a finite point of
secp256r1 (with coordinates below the group order), the signature argument is 64 bytes r, s, the message argument is bytes or text, and (r, s) is an ECDSA signature of
the SHA-256 of those bytes under that key. The curve must have been set up if the key is in compressed form (C52). -/
theorem C93_true_only_if_valid (P : Prims) (B : Btc) (hB : VerifiesEcdsa B P.sha256) (message signature : Val) (key : PubKeyArg)
    (unhex : Bool) (w : World) (hw : ∀ b, key = .bytes b → b.length = 33 → w.curve = signatureCurve)
    (h : (Neo.verifySignature B message signature key unhex w).1 = .ok true) :
    ∃ Q A rb sb m, KeyArg key Q ∧ IsPublicKey Q A ∧ Q.x < p256Order ∧ Q.y < p256Order ∧ (signature = .bytes (rb ++ sb) ∨ signature = .bytearray (rb ++ sb)) ∧
      rb.length = 32 ∧ sb.length = 32 ∧ MessageArg unhex message m ∧
      EcdsaValid (beNumber (P.sha256 m)) A (beNumber rb) (beNumber sb) := by
  have hk := (C53_total_partial B message signature key unhex w).1 ⟨_, h⟩
  have fin : ∀ kb', (match B.verify kb' signature (verifySignature.messageVal message unhex) with
      | .ok res => .ok res
      | .error _ => .ok false : Except Err Bool) = .ok true →
      (∀ Q A, IsUncompressed Q (4 :: kb') → IsPublicKey Q A → KeyArg key Q) →
      ∃ Q A rb sb m, KeyArg key Q ∧ IsPublicKey Q A ∧ Q.x < p256Order ∧ Q.y < p256Order ∧ (signature = .bytes (rb ++ sb) ∨ signature = .bytearray (rb ++ sb)) ∧
      rb.length = 32 ∧ sb.length = 32 ∧ MessageArg unhex message m ∧
      EcdsaValid (beNumber (P.sha256 m)) A (beNumber rb) (beNumber sb) := by
    intro kb' hv hka
    have hv' : B.verify kb' signature (verifySignature.messageVal message unhex) = .ok true := by
      cases hb : B.verify kb' signature (verifySignature.messageVal message unhex) with
      | ok res => rw [hb] at hv; exact hv
      | error e => rw [hb] at hv; cases hv
    obtain ⟨Q, A, rb, sb, m, h1, h2, hx, hy, h3, h4, h5, h6, h7⟩ := (hB _ _ _).1 hv'
    exact ⟨Q, A, rb, sb, m, hka Q A h1 h2, h2, hx, hy, h3, h4, h5, (message_iff unhex message m).1 h6, h7⟩
  have h : verifySignature.run B message signature key unhex w.curve = .ok true := h
  cases key with
  | point Q0 =>
    obtain ⟨kb, h1, h2, h3⟩ := keyBytes_point hk
    rw [run_ok (c := w.curve) h1 (if_neg (by omega))] at h
    refine fin kb h ?_
    intro Q A hQ _
    exact uncompressed_inj h3 hQ
  | bytes kb =>
    by_cases hl : kb.length = 33
    · cases hd : btcDecompress w.curve kb with
      | error e =>
        rw [verifySignature.run, verifySignature.keyBytes] at h
        simp only at h
        rw [if_pos hl, hd] at h
        cases h
      | ok kb' =>
        rw [run_ok (c := w.curve) rfl ((if_pos hl).trans hd)] at h
        refine fin kb' h ?_
        intro Q A hQ hA
        rw [hw kb rfl hl] at hd
        exact .inr (decompress_sound hl hd hQ hA.2.1.2.2.2)
    · rw [run_ok (c := w.curve) rfl (if_neg hl)] at h
      exact fin kb h fun Q A hQ _ => .inl hQ

/-- C53, agreement with ECDSA (completeness): VerifySignature returns True for every valid signature under a key whose
coordinates are below the group order. -/
theorem C53_true_if_valid_partial (P : Prims) (B : Btc) (hB : VerifiesEcdsa B P.sha256) (message signature : Val) (key : PubKeyArg)
    (unhex : Bool) (w : World) (hw : ∀ b, key = .bytes b → b.length = 33 → w.curve = signatureCurve) (Q : Pt)
    (A : (weierstrass secp256r1Curve).Point) (rb sb m : Bytes) (hk : KeyArg key Q) (hQ : IsPublicKey Q A)
    (hx : Q.x < p256Order) (hy : Q.y < p256Order)
    (hs : signature = .bytes (rb ++ sb) ∨ signature = .bytearray (rb ++ sb)) (hr : rb.length = 32) (hsl : sb.length = 32)
    (hm : MessageArg unhex message m) (hv : EcdsaValid (beNumber (P.sha256 m)) A (beNumber rb) (beNumber sb)) :
    (Neo.verifySignature B message signature key unhex w).1 = .ok true := by
  have := Fact.mk p256_prime
  show verifySignature.run B message signature key unhex w.curve = _
  have fin : ∀ kb', IsUncompressed Q (4 :: kb') → (match B.verify kb' signature (verifySignature.messageVal message unhex) with
      | .ok res => .ok res
      | .error _ => .ok false : Except Err Bool) = .ok true := by
    intro kb' hu
    rw [(hB kb' signature _).2 ⟨Q, A, rb, sb, m, hu, hQ, hx, hy, hs, hr, hsl, (message_iff unhex message m).2 hm, hv⟩]
  have h256 : (secp256r1Curve.p : Int) < 2 ^ 256 := by decide +kernel
  cases key with
  | point Q0 =>
    have hk : Q0 = Q := hk
    subst hk
    obtain ⟨-, ⟨x0, x1, y0, y1⟩, -⟩ := hQ
    obtain ⟨kb, h1, h2, h3⟩ := keyBytes_point (Q := Q0) ⟨x0, by omega, y0, by omega⟩
    rw [run_ok (c := w.curve) h1 (if_neg (by omega))]
    exact fin kb h3
  | bytes kb =>
    rcases hk with hk | hk
    · have := uncompressed_length hk
      rw [run_ok (c := w.curve) rfl (if_neg (by omega))]
      exact fin kb hk
    · have hl : kb.length = 33 := by obtain ⟨xb, e, l, -⟩ := hk; rw [e, List.length_cons, l]
      obtain ⟨b, hb1, hb2⟩ := decompress_complete hk hQ.2.1 (denotes_onCurve hQ.2.2) hQ.1
      rw [run_ok (c := w.curve) rfl ((if_pos hl).trans (by rw [hw kb rfl hl]; exact hb1))]
      exact fin b hb2

/-- C93, exactly: when the answer is True. -/
theorem C93_true_iff (P : Prims) (B : Btc) (hB : VerifiesEcdsa B P.sha256) (message signature : Val) (key : PubKeyArg)
    (unhex : Bool) (w : World) (hw : ∀ b, key = .bytes b → b.length = 33 → w.curve = signatureCurve) :
    (Neo.verifySignature B message signature key unhex w).1 = .ok true ↔
    ∃ Q A rb sb m, KeyArg key Q ∧ IsPublicKey Q A ∧ Q.x < p256Order ∧ Q.y < p256Order ∧
      (signature = .bytes (rb ++ sb) ∨ signature = .bytearray (rb ++ sb)) ∧
      rb.length = 32 ∧ sb.length = 32 ∧ MessageArg unhex message m ∧
      EcdsaValid (beNumber (P.sha256 m)) A (beNumber rb) (beNumber sb) := by
  constructor
  · exact C93_true_only_if_valid P B hB message signature key unhex w hw
  · rintro ⟨Q, A, rb, sb, m, h1, h2, h3, h4, h5, h6, h7, h8, h9⟩
    exact C53_true_if_valid_partial P B hB message signature key unhex w hw Q A rb sb m h1 h2 h3 h4 h5 h6 h7 h8 h9

open Classical in
/-- There is an `ecdsa` package that does what is asked (the published one does: `pkgBtc_verifies`). -/
theorem verifiesEcdsa_exists (genK) (hash : Bytes → Bytes) : ∃ verify, VerifiesEcdsa (pyBtc genK verify) hash := by
  let valid : Bytes → Val → Val → Prop := fun key sig msg =>
    ∃ Q A rb sb m, IsUncompressed Q (4 :: key) ∧ IsPublicKey Q A ∧ Q.x < p256Order ∧ Q.y < p256Order ∧
      (sig = .bytes (rb ++ sb) ∨ sig = .bytearray (rb ++ sb)) ∧
      rb.length = 32 ∧ sb.length = 32 ∧ (msg = .bytes m ∨ msg = .bytearray m) ∧
      EcdsaValid (beNumber (hash m)) A (beNumber rb) (beNumber sb)
  refine ⟨fun key sig msg => if valid key sig msg then .ok true else .error .exc, ?_⟩
  intro key sig msg
  show (if valid key sig msg then .ok true else .error .exc : Except Err Bool) = .ok true ↔ valid key sig msg
  by_cases hv : valid key sig msg
  · rw [if_pos hv]; exact ⟨fun _ => hv, fun _ => rfl⟩
  · rw [if_neg hv]; exact ⟨fun h => (by cases h), fun h => absurd h hv⟩

end Neo.Props
