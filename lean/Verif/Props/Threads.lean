import Verif.Model.Threads
import Verif.Props.Crypto

/-! # C158, C159: threads -/

namespace Neo.Props
open Py Neo.Threads

/-! ## What the calls return one after another -/

/-- What a call returns in a process with one thread that has set the curve. -/
def expected (P : Prims) (B : Btc) (nfc : Str → Str) : TCall → Out
  | .keyPair b => .keyPair (KeyPair.init P B b (Neo.setupSignatureCurve .fresh).2).1
  | .setupSignatureCurve => .unit
  | .default => .unit
  | .exportWIF kp => .str (KeyPair.exportWIF P kp (Neo.setupSignatureCurve .fresh).2).1
  | .privateKeyFromNEP2 s pw => .bytes (KeyPair.privateKeyFromNEP2 P B nfc s pw (Neo.setupSignatureCurve .fresh).2).1
  | .createWallet b => .wallet (KeyPair.createWallet P B b (Neo.setupSignatureCurve .fresh).2).1
  | .sign m k => .bytes (Neo.sign P B m k (Neo.setupSignatureCurve .fresh).2).1
  | .verifySignature m s k u => .bool (Neo.verifySignature B m s k u (Neo.setupSignatureCurve .fresh).2).1

/-- The calls that set the curve, whatever their arguments are. -/
def SetsCurve : TCall → Prop
  | .keyPair _ | .setupSignatureCurve | .default | .exportWIF _ | .createWallet _ => True
  | _ => False

/-- The calls that use the curve without setting it. -/
def OnlyUses : TCall → Prop
  | .sign _ _ | .verifySignature _ _ _ _ => True
  | _ => False

/-! ## Rely and guarantee -/

/-- Where every variable ends up. -/
private abbrev target : Mem := memOf signatureCurve true

/-- All parameters of the package are those of secp256r1. -/
private def AllSet (m : Mem) : Prop := ∀ x, x ≠ .inst → m x = target x

private def Valid (m : Mem) : Prop := m .inst = true → AllSet m

/-- What a thread relies on and guarantees: a variable that has its final value keeps it. -/
private def Le (m m' : Mem) : Prop := Valid m' ∧ ∀ x, m x = target x → m' x = target x

private theorem Le.trans {a b c : Mem} (h1 : Le a b) (h2 : Le b c) : Le a c := ⟨h2.1, fun x hx => h2.2 x (h1.2 x hx)⟩

private theorem AllSet.mono {m m' : Mem} (h : AllSet m) (hle : Le m m') : AllSet m' := fun x hx => hle.2 x (h x hx)

/-- The program keeps the guarantee and ends in `post`, whatever the other threads do within the guarantee. -/
private def Ok (post : α → Mem → Prop) : Prog α → Mem → Prop
  | .ret r, m => ∀ m', Le m m' → post r m'
  | .load x k, m => ∀ m', Le m m' → Ok post (k (m' x)) m'
  | .store x v k, m => ∀ m', Le m m' → Le m' (m'.set x v) ∧ Ok post k (m'.set x v)

private theorem Ok.mono {post : α → Mem → Prop} {q : Prog α} {m m' : Mem} (h : Ok post q m) (hle : Le m m') : Ok post q m' := by
  cases q with
  | ret r => exact fun m2 h2 => h m2 (hle.trans h2)
  | load x k => exact fun m2 h2 => h m2 (hle.trans h2)
  | store x v k => exact fun m2 h2 => h m2 (hle.trans h2)

private theorem Ok.bind {post : α → Mem → Prop} {post' : β → Mem → Prop} (f : α → Prog β)
    (hf : ∀ r m, Valid m → post r m → Ok post' (f r) m) : ∀ {q : Prog α} {m : Mem}, Valid m → Ok post q m → Ok post' (q.bind f) m := by
  intro q
  induction q with
  | ret r => exact fun {m} hv h => hf r m hv (h m ⟨hv, fun _ hx => hx⟩)
  | load x k ih => exact fun {m} hv h m' hle => ih (m' x) hle.1 (h m' hle)
  | store x v k ih => exact fun {m} hv h m' hle => ⟨(h m' hle).1, ih (h m' hle).1.1 (h m' hle).2⟩

private theorem Ok.weaken {post post' : α → Mem → Prop} (hp : ∀ r m, Valid m → post r m → post' r m) :
    ∀ {q : Prog α} {m : Mem}, Ok post q m → Ok post' q m := by
  intro q
  induction q with
  | ret r => exact fun h m' hle => hp r m' hle.1 (h m' hle)
  | load x k ih => exact fun h m' hle => ih (m' x) (h m' hle)
  | store x v k ih => exact fun h m' hle => ⟨(h m' hle).1, ih (h m' hle).2⟩

private theorem Ok.keep {post : α → Mem → Prop} :
    ∀ {q : Prog α} {m : Mem}, AllSet m → Ok post q m → Ok (fun r m' => post r m' ∧ AllSet m') q m := by
  intro q
  induction q with
  | ret r => exact fun hs h m' hle => ⟨h m' hle, hs.mono hle⟩
  | load x k ih => exact fun hs h m' hle => ih (m' x) (hs.mono hle) (h m' hle)
  | store x v k ih => exact fun hs h m' hle => ⟨(h m' hle).1, ih ((hs.mono hle).mono (h m' hle).1) (h m' hle).2⟩

private theorem set_self (m : Mem) (x : Var) (v : x.Ty) : m.set x v x = v := by
  unfold Mem.set
  rw [dif_pos rfl]

private theorem set_other (m : Mem) {x y : Var} (v : x.Ty) (h : x ≠ y) : m.set x v y = m y := dif_neg h

/-- Giving a variable its final value keeps the guarantee. -/
private theorem le_set {m : Mem} (hv : Valid m) (x : Var) (v : x.Ty) (hx : v = target x) (hi : x = .inst → AllSet m) :
    Le m (m.set x v) := by
  have keep : ∀ y, m y = target y → m.set x v y = target y := by
    intro y hy
    by_cases h : x = y
    · subst h; rw [set_self, hx]
    · rw [set_other m v h, hy]
  refine ⟨fun h y hy => ?_, keep⟩
  by_cases hxi : x = .inst
  · exact keep y (hi hxi y hy)
  · rw [set_other m v hxi] at h
    exact keep y (hv h y hy)

private theorem ok_store {post : α → Mem → Prop} (x : Var) (v : x.Ty) (k : Prog α) {m : Mem} (hx : v = target x) (hne : x ≠ .inst)
    (hk : ∀ m', Le m m' → m' x = target x → Ok post k m') : Ok post (.store x v k) m := fun m' hle => by
  have h := le_set hle.1 x v hx (fun h => absurd h hne)
  exact ⟨h, hk _ (hle.trans h) (by rw [set_self, hx])⟩

private theorem valid_refl {m : Mem} (h : Valid m) : Le m m := ⟨h, fun _ hx => hx⟩

/-- `change_curve` with the parameters of secp256r1. -/
private theorem ok_change (c : BtcCurve) (hc : c = signatureCurve) (m : Mem) :
    Ok (fun (_ : Unit) m' => AllSet m') (changeCurve c) m := by
  subst hc
  refine ok_store .p _ _ rfl (by decide) fun m1 l1 h1 => ?_
  refine ok_store .n _ _ rfl (by decide) fun m2 l2 h2 => ?_
  refine ok_store .a _ _ rfl (by decide) fun m3 l3 h3 => ?_
  refine ok_store .b _ _ rfl (by decide) fun m4 l4 h4 => ?_
  refine ok_store .gx _ _ rfl (by decide) fun m5 l5 h5 => ?_
  refine ok_store .gy _ _ rfl (by decide) fun m6 l6 h6 => ?_
  intro m7 l7 m8 l8
  have hgx : m7 .gx = target .gx := l7.2 _ (l6.2 _ h5)
  have hgy : m8 .gy = target .gy := l8.2 _ (l7.2 _ h6)
  refine ok_store .g _ _ ?_ (by decide) fun m9 l9 h9 => ?_
  · rw [hgx, hgy]
    rfl
  · intro m10 l10 x hx
    have l89 := l9.trans l10
    have l79 := l8.trans l89
    have l69 := l7.trans l79
    have l59 := l6.trans l69
    have l49 := l5.trans l59
    have l39 := l4.trans l49
    have l29 := l3.trans l39
    have l19 := l2.trans l29
    cases x with
    | p => exact l19.2 _ h1
    | n => exact l29.2 _ h2
    | a => exact l39.2 _ h3
    | b => exact l49.2 _ h4
    | gx => exact l59.2 _ h5
    | gy => exact l69.2 _ h6
    | g => exact l10.2 _ h9
    | inst => exact absurd rfl hx

private theorem ok_default {m : Mem} : Ok (fun (_ : Unit) m' => AllSet m') Threads.cryptoDefault m := by
  intro m1 l1
  have key : ∀ set : Bool, m1 .inst = set → Ok (fun (_ : Unit) m' => AllSet m') (if set = true then Prog.ret () else
      Threads.setupSignatureCurve.bind fun _ => Prog.store Var.inst true (Prog.ret ())) m1 := by
    intro set hset
    by_cases hi : set = true
    · rw [if_pos hi]
      exact fun m2 l2 => (l1.1 (hset.trans hi)).mono l2
    rw [if_neg hi]
    refine Ok.bind _ (fun _ m2 hv2 h2 => ?_) l1.1 (ok_change _ rfl m1)
    intro m3 l3
    have h3 := AllSet.mono h2 l3
    have hl := le_set l3.1 .inst true rfl (fun _ => h3)
    exact ⟨hl, fun m4 l4 => (h3.mono hl).mono l4⟩
  exact key _ rfl

/-- A computation reading the parameters, which are all set, gives what it gives alone. -/
private theorem ok_reads (q : Reads α) : ∀ {m : Mem}, AllSet m →
    Ok (fun r m' => r = q.alone target ∧ AllSet m') q.prog m := by
  induction q with
  | ret r => exact fun h m' hle => ⟨rfl, h.mono hle⟩
  | load x hx k ih =>
    intro m h m' hle
    have h' := h.mono hle
    have e : m' x = target x := h' x hx
    have := ih (m' x) h'
    rw [e] at this
    rw [e]
    exact this

private theorem ok_reads_any (q : Reads α) : ∀ {m : Mem}, Ok (fun _ _ => True) q.prog m := by
  induction q with
  | ret r => exact fun m' hle => trivial
  | load x hx k ih => exact fun m' hle => ih (m' x)

private theorem alone_map (f : α → β) (q : Reads α) (m : Mem) : (q.map f).alone m = f (q.alone m) := by
  induction q with
  | ret r => rfl
  | load x hx k ih => exact ih (m x)

/-! ## The calls alone -/

variable (P : Prims) {B : Btc} (T : Package B) (nfc : Str → Str)

private theorem sign_alone (m k : Val) (w : World) (hw : w.curve = signatureCurve) :
    (Threads.sign P T m k).alone target = (Neo.sign P B m k w).1 := by
  unfold Threads.sign Neo.sign
  rw [hw]
  cases unhexlifyVal m with
  | error e => rfl
  | ok b =>
    simp only
    rw [alone_map, T.ecdsaRawSign_alone]
    cases B.ecdsaRawSign signatureCurve (hexStr (P.sha256 b)) k with
    | error e => rfl
    | ok r =>
      obtain ⟨v, r, s⟩ := r
      simp only
      generalize intToBytes r 32 .big false = x
      generalize intToBytes s 32 .big false = y
      cases x with
      | error e => rfl
      | ok rb => cases y <;> rfl

private theorem verify_alone (m s : Val) (k : PubKeyArg) (u : Bool) (w : World) (hw : w.curve = signatureCurve) :
    (Threads.verifySignature T m s k u).alone target = (Neo.verifySignature B m s k u w).1 := by
  unfold Threads.verifySignature Neo.verifySignature Neo.verifySignature.run
  simp only
  rw [hw]
  cases Neo.verifySignature.keyBytes k with
  | error e => rfl
  | ok key =>
    simp only
    rw [alone_map]
    by_cases h33 : key.length = 33
    · rw [if_pos h33, if_pos h33, T.decompress_alone]
      cases btcDecompress signatureCurve key with
      | error e => rfl
      | ok key => rfl
    · rw [if_neg h33, if_neg h33]
      rfl

private theorem construct_alone (b : Bytes) : (Threads.construct P T b).alone target = KeyPair.construct P B signatureCurve b := by
  unfold Threads.construct KeyPair.construct
  simp only
  by_cases h : b.length ≠ 32 ∧ b.length ≠ 96 ∧ b.length ≠ 104
  · rw [if_pos h, if_pos h]; rfl
  · rw [if_neg h, if_neg h]
    by_cases h32 : b.length = 32
    · rw [if_pos h32, if_pos h32, alone_map, T.privkeyToPubkey_alone]
      cases B.privkeyToPubkey signatureCurve b <;> rfl
    · rw [if_neg h32, if_neg h32]; rfl

private theorem kp_curve' : keyPairCurve = signatureCurve := C91_same_parameters.1

private theorem ok_keyPair (b : Bytes) {m : Mem} (hm : Valid m) (w : World) :
    Ok (fun r m' => r = (KeyPair.init P B b w).1 ∧ AllSet m') (Threads.keyPair P T b) m := by
  refine Ok.bind _ (fun _ m' hv h => ?_) hm (ok_change _ kp_curve' m)
  refine Ok.weaken ?_ (ok_reads (Threads.construct P T b) h)
  rintro r m2 - ⟨h1, h2⟩
  refine ⟨?_, h2⟩
  rw [h1, construct_alone]
  show _ = KeyPair.construct P B keyPairCurve b
  rw [kp_curve']

private theorem ok_export (kp : KeyPair) {m : Mem} (hm : Valid m) (w : World) :
    Ok (fun r m' => r = (KeyPair.exportWIF P kp w).1 ∧ AllSet m') (Threads.exportWIF P kp) m := by
  refine Ok.bind _ (fun _ m' hv h => ?_) hm ok_default
  exact fun m2 hle => ⟨rfl, h.mono hle⟩

private theorem ok_nep2 (s pw : Str) {m : Mem} (hm : Valid m) (w : World) :
    Ok (fun r _ => r = (KeyPair.privateKeyFromNEP2 P B nfc s pw w).1) (Threads.privateKeyFromNEP2 P T nfc s pw) m := by
  unfold Threads.privateKeyFromNEP2 KeyPair.privateKeyFromNEP2
  cases KeyPair.decryptNEP2 P nfc s pw with
  | error e => exact fun m' hle => rfl
  | ok r =>
    obtain ⟨key, ah⟩ := r
    simp only
    refine Ok.bind _ (fun r m' hv h => ?_) hm (ok_keyPair P T key hm w)
    obtain ⟨hr, -⟩ := h
    rcases hw : KeyPair.init P B key w with ⟨r1, w1⟩
    rw [hw] at hr
    subst hr
    cases r with
    | error e => exact fun m' hle => rfl
    | ok kp =>
      simp only
      cases KeyPair.getAddress P kp with
      | error e => exact fun m' hle => rfl
      | ok a =>
        intro m' hle
        simp only
        by_cases h : KeyPair.addressHash P a ≠ ah
        · rw [if_pos h, if_pos h]
        · rw [if_neg h, if_neg h]

private theorem ok_wallet (b : Bytes) {m : Mem} (hm : Valid m) (w : World) :
    Ok (fun r m' => r = (KeyPair.createWallet P B b w).1 ∧ AllSet m') (Threads.createWallet P T b) m := by
  unfold Threads.createWallet KeyPair.createWallet
  refine Ok.bind _ (fun r m' hv h => ?_) hm (ok_keyPair P T b hm w)
  obtain ⟨hr, hset⟩ := h
  rcases hw : KeyPair.init P B b w with ⟨r1, w1⟩
  rw [hw] at hr
  subst hr
  cases r with
  | error e => exact fun m' hle => ⟨rfl, hset.mono hle⟩
  | ok kp =>
    simp only
    refine Ok.bind _ (fun r m' hv h => ?_) hv (ok_export P kp hv w1)
    obtain ⟨hr, hset⟩ := h
    have e : (KeyPair.exportWIF P kp w1).1 = .ok (Base58.encode (KeyPair.wifBytes P kp)) := rfl
    rw [e] at hr
    subst hr
    simp only [KeyPair.exportWIF]
    cases KeyPair.getAddress P kp with
    | error e => exact fun m' hle => ⟨rfl, hset.mono hle⟩
    | ok a => exact fun m' hle => ⟨rfl, hset.mono hle⟩

private theorem ok_call (c : TCall) {m : Mem} (hm : Valid m) :
    Ok (fun o m' => ((OnlyUses c → AllSet m) → o = expected P B nfc c) ∧ (SetsCurve c ∨ AllSet m → AllSet m')) (c.prog P T nfc) m := by
  have hw : (Neo.setupSignatureCurve World.fresh).2.curve = signatureCurve := rfl
  cases c with
  | keyPair b =>
    refine Ok.bind _ (fun r m' hv h => ?_) hm (ok_keyPair P T b hm (Neo.setupSignatureCurve .fresh).2)
    exact fun m2 hle => ⟨fun _ => by rw [h.1]; rfl, fun _ => h.2.mono hle⟩
  | setupSignatureCurve =>
    refine Ok.bind _ (fun r m' hv h => ?_) hm (ok_change _ rfl m)
    exact fun m2 hle => ⟨fun _ => rfl, fun _ => AllSet.mono h hle⟩
  | default =>
    refine Ok.bind _ (fun r m' hv h => ?_) hm ok_default
    exact fun m2 hle => ⟨fun _ => rfl, fun _ => AllSet.mono h hle⟩
  | exportWIF kp =>
    refine Ok.bind _ (fun r m' hv h => ?_) hm (ok_export P kp hm (Neo.setupSignatureCurve .fresh).2)
    exact fun m2 hle => ⟨fun _ => by rw [h.1]; rfl, fun _ => h.2.mono hle⟩
  | createWallet b =>
    refine Ok.bind _ (fun r m' hv h => ?_) hm (ok_wallet P T b hm (Neo.setupSignatureCurve .fresh).2)
    exact fun m2 hle => ⟨fun _ => by rw [h.1]; rfl, fun _ => h.2.mono hle⟩
  | privateKeyFromNEP2 s pw =>
    by_cases hs : AllSet m
    · refine Ok.bind _ (fun r m' hv h => ?_) hm (Ok.keep hs (ok_nep2 P T nfc s pw hm (Neo.setupSignatureCurve .fresh).2))
      exact fun m2 hle => ⟨fun _ => by rw [h.1]; rfl, fun _ => h.2.mono hle⟩
    · refine Ok.bind _ (fun r m' hv h => ?_) hm (ok_nep2 P T nfc s pw hm (Neo.setupSignatureCurve .fresh).2)
      exact fun m2 hle => ⟨fun _ => by rw [h]; rfl, fun h => h.elim (fun h => h.elim) (fun h => absurd h hs)⟩
  | sign msg k =>
    by_cases hs : AllSet m
    · refine Ok.bind _ (fun r m' hv h => ?_) hm (ok_reads (Threads.sign P T msg k) hs)
      refine fun m2 hle => ⟨fun _ => ?_, fun _ => h.2.mono hle⟩
      rw [h.1, sign_alone P T msg k _ hw]
      rfl
    · refine Ok.bind _ (fun r m' hv h => ?_) hm (ok_reads_any (Threads.sign P T msg k))
      exact fun m2 hle => ⟨fun h => absurd (h trivial) hs, fun h => h.elim (fun h => h.elim) (fun h => absurd h hs)⟩
  | verifySignature msg s k u =>
    by_cases hs : AllSet m
    · refine Ok.bind _ (fun r m' hv h => ?_) hm (ok_reads (Threads.verifySignature T msg s k u) hs)
      refine fun m2 hle => ⟨fun _ => ?_, fun _ => h.2.mono hle⟩
      rw [h.1, verify_alone T msg s k u _ hw]
      rfl
    · refine Ok.bind _ (fun r m' hv h => ?_) hm (ok_reads_any (Threads.verifySignature T msg s k u))
      exact fun m2 hle => ⟨fun h => absurd (h trivial) hs, fun h => h.elim (fun h => h.elim) (fun h => absurd h hs)⟩

/-! ## All threads -/

/-- The curve has been set before call number `n` of a thread: by the process before the threads began (`A`), or by an
earlier call of this thread. -/
private def SetBefore (A : Prop) (cs : List TCall) (n : Nat) : Prop := A ∨ ∃ k, k < n ∧ ∃ c, cs[k]? = some c ∧ SetsCurve c

private structure ThreadOk (A : Prop) (cs : List TCall) (t : Thread) (m : Mem) : Prop where
  results : ∀ j o c, t.done[j]? = some o → cs[j]? = some c → (OnlyUses c → SetBefore A cs j) → o = expected P B nfc c
  between : t.cur = none → t.todo = cs.drop t.done.length ∧ (SetBefore A cs t.done.length → AllSet m)
  inside : ∀ q, t.cur = some q → ∃ c, cs[t.done.length]? = some c ∧ t.todo = cs.drop (t.done.length + 1) ∧
    Ok (fun o m' => ((OnlyUses c → SetBefore A cs t.done.length) → o = expected P B nfc c) ∧
      (SetBefore A cs (t.done.length + 1) → AllSet m')) q m

private theorem ThreadOk.mono {A : Prop} {cs : List TCall} {t : Thread} {m m' : Mem} (h : ThreadOk P (B := B) nfc A cs t m)
    (hle : Le m m') : ThreadOk P (B := B) nfc A cs t m' :=
  ⟨h.results, fun hc => ⟨(h.between hc).1, fun hs => ((h.between hc).2 hs).mono hle⟩, fun q hq => by
    obtain ⟨c, h1, h2, h3⟩ := h.inside q hq
    exact ⟨c, h1, h2, h3.mono hle⟩⟩

private theorem setBefore_succ {A : Prop} {cs : List TCall} {n : Nat} {c : TCall} (hc : cs[n]? = some c) :
    SetBefore A cs (n + 1) ↔ SetBefore A cs n ∨ SetsCurve c := by
  constructor
  · rintro (h | ⟨k, hk, c', h1, h2⟩)
    · exact .inl (.inl h)
    · rcases Nat.lt_succ_iff_lt_or_eq.1 hk with hlt | rfl
      · exact .inl (.inr ⟨k, hlt, c', h1, h2⟩)
      · rw [hc] at h1
        cases h1
        exact .inr h2
  · rintro ((h | ⟨k, hk, c', h1, h2⟩) | h)
    · exact .inl h
    · exact .inr ⟨k, by omega, c', h1, h2⟩
    · exact .inr ⟨n, by omega, c, hc, h⟩

private theorem step_ok {A : Prop} {cs : List TCall} {t : Thread} {m : Mem} (hv : Valid m) (h : ThreadOk P (B := B) nfc A cs t m) :
    Le m (t.step P T nfc m).2 ∧ ThreadOk P (B := B) nfc A cs (t.step P T nfc m).1 (t.step P T nfc m).2 := by
  obtain ⟨done, cur, todo⟩ := t
  have hr := valid_refl hv
  cases cur with
  | none =>
    obtain ⟨htodo, hset⟩ := h.between rfl
    simp only at htodo hset
    cases todo with
    | nil => exact ⟨hr, h⟩
    | cons call rest =>
      refine ⟨hr, h.results, (fun hc => by cases hc), fun q hq => ?_⟩
      have hc : cs[done.length]? = some call := by
        have := congrArg (·[0]?) htodo
        simp only [List.getElem?_cons_zero, List.getElem?_drop, Nat.add_zero] at this
        exact this.symm
      have hrest : rest = cs.drop (done.length + 1) := by
        have := congrArg (List.drop 1) htodo
        rw [List.drop_drop] at this
        simpa using this
      refine ⟨call, hc, hrest, ?_⟩
      have e : call.prog P T nfc = q := Option.some.inj hq
      rw [← e]
      refine Ok.weaken ?_ (ok_call P T nfc call hv)
      rintro o m' - ⟨h1, h2⟩
      refine ⟨fun ho => h1 fun hu => hset (ho hu), fun hs => h2 ?_⟩
      rcases (setBefore_succ hc).1 hs with hs | hs
      · exact .inr (hset hs)
      · exact .inl hs
  | some q =>
    obtain ⟨c, hc, htodo, hok⟩ := h.inside q rfl
    simp only at hc htodo hok
    cases q with
    | ret o =>
      obtain ⟨hres, hset⟩ := hok m hr
      refine ⟨hr, ?_, fun _ => ?_, fun q hq => by cases hq⟩
      · intro j o' c' hj hc' hu
        change (done ++ [o])[j]? = some o' at hj
        by_cases hlt : j < done.length
        · rw [List.getElem?_append_left hlt] at hj
          exact h.results j o' c' hj hc' hu
        · have hj' : j = done.length := by
            have := (List.getElem?_eq_some_iff.1 hj).1
            rw [List.length_append, List.length_singleton] at this
            omega
          subst hj'
          rw [List.getElem?_append_right (le_refl _), Nat.sub_self] at hj
          cases hj
          rw [hc] at hc'
          cases hc'
          exact hres hu
      · change todo = cs.drop (done ++ [o]).length ∧ (SetBefore A cs (done ++ [o]).length → AllSet m)
        rw [List.length_append, List.length_singleton]
        exact ⟨htodo, hset⟩
    | load x k =>
      refine ⟨hr, h.results, (fun hc => by cases hc), fun q hq => ⟨c, hc, htodo, ?_⟩⟩
      have e : k (m x) = q := Option.some.inj hq
      rw [← e]
      exact hok m hr
    | store x v k =>
      obtain ⟨hle, hk⟩ := hok m hr
      refine ⟨hle, h.results, (fun hc => by cases hc), fun q hq => ⟨c, hc, htodo, ?_⟩⟩
      have e : k = q := Option.some.inj hq
      rw [← e]
      exact hk

private theorem run_ok' (A : Prop) (calls : List (List TCall)) (schedule : List Nat) :
    ∀ s : Process, Valid s.mem → s.threads.length = calls.length →
      (∀ (i : Nat) (cs : List TCall) (t : Thread), calls[i]? = some cs → s.threads[i]? = some t → ThreadOk P (B := B) nfc A cs t s.mem) →
      ∀ (i : Nat) (cs : List TCall) (t : Thread), calls[i]? = some cs → (schedule.foldl (fun s i => s.step P T nfc i) s).threads[i]? = some t →
        ThreadOk P (B := B) nfc A cs t (schedule.foldl (fun s i => s.step P T nfc i) s).mem := by
  induction schedule with
  | nil => exact fun s _ _ h => h
  | cons n schedule ih =>
    intro s hv hlen h
    rw [List.foldl_cons]
    have hstep : ∀ t, s.threads[n]? = some t →
        s.step P T nfc n = ⟨(t.step P T nfc s.mem).2, s.threads.set n (t.step P T nfc s.mem).1⟩ := by
      intro t ht
      unfold Process.step
      rw [ht]
    cases ht : s.threads[n]? with
    | none =>
      have e : s.step P T nfc n = s := by unfold Process.step; rw [ht]
      rw [e]
      exact ih s hv hlen h
    | some t =>
      rw [hstep t ht]
      have hn := (List.getElem?_eq_some_iff.1 ht).1
      obtain ⟨cs, hcs⟩ : ∃ cs, calls[n]? = some cs := ⟨_, List.getElem?_eq_getElem (hlen ▸ hn)⟩
      obtain ⟨hle, hok⟩ := step_ok P T nfc hv (h n cs t hcs ht)
      refine ih _ hle.1 (by rw [List.length_set]; exact hlen) ?_
      intro i cs' t' hcs' ht'
      simp only at ht'
      by_cases hin : n = i
      · subst hin
        rw [List.getElem?_set_self hn] at ht'
        cases ht'
        rw [hcs] at hcs'
        cases hcs'
        exact hok
      · rw [List.getElem?_set_ne hin] at ht'
        exact (h i cs' t' hcs' ht').mono P nfc hle

private theorem all_results (A : Prop) (m : Mem) (hv : Valid m) (hA : A → AllSet m) (calls : List (List TCall)) (schedule : List Nat)
    (i : Nat) (cs : List TCall) (t : Thread) (j : Nat) (o : Out) (c : TCall) (hi : calls[i]? = some cs)
    (ht : (Threads.after P T nfc m calls schedule).threads[i]? = some t) (ho : t.done[j]? = some o) (hc : cs[j]? = some c)
    (hset : OnlyUses c → SetBefore A cs j) : o = expected P B nfc c := by
  refine (run_ok' P T nfc A calls schedule _ hv (by simp) ?_ i cs t hi ht).results j o c ho hc hset
  intro i cs t hi ht
  simp only [List.getElem?_map, hi, Option.map_some] at ht
  cases ht
  refine ⟨fun j o c hj => by simp at hj, fun _ => ⟨rfl, ?_⟩, fun q hq => by cases hq⟩
  rintro (h | ⟨k, hk, -⟩)
  · exact hA h
  · exact absurd hk (Nat.not_lt_zero k)

/-- C158. In a fresh process with any number of threads making any calls, under every schedule: a call that sets the curve
itself, and a signature or verification in a thread that has called `SetupSignatureCurve` or `Default`, constructed a `KeyPair`,
exported or created a wallet before, returns (or raises) exactly what it does in a process of one thread. -/
theorem C158_own_setup (calls : List (List TCall)) (schedule : List Nat) (i : Nat) (cs : List TCall) (t : Thread) (j : Nat) (o : Out)
    (c : TCall) (hi : calls[i]? = some cs) (ht : (Threads.after P T nfc freshMem calls schedule).threads[i]? = some t)
    (ho : t.done[j]? = some o) (hc : cs[j]? = some c)
    (hset : OnlyUses c → ∃ k, k < j ∧ ∃ c', cs[k]? = some c' ∧ SetsCurve c') : o = expected P B nfc c :=
  all_results P T nfc False freshMem (fun h => by cases h) False.elim calls schedule i cs t j o c hi ht ho hc
    fun h => .inr (hset h)

/-- C158. If the curve was set before the threads began, every call of every thread returns what it does in a process of one
thread, under every schedule. -/
theorem C158_setup_first (inst : Bool) (calls : List (List TCall)) (schedule : List Nat) (i : Nat) (cs : List TCall) (t : Thread)
    (j : Nat) (o : Out) (c : TCall) (hi : calls[i]? = some cs)
    (ht : (Threads.after P T nfc (memOf signatureCurve inst) calls schedule).threads[i]? = some t)
    (ho : t.done[j]? = some o) (hc : cs[j]? = some c) : o = expected P B nfc c := by
  have hs : AllSet (memOf signatureCurve inst) := fun x hx => by
    cases x <;> first | rfl | exact absurd rfl hx
  exact all_results P T nfc True _ (fun _ => hs) (fun _ => hs) calls schedule i cs t j o c hi ht ho hc fun _ => .inl trivial

/-! ### Every call ends -/

/-- The process after the first `n` steps of an endless schedule. -/
def atTime (m : Mem) (calls : List (List TCall)) (schedule : Nat → Nat) (n : Nat) : Process :=
  Threads.after P T nfc m calls ((List.range n).map schedule)

private theorem atTime_succ (m : Mem) (calls : List (List TCall)) (schedule : Nat → Nat) (n : Nat) :
    atTime P T nfc m calls schedule (n + 1) = (atTime P T nfc m calls schedule n).step P T nfc (schedule n) := by
  unfold atTime Threads.after
  rw [List.range_succ, List.map_append, List.foldl_append]
  rfl

private theorem next_step {m : Mem} {calls : List (List TCall)} {schedule : Nat → Nat} {i : Nat}
    (hfair : ∀ n, ∃ n', n ≤ n' ∧ schedule n' = i) {n : Nat} {t : Thread}
    (ht : (atTime P T nfc m calls schedule n).threads[i]? = some t) :
    ∃ n' m', (atTime P T nfc m calls schedule n').threads[i]? = some (t.step P T nfc m').1 := by
  obtain ⟨n', hle, hi⟩ := hfair n
  obtain ⟨d, rfl⟩ := Nat.exists_eq_add_of_le hle
  clear hle
  induction d generalizing n with
  | zero =>
    refine ⟨n + 1, (atTime P T nfc m calls schedule n).mem, ?_⟩
    rw [atTime_succ, show schedule n = i from hi]
    unfold Process.step
    rw [ht]
    exact List.getElem?_set_self (List.getElem?_eq_some_iff.1 ht).1
  | succ d ih =>
    by_cases hn : schedule n = i
    · refine ⟨n + 1, (atTime P T nfc m calls schedule n).mem, ?_⟩
      rw [atTime_succ, hn]
      unfold Process.step
      rw [ht]
      exact List.getElem?_set_self (List.getElem?_eq_some_iff.1 ht).1
    · refine ih (n := n + 1) ?_ (by rw [show n + 1 + d = n + (d + 1) by omega]; exact hi)
      rw [atTime_succ]
      unfold Process.step
      cases hs : (atTime P T nfc m calls schedule n).threads[schedule n]? with
      | none => exact ht
      | some t' => exact (List.getElem?_set_ne hn).trans ht

private theorem call_ends {m : Mem} {calls : List (List TCall)} {schedule : Nat → Nat} {i : Nat}
    (hfair : ∀ n, ∃ n', n ≤ n' ∧ schedule n' = i) (q : Prog Out) : ∀ (n : Nat) (done : List Out) (todo : List TCall),
    (atTime P T nfc m calls schedule n).threads[i]? = some ⟨done, some q, todo⟩ →
    ∃ n' o, (atTime P T nfc m calls schedule n').threads[i]? = some ⟨done ++ [o], none, todo⟩ := by
  induction q with
  | ret o =>
    intro n done todo h
    obtain ⟨n', m', h'⟩ := next_step P T nfc hfair h
    exact ⟨n', o, h'⟩
  | load x k ih =>
    intro n done todo h
    obtain ⟨n', m', h'⟩ := next_step P T nfc hfair h
    exact ih (m' x) n' done todo h'
  | store x v k ih =>
    intro n done todo h
    obtain ⟨n', m', h'⟩ := next_step P T nfc hfair h
    exact ih n' done todo h'

/-- C158. No thread waits for another for ever: a thread that is scheduled again and again makes all its calls, and they all
end. -/
theorem C158_finishes (m : Mem) (calls : List (List TCall)) (schedule : Nat → Nat) (i : Nat) (cs : List TCall)
    (hi : calls[i]? = some cs) (hfair : ∀ n, ∃ n', n ≤ n' ∧ schedule n' = i) :
    ∃ n t, (atTime P T nfc m calls schedule n).threads[i]? = some t ∧ t.done.length = cs.length ∧ t.todo = [] ∧ t.cur = none := by
  have key : ∀ (todo : List TCall) (n : Nat) (done : List Out),
      (atTime P T nfc m calls schedule n).threads[i]? = some ⟨done, none, todo⟩ →
      ∃ n' t, (atTime P T nfc m calls schedule n').threads[i]? = some t ∧ t.done.length = done.length + todo.length ∧
        t.todo = [] ∧ t.cur = none := by
    intro todo
    induction todo with
    | nil => exact fun n done h => ⟨n, _, h, rfl, rfl, rfl⟩
    | cons c todo ih =>
      intro n done h
      obtain ⟨n', m', h'⟩ := next_step P T nfc hfair h
      obtain ⟨n'', o, h''⟩ := call_ends P T nfc hfair (c.prog P T nfc) n' done todo h'
      obtain ⟨n3, t, h3, h4, h5⟩ := ih n'' _ h''
      refine ⟨n3, t, h3, ?_, h5⟩
      rw [h4, List.length_append, List.length_singleton, List.length_cons]
      omega
  obtain ⟨n, t, h1, h2, h3⟩ := key cs 0 [] (by simp [atTime, Threads.after, hi])
  exact ⟨n, t, h1, by simpa using h2, h3⟩

/-! ### A package -/

/-- A function of the parameters, computed after reading them one by one. -/
def readAll (f : BtcCurve → α) : Reads α :=
  .load .p (by decide) fun p => .load .n (by decide) fun n => .load .a (by decide) fun a => .load .b (by decide) fun b =>
    .load .gx (by decide) fun gx => .load .gy (by decide) fun gy => .ret (f ⟨p, n, a, b, gx, gy⟩)

/-- A package that reads all parameters when a function is called. -/
def readingPackage (B : Btc) : Package B where
  privkeyToPubkey k := readAll fun c => B.privkeyToPubkey c k
  ecdsaRawSign h k := readAll fun c => B.ecdsaRawSign c h k
  decompress k := readAll fun c => btcDecompress c k
  privkeyToPubkey_alone _ _ _ := rfl
  ecdsaRawSign_alone _ _ _ _ := rfl
  decompress_alone _ _ _ := rfl

private theorem map_readAll (g : α → β) (f : BtcCurve → α) : (readAll f).map g = readAll fun c => g (f c) := rfl

private theorem sign_readAll (B : Btc) (message key : Val) (b : Bytes) (hm : unhexlifyVal message = .ok b) :
    Threads.sign P (readingPackage B) message key = readAll fun c => (Neo.sign P B message key ⟨c, false⟩).1 := by
  unfold Threads.sign Neo.sign
  simp only [hm]
  have e : (readingPackage B).ecdsaRawSign (hexStr (P.sha256 b)) key =
      readAll fun c => B.ecdsaRawSign c (hexStr (P.sha256 b)) key := rfl
  rw [e, map_readAll]
  congr 1
  funext c
  cases B.ecdsaRawSign c (hexStr (P.sha256 b)) key with
  | error e => rfl
  | ok r =>
    obtain ⟨v, r, s⟩ := r
    simp only
    generalize intToBytes r 32 .big false = x
    generalize intToBytes s 32 .big false = y
    cases x with
    | error e => rfl
    | ok rb => cases y <;> rfl

private theorem step_zero (T : Package B) (m : Mem) (t u : Thread) :
    Process.step P T nfc ⟨m, [t, u]⟩ 0 = ⟨(t.step P T nfc m).2, [(t.step P T nfc m).1, u]⟩ := rfl

private theorem step_one (T : Package B) (m : Mem) (t u : Thread) :
    Process.step P T nfc ⟨m, [t, u]⟩ 1 = ⟨(u.step P T nfc m).2, [t, (u.step P T nfc m).1]⟩ := rfl

private theorem steps_read (T : Package B) (call1 call2 : TCall) (c : BtcCurve) (v : Nat) (k : Prog Out) (f : BtcCurve → Out)
    (h1 : TCall.prog P T nfc call1 = .store .p v k) (h2 : TCall.prog P T nfc call2 = (readAll f).prog) :
    ((Threads.after P T nfc (memOf c false) [[call1], [call2]] [0, 0, 1, 1, 1, 1, 1, 1, 1, 1]).threads[1]?).map
      Thread.done = some [f { c with p := v }] := by
  unfold Threads.after
  simp only [List.foldl, List.map, step_zero, step_one, Thread.step, h1, h2, readAll, Reads.prog, List.getElem?_cons_succ,
    List.getElem?_cons_zero, Option.map_some, List.nil_append]
  rfl

private theorem change_first (d : BtcCurve) (f : Unit → Prog α) : ∃ k, (changeCurve d).bind f = .store .p d.p k := ⟨_, rfl⟩

/-- C159 fails: while one thread sets the curve for the first time, another one (which has not) can sign with the prime of one
curve and the other parameters of the other. -/
theorem C159_mixed_curve_violated (B : Btc) (message key : Val) (b : Bytes) (hm : unhexlifyVal message = .ok b) :
    ∃ schedule mixed, mixed.p = signatureCurve.p ∧ mixed.gx = BtcCurve.initial.gx ∧ mixed ≠ signatureCurve ∧ mixed ≠ .initial ∧
      ((Threads.after P (readingPackage B) nfc freshMem [[.setupSignatureCurve], [.sign message key]] schedule).threads[1]?).map
        Thread.done = some [.bytes (Neo.sign P B message key ⟨mixed, false⟩).1] := by
  refine ⟨[0, 0, 1, 1, 1, 1, 1, 1, 1, 1], { BtcCurve.initial with p := signatureCurve.p }, rfl, rfl, ?_, ?_, ?_⟩
  · intro h
    exact absurd (congrArg BtcCurve.b h) (by decide +kernel)
  · intro h
    exact absurd (congrArg BtcCurve.p h) (by decide +kernel)
  · obtain ⟨k, hk⟩ := change_first signatureCurve fun _ => Prog.ret Out.unit
    refine steps_read P nfc (readingPackage B) _ _ _ _ k (fun c => .bytes (Neo.sign P B message key ⟨c, false⟩).1) hk ?_
    show (Threads.sign P (readingPackage B) message key).prog.bind _ = _
    rw [sign_readAll P B message key b hm]
    rfl

/-! ### Processes in which nobody sets the curve -/

/-- The program ends with `o` if the variables keep the contents `m`, and writes nothing. -/
private def Leads (m : Mem) (o : Out) : Prog Out → Prop
  | .ret r => r = o
  | .load x k => Leads m o (k (m x))
  | .store _ _ _ => False

private theorem leads_reads (m : Mem) (q : Reads α) (f : α → Out) : Leads m (f (q.alone m)) (q.prog.bind fun r => .ret (f r)) := by
  induction q with
  | ret r => exact rfl
  | load x hx k ih => exact ih (m x)

/-- What a call that only uses the curve returns when the curve is `c`. -/
def underCurve (P : Prims) (B : Btc) (c : BtcCurve) : TCall → Out
  | .sign m k => .bytes (Neo.sign P B m k ⟨c, false⟩).1
  | .verifySignature m s k u => .bool (Neo.verifySignature B m s k u ⟨c, false⟩).1
  | _ => .unit

private theorem sign_alone' (m k : Val) (c : BtcCurve) (i : Bool) :
    (Threads.sign P T m k).alone (memOf c i) = (Neo.sign P B m k ⟨c, false⟩).1 := by
  unfold Threads.sign Neo.sign
  cases unhexlifyVal m with
  | error e => rfl
  | ok b =>
    simp only
    rw [alone_map, T.ecdsaRawSign_alone]
    cases B.ecdsaRawSign c (hexStr (P.sha256 b)) k with
    | error e => rfl
    | ok r =>
      obtain ⟨v, r, s⟩ := r
      simp only
      generalize intToBytes r 32 .big false = x
      generalize intToBytes s 32 .big false = y
      cases x with
      | error e => rfl
      | ok rb => cases y <;> rfl

private theorem verify_alone' (m s : Val) (k : PubKeyArg) (u : Bool) (c : BtcCurve) (i : Bool) :
    (Threads.verifySignature T m s k u).alone (memOf c i) = (Neo.verifySignature B m s k u ⟨c, false⟩).1 := by
  unfold Threads.verifySignature Neo.verifySignature Neo.verifySignature.run
  simp only
  cases Neo.verifySignature.keyBytes k with
  | error e => rfl
  | ok key =>
    simp only
    rw [alone_map]
    by_cases h33 : key.length = 33
    · rw [if_pos h33, if_pos h33, T.decompress_alone]
      cases btcDecompress c key with
      | error e => rfl
      | ok key => rfl
    · rw [if_neg h33, if_neg h33]
      rfl

private theorem leads_call (c : BtcCurve) (i : Bool) (call : TCall) (h : OnlyUses call) :
    Leads (memOf c i) (underCurve P B c call) (call.prog P T nfc) := by
  cases call with
  | sign m k =>
    have := leads_reads (memOf c i) (Threads.sign P T m k) Out.bytes
    rw [sign_alone'] at this
    exact this
  | verifySignature m s k u =>
    have := leads_reads (memOf c i) (Threads.verifySignature T m s k u) Out.bool
    rw [verify_alone'] at this
    exact this
  | _ => exact h.elim

private structure Using (c : BtcCurve) (i : Bool) (cs : List TCall) (t : Thread) : Prop where
  results : ∀ (j : Nat) (o : Out) (call : TCall), t.done[j]? = some o → cs[j]? = some call → o = underCurve P B c call
  between : t.cur = none → t.todo = cs.drop t.done.length
  inside : ∀ q, t.cur = some q → ∃ call, cs[t.done.length]? = some call ∧ t.todo = cs.drop (t.done.length + 1) ∧
    Leads (memOf c i) (underCurve P B c call) q

private theorem step_using {c : BtcCurve} {i : Bool} {cs : List TCall} (hcs : ∀ call ∈ cs, OnlyUses call) {t : Thread}
    (h : Using P (B := B) c i cs t) :
    (t.step P T nfc (memOf c i)).2 = memOf c i ∧ Using P (B := B) c i cs (t.step P T nfc (memOf c i)).1 := by
  obtain ⟨done, cur, todo⟩ := t
  cases cur with
  | none =>
    have htodo := h.between rfl
    simp only at htodo
    cases todo with
    | nil => exact ⟨rfl, h⟩
    | cons call rest =>
      refine ⟨rfl, h.results, (fun hc => by cases hc), fun q hq => ?_⟩
      have hc : cs[done.length]? = some call := by
        have := congrArg (·[0]?) htodo
        simp only [List.getElem?_cons_zero, List.getElem?_drop, Nat.add_zero] at this
        exact this.symm
      have hrest : rest = cs.drop (done.length + 1) := by
        have := congrArg (List.drop 1) htodo
        rw [List.drop_drop] at this
        simpa using this
      refine ⟨call, hc, hrest, ?_⟩
      have e : call.prog P T nfc = q := Option.some.inj hq
      rw [← e]
      exact leads_call P T nfc c i call (hcs call (List.mem_of_getElem? hc))
  | some q =>
    obtain ⟨call, hc, htodo, hok⟩ := h.inside q rfl
    simp only at hc htodo hok
    cases q with
    | ret o =>
      refine ⟨rfl, ?_, fun _ => ?_, fun q hq => by cases hq⟩
      · intro j o' c' hj hc'
        change (done ++ [o])[j]? = some o' at hj
        by_cases hlt : j < done.length
        · rw [List.getElem?_append_left hlt] at hj
          exact h.results j o' c' hj hc'
        · have hj' : j = done.length := by
            have := (List.getElem?_eq_some_iff.1 hj).1
            rw [List.length_append, List.length_singleton] at this
            omega
          subst hj'
          rw [List.getElem?_append_right (le_refl _), Nat.sub_self] at hj
          cases hj
          rw [hc] at hc'
          cases hc'
          exact hok
      · change todo = cs.drop (done ++ [o]).length
        rw [List.length_append, List.length_singleton]
        exact htodo
    | load x k =>
      refine ⟨rfl, h.results, (fun hc => by cases hc), fun q hq => ⟨call, hc, htodo, ?_⟩⟩
      have e : k (memOf c i x) = q := Option.some.inj hq
      rw [← e]
      exact hok
    | store x v k => exact hok.elim

private theorem run_using {c : BtcCurve} {i : Bool} (calls : List (List TCall)) (hcalls : ∀ cs ∈ calls, ∀ call ∈ cs, OnlyUses call)
    (schedule : List Nat) : ∀ s : Process, s.mem = memOf c i → s.threads.length = calls.length →
      (∀ (n : Nat) (cs : List TCall) (t : Thread), calls[n]? = some cs → s.threads[n]? = some t → Using P (B := B) c i cs t) →
      ∀ (n : Nat) (cs : List TCall) (t : Thread), calls[n]? = some cs →
        (schedule.foldl (fun s i => s.step P T nfc i) s).threads[n]? = some t → Using P (B := B) c i cs t := by
  induction schedule with
  | nil => exact fun s _ _ h => h
  | cons n schedule ih =>
    intro s hm hlen h
    rw [List.foldl_cons]
    cases ht : s.threads[n]? with
    | none =>
      have e : s.step P T nfc n = s := by unfold Process.step; rw [ht]
      rw [e]
      exact ih s hm hlen h
    | some t =>
      have e : s.step P T nfc n = ⟨(t.step P T nfc s.mem).2, s.threads.set n (t.step P T nfc s.mem).1⟩ := by
        unfold Process.step; rw [ht]
      rw [e, hm]
      have hn := (List.getElem?_eq_some_iff.1 ht).1
      obtain ⟨cs, hcs⟩ : ∃ cs, calls[n]? = some cs := ⟨_, List.getElem?_eq_getElem (hlen ▸ hn)⟩
      obtain ⟨hmem, hok⟩ := step_using P T nfc (hcalls cs (List.mem_of_getElem? hcs)) (h n cs t hcs ht)
      refine ih _ hmem (by rw [List.length_set]; exact hlen) ?_
      intro n' cs' t' hcs' ht'
      simp only at ht'
      by_cases hin : n = n'
      · subst hin
        rw [List.getElem?_set_self hn] at ht'
        cases ht'
        rw [hcs] at hcs'
        cases hcs'
        exact hok
      · rw [List.getElem?_set_ne hin] at ht'
        exact h n' cs' t' hcs' ht'

/-- C159, where it holds: a signature or verification uses the parameters of one curve, under every schedule, in a thread that
has set the curve (those of secp256r1), and in a process in which no thread sets it (those the package starts with). Missing:
threads that have not set the curve while others set it. -/
theorem C159_one_curve_partial (calls : List (List TCall)) (schedule : List Nat) (i : Nat) (cs : List TCall) (t : Thread) (j : Nat)
    (o : Out) (c : TCall) (hi : calls[i]? = some cs) (ht : (Threads.after P T nfc freshMem calls schedule).threads[i]? = some t)
    (ho : t.done[j]? = some o) (hc : cs[j]? = some c) (hu : OnlyUses c) :
    ((∃ k, k < j ∧ ∃ c', cs[k]? = some c' ∧ SetsCurve c') → o = underCurve P B signatureCurve c) ∧
    ((∀ cs ∈ calls, ∀ call ∈ cs, OnlyUses call) → o = underCurve P B .initial c) := by
  refine ⟨fun h => ?_, fun h => ?_⟩
  · rw [C158_own_setup P T nfc calls schedule i cs t j o c hi ht ho hc fun _ => h]
    cases c with
    | sign m k =>
      show Out.bytes _ = Out.bytes _
      rw [← sign_alone' P (readingPackage B) m k signatureCurve true, sign_alone P (readingPackage B) m k (Neo.setupSignatureCurve .fresh).2 rfl]
    | verifySignature m s k u =>
      show Out.bool _ = Out.bool _
      rw [← verify_alone' (readingPackage B) m s k u signatureCurve true, verify_alone (readingPackage B) m s k u (Neo.setupSignatureCurve .fresh).2 rfl]
    | _ => exact hu.elim
  · refine (run_using P T nfc calls h schedule _ rfl (by simp) ?_ i cs t hi ht).results j o c ho hc
    intro n cs t hi ht
    simp only [List.getElem?_map, hi, Option.map_some] at ht
    cases ht
    exact ⟨fun j o c hj => by simp at hj, fun _ => rfl, fun q hq => by cases hq⟩

/-- Two threads in turn, one setting the curve and signing, the other creating a key pair: both end, with these results. -/
example (B : Btc) (message key : Val) (b : Bytes) :
    (∃ n t, (atTime P (readingPackage B) nfc freshMem [[.setupSignatureCurve, .sign message key], [.keyPair b]] (· % 2) n).threads[0]?
      = some t ∧ t.done = [.unit, .bytes (Neo.sign P B message key (Neo.setupSignatureCurve .fresh).2).1]) ∧
    ∃ n t, (atTime P (readingPackage B) nfc freshMem [[.setupSignatureCurve, .sign message key], [.keyPair b]] (· % 2) n).threads[1]?
      = some t ∧ t.done = [.keyPair (KeyPair.init P B b (Neo.setupSignatureCurve .fresh).2).1] := by
  constructor
  · obtain ⟨n, t, h1, h2, -⟩ := C158_finishes P (readingPackage B) nfc freshMem
      [[.setupSignatureCurve, .sign message key], [.keyPair b]] (· % 2) 0 _ rfl
      (fun n => ⟨2 * n, by omega, by show 2 * n % 2 = 0; omega⟩)
    refine ⟨n, t, h1, ?_⟩
    obtain ⟨done, cur, todo⟩ := t
    match done, h2 with
    | [x, y], _ =>
      have hx := C158_own_setup P (readingPackage B) nfc _ _ 0 _ _ 0 x .setupSignatureCurve rfl h1 rfl rfl False.elim
      have hy := C158_own_setup P (readingPackage B) nfc _ _ 0 _ _ 1 y (.sign message key) rfl h1 rfl rfl
        (fun _ => ⟨0, by decide, .setupSignatureCurve, rfl, trivial⟩)
      rw [hx, hy]
      rfl
  · obtain ⟨n, t, h1, h2, -⟩ := C158_finishes P (readingPackage B) nfc freshMem
      [[.setupSignatureCurve, .sign message key], [.keyPair b]] (· % 2) 1 _ rfl
      (fun n => ⟨2 * n + 1, by omega, by show (2 * n + 1) % 2 = 1; omega⟩)
    refine ⟨n, t, h1, ?_⟩
    obtain ⟨done, cur, todo⟩ := t
    match done, h2 with
    | [x], _ =>
      have hx := C158_own_setup P (readingPackage B) nfc _ _ 1 _ _ 0 x (.keyPair b) rfl h1 rfl rfl False.elim
      rw [hx]
      rfl

/-- The empty message is one that `C159_mixed_curve_violated` speaks of. -/
example : unhexlifyVal (.str []) = .ok [] := rfl

end Neo.Props
