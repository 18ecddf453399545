import Verif.Model.KeyPair

/-!
# Model of concurrent use of neocore/Cryptography/Crypto.py and neocore/KeyPair.py

The calls of several threads, interleaved at every access to the variables they share: the module-level parameters of the
`bitcoin` package and `Crypto._Instance`. (CPython switches threads between bytecode instructions; all other data of these
calls is local to the thread.)
-/

namespace Neo.Threads
open Py

/-- The shared variables: `bitcoin.main.P, N, A, B, Gx, Gy, G` and `Crypto._Instance` (neocore/Cryptography/Crypto.py:11). -/
inductive Var where
  | p | n | a | b | gx | gy | g | inst
  deriving DecidableEq

/-- What a variable holds; of `_Instance` only whether it is set. -/
abbrev Var.Ty : Var → Type
  | .g => Nat × Nat
  | .inst => Bool
  | _ => Nat

/-- The contents of the shared variables. -/
def Mem := (x : Var) → x.Ty

/-- The variables with the parameters `c` in force. -/
def memOf (c : BtcCurve) (inst : Bool) : Mem
  | .p => c.p
  | .n => c.n
  | .a => c.a
  | .b => c.b
  | .gx => c.gx
  | .gy => c.gy
  | .g => (c.gx, c.gy)
  | .inst => inst

/-- An assignment to one variable. -/
def Mem.set (m : Mem) (x : Var) (v : x.Ty) : Mem := fun y => if h : x = y then h ▸ v else m y

/-- A computation, divided at its accesses to shared variables. -/
inductive Prog (α : Type) where
  | ret (r : α)
  | load (x : Var) (k : x.Ty → Prog α)
  | store (x : Var) (v : x.Ty) (k : Prog α)

namespace Prog

/-- One computation after another. -/
def bind : Prog α → (α → Prog β) → Prog β
  | ret r, f => f r
  | load x k, f => load x fun v => (k v).bind f
  | store x v k, f => store x v (k.bind f)

instance : Monad Prog where
  pure := ret
  bind := bind

end Prog

/-- A computation that only reads the parameters of the `bitcoin` package, at any time and as often as it likes. -/
inductive Reads (α : Type) where
  | ret (r : α)
  | load (x : Var) (hx : x ≠ .inst) (k : x.Ty → Reads α)

namespace Reads

/-- The result when nothing changes meanwhile. -/
def alone : Reads α → Mem → α
  | ret r, _ => r
  | load x _ k, m => (k (m x)).alone m

def prog : Reads α → Prog α
  | ret r => .ret r
  | load x _ k => .load x fun v => (k v).prog

def map (f : α → β) : Reads α → Reads β
  | ret r => ret (f r)
  | load x hx k => load x hx fun v => (k v).map f

end Reads

/-- An implementation of the functions of the `bitcoin` package that reads its parameters one by one from the module's
variables; run alone it computes what `B` says. -/
structure Package (B : Btc) where
  privkeyToPubkey : Bytes → Reads (Except Err Bytes)
  ecdsaRawSign : Str → Val → Reads (Except Err (Int × Int × Int))
  decompress : Bytes → Reads (Except Err Bytes)
  privkeyToPubkey_alone : ∀ k c i, (privkeyToPubkey k).alone (memOf c i) = B.privkeyToPubkey c k
  ecdsaRawSign_alone : ∀ h k c i, (ecdsaRawSign h k).alone (memOf c i) = B.ecdsaRawSign c h k
  decompress_alone : ∀ k c i, (decompress k).alone (memOf c i) = btcDecompress c k

/-- `bitcoin.change_curve` (main.py): `P, N, A, B, Gx, Gy = p, n, a, b, gx, gy` and `G = (Gx, Gy)`: seven assignments. -/
def changeCurve (c : BtcCurve) : Prog Unit :=
  .store .p c.p (.store .n c.n (.store .a c.a (.store .b c.b (.store .gx c.gx (.store .gy c.gy
    (.load .gx fun gx => .load .gy fun gy => .store .g (gx, gy) (.ret ())))))))

/-- neocore/Cryptography/Crypto.py:13-25 `SetupSignatureCurve`. -/
def setupSignatureCurve : Prog Unit := changeCurve signatureCurve

/-- neocore/Cryptography/Crypto.py:27-37 `Default`, 173-174 `CryptoInstance.__init__`. -/
def cryptoDefault : Prog Unit :=
  .load .inst fun set => if set then .ret () else do
    setupSignatureCurve
    .store .inst true (.ret ())

variable (P : Prims) {B : Btc} (T : Package B)

/-- neocore/Cryptography/Crypto.py:105-126 `Sign`. -/
def sign (message privateKey : Val) : Reads (Except Err Bytes) :=
  match unhexlifyVal message with
  | .error e => .ret (.error e)
  | .ok m => (T.ecdsaRawSign (hexStr (P.sha256 m)) privateKey).map fun
    | .error e => .error e
    | .ok (_, r, s) =>
      match intToBytes r 32 .big false with
      | .error e => .error e
      | .ok rb =>
        match intToBytes s 32 .big false with
        | .error e => .error e
        | .ok sb => .ok (rb ++ sb)

/-- neocore/Cryptography/Crypto.py:128-168 `VerifySignature`; the package `ecdsa` does not use the shared variables. -/
def verifySignature (message signature : Val) (publicKey : PubKeyArg) (unhex : Bool) : Reads (Except Err Bool) :=
  match Neo.verifySignature.keyBytes publicKey with
  | .error e => .ret (.error e)
  | .ok key =>
    (if key.length = 33 then T.decompress key else .ret (.ok key)).map fun
      | .error e => .error e
      | .ok key =>
        match B.verify key signature (Neo.verifySignature.messageVal message unhex) with
        | .ok res => .ok res
        | .error _ => .ok false

/-- neocore/KeyPair.py:51-78. -/
def construct (privKey : Bytes) : Reads (Except Err KeyPair) :=
  let length := privKey.length
  if length ≠ 32 ∧ length ≠ 96 ∧ length ≠ 104 then .ret (.error .valueError)
  else if length = 32 then
    (T.privkeyToPubkey privKey).map fun
      | .error _ => .error .exc
      | .ok pubkey => KeyPair.finish P privKey pubkey
  else
    let skip := length - 96
    .ret (KeyPair.finish P privKey (4 :: (privKey.drop skip).take 64))

/-- neocore/KeyPair.py:42-78 `KeyPair.__init__`. -/
def keyPair (privKey : Bytes) : Prog (Except Err KeyPair) := do
  changeCurve keyPairCurve
  (construct P T privKey).prog

/-- neocore/KeyPair.py:171-187 `Export`. -/
def exportWIF (kp : KeyPair) : Prog (Except Err Str) := do
  cryptoDefault
  return .ok (Base58.encode (KeyPair.wifBytes P kp))

/-- neocore/KeyPair.py:108-157 `PrivateKeyFromNEP2`. -/
def privateKeyFromNEP2 (nfc : Str → Str) (nep2Key passphrase : Str) : Prog (Except Err Bytes) :=
  match KeyPair.decryptNEP2 P nfc nep2Key passphrase with
  | .error e => .ret (.error e)
  | .ok (privateKey, addrHash) => (keyPair P T privateKey).bind fun
    | .error e => .ret (.error e)
    | .ok kp =>
      match KeyPair.getAddress P kp with
      | .error e => .ret (.error e)
      | .ok address => .ret (if KeyPair.addressHash P address ≠ addrHash then .error .valueError else .ok privateKey)

/-- neocore/bin/cli.py:54-60 `create_wallet`. -/
def createWallet (random : Bytes) : Prog (Except Err (Str × Str)) :=
  (keyPair P T random).bind fun
    | .error e => .ret (.error e)
    | .ok kp => (exportWIF P kp).bind fun
      | .error e => .ret (.error e)
      | .ok wif =>
        match KeyPair.getAddress P kp with
        | .error e => .ret (.error e)
        | .ok address => .ret (.ok (wif, address))

/-- A library call. -/
inductive TCall where
  | keyPair (key : Bytes)
  | setupSignatureCurve
  | default
  | exportWIF (kp : KeyPair)
  | privateKeyFromNEP2 (text passphrase : Str)
  | createWallet (random : Bytes)
  | sign (message privateKey : Val)
  | verifySignature (message signature : Val) (key : PubKeyArg) (unhex : Bool)

/-- What a call returns or raises. -/
inductive Out where
  | unit
  | keyPair (r : Except Err KeyPair)
  | str (r : Except Err Str)
  | bytes (r : Except Err Bytes)
  | wallet (r : Except Err (Str × Str))
  | bool (r : Except Err Bool)

/-- The program of a call. -/
def TCall.prog (nfc : Str → Str) : TCall → Prog Out
  | .keyPair b => (Threads.keyPair P T b).bind fun r => .ret (.keyPair r)
  | .setupSignatureCurve => Threads.setupSignatureCurve.bind fun _ => .ret .unit
  | .default => Threads.cryptoDefault.bind fun _ => .ret .unit
  | .exportWIF kp => (Threads.exportWIF P kp).bind fun r => .ret (.str r)
  | .privateKeyFromNEP2 s pw => (Threads.privateKeyFromNEP2 P T nfc s pw).bind fun r => .ret (.bytes r)
  | .createWallet b => (Threads.createWallet P T b).bind fun r => .ret (.wallet r)
  | .sign m k => (Threads.sign P T m k).prog.bind fun r => .ret (.bytes r)
  | .verifySignature m s k u => (Threads.verifySignature T m s k u).prog.bind fun r => .ret (.bool r)

/-- A thread: the results of its finished calls, the call it is in, the calls to come. -/
structure Thread where
  done : List Out
  cur : Option (Prog Out)
  todo : List TCall

/-- The process. -/
structure Process where
  mem : Mem
  threads : List Thread

/-- The next step of a thread: begin a call, access one shared variable, or return from a call. -/
def Thread.step (nfc : Str → Str) (t : Thread) (m : Mem) : Thread × Mem :=
  match t.cur with
  | none =>
    match t.todo with
    | [] => (t, m)
    | call :: todo => (⟨t.done, some (call.prog P T nfc), todo⟩, m)
  | some (.ret o) => (⟨t.done ++ [o], none, t.todo⟩, m)
  | some (.load x k) => (⟨t.done, some (k (m x)), t.todo⟩, m)
  | some (.store x v k) => (⟨t.done, some k, t.todo⟩, m.set x v)

/-- Thread `i` makes a step (nothing happens if there is no such thread). -/
def Process.step (nfc : Str → Str) (s : Process) (i : Nat) : Process :=
  match s.threads[i]? with
  | none => s
  | some t => ⟨(t.step P T nfc s.mem).2, s.threads.set i (t.step P T nfc s.mem).1⟩

/-- A process with the variables `m` and threads about to make these calls, after the steps in the order of `schedule`. -/
def after (nfc : Str → Str) (m : Mem) (calls : List (List TCall)) (schedule : List Nat) : Process :=
  schedule.foldl (fun s i => s.step P T nfc i) ⟨m, calls.map fun c => ⟨[], none, c⟩⟩

/-- The variables of a process that has imported neocore and called nothing. -/
def freshMem : Mem := memOf .initial false

end Neo.Threads
