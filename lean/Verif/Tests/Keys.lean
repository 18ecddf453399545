import Verif.Props.SignMessages -- not used: both need much memory, so they are not built at the same time
import Verif.Model.Cli
import Verif.Proofs.Primitives
import Verif.Proofs.EcdsaPkg

/-!
# Conformance of the key, address and signature models with /repo/tests/test_KeyPair.py, test_cli.py, test_cryptography.py, test_utils.py

Not proofs of properties: the literals of the project's own unit tests, replayed on the model by kernel evaluation, with the
real SHA-256, RIPEMD-160 and AES-256, the published `bitcoin` and `ecdsa` functions and RFC 6979 nonces. Only scrypt (2^14
rounds, too slow for the kernel) is replaced by a table of the three values the tests need, computed with Python's
`hashlib.scrypt`.
-/

namespace Tests.Keys
open Py Neo

def b (s : String) : Bytes := utf8 s.toList

/-- `bytes.fromhex(s)`. -/
def hex (s : String) : Bytes :=
  match unhexlify (b s) with
  | .ok x => x
  | .error _ => []

/-- `scrypt.hash(password, salt, N=16384, r=8, p=8, buflen=64)` for the three passphrases of the tests. -/
def scryptTable (password salt : Bytes) : Bytes :=
  if password = b "TestingOneTwoThree" ∧ salt = hex "d1fdd8b6" then
    (hex "dc1b4e46724e95cc57e60d07cfbb153d74d082f17cda9b19ced9f506803d0919" ++
     hex "22cd168b13219004b68b868dc2c525f7c74e672fff5c444ea8c44d293a62c517")
  else if password = b "invalid-pwd" ∧ salt = hex "d1fdd8b6" then
    (hex "8eb30e90ab6c29edd4f1effa198c506d52a9ba3f6e6ff20d22aee4771ce322e1" ++
     hex "59c03be3e6fc3591a78215b8368a06047d38230f86d6c2f50e219e30b5786224")
  else if password = utf8 ['h', 'e', 'l', 'l', Char.ofNat 0xf6, Char.ofNat 0x2665, Char.ofNat 0xfe0f] ∧ salt = hex "eb1f327d" then
    (hex "171c1dc3743cc900381b58c2930ccb70db1c02805cd44bfa9099fb6408f14a87" ++
     hex "e3baf449a564d1d238c751e860ca22ce87bf64b854bc1d933f5defcbe70a8e9b")
  else List.replicate 64 0

theorem scryptTable_length (p s : Bytes) : (scryptTable p s).length = 64 := by
  unfold scryptTable
  split
  · decide +kernel
  · split
    · decide +kernel
    · split
      · decide +kernel
      · rfl

/-- The real primitives, with scrypt replaced by the table. -/
def prims : Prims := { realPrims with
  scrypt := fun n r p pw s len =>
    match Nat.beq n 16384 && Nat.beq r 8 && Nat.beq p 8 && Nat.beq len 64 with
    | true => (scryptTable pw s).take len
    | false => List.replicate len 0
  scrypt_length := fun n r p pw s len => by
    cases h : Nat.beq n 16384 && Nat.beq r 8 && Nat.beq p 8 && Nat.beq len 64 with
    | true =>
      simp only [Bool.and_eq_true] at h
      obtain rfl := Nat.eq_of_beq_eq_true h.2
      simp only [List.length_take, scryptTable_length]
      rfl
    | false => simp only [List.length_replicate] }

/-- The published packages. -/
def btc : Btc := pkgBtc Kdf.deterministicK Hashes.sha256

/-- Passphrases of the tests are in normal form C already. -/
def nfc (s : Str) : Str := s

def key : Bytes := hex "cbf4b9f70470856bb4f40f80b87edb90865997ffee6df315ab166d713af433a5"
def wif : Str := "L44B5gGEpqEDRS9vVPz7QT35jcBG2r3CZwSwQ4fCewXAhAhqGVpP".toList
def address : Str := "AStZHy8E6StCqYQbzMqi4poH7YNDHQKxvt".toList

/-! tests/test_KeyPair.py `ConstructorTestCase` -/

example : (KeyPair.init prims btc [0xDE, 0xAD, 0xBE, 0xEF] .fresh).1 = .error .valueError := by decide +kernel

/-- `test_fail_to_determine_plublic_key`, with a `bitcoin.privkey_to_pubkey` that always raises. -/
example : (KeyPair.init prims { btc with privkeyToPubkey := fun _ _ => .error .exc } (List.replicate 32 0x41) .fresh).1 = .error .exc := by
  decide +kernel

def longKey : Bytes :=
  hex "5b5c8cdcb32f8e278e111a0bf58ebb463988024bb4e250aa4310b40252030b60" ++
  hex "ddc4995bac00298b22731de7a83fa49ded2aceea69fa3dd872937020c8a9b6c6" ++
  hex "6164f6569b23df58c54c746e7684251a17653a4b32f1b44a5703fdad948e755d"

example : (KeyPair.init prims btc longKey .fresh).1.bind (fun kp => EC.encodePoint EC.secp256r1Curve kp.publicKey true) =
    .ok (b "025b5c8cdcb32f8e278e111a0bf58ebb463988024bb4e250aa4310b40252030b60") := by decide +kernel

/-! `PrivateKeyFromWIFTestCase` -/

example : KeyPair.privateKeyFromWIF prims (some "brokenwif".toList) = .error .valueError := by decide +kernel
example : KeyPair.privateKeyFromWIF prims (some (List.replicate 52 'A')) = .error .valueError := by decide +kernel
example : KeyPair.privateKeyFromWIF prims (some (Base58.encode ([0x80] ++ List.replicate 32 0x41 ++ [1, 0xDE, 0xAD, 0xBE, 0xEF]))) =
    .error .valueError := by decide +kernel
example : KeyPair.privateKeyFromWIF prims (some wif) = .ok key := by decide +kernel

/-! `PrivateKeyFromNEP2TestCase` -/

def nep2 : Str := "6PYVPVe1fQznphjbUxXP9KZJqPMVnVwCx5s5pr5axRJ8uHkMtZg97eT5kL".toList

example : (KeyPair.privateKeyFromNEP2 prims btc nfc "invalid".toList "pwd".toList .fresh).1 = .error .valueError := by decide +kernel
example : (KeyPair.privateKeyFromNEP2 prims btc nfc (List.replicate 58 'A') "pwd".toList .fresh).1 = .error .valueError := by
  decide +kernel
example : (KeyPair.privateKeyFromNEP2 prims btc nfc nep2 "TestingOneTwoThree".toList .fresh).1 = .ok key := by decide +kernel
example : (KeyPair.privateKeyFromNEP2 prims btc nfc nep2 "invalid-pwd".toList .fresh).1 = .error .valueError := by decide +kernel

/-! `GetAddressTestCase`, `ExportNEP2TestCase`, `ExportWIFTestCase` -/

example : (KeyPair.init prims btc key .fresh).1.bind (KeyPair.getAddress prims) = .ok address := by decide +kernel
example : (KeyPair.init prims btc key .fresh).1.bind (KeyPair.exportNEP2 prims nfc · ['x']) = .error .valueError := by decide +kernel
example : (KeyPair.init prims btc key .fresh).1.bind (KeyPair.exportNEP2 prims nfc · "TestingOneTwoThree".toList) = .ok nep2 := by
  decide +kernel
example : (KeyPair.init prims btc (hex "03eb20a711f93c04459000c62cc235f9e9da82382206b812b07fd2f81779aa42") .fresh).1.bind
      (fun kp => (KeyPair.exportNEP2 prims nfc kp
        ['h', 'e', 'l', 'l', Char.ofNat 0xf6, Char.ofNat 0x2665, Char.ofNat 0xfe0f]).bind fun n =>
          (KeyPair.getAddress prims kp).map fun a => (n, a)) =
    .ok ("6PYWdv8bP9vbfGsNnjzDawCoXCYpk4rnWG8xTZrvdzx6FjB6jv4H9MM586".toList, "AXQUduANGZF4e7wDazVAtyRLHwMounaUMA".toList) := by
  decide +kernel
example : (KeyPair.init prims btc key .fresh).1.bind (fun kp => (KeyPair.exportWIF prims kp .fresh).1) = .ok wif := by decide +kernel

/-! tests/test_cli.py -/

example : cliAddressToScripthash prims "AK2nJJpJr6o664CWJKi1QRXjqeic2zRp8y".toList =
    .ok (hex "23ba2703c53263e8d6e522dc32203339dcd8eee9") := by decide +kernel
example : cliAddressToScripthash prims "AK2nJJpJr6o664CWJKi1QRXjqeic2zRpxx".toList = .error .conversion := by decide +kernel
example : cliScripthashToAddress prims "0xe9eed8dc39332032dc22e5d6e86332c50327ba23".toList =
    .ok "AK2nJJpJr6o664CWJKi1QRXjqeic2zRp8y".toList := by decide +kernel
example : cliScripthashToAddress prims "23ba2703c53263e8d6e522dc32203339dcd8eee9".toList =
    .ok "AK2nJJpJr6o664CWJKi1QRXjqeic2zRp8y".toList := by decide +kernel
example : cliScripthashToAddress prims "0xe9eed8dc39332032dc22e5d6e86332c50327baxx".toList = .error .conversion := by decide +kernel
/-- `create_wallet`, for the random bytes of the key above. -/
example : (KeyPair.createWallet prims btc key .fresh).1 = .ok (wif, address) := by decide +kernel

/-- `np-utils`: the lines printed and the exit. -/
example : cliAddress prims "AK2nJJpJr6o664CWJKi1QRXjqeic2zRp8y".toList =
    ([ "Scripthash big endian:  0xe9eed8dc39332032dc22e5d6e86332c50327ba23".toList,
       "Scripthash little endian: 23ba2703c53263e8d6e522dc32203339dcd8eee9".toList,
       "Scripthash neo-python format: b'#\\xba\\'\\x03\\xc52c\\xe8\\xd6\\xe5\"\\xdc2 39\\xdc\\xd8\\xee\\xe9'".toList ], .ok) := by
  decide +kernel
example : cliScripthash prims "0xe9eed8dc39332032dc22e5d6e86332c50327baxx".toList =
    (["Wrong format".toList], .one) := by decide +kernel
example : (cliMain prims btc {} [] .fresh).1 = ([], .one) := by decide +kernel
/-- `test_scripthash_to_address_with_alternative_version` of test_cryptography.py. -/
example : scripthashToAddressV prims 42 (hex "42112378ffa32c4c65d513aa350689dff6381154") =
    .ok "J1DfV2jS511SMtP6dH5ckr3Nwf26kbFx7s".toList := by decide +kernel

/-! tests/test_cryptography.py `HelperTestCase` -/

example : xorBytes (.bytes (b "12345")) (.bytes (b "09876")) = .ok [1, 0x0b, 0x0b, 3, 3] := by decide +kernel
example : xorBytes (.bytes (b "12345")) (.bytes (b "x")) = .error .assertion := by decide +kernel
example : base256Encode 1234567890 0 = .ok [0xd2, 2, 0x96, 0x49] := by decide +kernel
example : (randomKey prims (b "any entropy")).length = 64 := by decide +kernel
example : doubleSha256 prims (b "abc") = "4f8b42c22dd3729b519ba6f68d2da7cc5b2d606d05daed5ad5128cc03e6c6358".toList := by decide +kernel
/-- The public key of the WIF above, as hexadecimal text. -/
def pub : Bytes := b "026241e7e26b38bb7154b8ad49458b97fb1c4797443dc921c5ca5774f511a2bbfc"
example : ((KeyPair.privateKeyFromWIF prims (some wif)).bind fun k => (KeyPair.init prims btc k .fresh).1).bind
    (fun kp => EC.encodePoint EC.secp256r1Curve kp.publicKey true) = .ok pub := by decide +kernel
def redeem : Bytes := hex "21026241e7e26b38bb7154b8ad49458b97fb1c4797443dc921c5ca5774f511a2bbfcac"
example : pubkeyToRedeem pub = .ok redeem := by decide +kernel
example : redeemToScripthash prims redeem = hex "79ecf967a02f9bdbd147fc97b18efd7877d27f78" := by decide +kernel
example : scripthashToAddress prims (hex "79ecf967a02f9bdbd147fc97b18efd7877d27f78") = address := by decide +kernel
example : pubkeyToPubhash prims pub = .ok (hex "79ecf967a02f9bdbd147fc97b18efd7877d27f78") := by decide +kernel
example : base256Encode 0 0 = .ok [0] := by decide +kernel
example : base256Encode (-1) 0 = .error .valueError := by decide +kernel
example : (base256Encode 1230 5).map List.length = .ok 5 := by decide +kernel

/-! tests/test_cryptography.py `TestCrypto` -/

def pair : World × Except Err (KeyPair × Bytes) :=
  match KeyPair.init prims btc key .fresh with
  | (.error e, w) => (w, .error e)
  | (.ok kp, w) =>
    match sign prims btc (.bytes (b "aabbcc")) (.bytes kp.privateKey) w with
    | (.error e, w) => (w, .error e)
    | (.ok s, w) => (w, .ok (kp, s))

/-- What `VerifySignature` answers about the signature made. -/
def answers (message : Val) (pk : KeyPair → PubKeyArg) (unhex : Bool) : Except Err Bool :=
  match pair with
  | (_, .error e) => .error e
  | (w, .ok (kp, s)) => (verifySignature btc message (.bytes s) (pk kp) unhex w).1

example : answers (.str "aabbcc".toList) (fun kp => .point kp.publicKey) true = .ok true := by decide +kernel
example : answers (.bytes (b "aabb")) (fun kp => .point kp.publicKey) true = .ok false := by decide +kernel
example : hexlify (binHash160Bytes prims (b "abc")) = b "bb1be98c142444d7a56aa3981c3942a978e4dc33" := by decide +kernel
example : (verifySignature btc (.bytes [0xaa]) (.bytes [0xaa, 0xbb]) (.bytes [0xaa, 0xbb]) true .fresh).1 = .ok false := by
  decide +kernel

/-! tests/test_utils.py -/

example : isValidPublicAddress prims "aaa".toList = .ok false := by decide +kernel
example : isValidPublicAddress prims (List.replicate 40 'a') = .ok false := by decide +kernel
example : isValidPublicAddress prims "AZfFBeBqtJvaTK9JqG8uk6N7FppQY6byEA".toList = .ok false := by decide +kernel
example : isValidPublicAddress prims "AZfFBeBqtJvaTK9JqG8uk6N7FppQY6byEg".toList = .ok true := by decide +kernel

end Tests.Keys
