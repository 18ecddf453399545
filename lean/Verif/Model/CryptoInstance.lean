import Verif.Model.Crypto

/-!
# Model of `CryptoInstance` (neocore/Cryptography/Crypto.py:171-225), the object `Crypto.Default()` returns

The methods are called as `Crypto.Default().Method(...)`: the call of `Default` comes first and may set the curve. Results of
the hash methods are Python values, since the methods differ in whether they return text or bytes.
-/

namespace Neo
open Py

variable (P : Prims) (B : Btc)

/-- neocore/Cryptography/Crypto.py:39-49 `Crypto.Hash160`: `bin_hash160`, the hexdigest (a `str`). -/
def cryptoHash160 (message : Bytes) : Val := .str (binHash160 P message)

/-- neocore/Cryptography/Crypto.py:51-61 `Crypto.Hash160Bytes`: the digest (a `bytes`). -/
def cryptoHash160Bytes (message : Bytes) : Val := .bytes (binHash160Bytes P message)

/-- neocore/Cryptography/Crypto.py:63-74 `Crypto.Hash256`: the digest (a `bytes`). -/
def cryptoHash256 (message : Bytes) : Val := .bytes (binDblSha256 P message)

/-- neocore/Cryptography/Crypto.py:27-37 followed by a method of the object returned. `Default` does not raise. -/
def onDefault (f : Call α) : Call α := fun w => f (cryptoDefault w).2

/-- neocore/Cryptography/Crypto.py:176-185 `CryptoInstance.Hash160`: it calls `Crypto.Hash160Bytes`. -/
def defaultHash160 (message : Bytes) : Call Val := onDefault fun w => (.ok (cryptoHash160Bytes P message), w)

/-- neocore/Cryptography/Crypto.py:187-197 `CryptoInstance.Hash256`. -/
def defaultHash256 (message : Bytes) : Call Val := onDefault fun w => (.ok (cryptoHash256 P message), w)

/-- neocore/Cryptography/Crypto.py:199-210 `CryptoInstance.Sign`. -/
def defaultSign (message privateKey : Val) : Call Bytes := onDefault (sign P B message privateKey)

/-- neocore/Cryptography/Crypto.py:212-225 `CryptoInstance.VerifySignature`: `unhex` is passed on by name. -/
def defaultVerifySignature (message signature : Val) (publicKey : PubKeyArg) (unhex : Bool := true) : Call Bool :=
  onDefault (verifySignature B message signature publicKey (unhex := unhex))

end Neo
