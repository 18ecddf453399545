import Verif.Model.Cli

/-!
# Model of `random_key` in neocore/Cryptography/Helper.py, with the text it hashes
-/

namespace Neo
open Py

/-- neocore/Cryptography/Helper.py:22: `str(os.urandom(32)) + str(random.randrange(2 ** 256)) + str(int(time.time() * 1000000))`;
`str` of a bytes object is its `repr`. The three draws are parameters (any byte string and any natural numbers). -/
def entropyText (os : Bytes) (number micros : Nat) : Str :=
  reprBytes os ++ Nat.toDigits 10 number ++ Nat.toDigits 10 micros

/-- neocore/Cryptography/Helper.py:20-25 `random_key`, for what was drawn. -/
def randomKeyFrom (P : Prims) (os : Bytes) (number micros : Nat) : Bytes := randomKey P (utf8 (entropyText os number micros))

end Neo
