import Verif.Model.KeyPair
import Verif.Model.Hashes

/-!
# Model of the functions of the `bitcoin` package (1.1.42, pinned in /repo/requirements.txt) that neocore calls

Called from neocore/KeyPair.py:62,71 and neocore/Cryptography/Crypto.py:119,158. The package is not part of /repo; its
functions (bitcoin/main.py) are written down from its published source. The theorems about key pairs are stated for every
implementation with the required behaviour (`Spec.DerivesPublicKeys`); this model shows that the published one has it.
-/

namespace Neo.Bitcoin
open Py

/-- main.py `inv`: the loop `while low > 1`. -/
def invLoop (lm hm low high : Int) : Int × Int :=
  if h : 1 < low then
    let r := high / low
    invLoop (hm - lm * r) lm (high - low * r) low
  else (lm, low)
termination_by low.toNat
decreasing_by
  have : high - low * (high / low) = high % low := by rw [Int.emod_def]
  rw [this]
  have h1 := Int.emod_lt_of_pos high (show 0 < low by omega)
  have h2 := Int.emod_nonneg high (show low ≠ 0 by omega)
  omega

/-- main.py `inv(a, n)`. -/
def inv (a n : Int) : Int := if a = 0 then 0 else (invLoop 1 0 (a % n) n).1 % n

/-- A point in Jacobian coordinates. -/
structure Jac where
  x : Int
  y : Int
  z : Int
  deriving DecidableEq

variable (c : BtcCurve)

/-- main.py `jacobian_double`. -/
def jacobianDouble (p : Jac) : Jac :=
  if p.y = 0 then ⟨0, 0, 0⟩
  else
    let ysq := (p.y ^ 2) % c.p
    let S := (4 * p.x * ysq) % c.p
    let M := (3 * p.x ^ 2 + c.a * p.z ^ 4) % c.p
    let nx := (M ^ 2 - 2 * S) % c.p
    let ny := (M * (S - nx) - 8 * ysq ^ 2) % c.p
    let nz := (2 * p.y * p.z) % c.p
    ⟨nx, ny, nz⟩

/-- main.py `jacobian_add`. -/
def jacobianAdd (p q : Jac) : Jac :=
  if p.y = 0 then q
  else if q.y = 0 then p
  else
    let U1 := (p.x * q.z ^ 2) % c.p
    let U2 := (q.x * p.z ^ 2) % c.p
    let S1 := (p.y * q.z ^ 3) % c.p
    let S2 := (q.y * p.z ^ 3) % c.p
    if U1 = U2 then
      if S1 ≠ S2 then ⟨0, 0, 1⟩ else jacobianDouble c p
    else
      let H := U2 - U1
      let R := S2 - S1
      let H2 := (H * H) % c.p
      let H3 := (H * H2) % c.p
      let U1H2 := (U1 * H2) % c.p
      let nx := (R ^ 2 - H3 - 2 * U1H2) % c.p
      let ny := (R * (U1H2 - nx) - S1 * H3) % c.p
      let nz := (H * p.z * q.z) % c.p
      ⟨nx, ny, nz⟩

/-- main.py `from_jacobian`. -/
def fromJacobian (p : Jac) : EC.Pt :=
  let z := inv p.z c.p
  ⟨(p.x * z ^ 2) % c.p, (p.y * z ^ 3) % c.p⟩

/-- main.py `jacobian_multiply(a, n)` for `0 ≤ n < N`. -/
def jacobianMultiplyNat (a : Jac) (n : Nat) : Jac :=
  if a.y = 0 ∨ n = 0 then ⟨0, 0, 1⟩
  else if _h : n ≤ 1 then a
  else if n % 2 = 0 then jacobianDouble c (jacobianMultiplyNat a (n / 2))
  else jacobianAdd c (jacobianDouble c (jacobianMultiplyNat a (n / 2))) a
termination_by n
decreasing_by all_goals omega

/-- main.py `jacobian_multiply(a, n)`: numbers outside `0 ≤ n < N` are reduced mod N first. -/
def jacobianMultiply (a : Jac) (n : Int) : Jac :=
  if a.y = 0 ∨ n = 0 then ⟨0, 0, 1⟩
  else if n = 1 then a
  else if n < 0 ∨ n ≥ c.n then jacobianMultiplyNat c a (n % c.n).toNat
  else jacobianMultiplyNat c a n.toNat

/-- main.py `fast_multiply(a, n)`. -/
def fastMultiply (a : EC.Pt) (n : Int) : EC.Pt := fromJacobian c (jacobianMultiply c ⟨a.x, a.y, 1⟩ n)

/-- main.py `privkey_to_pubkey` of 32 bytes (format 'bin'), `encode_pubkey(.., 'bin')`. -/
def privkeyToPubkey (key : Bytes) : Except Err Bytes :=
  let privkey := leToNat key.reverse
  if privkey ≥ c.n then .error .exc
  else
    let Q := fastMultiply c ⟨c.gx, c.gy⟩ privkey
    .ok (4 :: (btcDecompress.btcEncode Q.x.toNat ++ btcDecompress.btcEncode Q.y.toNat))

/-- py3specials.py `decode(string, 16)`: what the loop adds for one character of a text. `code_string.find` gives -1 for a character that
is no digit, and this -1 is used as a digit. (`'İ'.lower()` has two characters, the only such case; `lower()` of no other non-ASCII
character is a hexadecimal digit.) -/
def hexDigits (c : Char) : List Int :=
  if c = 'İ' then [-1, -1]
  else match hexValChar c with
    | some v => [(v : Int)]
    | none => [-1]

/-- py3specials.py `decode(string, base)`: the loop. -/
def fromDigits (base : Int) (ds : List Int) : Int := ds.foldl (fun r d => r * base + d) 0

/-- py3specials.py `decode(string, 58)`: the digit of a character, -1 if it is none. -/
def digit58 (c : Char) : Int :=
  match Base58.alphabet.idxOf? c with
  | some i => (i : Int)
  | none => -1

/-- py3specials.py `encode(val, 256, 0)`; nothing for numbers ≤ 0. -/
def encode256 (v : Int) : Bytes := (Base58.bytesOf v.toNat).reverse

/-- main.py `b58check_to_bin(inp)` of a text: the version byte in front and the checksum at the end are cut off; a wrong checksum
fails an assertion. -/
def b58checkToBin (s : Str) : Except Err Bytes :=
  let data := List.replicate (s.takeWhile (· == '1')).length 0 ++ encode256 (fromDigits 58 (s.map digit58))
  if (Hashes.sha256 (Hashes.sha256 (Base58.butLast4 data))).take 4 = Base58.last4 data then .ok ((Base58.butLast4 data).drop 1)
  else .error .assertion

/-- main.py `get_privkey_format`, `decode_privkey` of bytes: 32 bytes ('bin'), 33 ('bin_compressed'), 64 ('hex') or 66
('hex_compressed'); other lengths are taken for base 58, which is looked for with a text pattern: TypeError. -/
def decodePrivkeyBytes (b : Bytes) : Except Err Int :=
  if b.length = 32 ∨ b.length = 33 then .ok (leToNat (b.take 32).reverse : Nat)
  else if b.length = 64 ∨ b.length = 66 then .ok (fromDigits 16 ((asciiStr (b.take 64)).flatMap hexDigits))
  else .error .typeError

/-- The same of a text: 64 or 66 characters are hexadecimal digits; 32 or 33 characters are read with `bytearray.fromhex`; other
lengths are WIF. -/
def decodePrivkeyStr (s : Str) : Except Err Int :=
  if s.length = 32 ∨ s.length = 33 then
    match fromHex (s.take 32) with
    | .ok b => .ok (leToNat b.reverse : Nat)
    | .error e => .error e
  else if s.length = 64 ∨ s.length = 66 then .ok (fromDigits 16 ((s.take 64).flatMap hexDigits))
  else match b58checkToBin s with
    | .error e => .error e
    | .ok b => if b.length = 32 ∨ b.length = 33 then .ok (leToNat (b.take 32).reverse : Nat) else .error .exc

/-- main.py `decode_privkey`; numbers ('decimal') stand for themselves. (Floats, also taken for 'decimal', are not modelled. Objects
without a length, such as UInt160 and UInt256 objects, raise TypeError.) -/
def decodePrivkey : Val → Except Err Int
  | .bytes b => decodePrivkeyBytes b
  | .bytearray b => decodePrivkeyBytes b
  | .str s => decodePrivkeyStr s
  | v => match v.index? with
    | some n => .ok n
    | none => .error .typeError

/-- main.py `ecdsa_raw_sign(msghash, priv)` for a digest given as 64 hexadecimal digits; `genK msghash priv` is
`deterministic_generate_k` (HMAC-SHA-256); it encodes the key with `encode(priv, 256, 32)`, to which a negative key is 0. (The first
component is 4 more for the compressed formats; `Crypto.Sign` drops it.) The second component is x of k·G, not reduced mod N. -/
def ecdsaRawSign (genK : Str → Nat → Nat) (msghash : Str) (priv : Val) : Except Err (Int × Int × Int) :=
  match unhexlifyVal (.str msghash), decodePrivkey priv with
  | .ok h, .ok d =>
    let z : Int := leToNat h.reverse
    let k : Int := genK msghash d.toNat
    let R := fastMultiply c ⟨c.gx, c.gy⟩ k
    let s := inv k c.n * (z + R.x * d) % c.n
    let v := 27 + (if (R.y % 2 = 1) ≠ (¬ s * 2 < c.n) then 1 else 0)
    .ok (v, R.x, if s * 2 < c.n then s else c.n - s)
  | .error e, _ => .error e
  | .ok _, .error e => .error e

end Neo.Bitcoin
