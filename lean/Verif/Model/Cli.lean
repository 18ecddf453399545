import Verif.Model.KeyPair

/-!
# Model of neocore/bin/cli.py `main` and of the address version setting
-/

namespace Neo
open Py

variable (P : Prims) (B : Btc)

/-- neocore/Cryptography/Helper.py:71-84 `scripthash_to_address` when the module variable `ADDRESS_VERSION` (Helper.py:17) has
been set to `version`; `bytearray([version])` raises `ValueError` outside 0..255. -/
def scripthashToAddressV (version : Int) (scripthash : Bytes) : Except Err Str :=
  if 0 ≤ version ∧ version < 256 then
    let sb := UInt8.ofNat version.toNat :: scripthash
    let c256 := (binDblSha256 P sb).take 4
    .ok (Base58.encode (sb ++ c256))
  else .error .valueError

/-- `repr` of one byte inside a bytes literal with this quote character. -/
def reprByte (quote : UInt8) (b : UInt8) : Str :=
  if b = quote ∨ b = 0x5c then ['\\', Char.ofNat b.toNat]
  else if b = 0x09 then ['\\', 't']
  else if b = 0x0a then ['\\', 'n']
  else if b = 0x0d then ['\\', 'r']
  else if b < 0x20 ∨ 0x7f ≤ b then ['\\', 'x'] ++ hexStr [b]
  else [Char.ofNat b.toNat]

/-- `repr(b)` of a bytes object, `'{!r}'.format(b)` in neocore/bin/cli.py:88: single quotes, unless there is a single quote and no
double quote inside. -/
def reprBytes (b : Bytes) : Str :=
  let quote : UInt8 := if 0x27 ∈ b ∧ 0x22 ∉ b then 0x22 else 0x27
  ['b', Char.ofNat quote.toNat] ++ b.flatMap (reprByte quote) ++ [Char.ofNat quote.toNat]

/-- neocore/bin/cli.py:66-79: what `parse_args` has found. -/
structure CliArgs where
  addressToScripthash : Option Str := none
  scripthashToAddress : Option Str := none
  createWallet : Bool := false

/-- How the process ends: normally, by `exit(1)`, or by an exception nobody catches. -/
inductive CliExit where
  | ok
  | one
  | uncaught (e : Err)
  deriving DecidableEq

/-- neocore/bin/cli.py:84-92: the lines printed for `--address-to-scripthash`. -/
def cliAddress (address : Str) : List Str × CliExit :=
  match cliAddressToScripthash P address with
  | .ok h => ([
      "Scripthash big endian:  0x".toList ++ hexStr h.reverse,
      "Scripthash little endian: ".toList ++ hexStr h,
      "Scripthash neo-python format: ".toList ++ reprBytes h], .ok)
  | .error .conversion => (["Invalid address: invalid checksum".toList], .one)
  | .error e => ([], .uncaught e)

/-- neocore/bin/cli.py:94-100, with the lines `scripthash_to_address` itself prints (cli.py:43-48). -/
def cliScripthash (scripthash : Str) : List Str × CliExit :=
  let printed : List Str :=
    if scripthash.take 2 ≠ ['0', 'x'] then
      "Detected little endian scripthash. Converting to big endian for internal use.".toList ::
        match unhexlifyVal (.str scripthash) with
        | .error _ => []
        | .ok b => ["Big endian scripthash: 0x".toList ++ hexStr b.reverse]
    else []
  match cliScripthashToAddress P scripthash with
  | .ok a => (printed ++ [a], .ok)
  | .error .conversion => (printed ++ ["Wrong format".toList], .one)
  | .error e => (printed, .uncaught e)

/-- neocore/bin/cli.py:102-104: `json.dumps(w, indent=2)` of the two texts (Base58 texts need no escapes). -/
def walletJson (wif address : Str) : List Str :=
  [['{'], "  \"private_key\": \"".toList ++ wif ++ "\",".toList, "  \"address\": \"".toList ++ address ++ "\"".toList, ['}']]

/-- neocore/bin/cli.py:63-104 `main`: the lines printed on standard output and how the process ends. The help text (standard
error), argparse's own errors and a command line that gives only `--` (which is not "no option" for `len(sys.argv) == 1`) are not modelled; `random` is what `Random.get_random_bytes(32)` returns. -/
def cliMain (args : CliArgs) (random : Bytes) : World → (List Str × CliExit) × World := fun w =>
  if args.addressToScripthash = none ∧ args.scripthashToAddress = none ∧ args.createWallet = false then (([], .one), w)
  else
    let r1 : List Str × CliExit := match args.addressToScripthash with
      | none => ([], .ok)
      | some a => cliAddress P a
    if r1.2 ≠ .ok then (r1, w)
    else
      let r2 : List Str × CliExit := match args.scripthashToAddress with
        | none => ([], .ok)
        | some s => cliScripthash P s
      if r2.2 ≠ .ok then ((r1.1 ++ r2.1, r2.2), w)
      else if args.createWallet then
        match KeyPair.createWallet P B random w with
        | (.ok (wif, address), w) => ((r1.1 ++ r2.1 ++ walletJson wif address, .ok), w)
        | (.error e, w) => ((r1.1 ++ r2.1, .uncaught e), w)
      else ((r1.1 ++ r2.1, .ok), w)

end Neo
