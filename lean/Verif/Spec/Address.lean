import Verif.Spec.Base58

/-!
# Base58Check addresses (specification)
-/

namespace Spec

/-- `s` is the Base58Check text of the version byte followed by the payload: the checksum is the first four bytes of the
double hash `dbl`. -/
def Base58Check (dbl : List UInt8 → List UInt8) (version : UInt8) (payload : List UInt8) (s : List Char) : Prop :=
  Base58.TextOf ([version] ++ payload ++ (dbl ([version] ++ payload)).take 4) s

/-- `s` is the NEO address of the script hash `h`: version byte 23 (0x17), twenty bytes. -/
def NeoAddress (dbl : List UInt8 → List UInt8) (h : List UInt8) (s : List Char) : Prop :=
  h.length = 20 ∧ Base58Check dbl 23 h s

end Spec
