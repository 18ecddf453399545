import Verif.Model.ECCurve
import Verif.Spec.Hex

/-! Specification of the SEC 1 encodings of curve points, for 256-bit fields. -/

namespace Spec.EC
open Neo.EC

/-- Both coordinates are reduced mod p. -/
def Reduced (c : Curve) (P : Pt) : Prop := 0 ≤ P.x ∧ P.x < c.p ∧ 0 ≤ P.y ∧ P.y < c.p

/-- SEC 1 compressed encoding (33 bytes): 02 or 03 by the parity of y, then x, big-endian. -/
def IsCompressed (P : Pt) (ba : Py.Bytes) : Prop :=
  ∃ xb : Py.Bytes, ba = (if P.y % 2 = 0 then 2 else 3) :: xb ∧ xb.length = 32 ∧ P.x = beNumber xb

/-- SEC 1 uncompressed encoding (65 bytes): 04, then x and y, big-endian. -/
def IsUncompressed (P : Pt) (ba : Py.Bytes) : Prop :=
  ∃ xb yb : Py.Bytes, ba = 4 :: (xb ++ yb) ∧ xb.length = 32 ∧ yb.length = 32 ∧ P.x = beNumber xb ∧ P.y = beNumber yb

end Spec.EC
