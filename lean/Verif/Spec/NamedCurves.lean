import Verif.Spec.EllipticCurve

/-!
# Domain parameters of two curves (specification), as in SEC 2, version 2, sections 2.4.1 and 2.4.2
-/

namespace Spec.EC

/-- Field, coefficients, base point and order of the base point. -/
structure DomainParameters where
  p : Nat
  a : Int
  b : Int
  gx : Int
  gy : Int
  n : Nat

/-- secp256k1: p = 2^256 - 2^32 - 2^9 - 2^8 - 2^7 - 2^6 - 2^4 - 1, y² = x³ + 7. -/
def sec2_secp256k1 : DomainParameters where
  p := 2 ^ 256 - 2 ^ 32 - 2 ^ 9 - 2 ^ 8 - 2 ^ 7 - 2 ^ 6 - 2 ^ 4 - 1
  a := 0
  b := 7
  gx := 0x79BE667EF9DCBBAC55A06295CE870B07029BFCDB2DCE28D959F2815B16F81798
  gy := 0x483ADA7726A3C4655DA4FBFC0E1108A8FD17B448A68554199C47D08FFB10D4B8
  n := 0xFFFFFFFFFFFFFFFFFFFFFFFFFFFFFFFEBAAEDCE6AF48A03BBFD25E8CD0364141

/-- secp256r1: p = 2^224 (2^32 - 1) + 2^192 + 2^96 - 1, y² = x³ - 3 x + b. -/
def sec2_secp256r1 : DomainParameters where
  p := 2 ^ 224 * (2 ^ 32 - 1) + 2 ^ 192 + 2 ^ 96 - 1
  a := 2 ^ 224 * (2 ^ 32 - 1) + 2 ^ 192 + 2 ^ 96 - 1 - 3
  b := 0x5AC635D8AA3A93E7B3EBBD55769886BC651D06B0CC53B0F63BCE3C3E27D2604B
  gx := 0x6B17D1F2E12C4247F8BCE6E563A440F277037D812DEB33A0F4A13945D898C296
  gy := 0x4FE342E2FE1A7F9B8EE7EB4A7C0F9E162BCE33576B315ECECBB6406837BF51F5
  n := 0xFFFFFFFF00000000FFFFFFFFFFFFFFFFBCE6FAADA7179E84F3B9CAC2FC632551

end Spec.EC
