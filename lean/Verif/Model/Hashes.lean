import Verif.Py.Core

/-!
# SHA-256 and RIPEMD-160

Not code of /repo: the two digests of Python's `hashlib` that neocore calls (neocore/Cryptography/Helper.py:20-42,100-138,
Crypto.py:39-90, KeyPair.py:151-153,203-205, bin/cli.py:34), written down from FIPS 180-4 and from the RIPEMD-160 paper, so that
the model can be evaluated on the literals of /repo/tests. No property theorem depends on them: those hold for every
function of the right output length (`Neo.Prims`).
-/

namespace Neo.Hashes
open Py

/-- 32-bit words are natural numbers below 2^32. -/
def w32 (n : Nat) : Nat := n % 4294967296

def rotr (n x : Nat) : Nat := w32 ((x >>> n) ||| (x <<< (32 - n)))
def rotl (n x : Nat) : Nat := w32 ((x <<< n) ||| (x >>> (32 - n)))
def not32 (x : Nat) : Nat := x ^^^ 4294967295

/-- Consecutive groups of `n` elements. -/
def chunks (n : Nat) : Nat → Bytes → List Bytes
  | 0, _ => []
  | _, [] => []
  | k + 1, b => b.take n :: chunks n k (b.drop n)

/-- Number of zero bytes after the byte 0x80 so that the total is a multiple of 64 with eight bytes of length. -/
def zeroPad (len : Nat) : Nat := (119 - len % 64) % 64

/-- FIPS 180-4, 4.2.2. -/
def sha256K : List Nat := [
  0x428a2f98, 0x71374491, 0xb5c0fbcf, 0xe9b5dba5, 0x3956c25b, 0x59f111f1, 0x923f82a4, 0xab1c5ed5,
  0xd807aa98, 0x12835b01, 0x243185be, 0x550c7dc3, 0x72be5d74, 0x80deb1fe, 0x9bdc06a7, 0xc19bf174,
  0xe49b69c1, 0xefbe4786, 0x0fc19dc6, 0x240ca1cc, 0x2de92c6f, 0x4a7484aa, 0x5cb0a9dc, 0x76f988da,
  0x983e5152, 0xa831c66d, 0xb00327c8, 0xbf597fc7, 0xc6e00bf3, 0xd5a79147, 0x06ca6351, 0x14292967,
  0x27b70a85, 0x2e1b2138, 0x4d2c6dfc, 0x53380d13, 0x650a7354, 0x766a0abb, 0x81c2c92e, 0x92722c85,
  0xa2bfe8a1, 0xa81a664b, 0xc24b8b70, 0xc76c51a3, 0xd192e819, 0xd6990624, 0xf40e3585, 0x106aa070,
  0x19a4c116, 0x1e376c08, 0x2748774c, 0x34b0bcb5, 0x391c0cb3, 0x4ed8aa4a, 0x5b9cca4f, 0x682e6ff3,
  0x748f82ee, 0x78a5636f, 0x84c87814, 0x8cc70208, 0x90befffa, 0xa4506ceb, 0xbef9a3f7, 0xc67178f2]

/-- FIPS 180-4, 6.2.2 step 1: the message schedule, the last word first. -/
def schedule : Nat → List Nat → List Nat
  | 0, w => w
  | k + 1, w =>
    let x := w.getD 1 0
    let y := w.getD 14 0
    let s1 := rotr 17 x ^^^ rotr 19 x ^^^ (x >>> 10)
    let s0 := rotr 7 y ^^^ rotr 18 y ^^^ (y >>> 3)
    schedule k (w32 (s1 + w.getD 6 0 + s0 + w.getD 15 0) :: w)

/-- The eight working variables. -/
structure S256 where
  a : Nat
  b : Nat
  c : Nat
  d : Nat
  e : Nat
  f : Nat
  g : Nat
  h : Nat

/-- FIPS 180-4, 6.2.2 step 3. -/
def round256 (s : S256) (k w : Nat) : S256 :=
  let t1 := s.h + (rotr 6 s.e ^^^ rotr 11 s.e ^^^ rotr 25 s.e) + ((s.e &&& s.f) ^^^ (not32 s.e &&& s.g)) + k + w
  let t2 := (rotr 2 s.a ^^^ rotr 13 s.a ^^^ rotr 22 s.a) + ((s.a &&& s.b) ^^^ (s.a &&& s.c) ^^^ (s.b &&& s.c))
  ⟨w32 (t1 + t2), s.a, s.b, s.c, w32 (s.d + t1), s.e, s.f, s.g⟩

def rounds256 : List Nat → List Nat → S256 → S256
  | k :: ks, w :: ws, s => rounds256 ks ws (round256 s k w)
  | _, _, s => s

/-- FIPS 180-4, 6.2.2 for one block of 64 bytes. -/
def block256 (s : S256) (block : Bytes) : S256 :=
  let w := schedule 48 ((chunks 4 16 block).map (fun b => leToNat b.reverse)).reverse
  let t := rounds256 sha256K w.reverse s
  ⟨w32 (s.a + t.a), w32 (s.b + t.b), w32 (s.c + t.c), w32 (s.d + t.d), w32 (s.e + t.e), w32 (s.f + t.f), w32 (s.g + t.g),
    w32 (s.h + t.h)⟩

/-- FIPS 180-4, 5.3.3. -/
def init256 : S256 :=
  ⟨0x6a09e667, 0xbb67ae85, 0x3c6ef372, 0xa54ff53a, 0x510e527f, 0x9b05688c, 0x1f83d9ab, 0x5be0cd19⟩

/-- FIPS 180-4, 5.1.1. -/
def pad256 (m : Bytes) : Bytes :=
  m ++ 0x80 :: List.replicate (zeroPad m.length) 0 ++ (natToLE 8 (8 * m.length)).reverse

/-- `hashlib.sha256(m).digest()`. -/
def sha256 (m : Bytes) : Bytes :=
  let p := pad256 m
  let s := (chunks 64 (p.length / 64) p).foldl block256 init256
  [s.a, s.b, s.c, s.d, s.e, s.f, s.g, s.h].flatMap fun x => (natToLE 4 x).reverse

theorem sha256_length (m : Bytes) : (sha256 m).length = 32 := by
  simp [sha256, natToLE]

/-! ## RIPEMD-160 -/

/-- The five working variables. -/
structure S160 where
  a : Nat
  b : Nat
  c : Nat
  d : Nat
  e : Nat

/-- The boolean functions of the five rounds. -/
def ripF (j x y z : Nat) : Nat :=
  match j with
  | 0 => x ^^^ y ^^^ z
  | 1 => (x &&& y) ||| (not32 x &&& z)
  | 2 => (x ||| not32 y) ^^^ z
  | 3 => (x &&& z) ||| (y &&& not32 z)
  | _ => x ^^^ (y ||| not32 z)

/-- Word selection, left and right line. -/
def ripRL : List Nat := [
  0, 1, 2, 3, 4, 5, 6, 7, 8, 9, 10, 11, 12, 13, 14, 15,
  7, 4, 13, 1, 10, 6, 15, 3, 12, 0, 9, 5, 2, 14, 11, 8,
  3, 10, 14, 4, 9, 15, 8, 1, 2, 7, 0, 6, 13, 11, 5, 12,
  1, 9, 11, 10, 0, 8, 12, 4, 13, 3, 7, 15, 14, 5, 6, 2,
  4, 0, 5, 9, 7, 12, 2, 10, 14, 1, 3, 8, 11, 6, 15, 13]
def ripRR : List Nat := [
  5, 14, 7, 0, 9, 2, 11, 4, 13, 6, 15, 8, 1, 10, 3, 12,
  6, 11, 3, 7, 0, 13, 5, 10, 14, 15, 8, 12, 4, 9, 1, 2,
  15, 5, 1, 3, 7, 14, 6, 9, 11, 8, 12, 2, 10, 0, 4, 13,
  8, 6, 4, 1, 3, 11, 15, 0, 5, 12, 2, 13, 9, 7, 10, 14,
  12, 15, 10, 4, 1, 5, 8, 7, 6, 2, 13, 14, 0, 3, 9, 11]

/-- Rotation amounts, left and right line. -/
def ripSL : List Nat := [
  11, 14, 15, 12, 5, 8, 7, 9, 11, 13, 14, 15, 6, 7, 9, 8,
  7, 6, 8, 13, 11, 9, 7, 15, 7, 12, 15, 9, 11, 7, 13, 12,
  11, 13, 6, 7, 14, 9, 13, 15, 14, 8, 13, 6, 5, 12, 7, 5,
  11, 12, 14, 15, 14, 15, 9, 8, 9, 14, 5, 6, 8, 6, 5, 12,
  9, 15, 5, 11, 6, 8, 13, 12, 5, 12, 13, 14, 11, 8, 5, 6]
def ripSR : List Nat := [
  8, 9, 9, 11, 13, 15, 15, 5, 7, 7, 8, 11, 14, 14, 12, 6,
  9, 13, 15, 7, 12, 8, 9, 11, 7, 7, 12, 7, 6, 15, 13, 11,
  9, 7, 15, 11, 8, 6, 6, 14, 12, 13, 5, 14, 13, 13, 7, 5,
  15, 5, 8, 11, 14, 14, 6, 14, 6, 9, 12, 9, 12, 5, 15, 8,
  8, 5, 12, 9, 12, 5, 14, 6, 8, 13, 6, 5, 15, 13, 11, 11]

/-- Added constants, left and right line. -/
def ripKL : List Nat := [0x00000000, 0x5a827999, 0x6ed9eba1, 0x8f1bbcdc, 0xa953fd4e]
def ripKR : List Nat := [0x50a28be6, 0x5c4dd124, 0x6d703ef3, 0x7a6d76e9, 0x00000000]

/-- One step of a line. -/
def ripStep (f k s x : Nat) (v : S160) : S160 :=
  ⟨v.e, w32 (rotl s (w32 (v.a + ripF f v.b v.c v.d + x + k)) + v.e), v.b, rotl 10 v.c, v.d⟩

/-- A line of 80 steps from step `j` on; `flip` is 0 for the left line (functions 1 to 5) and 1 for the right (5 to 1). -/
def ripLine (flip : Bool) (ks x : List Nat) : List Nat → List Nat → Nat → S160 → S160
  | r :: rs, s :: ss, j, v =>
    ripLine flip ks x rs ss (j + 1)
      (ripStep (if flip then 4 - j / 16 else j / 16) (ks.getD (j / 16) 0) s (x.getD r 0) v)
  | _, _, _, v => v

/-- One block of 64 bytes. -/
def ripBlock (h : S160) (block : Bytes) : S160 :=
  let x := (chunks 4 16 block).map leToNat
  let l := ripLine false ripKL x ripRL ripSL 0 h
  let r := ripLine true ripKR x ripRR ripSR 0 h
  ⟨w32 (h.b + l.c + r.d), w32 (h.c + l.d + r.e), w32 (h.d + l.e + r.a), w32 (h.e + l.a + r.b), w32 (h.a + l.b + r.c)⟩

def ripInit : S160 := ⟨0x67452301, 0xefcdab89, 0x98badcfe, 0x10325476, 0xc3d2e1f0⟩

/-- Padding as in MD4: the length in bits is little-endian. -/
def ripPad (m : Bytes) : Bytes :=
  m ++ 0x80 :: List.replicate (zeroPad m.length) 0 ++ natToLE 8 (8 * m.length)

/-- `hashlib.new('ripemd160', m).digest()`. -/
def ripemd160 (m : Bytes) : Bytes :=
  let p := ripPad m
  let s := (chunks 64 (p.length / 64) p).foldl ripBlock ripInit
  [s.a, s.b, s.c, s.d, s.e].flatMap fun x => natToLE 4 x

theorem ripemd160_length (m : Bytes) : (ripemd160 m).length = 20 := by
  simp [ripemd160, natToLE]

end Neo.Hashes
