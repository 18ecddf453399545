import Mathlib.Data.Nat.Digits.Defs
import Verif.Py.Core

/-!
# Specification vocabulary for streams (independent of the reader/writer models)

Only `Py.Stream` (a buffer and a position) and the notion of a computation on a stream occur here.
-/

namespace Spec
open Py

/-- On every stream positioned at its end, the call returns `r`, appends exactly `bs` and stays at the end. -/
def Appends (w : IOM α) (r : α) (bs : Bytes) : Prop :=
  ∀ pre : Bytes, w ⟨pre, pre.length⟩ = (.ok r, ⟨pre ++ bs, (pre ++ bs).length⟩)

/-- Whatever precedes and follows, when the bytes at the current position are `bs`, the call returns `v`, moves
exactly past `bs`, and leaves the buffer alone. -/
def Yields (rd : IOM α) (bs : Bytes) (v : α) : Prop :=
  ∀ pre post : Bytes, rd ⟨pre ++ bs ++ post, pre.length⟩ = (.ok v, ⟨pre ++ bs ++ post, (pre ++ bs).length⟩)

/-- The call raises `e` on every stream and leaves the stream exactly as it was. -/
def RaisesCleanly (w : IOM α) (e : Err) : Prop := ∀ s : Stream, w s = (.error e, s)

/-- What `w` writes, `rd` reads back as `v`. -/
def RoundTrip (w : IOM α) (rd : IOM β) (v : β) : Prop :=
  ∃ (r : α) (bs : Bytes), Appends w r bs ∧ Yields rd bs v

/-- `bs` is the little-endian two's complement representation of `v` in `w` bytes: it has `w` bytes and the number
they denote in base 256, least significant digit first, is `v` modulo `256 ^ w`. -/
def TwosComplementLE (w : Nat) (v : Int) (bs : Bytes) : Prop :=
  bs.length = w ∧ ((Nat.ofDigits 256 (bs.map UInt8.toNat) : Nat) : Int) = v % 256 ^ w

/-- Is this byte an ASCII hex digit? -/
def IsHexDigit (c : UInt8) : Prop :=
  (48 ≤ c.toNat ∧ c.toNat ≤ 57) ∨ (97 ≤ c.toNat ∧ c.toNat ≤ 102) ∨ (65 ≤ c.toNat ∧ c.toNat ≤ 70)

/-- A byte string that reads as hexadecimal text: an even number of ASCII hex digits. -/
def HexText (b : Bytes) : Prop := b.length % 2 = 0 ∧ ∀ c ∈ b, IsHexDigit c

/-- Writing `bs` at the current position: those bytes are replaced (or appended at the end; a position beyond the end is reached
with zeros), the others stay, and the position moves past them. -/
def overwrite (s : Stream) (bs : Bytes) : Stream :=
  if bs = [] then s
  else ⟨(s.buf ++ List.replicate (s.pos - s.buf.length) 0).take s.pos ++ bs ++ s.buf.drop (s.pos + bs.length), s.pos + bs.length⟩

/-- The bytes from the current position on. -/
def ahead (s : Stream) : Bytes := s.buf.drop s.pos

/-- The stream with the position moved forward. -/
def advance (s : Stream) (k : Nat) : Stream := ⟨s.buf, s.pos + k⟩

end Spec
