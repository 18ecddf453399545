import Verif.Py.Core

/-! # Text encodings of the Python library (`str.encode`, `bytes.decode`) -/

namespace Py

/-- A text codec: `str.encode(encoding)` and `bytes.decode(encoding)`. -/
structure Codec where
  encode : Str → Except Err Bytes
  decode : Bytes → Except Err Str

/-- Encoding `'ascii'`: both directions refuse anything above 127 (`UnicodeError`, a `ValueError`). -/
def Codec.ascii : Codec where
  encode s := if s.all (fun c => decide (c.toNat < 128)) then .ok (s.map fun c => UInt8.ofNat c.toNat) else .error .valueError
  decode b := if b.all (fun x => decide (x.toNat < 128)) then .ok (asciiStr b) else .error .valueError

/-- Encoding `'latin-1'`: code points below 256 are the bytes. -/
def Codec.latin1 : Codec where
  encode s := if s.all (fun c => decide (c.toNat < 256)) then .ok (s.map fun c => UInt8.ofNat c.toNat) else .error .valueError
  decode b := .ok (asciiStr b)

/-- One UTF-16 code unit, little endian. -/
def utf16Unit (u : Nat) : Bytes := [UInt8.ofNat (u % 256), UInt8.ofNat (u / 256)]

/-- One character in UTF-16, little endian: a unit, or a surrogate pair. -/
def utf16Char (c : Char) : Bytes :=
  if c.toNat < 0x10000 then utf16Unit c.toNat
  else utf16Unit (0xd800 + (c.toNat - 0x10000) / 0x400) ++ utf16Unit (0xdc00 + (c.toNat - 0x10000) % 0x400)

/-- UTF-16, little endian, to text: cut-off data and lone surrogates are refused (`UnicodeDecodeError`, a `ValueError`). -/
def utf16Decode : Bytes → Except Err Str
  | [] => .ok []
  | [_] => .error .valueError
  | a :: b :: rest =>
    if a.toNat + 256 * b.toNat < 0xd800 ∨ 0xdfff < a.toNat + 256 * b.toNat then
      match utf16Decode rest with
      | .ok t => .ok (Char.ofNat (a.toNat + 256 * b.toNat) :: t)
      | .error e => .error e
    else
      match rest with
      | c :: d :: rest' =>
        if a.toNat + 256 * b.toNat < 0xdc00 ∧ 0xdc00 ≤ c.toNat + 256 * d.toNat ∧ c.toNat + 256 * d.toNat ≤ 0xdfff then
          match utf16Decode rest' with
          | .ok t => .ok (Char.ofNat (0x10000 + (a.toNat + 256 * b.toNat - 0xd800) * 0x400 + (c.toNat + 256 * d.toNat - 0xdc00)) :: t)
          | .error e => .error e
        else .error .valueError
      | _ => .error .valueError

/-- Encoding `'utf-16-le'`. -/
def Codec.utf16le : Codec where
  encode s := .ok (s.flatMap utf16Char)
  decode := utf16Decode

end Py
