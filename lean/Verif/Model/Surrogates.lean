import Verif.Model.Writer

/-!
# Texts with lone surrogates

A Python `str` is a sequence of code points, which may be surrogates (U+D800 to U+DFFF); `Py.Str` has none of those.  Here the methods of the writer that
encode text are given for all code points.
-/

namespace Neo.Writer
open Py

/-- The code points of a Python `str`, surrogates included. -/
abbrev Text := List (Fin 0x110000)

/-- The code points that no encoded character may have. -/
def isSurrogate (c : Fin 0x110000) : Bool := decide (0xD800 ≤ c.val ∧ c.val ≤ 0xDFFF)

/-- `s.encode('utf-8')`: `UnicodeEncodeError`, a `ValueError`, for surrogates. -/
def encodeUtf8 : Text → Except Err Bytes
  | [] => .ok []
  | c :: cs =>
    if isSurrogate c then .error .valueError
    else match encodeUtf8 cs with
      | .error e => .error e
      | .ok b => .ok (String.utf8EncodeChar (Char.ofNat c.val) ++ b)

/-- neocore/IO/BinaryWriter.py:81-82 `WriteByte` of a text: `self.stream.write(value.encode('utf-8'))`. -/
def writeByteText (t : Text) : IOM Unit := do
  let b ← IOM.lift (encodeUtf8 t)
  let _ ← Stream.write b
  return ()

/-- neocore/IO/BinaryWriter.py:358-375 `WriteVarString` of a text in UTF-8. -/
def writeVarStringText (t : Text) : IOM Unit := do
  let b ← IOM.lift (encodeUtf8 t)
  writeVarStringBytes b

/-- neocore/IO/BinaryWriter.py:377-394 `WriteFixedString`. -/
def writeFixedStringText (t : Text) (length : Int) : IOM Unit := do
  let towrite ← IOM.lift (encodeUtf8 t)
  if (towrite.length : Int) > length then IOM.raise .exc
  else do
    let _ ← writeBytes (.bytes towrite)
    writeZeros (length - towrite.length).toNat

end Neo.Writer
