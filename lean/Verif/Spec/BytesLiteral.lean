import Verif.Spec.Hex

/-!
# Python's bytes literals (specification)

The subset without prefixes other than `b`, with the escapes `\\ \' \" \t \n \r \xNN`.
-/

namespace Spec

/-- The bytes between the quotes, up to the closing quote `q`, which has to end the text. -/
def literalBody (q : Char) : List Char → Option (List UInt8)
  | [] => none
  | '\\' :: 'x' :: a :: b :: rest => do
    let x ← digit a
    let y ← digit b
    let r ← literalBody q rest
    return UInt8.ofNat (16 * x + y) :: r
  | '\\' :: 'n' :: rest => (literalBody q rest).map (10 :: ·)
  | '\\' :: 'r' :: rest => (literalBody q rest).map (13 :: ·)
  | '\\' :: 't' :: rest => (literalBody q rest).map (9 :: ·)
  | '\\' :: '\\' :: rest => (literalBody q rest).map (92 :: ·)
  | '\\' :: '\'' :: rest => (literalBody q rest).map (39 :: ·)
  | '\\' :: '"' :: rest => (literalBody q rest).map (34 :: ·)
  | c :: rest =>
    if c = q then (if rest = [] then some [] else none)
    else if c = '\\' ∨ c.toNat < 32 ∨ 127 ≤ c.toNat then none
    else (literalBody q rest).map (UInt8.ofNat c.toNat :: ·)

/-- The value of a bytes literal `b'…'` or `b"…"`. -/
def bytesLiteral : List Char → Option (List UInt8)
  | 'b' :: '\'' :: rest => literalBody '\'' rest
  | 'b' :: '"' :: rest => literalBody '"' rest
  | _ => none

end Spec
