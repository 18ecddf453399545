import Verif.Proofs.Bytes
import Verif.Spec.Stream
import Verif.Model.Reader
import Verif.Model.Writer

/-! Lemmas about the stream monad and the basic reads and writes. -/

namespace Py
open Spec

/-! ### monad plumbing -/

theorem IOM.bind_def (m : IOM α) (f : α → IOM β) : (m >>= f) = IOM.bind m f := rfl
theorem IOM.pure_def (a : α) : (Pure.pure a : IOM α) = IOM.pure a := rfl

theorem IOM.bind_ok {m : IOM α} {f : α → IOM β} {s s' : Stream} {a : α} (h : m s = (.ok a, s')) :
    (m >>= f) s = f a s' := by
  simp [IOM.bind_def, IOM.bind, h]

theorem IOM.bind_err {m : IOM α} {f : α → IOM β} {s s' : Stream} {e : Err} (h : m s = (.error e, s')) :
    (m >>= f) s = (.error e, s') := by
  simp [IOM.bind_def, IOM.bind, h]

theorem IOM.pure_apply (a : α) (s : Stream) : (Pure.pure a : IOM α) s = (.ok a, s) := rfl
theorem IOM.raise_apply (e : Err) (s : Stream) : (IOM.raise e : IOM α) s = (.error e, s) := rfl
theorem IOM.lift_apply (x : Except Err α) (s : Stream) : IOM.lift x s = (x, s) := rfl

/-! ### Appends -/

theorem appends_pure (r : α) : Appends (Pure.pure r : IOM α) r [] := by
  intro pre; simp [IOM.pure_apply]

theorem appends_bind {m : IOM α} {f : α → IOM β} {r : α} {r' : β} {b b' : Bytes}
    (h : Appends m r b) (h' : Appends (f r) r' b') : Appends (m >>= f) r' (b ++ b') := by
  intro pre
  rw [IOM.bind_ok (h pre), h' (pre ++ b)]
  simp [List.append_assoc]

theorem appends_write (bs : Bytes) : Appends (Stream.write bs) bs.length bs := by
  intro pre
  cases bs with
  | nil => simp [Stream.write]
  | cons b bs => simp [Stream.write]

theorem appends_writeVal_bytes (bs : Bytes) : Appends (Stream.writeVal (.bytes bs)) bs.length bs :=
  appends_write bs

theorem appends_writeVal_bytearray (bs : Bytes) : Appends (Stream.writeVal (.bytearray bs)) bs.length bs :=
  appends_write bs

theorem _root_.Spec.Appends.unique {w : IOM α} {r r' : α} {b b' : Bytes} (h : Appends w r b) (h' : Appends w r' b') :
    r = r' ∧ b = b' := by
  have := (h []).symm.trans (h' [])
  simp at this
  exact ⟨this.1, this.2.1⟩

/-! ### Yields -/

theorem yields_pure (v : α) : Yields (Pure.pure v : IOM α) [] v := by
  intro pre post; simp [IOM.pure_apply]

theorem yields_bind {m : IOM α} {f : α → IOM β} {v : α} {v' : β} {b b' : Bytes}
    (h : Yields m b v) (h' : Yields (f v) b' v') : Yields (m >>= f) (b ++ b') v' := by
  intro pre post
  have h1 := h pre (b' ++ post)
  have h2 := h' (pre ++ b) post
  simp only [List.append_assoc] at h1 h2 ⊢
  rw [IOM.bind_ok h1, h2]

theorem yields_read (bs : Bytes) (n : Int) (hn : n = bs.length) (hmax : n ≤ maxsize) :
    Yields (Stream.read n) bs bs := by
  subst hn
  intro pre post
  have h0 : ¬ ((bs.length : Int) > maxsize) := by omega
  have h1 : ¬ ((bs.length : Int) < 0) := by omega
  simp [Stream.read, if_neg h0, if_neg h1]

theorem yields_lift {x : Except Err α} {v : α} (h : x = .ok v) : Yields (IOM.lift x) [] v := by
  subst h; intro pre post; simp [IOM.lift_apply]

/-! ### reading, in general -/

theorem read_apply (n : Int) (s : Stream) (h : n ≤ maxsize) :
    Stream.read n s = (.ok (if n < 0 then s.buf.drop s.pos else (s.buf.drop s.pos).take n.toNat),
      { s with pos := s.pos + (if n < 0 then s.buf.drop s.pos else (s.buf.drop s.pos).take n.toNat).length }) := by
  simp [Stream.read, if_neg (show ¬ n > maxsize by omega)]

theorem read_nat_apply (n : Nat) (s : Stream) (h : (n : Int) ≤ maxsize) :
    Stream.read n s = (.ok ((s.buf.drop s.pos).take n), { s with pos := s.pos + ((s.buf.drop s.pos).take n).length }) := by
  rw [read_apply _ _ h, if_neg (by omega)]; rfl

end Py

namespace Neo
open Py Spec Writer Reader

/-! ### integers -/

theorem appends_packInt {c : Char} {e : Endian} {v : Val} {bs : Bytes} (h : structPackInt c e v = .ok bs) :
    Appends (packInt c e v) bs.length bs := by
  simp only [packInt, h, writeBytes]
  exact appends_writeVal_bytes bs

theorem packInt_raises {c : Char} {e : Endian} {v : Val} {err : Err} (h : structPackInt c e v = .error err) :
    RaisesCleanly (packInt c e v) err := by
  intro s; simp only [packInt, h]; rfl

theorem yields_unpackInt {c : Char} {e : Endian} {bs : Bytes} {v : Int} {n : Nat} (hn : bs.length = n)
    (hsmall : n ≤ 8) (h : structUnpackInt c e bs = .ok v) : Yields (unpackInt c e n) bs v := by
  subst hn
  have := yields_bind (f := fun bs => IOM.lift (structUnpackInt c e bs)) (yields_read bs bs.length rfl (by simp [maxsize]; omega))
    (yields_lift h)
  simpa [unpackInt] using this

theorem structUnpack_pack {c : Char} {signed : Bool} {w : Nat} (hc : fmtOfChar c = some (.intFmt signed w))
    {e : Endian} {n : Int} {v : Val} (hv : v.index? = some n) {bs : Bytes} (h : structPackInt c e v = .ok bs) :
    bs.length = w ∧ structUnpackInt c e bs = .ok n := by
  simp only [structPackInt, hc, hv] at h
  cases hb : intToBytes n w e signed with
  | error e' => simp [hb] at h
  | ok b =>
    simp only [hb, Except.ok.injEq] at h
    subst h
    have hl := intToBytes_length hb
    refine ⟨hl, ?_⟩
    simp [structUnpackInt, hc, hl, intFromBytes_toBytes hb]

/-- In-range test used by `struct` for an integer format. -/
def inRange (signed : Bool) (w : Nat) (n : Int) : Prop :=
  if signed then -(256 ^ w : Int) ≤ 2 * n ∧ 2 * n < 256 ^ w else 0 ≤ n ∧ n < 256 ^ w

theorem structPack_ok {c : Char} {signed : Bool} {w : Nat} (hc : fmtOfChar c = some (.intFmt signed w))
    {e : Endian} {n : Int} {v : Val} (hv : v.index? = some n) (hr : inRange signed w n) :
    structPackInt c e v = .ok (e.arrange (natToLE w (n % 256 ^ w).toNat)) := by
  simp only [structPackInt, hc, hv, intToBytes]
  unfold inRange at hr
  cases signed
  · simp only [Bool.false_eq_true, if_false] at hr ⊢
    rw [if_neg (by omega), if_pos hr.2, Int.emod_eq_of_lt hr.1 hr.2]
  · simp only [if_true] at hr ⊢
    rw [if_pos hr]

theorem structPack_nat {c : Char} {w : Nat} (hc : fmtOfChar c = some (.intFmt false w))
    (e : Endian) {n : Nat} {v : Val} (hv : v.index? = some (n : Int)) (hr : n < 256 ^ w) :
    structPackInt c e v = .ok (e.arrange (natToLE w n)) := by
  have hc' := cast_pow256 w
  have hr' : inRange false w (n : Int) := by
    unfold inRange
    rw [if_neg (by decide)]
    omega
  rw [structPack_ok hc hv hr', Int.emod_eq_of_lt (by omega) (by omega)]
  rfl

theorem structPack_err {c : Char} {signed : Bool} {w : Nat} (hc : fmtOfChar c = some (.intFmt signed w))
    {e : Endian} {n : Int} {v : Val} (hv : v.index? = some n) (hr : ¬ inRange signed w n) :
    structPackInt c e v = .error .structError := by
  simp only [structPackInt, hc, hv, intToBytes]
  unfold inRange at hr
  cases signed
  · simp only [Bool.false_eq_true, if_false] at hr ⊢
    by_cases h0 : n < 0
    · simp [h0]
    · rw [if_neg h0, if_neg (by omega)]
  · simp only [if_true] at hr ⊢
    rw [if_neg hr]

theorem appends_int {c : Char} {signed : Bool} {w : Nat} (hc : fmtOfChar c = some (.intFmt signed w))
    {n : Int} {v : Val} (hv : v.index? = some n) (e : Endian) (hr : inRange signed w n) :
    Appends (packInt c e v) w (e.arrange (natToLE w (n % 256 ^ w).toNat)) := by
  have := appends_packInt (structPack_ok hc (e := e) hv hr)
  simpa [natToLE_length] using this

theorem yields_int {c : Char} {signed : Bool} {w : Nat} (hc : fmtOfChar c = some (.intFmt signed w)) (hw : w ≤ 8)
    {n : Int} (e : Endian) (hr : inRange signed w n) :
    Yields (unpackInt c e w) (e.arrange (natToLE w (n % 256 ^ w).toNat)) n := by
  have h := structPack_ok hc (e := e) (v := .int n) rfl hr
  exact yields_unpackInt (by simp [natToLE_length]) hw (structUnpack_pack hc (v := .int n) rfl h).2

/-! ### single bytes -/

theorem appends_writeByte_int (n : Nat) (h : n ≤ 255) : Appends (writeByte (.int n)) () [UInt8.ofNat n] := by
  have h0 : (0 : Int) ≤ n ∧ (n : Int) ≤ 255 := by omega
  simp only [writeByte, if_pos h0]
  exact appends_bind (appends_write _) (appends_pure _)

theorem yields_readByte (b : UInt8) : Yields readByte [b] b.toNat := by
  intro pre post
  have h1 : (1 : Int) ≤ maxsize := by decide
  unfold readByte IOM.tryExcept
  rw [IOM.bind_ok (read_apply 1 _ h1)]
  simp [IOM.pure_apply]

theorem readByte_eof {s : Stream} (h : s.buf.length ≤ s.pos) : readByte s = (.ok 0, s) := by
  have h1 : (1 : Int) ≤ maxsize := by decide
  unfold readByte IOM.tryExcept
  rw [IOM.bind_ok (read_apply 1 _ h1)]
  simp [IOM.raise_apply, IOM.pure_apply, List.drop_eq_nil_of_le h]

theorem readByte_some {s : Stream} {b : UInt8} (h : s.buf[s.pos]? = some b) :
    readByte s = (.ok (b.toNat : Int), { s with pos := s.pos + 1 }) := by
  obtain ⟨hlt, hb⟩ := List.getElem?_eq_some_iff.mp h
  have h1 : (1 : Int) ≤ maxsize := by decide
  unfold readByte IOM.tryExcept
  rw [IOM.bind_ok (read_apply 1 _ h1)]
  simp [List.drop_eq_getElem_cons hlt, IOM.pure_apply, hb]

/-! ### WriteBytes -/

theorem appends_writeBytes_raw (b : Bytes) : Appends (writeBytes (.bytes b) false) b.length b := by
  simpa [writeBytes] using appends_writeVal_bytes b

theorem appends_writeBytes_hexText {b r : Bytes} (h : unhexlify b = .ok r) :
    Appends (writeBytes (.bytes b)) r.length r := by
  simpa [writeBytes, unhexlifyVal, h] using appends_write r

theorem appends_writeBytes_plain {b : Bytes} (h : hexLike b = false) :
    Appends (writeBytes (.bytes b)) b.length b := by
  simpa [writeBytes, unhexlifyVal, unhexlify_not_hexLike h] using appends_writeVal_bytes b

theorem appends_writeBytearray_hexText {b r : Bytes} (h : unhexlify b = .ok r) :
    Appends (writeBytes (.bytearray b)) r.length r := by
  simpa [writeBytes, unhexlifyVal, h] using appends_write r

theorem appends_writeBytearray_plain {b : Bytes} (h : hexLike b = false) :
    Appends (writeBytes (.bytearray b)) b.length b := by
  simpa [writeBytes, unhexlifyVal, unhexlify_not_hexLike h] using appends_writeVal_bytearray b

theorem hexVal_isSome_iff (c : UInt8) : (hexVal c).isSome = true ↔ IsHexDigit c := by
  unfold hexVal IsHexDigit
  simp only
  split
  · simp; omega
  · split
    · simp; omega
    · split
      · simp; omega
      · simp; omega

theorem hexLike_iff (b : Bytes) : hexLike b = true ↔ HexText b := by
  simp [hexLike, HexText, hexVal_isSome_iff]

theorem hexLike_false_iff (b : Bytes) : hexLike b = false ↔ ¬ HexText b := by
  rw [← hexLike_iff]; simp

end Neo
