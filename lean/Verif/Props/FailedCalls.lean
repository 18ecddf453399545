import Verif.Props.StreamContext
import Verif.Props.Decode

/-! # C162, C163: calls that raise -/

namespace Neo.Props
open Py Spec Writer Reader

/-! ## C162: writes -/

/-- A call that raises leaves the stream as it was. -/
def Atomic (m : IOM α) : Prop := ∀ s e s', m s = (.error e, s') → s' = s

/-- The writer methods that write in one piece. -/
def OnePiece : WriteOp → Prop
  | .varInt v _ => ∀ n, v.index? = some n → n < 2 ^ 64
  | .varBytes b _ => b.length < 2 ^ 64
  | .varBytesOf v _ => (∀ s, v ≠ .str s) ∧ ∀ n, pyLen v = some n → n < 2 ^ 64
  | .varString v => (∀ s, v = .str s → (utf8 s).length < 2 ^ 64) ∧ ∀ n, pyLen v = some n → n < 2 ^ 64
  | .varStringEnc _ _ | .list2000 _ | .hashes _ => False
  | _ => True

private theorem atomic_pure (a : α) : Atomic (pure a : IOM α) := fun s e s' h => by cases h
private theorem atomic_raise (e : Err) : Atomic (IOM.raise e : IOM α) := fun s e' s' h => by cases h; rfl
private theorem atomic_lift (x : Except Err α) : Atomic (IOM.lift x) := fun s e' s' h => by cases h; rfl
private theorem atomic_ite {c : Prop} [Decidable c] {a b : IOM α} (ha : c → Atomic a) (hb : ¬ c → Atomic b) :
    Atomic (if c then a else b) := by
  split
  · exact ha ‹_›
  · exact hb ‹_›

/-- Never raises. -/
private def Total (m : IOM α) : Prop := ∀ s e s', m s ≠ (.error e, s')

private theorem Total.atomic {m : IOM α} (h : Total m) : Atomic m := fun s e s' h' => absurd h' (h s e s')

private theorem bind_error {m : IOM α} {f : α → IOM β} {s s' : Stream} {e : Err} (h : (m >>= f) s = (.error e, s')) :
    m s = (.error e, s') ∨ ∃ a s1, m s = (.ok a, s1) ∧ f a s1 = (.error e, s') := by
  rcases hr : m s with ⟨r, s1⟩
  cases r with
  | ok a => rw [IOM.bind_ok hr] at h; exact .inr ⟨a, s1, rfl, h⟩
  | error e' => rw [IOM.bind_err hr] at h; cases h; exact .inl rfl

private theorem total_bind {m : IOM α} {f : α → IOM β} (hm : Total m) (hf : ∀ a, Total (f a)) : Total (m >>= f) := by
  intro s e s' h
  rcases bind_error h with h | ⟨a, s1, -, h⟩
  · exact hm _ _ _ h
  · exact hf _ _ _ _ h

private theorem atomic_bind {m : IOM α} {f : α → IOM β} (hm : Atomic m) (hf : ∀ a, Total (f a)) : Atomic (m >>= f) := by
  intro s e s' h
  rcases bind_error h with h | ⟨a, s1, -, h⟩
  · exact hm _ _ _ h
  · exact absurd h (hf _ _ _ _)

private theorem total_pure (a : α) : Total (pure a : IOM α) := fun s e s' h => by cases h
private theorem total_write (b : Bytes) : Total (Stream.write b) := fun s e s' h => by
  unfold Stream.write at h
  split at h <;> cases h

private theorem atomic_writeVal (v : Val) : Atomic (Stream.writeVal v) := by
  unfold Stream.writeVal
  split
  · exact (total_write _).atomic
  · exact (total_write _).atomic
  · exact atomic_raise _

private theorem atomic_writeBytes (v : Val) (u : Bool) : Atomic (writeBytes v u) := by
  unfold writeBytes
  split
  · split
    · exact (total_write _).atomic
    · exact atomic_writeVal _
    · exact atomic_raise _
  · exact atomic_writeVal _

private theorem total_raw (b : Bytes) : Total (writeBytes (.bytes b) false) := total_write b
private theorem total_rawa (b : Bytes) : Total (writeBytes (.bytearray b) false) := total_write b

private theorem total_writeBytes_bytes (b : Bytes) (u : Bool) : Total (writeBytes (.bytes b) u) := by
  cases u with
  | false => exact total_raw b
  | true =>
    unfold writeBytes
    simp only [if_true]
    have : unhexlifyVal (.bytes b) = unhexlify b := rfl
    rw [this]
    cases hx : unhexlify b with
    | ok r => exact total_write _
    | error e =>
      have := unhexlify_error hx
      subst this
      exact total_write b

private theorem atomic_packInt (c : Char) (e : Endian) (v : Val) : Atomic (packInt c e v) := by
  unfold packInt
  split
  · exact atomic_writeBytes _ _
  · exact atomic_raise _

private theorem atomic_packFloat (f : FloatFmt) (e : Endian) (v : FloatArg) : Atomic (packFloat f e v) := by
  unfold packFloat
  split
  · exact atomic_writeBytes _ _
  · exact atomic_raise _

private theorem atomic_ignore {m : IOM α} (h : Atomic m) : Atomic (ignore m) := atomic_bind h fun _ => total_pure _

/-- `WriteVarInt` on any stream. -/
theorem varInt_anywhere (v : Val) (e : Endian) {r : Except Err (Option Nat)} {bs : Bytes}
    (h : writeVarInt v e ⟨[], 0⟩ = (r, ⟨bs, bs.length⟩)) (s : Stream) : writeVarInt v e s = (r, overwrite s bs) := by
  obtain ⟨r', bs', h'⟩ := writeVarInt_context v e
  rw [h' ⟨[], 0⟩, show (⟨[], 0⟩ : Stream) = ⟨[], ([] : Bytes).length⟩ from rfl, overwrite_end, List.nil_append] at h
  obtain ⟨h1, h2⟩ := Prod.mk.inj h
  have h3 : bs' = bs := congrArg Stream.buf h2
  rw [h', h1, h3]

/-- C162, exactly for `WriteVarInt`: of the numbers it refuses, only those of more than 64 bits leave something behind: a byte
0xff. -/
theorem C162_varInt_partial (v : Val) (e : Endian) (s s' : Stream) (err : Err) (h : writeVarInt v e s = (.error err, s')) :
    ((∀ n, v.index? = some n → n < 2 ^ 64) ∧ s' = s) ∨ ∃ n, v.index? = some n ∧ 2 ^ 64 ≤ n ∧ s' = overwrite s [0xff] := by
  have h0 : overwrite s [] = s := if_pos rfl
  rcases C131_writeVarInt_outcome v e [] with ⟨hv, ho⟩ | ⟨n, hv, (⟨hn, ho⟩ | ⟨_, _, _, ho⟩ | ⟨_, _, _, r, bs, ho, _⟩ | ⟨hn, ho⟩)⟩
  · rw [varInt_anywhere v e ho s, h0] at h
    cases h
    exact .inl ⟨(fun n hn => by rw [hv] at hn; cases hn), rfl⟩
  · rw [varInt_anywhere v e ho s, h0] at h
    cases h
    exact .inl ⟨(fun m hm => by rw [hv] at hm; cases hm; omega), rfl⟩
  · rw [varInt_anywhere v e ho s] at h
    cases h
  · rw [varInt_anywhere v e ho s] at h
    cases h
  · rw [varInt_anywhere v e ho s] at h
    cases h
    exact .inr ⟨n, hv, hn, rfl⟩

private theorem total_varInt (n : Nat) (h : n < 2 ^ 64) (e : Endian) : Total (writeVarInt (.int n) e) := by
  intro s err s' hs
  have ha := appends_writeVarInt e n h []
  rw [varInt_anywhere (.int n) e ha s] at hs
  cases hs

private theorem total_str (b : Bytes) : Total (writeBytes (.str (asciiStr (hexlify b)))) := by
  have := unhexlifyVal_hexStr b
  unfold writeBytes
  simp only [if_true]
  rw [this]
  exact total_write b

private theorem total_varStringBytes (b : Bytes) (h : b.length < 2 ^ 64) : Total (writeVarStringBytes b) :=
  total_bind (total_varInt _ h _) fun _ => total_bind (total_str b) fun _ => total_pure _

private theorem total_writeByte0 : Total (writeByte (.int 0)) := total_bind (total_write _) fun _ => total_pure _

private theorem total_zeros (k : Nat) : Total (writeZeros k) := by
  induction k with
  | zero => exact total_pure _
  | succ k ih => exact total_bind total_writeByte0 fun _ => ih

private theorem atomic_uintSerialize (d : Bytes) : Atomic (uintSerialize d) := atomic_bind (atomic_writeBytes _ _) fun _ => total_pure _

/-- C162 for the methods that write in one piece: numbers of fixed width, floats, bools, chars, raw and fixed-size data, amounts,
variable-length numbers below 2^64 and data: a call that raises leaves the stream as it was. -/
theorem C162_one_piece_partial (o : WriteOp) (h : OnePiece o) : Atomic o.run := by
  cases o with
  | byte v =>
    show Atomic (writeByte v)
    unfold writeByte
    split
    · exact (total_bind (total_write _) fun _ => total_pure _).atomic
    · exact (total_bind (total_write _) fun _ => total_pure _).atomic
    · exact atomic_ite (fun _ => (total_bind (total_write _) fun _ => total_pure _).atomic) fun _ => atomic_raise _
    · exact (total_pure _).atomic
  | bytes v u => exact atomic_ignore (atomic_writeBytes _ _)
  | bool v => exact atomic_ignore (atomic_writeBytes _ _)
  | char v =>
    refine atomic_ignore ?_
    unfold writeChar
    split
    · exact atomic_writeBytes _ _
    · exact atomic_raise _
  | double b e => exact atomic_ignore (atomic_writeBytes _ _)
  | i8 v e => exact atomic_ignore (atomic_packInt _ _ _)
  | u8 v e => exact atomic_ignore (atomic_packInt _ _ _)
  | i16 v e => exact atomic_ignore (atomic_packInt _ _ _)
  | u16 v e => exact atomic_ignore (atomic_packInt _ _ _)
  | i32 v e => exact atomic_ignore (atomic_packInt _ _ _)
  | u32 v e => exact atomic_ignore (atomic_packInt _ _ _)
  | i64 v e => exact atomic_ignore (atomic_packInt _ _ _)
  | u64 v e => exact atomic_ignore (atomic_packInt _ _ _)
  | uint160 v =>
    show Atomic (writeUInt160 v)
    unfold writeUInt160
    split
    · exact atomic_uintSerialize _
    · exact atomic_raise _
  | uint256 v =>
    show Atomic (writeUInt256 v)
    unfold writeUInt256
    split
    · exact atomic_uintSerialize _
    · exact atomic_raise _
  | varInt v e =>
    refine atomic_ignore fun s err s' hs => ?_
    rcases C162_varInt_partial v e s s' err hs with ⟨-, h'⟩ | ⟨n, hn, hle, -⟩
    · exact h'
    · exact absurd (h n hn) (by omega)
  | varBytes b e => exact (total_bind (total_bind (total_varInt _ h _) fun _ => total_raw _) fun _ => total_pure _).atomic
  | varString v =>
    show Atomic (writeVarString v)
    unfold writeVarString
    split
    · exact (total_varStringBytes _ (h.1 _ rfl)).atomic
    · exact (total_varStringBytes _ (h.2 _ rfl)).atomic
    · exact (total_varStringBytes _ (h.2 _ rfl)).atomic
    · exact atomic_raise _
  | fixedString s n =>
    exact atomic_ite (fun _ => atomic_raise _) fun _ => (total_bind (total_writeBytes_bytes _ _) fun _ => total_zeros _).atomic
  | list2000 l => exact h.elim
  | hashes l => exact h.elim
  | fixed8 n => exact atomic_ignore (atomic_packInt _ _ _)
  | float v e => exact atomic_ignore (atomic_packFloat _ _ _)
  | doubleOf v e => exact atomic_ignore (atomic_packFloat _ _ _)
  | varBytesOf v e =>
    refine atomic_ignore ?_
    unfold writeVarBytesOf
    cases v with
    | bytes b => exact (total_bind (total_varInt _ (h.2 _ rfl) _) fun _ => total_raw _).atomic
    | bytearray b => exact (total_bind (total_varInt _ (h.2 _ rfl) _) fun _ => total_rawa _).atomic
    | str s => exact absurd rfl (h.1 s)
    | _ => exact atomic_raise _
  | varStringEnc c v => exact h.elim

private theorem reversedHex_append (good : List Val) (bad : Val) (rest : List Val) (err : Err)
    (hg : ∀ v ∈ good, ∃ b, unhexlifyVal v = .ok b) (hb : unhexlifyVal bad = .error err) (s : Stream) :
    writeReversedHex (good ++ bad :: rest) s = (.error err, (writeReversedHex good s).2) := by
  induction good generalizing s with
  | nil =>
    show (IOM.lift (unhexlifyVal bad) >>= _) s = _
    exact IOM.bind_err (by rw [hb]; rfl)
  | cons v good ih =>
    obtain ⟨b, hv⟩ := hg v (by simp)
    have h1 : ∀ l, writeReversedHex (v :: l) s = (writeBytes (.bytearray b.reverse) >>= fun _ => writeReversedHex l) s := fun l => by
      show (IOM.lift (unhexlifyVal v) >>= _) s = _
      exact IOM.bind_ok (by rw [hv]; rfl)
    have h2 := total_writeBytes_bytes b.reverse true s
    rw [List.cons_append, h1, h1]
    rcases hw : writeBytes (.bytearray b.reverse) true s with ⟨r, s1⟩
    cases r with
    | error e => exact absurd hw (h2 e s1)
    | ok n =>
      rw [IOM.bind_ok hw, IOM.bind_ok hw]
      exact ih (fun v hv => hg v (by simp [hv])) s1

/-- C162, exactly for lists of hashes: an item that is not hexadecimal text stops the call with everything before it (the number
of items and the items that precede it) already written. -/
theorem C162_lists_violated (good : List Val) (bad : Val) (rest : List Val) (err : Err) (hl : (good ++ bad :: rest).length < 2 ^ 64)
    (hg : ∀ v ∈ good, ∃ b, unhexlifyVal v = .ok b) (hb : unhexlifyVal bad = .error err) (s : Stream) :
    write2000256List (good ++ bad :: rest) s = (.error err, (write2000256List good s).2) ∧
    ∃ r bs, bs ≠ [] ∧ writeVarInt (.int (good ++ bad :: rest).length) .little s = (.ok r, overwrite s bs) ∧
      writeHashes (good ++ bad :: rest) s = (.error err, (write2000256List good (overwrite s bs)).2) := by
  refine ⟨reversedHex_append good bad rest err hg hb s, ?_⟩
  have ha := appends_writeVarInt .little _ hl []
  have hv := varInt_anywhere _ _ ha s
  refine ⟨_, _, ?_, hv, ?_⟩
  · intro h
    have := congrArg List.length h
    rw [List.nil_append, varIntBytes_length] at this
    revert this
    split
    · intro h; cases h
    · split
      · intro h; cases h
      · split <;> (intro h; cases h)
  · show (writeVarInt _ _ >>= _) s = _
    rw [IOM.bind_ok hv]
    exact reversedHex_append good bad rest err hg hb _

/-- C162 fails: `WriteVarBytes` of a text raises a TypeError after writing the number of its characters. -/
theorem C162_text_violated (t : Str) (e : Endian) (hl : t.length < 2 ^ 64) (s : Stream) :
    ∃ bs, bs ≠ [] ∧ writeVarBytesOf (.str t) e s = (.error .typeError, overwrite s bs) := by
  have ha := appends_writeVarInt e _ hl []
  have hv := varInt_anywhere _ _ ha s
  refine ⟨[] ++ varIntBytes e t.length, ?_, ?_⟩
  rotate_left
  · show (writeVarInt _ _ >>= _) s = _
    rw [IOM.bind_ok hv]
    rfl
  · intro h
    have := congrArg List.length h
    rw [List.nil_append, varIntBytes_length] at this
    revert this
    split
    · intro h; cases h
    · split
      · intro h; cases h
      · split <;> (intro h; cases h)

/-- The lists of the theorems: a good item, a bad one, and what is left behind. -/
example : writeHashes [.str ['0', 'a'], .str ['x']] ⟨[9], 1⟩ = (.error .binasciiError, ⟨[9, 2, 10], 3⟩) ∧
    writeVarBytesOf (.str ['a', 'b']) .little ⟨[9], 1⟩ = (.error .typeError, ⟨[9, 2], 2⟩) ∧
    OnePiece (.u16 (.int 70000) .little) ∧ (WriteOp.u16 (.int 70000) .little).run ⟨[9], 1⟩ = (.error .structError, ⟨[9], 1⟩) := by
  refine ⟨by decide, by decide, trivial, by decide⟩

/-! ## C163: reads -/

/-- The reader methods that take a fixed number of bytes and need all of them. -/
def FixedSize : ReadOp → Prop
  | .bool | .char | .double _ | .i8 _ | .u8 _ | .i16 _ | .u16 _ | .i32 _ | .u32 _ | .i64 _ | .u64 _ | .uint160 | .uint256
  | .fixed8 | .float _ | .doubleVal _ => True
  | .safeBytes n => 0 ≤ n ∧ n ≤ maxsize
  | _ => False

private theorem read_error {n : Nat} (hn : (n : Int) ≤ maxsize) {f : Bytes → IOM α}
    (hf : ∀ a s e s', f a s = (.error e, s') → s' = s ∧ a.length ≠ n) {s s' : Stream} {e : Err}
    (h : (Stream.read (n : Int) >>= f) s = (.error e, s')) : s' = advance s (ahead s).length ∧ (ahead s).length < n := by
  have hr : Stream.read (n : Int) s = (.ok ((ahead s).take n), advance s ((ahead s).take n).length) := by
    unfold Stream.read
    simp only [if_neg (show ¬ ((n : Int) > maxsize) by omega), if_neg (show ¬ ((n : Int) < 0) by omega), Int.toNat_natCast]
    rfl
  rw [IOM.bind_ok hr] at h
  obtain ⟨h1, h2⟩ := hf _ _ _ _ h
  rw [List.length_take] at h1 h2
  have hlt : (ahead s).length < n := by omega
  rw [min_eq_right (by omega)] at h1
  exact ⟨h1, hlt⟩

private theorem mapOut_error {f : α → Out} {m : IOM α} {s s' : Stream} {e : Err} (h : mapOut f m s = (.error e, s')) :
    m s = (.error e, s') := by
  rcases bind_error h with h | ⟨a, s1, -, h⟩
  · exact h
  · cases h

private theorem unpackInt_lost {c : Char} {en : Endian} {n : Nat} {signed : Bool} (hc : fmtOfChar c = some (.intFmt signed n))
    (hn : (n : Int) ≤ maxsize) {s s' : Stream} {e : Err} (h : unpackInt c en n s = (.error e, s')) :
    s' = advance s (ahead s).length ∧ (ahead s).length < n := by
  refine read_error hn (f := fun bs => IOM.lift (structUnpackInt c en bs)) (fun a s1 e1 s2 h1 => ?_) h
  unfold structUnpackInt at h1
  rw [hc] at h1
  simp only [IOM.lift_apply] at h1
  by_cases hl : a.length = n
  · rw [if_pos hl] at h1; cases h1
  · rw [if_neg hl] at h1; cases h1; exact ⟨rfl, hl⟩

/-- C163 fails, always: when a read of fixed size raises, everything that was left of the stream is passed over; so whenever
there was anything left, the position has moved and a second attempt after more data has arrived reads other bytes. -/
theorem C163_lost_violated (o : ReadOp) (ho : FixedSize o) (s s' : Stream) (e : Err) (h : o.run s = (.error e, s')) :
    s' = advance s (ahead s).length := by
  have small : ∀ n : Nat, n ≤ 64 → (n : Int) ≤ maxsize := fun n hn => by unfold maxsize; omega
  have one : ∀ {α : Type} (f : UInt8 → α) (er : Err),
      (∀ s e s', (Stream.read 1 >>= fun bs => match bs with | [b] => pure (f b) | _ => IOM.raise er : IOM α) s = (.error e, s') →
        s' = advance s (ahead s).length) := by
    intro α f er s e s' h
    refine (read_error (n := 1) (small 1 (by omega)) (fun a s1 e1 s2 h1 => ?_) h).1
    match a, h1 with
    | [], h1 => cases h1; exact ⟨rfl, by simp⟩
    | [b], h1 => cases h1
    | _ :: _ :: _, h1 => cases h1; exact ⟨rfl, by simp⟩
  cases o with
  | bool => exact one _ _ _ _ _ (mapOut_error h)
  | char => exact one _ _ _ _ _ (mapOut_error h)
  | double en =>
    refine (read_error (n := 8) (small 8 (by omega)) (fun a s1 e1 s2 h1 => ?_) (mapOut_error h)).1
    by_cases hl : a.length = 8
    · rw [if_pos hl] at h1; cases h1
    · rw [if_neg hl] at h1; cases h1; exact ⟨rfl, hl⟩
  | i8 en => exact (unpackInt_lost rfl (small 1 (by omega)) (mapOut_error h)).1
  | u8 en => exact (unpackInt_lost rfl (small 1 (by omega)) (mapOut_error h)).1
  | i16 en => exact (unpackInt_lost rfl (small 2 (by omega)) (mapOut_error h)).1
  | u16 en => exact (unpackInt_lost rfl (small 2 (by omega)) (mapOut_error h)).1
  | i32 en => exact (unpackInt_lost rfl (small 4 (by omega)) (mapOut_error h)).1
  | u32 en => exact (unpackInt_lost rfl (small 4 (by omega)) (mapOut_error h)).1
  | i64 en => exact (unpackInt_lost rfl (small 8 (by omega)) (mapOut_error h)).1
  | u64 en => exact (unpackInt_lost rfl (small 8 (by omega)) (mapOut_error h)).1
  | fixed8 => exact (unpackInt_lost rfl (small 8 (by omega)) (mapOut_error h)).1
  | uint160 =>
    refine (read_error (n := 20) (small 20 (by omega)) (fun a s1 e1 s2 h1 => ?_) (mapOut_error h)).1
    simp only [uintOfBytes, IOM.lift_apply] at h1
    by_cases hl : a.length = 20
    · rw [if_neg (by simpa using hl)] at h1; cases h1
    · rw [if_pos hl] at h1; cases h1; exact ⟨rfl, hl⟩
  | uint256 =>
    refine (read_error (n := 32) (small 32 (by omega)) (fun a s1 e1 s2 h1 => ?_) (mapOut_error h)).1
    simp only [uintOfBytes, IOM.lift_apply] at h1
    by_cases hl : a.length = 32
    · rw [if_neg (by simpa using hl)] at h1; cases h1
    · rw [if_pos hl] at h1; cases h1; exact ⟨rfl, hl⟩
  | float en =>
    refine (read_error (n := 4) (small 4 (by omega)) (fun a s1 e1 s2 h1 => ?_) (mapOut_error h)).1
    simp only [structUnpackFloat, IOM.lift_apply, show FloatFmt.binary32.size = 4 from rfl] at h1
    by_cases hl : a.length = 4
    · rw [if_pos hl] at h1; cases h1
    · rw [if_neg hl] at h1; cases h1; exact ⟨rfl, hl⟩
  | doubleVal en =>
    refine (read_error (n := 8) (small 8 (by omega)) (fun a s1 e1 s2 h1 => ?_) (mapOut_error h)).1
    simp only [structUnpackFloat, IOM.lift_apply, show FloatFmt.binary64.size = 8 from rfl] at h1
    by_cases hl : a.length = 8
    · rw [if_pos hl] at h1; cases h1
    · rw [if_neg hl] at h1; cases h1; exact ⟨rfl, hl⟩
  | safeBytes n =>
    obtain ⟨k, rfl⟩ := Int.eq_ofNat_of_zero_le ho.1
    refine (read_error (n := k) ho.2 (fun a s1 e1 s2 h1 => ?_) (mapOut_error h)).1
    by_cases hl : (a.length : Int) < k
    · rw [if_pos hl] at h1; cases h1; exact ⟨rfl, by omega⟩
    · rw [if_neg hl] at h1; cases h1
  | _ => exact ho.elim

/-- C163 where it holds: `ReadByte`, `ReadBytes` and `ReadFixedString` leave the position if they raise (which they do only for
lengths of more than 63 bits). -/
theorem C163_raw_partial (n : Int) (s s' : Stream) (e : Err) :
    (ReadOp.byte.run s ≠ (.error e, s')) ∧
    ((ReadOp.byteRaw.run s = (.error e, s') ∨ (ReadOp.bytes n).run s = (.error e, s') ∨ (ReadOp.fixedString n).run s = (.error e, s')) →
      s' = s ∧ maxsize < n) := by
  have hread : ∀ m : Int, ∀ s e s', Stream.read m s = (.error e, s') → s' = s ∧ maxsize < m := by
    intro m s e s' h
    unfold Stream.read at h
    by_cases hm : m > maxsize
    · rw [if_pos hm] at h; cases h; exact ⟨rfl, hm⟩
    · simp only [if_neg hm] at h; cases h
  refine ⟨?_, ?_⟩
  · intro h
    have := mapOut_error h
    rw [C21_readByte_total] at this
    cases hb : s.buf[s.pos]? <;> rw [hb] at this <;> cases this
  · rintro (h | h | h)
    · have := hread 1 _ _ _ (mapOut_error h)
      exact absurd this.2 (by unfold maxsize; omega)
    · exact hread n _ _ _ (mapOut_error h)
    · rcases bind_error (mapOut_error h) with h | ⟨a, s1, -, h⟩
      · exact hread n _ _ _ h
      · cases h

/-- C163, exactly for variable-length numbers: a `ReadVarInt` that raises has either passed over everything that was left of the
stream (the number is cut off), or read past a whole number that is above the maximum. -/
theorem C163_varInt_violated (max : Int) (s s' : Stream) (e : Err) (h : readVarInt max s = (.error e, s')) :
    (e = .structError ∧ ahead s ≠ [] ∧ s' = advance s (ahead s).length) ∨
    (e = .exc ∧ ∃ v, max < v ∧ readVarInt v s = (.ok v, s') ∧ s.pos < s'.pos) := by
  have hb := C21_readByte_total s
  cases hg : s.buf[s.pos]? with
  | none =>
    rw [hg] at hb
    have h2 : readVarInt max s = (.ok 0, s) := by
      show (readByte >>= _) s = _
      rw [IOM.bind_ok hb]; rfl
    rw [h2] at h; cases h
  | some b =>
    rw [hg] at hb
    have hpos : s.pos < s.buf.length := by
      rcases Nat.lt_or_ge s.pos s.buf.length with h | h
      · exact h
      · rw [List.getElem?_eq_none_iff.mpr h] at hg; cases hg
    have hne : ahead s ≠ [] := by
      intro h0
      have := congrArg List.length h0
      unfold ahead at this
      rw [List.length_drop, List.length_nil] at this
      omega
    have hm : ∀ m, readVarInt m s = (if (b.toNat : Int) = 0 then pure (b.toNat : Int)
        else readVarIntValue (b.toNat : Int) >>= checkMax m : IOM Int) { s with pos := s.pos + 1 } := fun m => by
      show (readByte >>= _) s = _
      rw [IOM.bind_ok hb]
    by_cases h0 : (b.toNat : Int) = 0
    · rw [hm, if_pos h0] at h; cases h
    · rw [hm, if_neg h0] at h
      rcases bind_error h with h1 | ⟨v, s1, h1, h2⟩
      · have lost : ∀ (c : Char) (n : Nat) (sg : Bool), fmtOfChar c = some (.intFmt sg n) → (n : Int) ≤ maxsize →
            unpackInt c .little n { s with pos := s.pos + 1 } = (.error e, s') →
            (e = .structError ∧ ahead s ≠ [] ∧ s' = advance s (ahead s).length) := by
          intro c n sg hc hn h
          refine ⟨?_, hne, ?_⟩
          · rcases bind_error h with h | ⟨a, s2, -, h⟩
            · unfold Stream.read at h
              rw [if_neg (show ¬ ((n : Int) > maxsize) by omega)] at h
              cases h
            · unfold structUnpackInt at h
              rw [hc] at h
              simp only [IOM.lift_apply] at h
              by_cases hl : a.length = n
              · rw [if_pos hl] at h; cases h
              · rw [if_neg hl] at h; cases h; rfl
          · have := (unpackInt_lost hc hn h).1
            rw [this]
            unfold advance ahead
            simp only [List.length_drop]
            congr 1
            omega
        left
        have small : ∀ n : Nat, n ≤ 64 → (n : Int) ≤ maxsize := fun n hn => by unfold maxsize; omega
        unfold readVarIntValue at h1
        by_cases c1 : (b.toNat : Int) = 0xfd
        · rw [if_pos c1] at h1; exact lost _ _ _ rfl (small 2 (by omega)) h1
        · rw [if_neg c1] at h1
          by_cases c2 : (b.toNat : Int) = 0xfe
          · rw [if_pos c2] at h1; exact lost _ _ _ rfl (small 4 (by omega)) h1
          · rw [if_neg c2] at h1
            by_cases c3 : (b.toNat : Int) = 0xff
            · rw [if_pos c3] at h1; exact lost _ _ _ rfl (small 8 (by omega)) h1
            · rw [if_neg c3] at h1; cases h1
      · right
        unfold checkMax at h2
        by_cases hgt : v > max
        · rw [if_pos hgt] at h2
          cases h2
          refine ⟨rfl, v, hgt, ?_, ?_⟩
          · rw [hm, if_neg h0, IOM.bind_ok h1]
            unfold checkMax
            rw [if_neg (by omega)]
            rfl
          · have hp : ∀ (c : Char) (n : Nat), unpackInt c .little n { s with pos := s.pos + 1 } = (.ok v, s') → s.pos < s'.pos := by
              intro c n h
              rcases hr : Stream.read (n : Int) { s with pos := s.pos + 1 } with ⟨r, s2⟩
              have hs2 : s.pos < s2.pos := by
                unfold Stream.read at hr
                by_cases hn : (n : Int) > maxsize
                · rw [if_pos hn] at hr; cases hr; exact Nat.lt_succ_self _
                · simp only [if_neg hn] at hr
                  cases hr
                  exact Nat.lt_of_lt_of_le (Nat.lt_succ_self _) (Nat.le_add_right _ _)
              cases r with
              | error e =>
                have := (IOM.bind_err (f := fun bs => IOM.lift (structUnpackInt c .little bs)) hr).symm.trans h
                cases this
              | ok a =>
                have := (IOM.bind_ok (f := fun bs => IOM.lift (structUnpackInt c .little bs)) hr).symm.trans h
                simp only [IOM.lift_apply] at this
                cases hu : structUnpackInt c .little a <;> rw [hu] at this <;> cases this
                exact hs2
            unfold readVarIntValue at h1
            by_cases c1 : (b.toNat : Int) = 0xfd
            · rw [if_pos c1] at h1; exact hp _ _ h1
            · rw [if_neg c1] at h1
              by_cases c2 : (b.toNat : Int) = 0xfe
              · rw [if_pos c2] at h1; exact hp _ _ h1
              · rw [if_neg c2] at h1
                by_cases c3 : (b.toNat : Int) = 0xff
                · rw [if_pos c3] at h1; exact hp _ _ h1
                · rw [if_neg c3] at h1; cases h1; exact Nat.lt_succ_self _
        · rw [if_neg hgt] at h2; cases h2

/-- A number cut off, a number above the maximum, and a cut-off fixed-size read: the position has moved. -/
example : readVarInt 10 ⟨[253, 1], 0⟩ = (.error .structError, ⟨[253, 1], 2⟩) ∧
    readVarInt 10 ⟨[253, 1, 1, 7], 0⟩ = (.error .exc, ⟨[253, 1, 1, 7], 3⟩) ∧
    FixedSize (.u16 .little) ∧ (ReadOp.u16 .little).run ⟨[1], 0⟩ = (.error .structError, ⟨[1], 1⟩) := by
  refine ⟨by decide, by decide, trivial, rfl⟩

end Neo.Props
