import Verif.Props.VarInt
import Verif.Model.Floats

/-!
# C13, C14: every history of reader (writer) calls is safe

A history is the run of an arbitrary *client*: a program that calls the reader's (writer's) methods in any order, decides
what to call next from all previous results *including exceptions*, and may pass client code as the `Deserialize`
(`Serialize`) method of array items, to any nesting depth.
-/

namespace Spec
open Py

/-- The bytes of the stream between the two positions. -/
def slice (s s' : Stream) : Bytes := (s.buf.take s'.pos).drop s.pos

end Spec

namespace Neo.Props
open Py Spec

/-! ### Reader clients -/

/-- Result of a reader call. -/
inductive Out where
  | int (n : Int) | bytes (b : Bytes) | bool (b : Bool) | bits (b : UInt64) | strs (l : List Str) | chunks (l : List Bytes)
  | items (l : List Out) | float (x : FloatVal)

/-- The reader's methods (neocore/IO/BinaryReader.py) with their arguments. -/
inductive ReadOp where
  | byte | byteRaw | bytes (n : Int) | safeBytes (n : Int) | bool | char | double (e : Endian)
  | i8 (e : Endian) | u8 (e : Endian) | i16 (e : Endian) | u16 (e : Endian) | i32 (e : Endian) | u32 (e : Endian)
  | i64 (e : Endian) | u64 (e : Endian)
  | varInt (max : Int) | varBytes (max : Int) | string | varString (max : Int) | fixedString (n : Int)
  | uint256 | uint160 | list2000 | hashes | fixed8 | float (e : Endian) | doubleVal (e : Endian)

def mapOut (f : α → Out) (m : IOM α) : IOM Out := m >>= fun a => pure (f a)

/-- Which method each operation calls. -/
def ReadOp.run : ReadOp → IOM Out
  | .byte => mapOut .int Reader.readByte
  | .byteRaw => mapOut .bytes Reader.readByteRaw
  | .bytes n => mapOut .bytes (Reader.readBytes n)
  | .safeBytes n => mapOut .bytes (Reader.safeReadBytes n)
  | .bool => mapOut .bool Reader.readBool
  | .char => mapOut .bytes Reader.readChar
  | .double e => mapOut .bits (Reader.readDouble e)
  | .i8 e => mapOut .int (Reader.readInt8 e)
  | .u8 e => mapOut .int (Reader.readUInt8 e)
  | .i16 e => mapOut .int (Reader.readInt16 e)
  | .u16 e => mapOut .int (Reader.readUInt16 e)
  | .i32 e => mapOut .int (Reader.readInt32 e)
  | .u32 e => mapOut .int (Reader.readUInt32 e)
  | .i64 e => mapOut .int (Reader.readInt64 e)
  | .u64 e => mapOut .int (Reader.readUInt64 e)
  | .varInt m => mapOut .int (Reader.readVarInt m)
  | .varBytes m => mapOut .bytes (Reader.readVarBytes m)
  | .string => mapOut .bytes Reader.readString
  | .varString m => mapOut .bytes (Reader.readVarString m)
  | .fixedString n => mapOut .bytes (Reader.readFixedString n)
  | .uint256 => mapOut .bytes Reader.readUInt256
  | .uint160 => mapOut .bytes Reader.readUInt160
  | .list2000 => mapOut .chunks Reader.read2000256List
  | .hashes => mapOut .strs Reader.readHashes
  | .fixed8 => mapOut .int Reader.readFixed8
  | .float e => mapOut .float (Reader.readFloat e)
  | .doubleVal e => mapOut .float (Reader.readDoubleVal e)

/-- An arbitrary client of a reader. `call o k` calls `o` and goes on as `k` says for each outcome (a client that does not
catch an exception continues with `fail`). `array item max k` calls ReadSerializableArray with `item` as the items'
Deserialize. -/
inductive ReadClient where
  | done (o : Out)
  | fail (e : Err)
  | call (o : ReadOp) (k : Except Err Out → ReadClient)
  | array (item : ReadClient) (max : Int) (k : Except Err Out → ReadClient)

def ReadClient.run : ReadClient → IOM Out
  | .done o => pure o
  | .fail e => IOM.raise e
  | .call o k => fun s => match o.run s with | (r, s') => (k r).run s'
  | .array item max k => fun s =>
    match mapOut .items (Reader.readSerializableArray item.run max) s with | (r, s') => (k r).run s'

/-- The stream's bytes are unchanged, the position has not moved backwards, and not beyond the end. -/
def ReadSafe (m : IOM α) : Prop :=
  ∀ s, s.pos ≤ s.buf.length → (m s).2.buf = s.buf ∧ s.pos ≤ (m s).2.pos ∧ (m s).2.pos ≤ s.buf.length

theorem readSafe_pure (a : α) : ReadSafe (pure a : IOM α) := fun _ h => ⟨rfl, Nat.le_refl _, h⟩
theorem readSafe_raise (e : Err) : ReadSafe (IOM.raise e : IOM α) := fun _ h => ⟨rfl, Nat.le_refl _, h⟩
theorem readSafe_lift (x : Except Err α) : ReadSafe (IOM.lift x) := fun _ h => ⟨rfl, Nat.le_refl _, h⟩

theorem readSafe_bind {m : IOM α} {f : α → IOM β} (hm : ReadSafe m) (hf : ∀ a, ReadSafe (f a)) : ReadSafe (m >>= f) := by
  intro s h
  obtain ⟨h1, h2, h3⟩ := hm s h
  cases hr : m s with
  | mk r s' =>
    rw [hr] at h1 h2 h3
    simp only at h1 h2 h3
    cases r with
    | error e => rw [IOM.bind_err hr]; exact ⟨h1, h2, h3⟩
    | ok a =>
      rw [IOM.bind_ok hr]
      have hle : s'.pos ≤ s'.buf.length := by rw [h1]; exact h3
      obtain ⟨g1, g2, g3⟩ := hf a s' hle
      exact ⟨g1.trans h1, Nat.le_trans h2 g2, by rw [h1] at g3; exact g3⟩

theorem readSafe_ite {c : Prop} [Decidable c] {a b : IOM α} (ha : ReadSafe a) (hb : ReadSafe b) :
    ReadSafe (if c then a else b) := by split <;> assumption

theorem readSafe_read (n : Int) : ReadSafe (Stream.read n) := by
  intro s h
  simp only [Stream.read]
  split
  · exact ⟨rfl, Nat.le_refl _, h⟩
  · refine ⟨rfl, Nat.le_add_right _ _, ?_⟩
    split
    · simp only [List.length_drop]; omega
    · simp only [List.length_take, List.length_drop]; omega

theorem readSafe_try {m h : IOM α} {sel : Err → Bool} (hm : ReadSafe m) (hh : ReadSafe h) :
    ReadSafe (IOM.tryExcept m sel h) := by
  intro s hs
  obtain ⟨h1, h2, h3⟩ := hm s hs
  simp only [IOM.tryExcept]
  cases hr : m s with
  | mk r s' =>
    rw [hr] at h1 h2 h3
    simp only at h1 h2 h3
    cases r with
    | ok a => exact ⟨h1, h2, h3⟩
    | error e =>
      simp only
      split
      · have hle : s'.pos ≤ s'.buf.length := by rw [h1]; exact h3
        obtain ⟨g1, g2, g3⟩ := hh s' hle
        exact ⟨g1.trans h1, Nat.le_trans h2 g2, by rw [h1] at g3; exact g3⟩
      · exact ⟨h1, h2, h3⟩

open Reader in
theorem readSafe_readByte : ReadSafe readByte := by
  refine readSafe_try (readSafe_bind (readSafe_read 1) fun bs => ?_) (readSafe_pure _)
  match bs with
  | [b] => exact readSafe_pure _
  | [] => exact readSafe_raise _
  | _ :: _ :: _ => exact readSafe_raise _

open Reader in
theorem readSafe_unpackInt (c : Char) (e : Endian) (n : Nat) : ReadSafe (unpackInt c e n) :=
  readSafe_bind (readSafe_read _) fun _ => readSafe_lift _

open Reader in
theorem readSafe_readVarInt (max : Int) : ReadSafe (readVarInt max) := by
  refine readSafe_bind readSafe_readByte fun fb => readSafe_ite (readSafe_pure _) (readSafe_bind ?_ fun v => ?_)
  · unfold readVarIntValue
    exact readSafe_ite (readSafe_unpackInt _ _ _) (readSafe_ite (readSafe_unpackInt _ _ _)
      (readSafe_ite (readSafe_unpackInt _ _ _) (readSafe_pure _)))
  · exact readSafe_ite (readSafe_raise _) (readSafe_pure _)

open Reader in
theorem readSafe_unpackStr (n k : Nat) : ReadSafe (unpackStr n k) :=
  readSafe_bind (readSafe_read _) fun _ => readSafe_ite (readSafe_pure _) (readSafe_raise _)

open Reader in
theorem readSafe_readHexItems (k : Nat) : ReadSafe (readHexItems k) := by
  induction k with
  | zero => exact readSafe_pure _
  | succ k ih =>
    exact readSafe_bind (readSafe_read _) fun _ => readSafe_bind (readSafe_lift _) fun _ =>
      readSafe_bind ih fun _ => readSafe_pure _

open Reader in
theorem readSafe_readHashItems (k : Nat) : ReadSafe (readHashItems k) := by
  induction k with
  | zero => exact readSafe_pure _
  | succ k ih => exact readSafe_bind (readSafe_read _) fun _ => readSafe_bind ih fun _ => readSafe_pure _

open Reader in
theorem readSafe_deserializeUpTo {d : IOM α} (hd : ReadSafe d) (k : Nat) : ReadSafe (deserializeUpTo d k) := by
  induction k with
  | zero => exact readSafe_pure _
  | succ k ih =>
    intro s h
    obtain ⟨h1, h2, h3⟩ := hd s h
    simp only [deserializeUpTo]
    cases hr : d s with
    | mk r s' =>
      rw [hr] at h1 h2 h3
      simp only at h1 h2 h3
      cases r with
      | error e => exact ⟨h1, h2, h3⟩
      | ok x =>
        have hle : s'.pos ≤ s'.buf.length := by rw [h1]; exact h3
        obtain ⟨g1, g2, g3⟩ := ih s' hle
        simp only
        cases hr2 : deserializeUpTo d k s' with
        | mk r2 s2 =>
          rw [hr2] at g1 g2 g3
          simp only at g1 g2 g3
          cases r2 with
          | error e => exact ⟨g1.trans h1, Nat.le_trans h2 g2, by rw [h1] at g3; exact g3⟩
          | ok xs => exact ⟨g1.trans h1, Nat.le_trans h2 g2, by rw [h1] at g3; exact g3⟩

theorem readSafe_mapOut (f : α → Out) {m : IOM α} (h : ReadSafe m) : ReadSafe (mapOut f m) :=
  readSafe_bind h fun _ => readSafe_pure _

theorem readSafe_op (o : ReadOp) : ReadSafe o.run := by
  cases o with
  | byte => exact readSafe_mapOut _ readSafe_readByte
  | byteRaw => exact readSafe_mapOut _ (readSafe_read _)
  | bytes n => exact readSafe_mapOut _ (readSafe_read _)
  | safeBytes n =>
    exact readSafe_mapOut _ (readSafe_bind (readSafe_read _) fun _ => readSafe_ite (readSafe_raise _) (readSafe_pure _))
  | bool =>
    refine readSafe_mapOut _ (readSafe_bind (readSafe_read _) fun bs => ?_)
    match bs with
    | [b] => exact readSafe_pure _
    | [] => exact readSafe_raise _
    | _ :: _ :: _ => exact readSafe_raise _
  | char =>
    refine readSafe_mapOut _ (readSafe_bind (readSafe_read _) fun bs => ?_)
    match bs with
    | [b] => exact readSafe_pure _
    | [] => exact readSafe_raise _
    | _ :: _ :: _ => exact readSafe_raise _
  | double e =>
    exact readSafe_mapOut _ (readSafe_bind (readSafe_read _) fun _ => readSafe_ite (readSafe_pure _) (readSafe_raise _))
  | i8 e => exact readSafe_mapOut _ (readSafe_unpackInt _ _ _)
  | u8 e => exact readSafe_mapOut _ (readSafe_unpackInt _ _ _)
  | i16 e => exact readSafe_mapOut _ (readSafe_unpackInt _ _ _)
  | u16 e => exact readSafe_mapOut _ (readSafe_unpackInt _ _ _)
  | i32 e => exact readSafe_mapOut _ (readSafe_unpackInt _ _ _)
  | u32 e => exact readSafe_mapOut _ (readSafe_unpackInt _ _ _)
  | i64 e => exact readSafe_mapOut _ (readSafe_unpackInt _ _ _)
  | u64 e => exact readSafe_mapOut _ (readSafe_unpackInt _ _ _)
  | varInt m => exact readSafe_mapOut _ (readSafe_readVarInt m)
  | varBytes m => exact readSafe_mapOut _ (readSafe_bind (readSafe_readVarInt m) fun _ => readSafe_read _)
  | string => exact readSafe_mapOut _ (readSafe_bind (readSafe_unpackInt _ _ _) fun _ => readSafe_unpackStr _ _)
  | varString m => exact readSafe_mapOut _ (readSafe_bind (readSafe_readVarInt m) fun _ => readSafe_unpackStr _ _)
  | fixedString n => exact readSafe_mapOut _ (readSafe_bind (readSafe_read _) fun _ => readSafe_pure _)
  | uint256 => exact readSafe_mapOut _ (readSafe_bind (readSafe_read _) fun _ => readSafe_lift _)
  | uint160 => exact readSafe_mapOut _ (readSafe_bind (readSafe_read _) fun _ => readSafe_lift _)
  | list2000 => exact readSafe_mapOut _ (readSafe_readHexItems _)
  | hashes => exact readSafe_mapOut _ (readSafe_bind (readSafe_readVarInt _) fun _ => readSafe_readHashItems _)
  | fixed8 => exact readSafe_mapOut _ (readSafe_unpackInt _ _ _)
  | float e => exact readSafe_mapOut _ (readSafe_bind (readSafe_read _) fun _ => readSafe_lift _)
  | doubleVal e => exact readSafe_mapOut _ (readSafe_bind (readSafe_read _) fun _ => readSafe_lift _)

/-- C13. Whatever a client does, on any stream and with any outcomes: the stream's bytes are unchanged, the position has
not moved backwards, and it is not beyond the end. -/
theorem C13_reading_is_safe (c : ReadClient) (s : Stream) (h : s.pos ≤ s.buf.length) :
    (c.run s).2.buf = s.buf ∧ s.pos ≤ (c.run s).2.pos ∧ (c.run s).2.pos ≤ s.buf.length := by
  have key : ∀ {α} {m : IOM α} {k : Except Err α → ReadClient}, ReadSafe m → (∀ r, ReadSafe (k r).run) →
      ReadSafe (fun s => match m s with | (r, s') => (k r).run s') := by
    intro α m k hm hk s hs
    obtain ⟨h1, h2, h3⟩ := hm s hs
    cases hr : m s with
    | mk r s' =>
      rw [hr] at h1 h2 h3
      simp only at h1 h2 h3
      have hle : s'.pos ≤ s'.buf.length := by rw [h1]; exact h3
      obtain ⟨g1, g2, g3⟩ := hk r s' hle
      simp only [hr]
      exact ⟨g1.trans h1, Nat.le_trans h2 g2, by rw [h1] at g3; exact g3⟩
  have : ReadSafe c.run := by
    clear h s
    induction c with
    | done o => exact readSafe_pure _
    | fail e => exact readSafe_raise _
    | call o k ih => exact key (readSafe_op o) ih
    | array item max k ih1 ih2 =>
      exact key (readSafe_mapOut _ (readSafe_bind (readSafe_readVarInt max) fun _ => readSafe_deserializeUpTo ih1 _)) ih2
  exact this s h

/-- A client that reads an array whose items are "a length-prefixed byte string, then a 16-bit number", catching errors
and trying again with a raw read. -/
example : ∃ (c : ReadClient) (s : Stream), s.pos ≤ s.buf.length ∧ (c.run s).2.pos = 8 :=
  ⟨.array (.call (.varBytes 100) fun _ => .call (.u16 .little) fun
      | .ok o => .done o
      | .error e => .fail e) 100 fun _ => .done (.int 0),
   ⟨[2, 1, 7, 5, 0, 1, 8, 6], 0⟩, by decide, by decide⟩

/-! ### Returned bytes are the bytes passed over -/

theorem slice_of_read (n : Int) (s s' : Stream) (b : Bytes) (h : Stream.read n s = (.ok b, s')) : b = slice s s' := by
  simp only [Stream.read] at h
  split at h
  · simp at h
  · simp only [Prod.mk.injEq, Except.ok.injEq] at h
    obtain ⟨rfl, rfl⟩ := h
    unfold slice
    simp only
    split
    · rw [List.length_drop, List.take_of_length_le (by omega)]
    · rw [List.drop_take]
      simp only [List.length_take, List.length_drop]
      rw [Nat.add_sub_cancel_left, List.take_eq_take_iff]
      simp only [List.length_drop]
      omega

/-- C13. Raw reads return exactly the bytes between the old and the new position. -/
theorem C13_raw_reads_return_slice (s s' : Stream) (b : Bytes) (n : Int) :
    (Reader.readBytes n s = (.ok b, s') → b = slice s s') ∧
    (Reader.safeReadBytes n s = (.ok b, s') → b = slice s s') ∧
    (Reader.readByteRaw s = (.ok b, s') → b = slice s s') ∧
    (Reader.readChar s = (.ok b, s') → b = slice s s') ∧
    (Reader.readUInt160 s = (.ok b, s') → b = slice s s') ∧
    (Reader.readUInt256 s = (.ok b, s') → b = slice s s') := by
  have key : ∀ (m : Int) (f : Bytes → IOM Bytes), (∀ x t t' y, f x t = (.ok y, t') → y = x ∧ t' = t) →
      (Stream.read m >>= f) s = (.ok b, s') → b = slice s s' := by
    intro m f hf h
    cases hr : Stream.read m s with
    | mk r s1 =>
      cases r with
      | error e => rw [IOM.bind_err hr] at h; simp at h
      | ok x =>
        rw [IOM.bind_ok hr] at h
        obtain ⟨rfl, rfl⟩ := hf _ _ _ _ h
        exact slice_of_read _ _ _ _ hr
  have hlift : ∀ k, ∀ x t t' y, IOM.lift (Reader.uintOfBytes k x) t = (.ok y, t') → y = x ∧ t' = t := by
    intro k x t t' y h
    simp only [IOM.lift_apply, Reader.uintOfBytes] at h
    split at h
    · simp at h
    · simp only [Prod.mk.injEq, Except.ok.injEq] at h
      exact ⟨h.1.symm, h.2.symm⟩
  refine ⟨slice_of_read n s s' b, ?_, slice_of_read 1 s s' b, ?_, key 20 _ (hlift 20), key 32 _ (hlift 32)⟩
  · refine key n _ ?_
    intro x t t' y h
    by_cases hc : (x.length : Int) < n
    · rw [if_pos hc] at h; simp [IOM.raise_apply] at h
    · rw [if_neg hc] at h
      simp only [IOM.pure_apply, Prod.mk.injEq, Except.ok.injEq] at h
      exact ⟨h.1.symm, h.2.symm⟩
  · refine key 1 _ ?_
    intro x t t' y h
    match x, h with
    | [c], h =>
      simp only [IOM.pure_apply, Prod.mk.injEq, Except.ok.injEq] at h
      exact ⟨h.1.symm, h.2.symm⟩
    | [], h => simp [IOM.raise_apply] at h
    | _ :: _ :: _, h => simp [IOM.raise_apply] at h

theorem slice_suffix_of_safe {s s1 s' : Stream} (h1 : s1.buf = s.buf) (h2 : s.pos ≤ s1.pos) : slice s1 s' <:+ slice s s' := by
  unfold slice
  rw [h1]
  obtain ⟨k, hk⟩ := Nat.exists_eq_add_of_le h2
  rw [hk, ← List.drop_drop]
  exact List.drop_suffix _ _

/-- C13. Length-prefixed reads return the last bytes passed over (what comes before is the length). -/
theorem C13_prefixed_reads_return_suffix (s s' : Stream) (hs : s.pos ≤ s.buf.length) (b : Bytes) (max : Int) :
    (Reader.readVarBytes max s = (.ok b, s') → b <:+ slice s s') ∧
    (Reader.readVarString max s = (.ok b, s') → b <:+ slice s s') ∧
    (Reader.readString s = (.ok b, s') → b <:+ slice s s') := by
  have key : ∀ {m : IOM Int} {f : Int → IOM Bytes}, ReadSafe m →
      (∀ x t t' y, f x t = (.ok y, t') → y = slice t t') → (m >>= f) s = (.ok b, s') → b <:+ slice s s' := by
    intro m f hm hf h
    obtain ⟨h1, h2, h3⟩ := hm s hs
    cases hr : m s with
    | mk r s1 =>
      rw [hr] at h1 h2 h3
      simp only at h1 h2 h3
      cases r with
      | error e => rw [IOM.bind_err hr] at h; simp at h
      | ok x =>
        rw [IOM.bind_ok hr] at h
        rw [hf _ _ _ _ h]
        exact slice_suffix_of_safe h1 h2
  have hstr : ∀ (n k : Nat) (t t' : Stream) y, Reader.unpackStr n k t = (.ok y, t') → y = slice t t' := by
    intro n k t t' y h
    unfold Reader.unpackStr at h
    cases hr : Stream.read (k : Int) t with
    | mk r t1 =>
      cases r with
      | error e => rw [IOM.bind_err hr] at h; simp at h
      | ok x =>
        rw [IOM.bind_ok hr] at h
        by_cases hc : x.length = n
        · rw [if_pos hc] at h
          simp only [IOM.pure_apply, Prod.mk.injEq, Except.ok.injEq] at h
          obtain ⟨rfl, rfl⟩ := h
          exact slice_of_read _ _ _ _ hr
        · rw [if_neg hc] at h; simp [IOM.raise_apply] at h
  exact ⟨key (readSafe_readVarInt max) fun x t t' y h => slice_of_read _ _ _ _ h,
    key (readSafe_readVarInt max) fun x t t' y h => hstr _ _ _ _ _ h,
    key (readSafe_unpackInt _ _ _) fun x t t' y h => hstr _ _ _ _ _ h⟩

/-- C13. A fixed string is what was passed over, up to trailing zero bytes. -/
theorem C13_fixedString_returns_slice (s s' : Stream) (b : Bytes) (n : Int)
    (h : Reader.readFixedString n s = (.ok b, s')) : ∃ k, slice s s' = b ++ List.replicate k 0 := by
  unfold Reader.readFixedString Reader.readBytes at h
  cases hr : Stream.read n s with
  | mk r s1 =>
    cases r with
    | error e => rw [IOM.bind_err hr] at h; simp at h
    | ok x =>
      rw [IOM.bind_ok hr] at h
      simp only [IOM.pure_apply, Prod.mk.injEq, Except.ok.injEq] at h
      obtain ⟨rfl, rfl⟩ := h
      rw [← slice_of_read _ _ _ _ hr]
      unfold Reader.rstripZero
      refine ⟨(x.reverse.takeWhile (· == 0)).length, ?_⟩
      have hx := List.takeWhile_append_dropWhile (p := (· == (0 : UInt8))) (l := x.reverse)
      have hz : x.reverse.takeWhile (· == 0) = List.replicate (x.reverse.takeWhile (· == 0)).length 0 := by
        apply List.eq_replicate_iff.mpr
        refine ⟨rfl, fun c hc => ?_⟩
        have := List.all_eq_true.mp (List.all_takeWhile (p := (· == (0 : UInt8))) (l := x.reverse)) c hc
        simpa using this
      have := congrArg List.reverse hx
      rw [List.reverse_append, List.reverse_reverse] at this
      conv at this => lhs; rw [hz]
      rw [List.reverse_replicate] at this
      exact this.symm

/-! ### Writer clients -/

/-- The writer's methods (neocore/IO/BinaryWriter.py) with their arguments. -/
inductive WriteOp where
  | byte (v : Val) | bytes (v : Val) (unhex : Bool) | bool (v : Val) | char (v : Val) | double (bits : UInt64) (e : Endian)
  | i8 (v : Val) (e : Endian) | u8 (v : Val) (e : Endian) | i16 (v : Val) (e : Endian) | u16 (v : Val) (e : Endian)
  | i32 (v : Val) (e : Endian) | u32 (v : Val) (e : Endian) | i64 (v : Val) (e : Endian) | u64 (v : Val) (e : Endian)
  | uint160 (v : Val) | uint256 (v : Val)
  | varInt (v : Val) (e : Endian) | varBytes (b : Bytes) (e : Endian) | varString (v : Val) | fixedString (s : Str) (n : Int)
  | list2000 (l : List Val) | hashes (l : List Val) | fixed8 (n : Int)
  | float (v : FloatArg) (e : Endian) | doubleOf (v : FloatArg) (e : Endian) | varBytesOf (v : Val) (e : Endian)
  | varStringEnc (codec : Codec) (v : Val)

def ignore (m : IOM α) : IOM Unit := m >>= fun _ => pure ()

def WriteOp.run : WriteOp → IOM Unit
  | .byte v => Writer.writeByte v
  | .bytes v u => ignore (Writer.writeBytes v u)
  | .bool v => ignore (Writer.writeBool v)
  | .char v => ignore (Writer.writeChar v)
  | .double b e => ignore (Writer.writeDouble b e)
  | .i8 v e => ignore (Writer.writeInt8 v e)
  | .u8 v e => ignore (Writer.writeUInt8 v e)
  | .i16 v e => ignore (Writer.writeInt16 v e)
  | .u16 v e => ignore (Writer.writeUInt16 v e)
  | .i32 v e => ignore (Writer.writeInt32 v e)
  | .u32 v e => ignore (Writer.writeUInt32 v e)
  | .i64 v e => ignore (Writer.writeInt64 v e)
  | .u64 v e => ignore (Writer.writeUInt64 v e)
  | .uint160 v => Writer.writeUInt160 v
  | .uint256 v => Writer.writeUInt256 v
  | .varInt v e => ignore (Writer.writeVarInt v e)
  | .varBytes b e => ignore (Writer.writeVarBytes b e)
  | .varString v => Writer.writeVarString v
  | .fixedString s n => Writer.writeFixedString s n
  | .list2000 l => Writer.write2000256List l
  | .hashes l => Writer.writeHashes l
  | .fixed8 n => ignore (Writer.writeFixed8 n)
  | .float v e => ignore (Writer.writeFloat v e)
  | .doubleOf v e => ignore (Writer.writeDoubleOf v e)
  | .varBytesOf v e => ignore (Writer.writeVarBytesOf v e)
  | .varStringEnc c v => Writer.writeVarStringEnc c v

/-- An arbitrary client of a writer; `array` calls WriteSerializableArray with client code as the items' Serialize. -/
inductive WriteClient where
  | done
  | fail (e : Err)
  | call (o : WriteOp) (k : Except Err Unit → WriteClient)
  | array (n : Option Nat) (item : Nat → WriteClient) (k : Except Err Unit → WriteClient)

def WriteClient.run : WriteClient → IOM Unit
  | .done => pure ()
  | .fail e => IOM.raise e
  | .call o k => fun s => match o.run s with | (r, s') => (k r).run s'
  | .array n item k => fun s =>
    match Writer.writeSerializableArray (fun i => (item i).run) (n.map List.range) s with | (r, s') => (k r).run s'

/-- From a stream positioned at its end, bytes are only appended and the position stays at the end. -/
def AppendOnly (m : IOM α) : Prop :=
  ∀ pre : Bytes, ∃ bs : Bytes, (m ⟨pre, pre.length⟩).2 = ⟨pre ++ bs, (pre ++ bs).length⟩

theorem appendOnly_pure (a : α) : AppendOnly (pure a : IOM α) := fun pre => ⟨[], by simp [IOM.pure_apply]⟩
theorem appendOnly_raise (e : Err) : AppendOnly (IOM.raise e : IOM α) := fun pre => ⟨[], by simp [IOM.raise_apply]⟩
theorem appendOnly_lift (x : Except Err α) : AppendOnly (IOM.lift x) := fun pre => ⟨[], by simp [IOM.lift_apply]⟩

theorem appendOnly_bind {m : IOM α} {f : α → IOM β} (hm : AppendOnly m) (hf : ∀ a, AppendOnly (f a)) :
    AppendOnly (m >>= f) := by
  intro pre
  obtain ⟨bs, h⟩ := hm pre
  cases hr : m ⟨pre, pre.length⟩ with
  | mk r s' =>
    rw [hr] at h
    simp only at h
    subst h
    cases r with
    | error e => exact ⟨bs, by rw [IOM.bind_err hr]⟩
    | ok a =>
      obtain ⟨bs', h'⟩ := hf a (pre ++ bs)
      exact ⟨bs ++ bs', by rw [IOM.bind_ok hr, h', List.append_assoc]⟩

theorem appendOnly_ite {c : Prop} [Decidable c] {a b : IOM α} (ha : AppendOnly a) (hb : AppendOnly b) :
    AppendOnly (if c then a else b) := by split <;> assumption

theorem appendOnly_write (b : Bytes) : AppendOnly (Stream.write b) := fun pre => ⟨b, by rw [appends_write b pre]⟩

theorem appendOnly_writeVal (v : Val) : AppendOnly (Stream.writeVal v) := by
  unfold Stream.writeVal
  split
  · exact appendOnly_write _
  · exact appendOnly_write _
  · exact appendOnly_raise _

open Writer in
theorem appendOnly_writeBytes (v : Val) (u : Bool) : AppendOnly (writeBytes v u) := by
  unfold writeBytes
  split
  · split
    · exact appendOnly_write _
    · exact appendOnly_writeVal _
    · exact appendOnly_raise _
  · exact appendOnly_writeVal _

open Writer in
theorem appendOnly_packInt (c : Char) (e : Endian) (v : Val) : AppendOnly (packInt c e v) := by
  unfold packInt
  split
  · exact appendOnly_writeBytes _ _
  · exact appendOnly_raise _

open Writer in
theorem appendOnly_writeByte (v : Val) : AppendOnly (writeByte v) := by
  unfold writeByte
  split
  · exact appendOnly_bind (appendOnly_write _) fun _ => appendOnly_pure _
  · exact appendOnly_bind (appendOnly_write _) fun _ => appendOnly_pure _
  · exact appendOnly_ite (appendOnly_bind (appendOnly_write _) fun _ => appendOnly_pure _) (appendOnly_raise _)
  · exact appendOnly_pure _

theorem appendOnly_ignore {m : IOM α} (h : AppendOnly m) : AppendOnly (ignore m) :=
  appendOnly_bind h fun _ => appendOnly_pure _

open Writer in
theorem appendOnly_writeVarInt (v : Val) (e : Endian) : AppendOnly (writeVarInt v e) := by
  unfold writeVarInt
  split
  · exact appendOnly_raise _
  · refine appendOnly_ite (appendOnly_raise _) (appendOnly_ite ?_ (appendOnly_ite ?_ (appendOnly_ite ?_ ?_)))
    · exact appendOnly_bind (appendOnly_writeByte _) fun _ => appendOnly_pure _
    all_goals
      exact appendOnly_bind (appendOnly_writeByte _) fun _ => appendOnly_bind (appendOnly_packInt _ _ _) fun _ =>
        appendOnly_pure _

open Writer in
theorem appendOnly_reversedHex (l : List Val) : AppendOnly (writeReversedHex l) := by
  induction l with
  | nil => exact appendOnly_pure _
  | cons v l ih =>
    exact appendOnly_bind (appendOnly_lift _) fun _ => appendOnly_bind (appendOnly_writeBytes _ _) fun _ => ih

open Writer in
theorem appendOnly_zeros (k : Nat) : AppendOnly (writeZeros k) := by
  induction k with
  | zero => exact appendOnly_pure _
  | succ k ih => exact appendOnly_bind (appendOnly_writeByte _) fun _ => ih

open Writer in
theorem appendOnly_serializeAll {ser : α → IOM Unit} (h : ∀ x, AppendOnly (ser x)) (l : List α) :
    AppendOnly (serializeAll ser l) := by
  induction l with
  | nil => exact appendOnly_pure _
  | cons x l ih => exact appendOnly_bind (h x) fun _ => ih

open Writer in
theorem appendOnly_array {ser : α → IOM Unit} (h : ∀ x, AppendOnly (ser x)) (a : Option (List α)) :
    AppendOnly (writeSerializableArray ser a) := by
  cases a with
  | none => exact appendOnly_writeByte _
  | some l => exact appendOnly_bind (appendOnly_writeVarInt _ _) fun _ => appendOnly_serializeAll h l

open Writer in
theorem appendOnly_uintSerialize (d : Bytes) : AppendOnly (uintSerialize d) :=
  appendOnly_bind (appendOnly_writeBytes _ _) fun _ => appendOnly_pure _

open Writer in
theorem appendOnly_varStringBytes (b : Bytes) : AppendOnly (writeVarStringBytes b) :=
  appendOnly_bind (appendOnly_writeVarInt _ _) fun _ => appendOnly_bind (appendOnly_writeBytes _ _) fun _ =>
    appendOnly_pure _

open Writer in
theorem appendOnly_packFloat (f : FloatFmt) (e : Endian) (v : FloatArg) : AppendOnly (packFloat f e v) := by
  unfold packFloat
  split
  · exact appendOnly_writeBytes _ _
  · exact appendOnly_raise _

open Writer in
theorem appendOnly_varStringBytesEnc (c : Codec) (b : Bytes) : AppendOnly (writeVarStringBytesEnc c b) :=
  appendOnly_bind (appendOnly_lift _) fun _ => appendOnly_bind (appendOnly_writeVarInt _ _) fun _ =>
    appendOnly_bind (appendOnly_writeBytes _ _) fun _ => appendOnly_pure _

open Writer in
theorem appendOnly_op (o : WriteOp) : AppendOnly o.run := by
  cases o with
  | byte v => exact appendOnly_writeByte v
  | bytes v u => exact appendOnly_ignore (appendOnly_writeBytes _ _)
  | bool v => exact appendOnly_ignore (appendOnly_writeBytes _ _)
  | char v =>
    refine appendOnly_ignore ?_
    unfold writeChar
    split
    · exact appendOnly_writeBytes _ _
    · exact appendOnly_raise _
  | double b e => exact appendOnly_ignore (appendOnly_writeBytes _ _)
  | i8 v e => exact appendOnly_ignore (appendOnly_packInt _ _ _)
  | u8 v e => exact appendOnly_ignore (appendOnly_packInt _ _ _)
  | i16 v e => exact appendOnly_ignore (appendOnly_packInt _ _ _)
  | u16 v e => exact appendOnly_ignore (appendOnly_packInt _ _ _)
  | i32 v e => exact appendOnly_ignore (appendOnly_packInt _ _ _)
  | u32 v e => exact appendOnly_ignore (appendOnly_packInt _ _ _)
  | i64 v e => exact appendOnly_ignore (appendOnly_packInt _ _ _)
  | u64 v e => exact appendOnly_ignore (appendOnly_packInt _ _ _)
  | uint160 v =>
    show AppendOnly (writeUInt160 v)
    unfold writeUInt160
    split
    · exact appendOnly_uintSerialize _
    · exact appendOnly_raise _
  | uint256 v =>
    show AppendOnly (writeUInt256 v)
    unfold writeUInt256
    split
    · exact appendOnly_uintSerialize _
    · exact appendOnly_raise _
  | varInt v e => exact appendOnly_ignore (appendOnly_writeVarInt _ _)
  | varBytes b e =>
    exact appendOnly_ignore (appendOnly_bind (appendOnly_writeVarInt _ _) fun _ => appendOnly_writeBytes _ _)
  | varString v =>
    show AppendOnly (writeVarString v)
    unfold writeVarString
    split
    · exact appendOnly_varStringBytes _
    · exact appendOnly_varStringBytes _
    · exact appendOnly_varStringBytes _
    · exact appendOnly_raise _
  | fixedString s n =>
    exact appendOnly_ite (appendOnly_raise _) (appendOnly_bind (appendOnly_writeBytes _ _) fun _ => appendOnly_zeros _)
  | list2000 l => exact appendOnly_reversedHex l
  | hashes l => exact appendOnly_bind (appendOnly_writeVarInt _ _) fun _ => appendOnly_reversedHex l
  | fixed8 n => exact appendOnly_ignore (appendOnly_packInt _ _ _)
  | float v e => exact appendOnly_ignore (appendOnly_packFloat _ _ _)
  | doubleOf v e => exact appendOnly_ignore (appendOnly_packFloat _ _ _)
  | varBytesOf v e =>
    refine appendOnly_ignore ?_
    unfold writeVarBytesOf
    split
    · exact appendOnly_raise _
    · exact appendOnly_bind (appendOnly_writeVarInt _ _) fun _ => appendOnly_writeBytes _ _
  | varStringEnc c v =>
    show AppendOnly (writeVarStringEnc c v)
    unfold writeVarStringEnc
    split
    · split
      · exact appendOnly_raise _
      · exact appendOnly_varStringBytesEnc _ _
    · exact appendOnly_varStringBytesEnc _ _
    · exact appendOnly_varStringBytesEnc _ _
    · exact appendOnly_raise _

/-- C14. Whatever a client does, starting at the end of a stream: earlier bytes are never altered, bytes are only appended,
and the position stays at the end — also when calls raise. -/
theorem C14_writing_appends (c : WriteClient) (pre : Bytes) :
    ∃ bs : Bytes, (c.run ⟨pre, pre.length⟩).2 = ⟨pre ++ bs, (pre ++ bs).length⟩ := by
  have key : ∀ {m : IOM Unit} {k : Except Err Unit → WriteClient}, AppendOnly m → (∀ r, AppendOnly (k r).run) →
      AppendOnly (fun s => match m s with | (r, s') => (k r).run s') := by
    intro m k hm hk pre
    obtain ⟨bs, h⟩ := hm pre
    cases hr : m ⟨pre, pre.length⟩ with
    | mk r s' =>
      rw [hr] at h
      simp only at h
      subst h
      obtain ⟨bs', h'⟩ := hk r (pre ++ bs)
      exact ⟨bs ++ bs', by simp only [hr]; rw [h', List.append_assoc]⟩
  have : AppendOnly c.run := by
    clear pre
    induction c with
    | done => exact appendOnly_pure _
    | fail e => exact appendOnly_raise _
    | call o k ih => exact key (appendOnly_op o) ih
    | array n item k ih1 ih2 => exact key (appendOnly_array ih1 _) ih2
  exact this pre

example : ∃ c : WriteClient, (c.run ⟨[9], 1⟩).2.buf = [9, 2, 0, 5, 1, 5] :=
  ⟨.array (some 2) (fun i => .call (.byte (.int i)) fun _ => .call (.u8 (.int 5) .big) fun _ => .done) fun _ => .done,
   by decide⟩

end Neo.Props
