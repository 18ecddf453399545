import Verif.Model.ReaderSteps
import Verif.Props.StreamContext
import Verif.Props.Records

/-! # The reader's methods divided into steps are the methods -/

namespace Neo.Props
open Py Spec
open ReaderSteps (Steps)

/-- On an `io.BytesIO`, without other threads, the steps do the same as the method. -/
def ReadsAs (m : Steps α) (f : IOM α) : Prop := ∀ s, m.run s = f s

theorem readsAs_pure (a : α) : ReadsAs (pure a : Steps α) (pure a) := fun _ => rfl
theorem readsAs_raise (e : Err) : ReadsAs (ReaderSteps.raise e : Steps α) (IOM.raise e) := fun _ => rfl
theorem readsAs_lift (x : Except Err α) : ReadsAs (ReaderSteps.lift x) (IOM.lift x) := fun _ => rfl
theorem readsAs_read (n : Int) : ReadsAs (ReaderSteps.streamRead n) (Stream.read n) := fun _ => rfl

/-- Any stream, one computation after another. -/
theorem runOn_bind (src : Int → σ → Except Err Bytes × σ) (m : Steps α) (f : α → Steps β) (s : σ) :
    (m >>= f : Steps β).runOn src s =
      match m.runOn src s with
      | (.ok a, s') => (f a).runOn src s'
      | (.error e, s') => (.error e, s') := by
  induction m generalizing s with
  | ret r => cases r <;> rfl
  | read n k ih => exact ih _ _

theorem runOn_after (src : Int → σ → Except Err Bytes × σ) (m : Steps α) (f : Except Err α → Steps β) (s : σ) :
    (m.after f).runOn src s = (f (m.runOn src s).1).runOn src (m.runOn src s).2 := by
  induction m generalizing s with
  | ret r => rfl
  | read n k ih => exact ih _ _

theorem readsAs_bind {m : Steps α} {m' : IOM α} {f : α → Steps β} {f' : α → IOM β} (h : ReadsAs m m') (hf : ∀ a, ReadsAs (f a) (f' a)) :
    ReadsAs (m >>= f) (m' >>= f') := by
  intro s
  have e := runOn_bind Stream.read m f s
  rcases hr : m' s with ⟨r, s'⟩
  have hm : m.runOn Stream.read s = (r, s') := (h s).trans hr
  rw [hm] at e
  cases r with
  | ok a => rw [IOM.bind_ok hr]; exact e.trans (hf a s')
  | error er => rw [IOM.bind_err hr]; exact e

theorem readsAs_after {m : Steps α} {m' : IOM α} {k : Except Err α → Steps β} {k' : Except Err α → IOM β} (h : ReadsAs m m')
    (hk : ∀ r, ReadsAs (k r) (k' r)) : ReadsAs (m.after k) (fun s => k' (m' s).1 (m' s).2) := by
  intro s
  have e := runOn_after Stream.read m k s
  have hm : m.runOn Stream.read s = m' s := h s
  rw [hm] at e
  exact e.trans (hk _ _)

theorem readsAs_ite {c : Prop} [Decidable c] {a b : Steps α} {a' b' : IOM α} (ha : ReadsAs a a') (hb : ReadsAs b b') :
    ReadsAs (if c then a else b) (if c then a' else b') := by
  split <;> assumption

theorem readsAs_try {m h : Steps α} {m' h' : IOM α} (sel : Err → Bool) (hm : ReadsAs m m') (hh : ReadsAs h h') :
    ReadsAs (ReaderSteps.tryExcept m sel h) (IOM.tryExcept m' sel h') := by
  intro s
  have e := runOn_after Stream.read m (fun r =>
    match r with
    | .ok a => .ret (.ok a)
    | .error e => if sel e then h else .ret (.error e)) s
  have hm' : m.runOn Stream.read s = m' s := hm s
  rw [hm'] at e
  refine Eq.trans e ?_
  unfold IOM.tryExcept
  rcases m' s with ⟨r, s'⟩
  cases r with
  | ok a => rfl
  | error er =>
    simp only
    split
    · exact hh s'
    · rfl

theorem readsAs_readByte : ReadsAs ReaderSteps.readByte Reader.readByte := by
  refine readsAs_try _ (readsAs_bind (readsAs_read 1) fun bs => ?_) (readsAs_pure _)
  match bs with
  | [b] => exact readsAs_pure _
  | [] => exact readsAs_raise _
  | _ :: _ :: _ => exact readsAs_raise _

theorem readsAs_unpackInt (c : Char) (e : Endian) (n : Nat) : ReadsAs (ReaderSteps.unpackInt c e n) (Reader.unpackInt c e n) :=
  readsAs_bind (readsAs_read _) fun _ => readsAs_lift _

theorem readsAs_unpackStr (n k : Nat) : ReadsAs (ReaderSteps.unpackStr n k) (Reader.unpackStr n k) :=
  readsAs_bind (readsAs_read _) fun _ => readsAs_ite (readsAs_pure _) (readsAs_raise _)

theorem readsAs_unpackFloat (f : FloatFmt) (e : Endian) (n : Nat) : ReadsAs (ReaderSteps.unpackFloat f e n) (Reader.unpackFloat f e n) :=
  readsAs_bind (readsAs_read _) fun _ => readsAs_lift _

theorem readsAs_safeBytes (n : Int) : ReadsAs (ReaderSteps.safeReadBytes n) (Reader.safeReadBytes n) :=
  readsAs_bind (readsAs_read _) fun _ => readsAs_ite (readsAs_raise _) (readsAs_pure _)

theorem readsAs_readBool : ReadsAs ReaderSteps.readBool Reader.readBool := by
  refine readsAs_bind (readsAs_read _) fun bs => ?_
  match bs with
  | [b] => exact readsAs_pure _
  | [] => exact readsAs_raise _
  | _ :: _ :: _ => exact readsAs_raise _

theorem readsAs_readChar : ReadsAs ReaderSteps.readChar Reader.readChar := by
  refine readsAs_bind (readsAs_read _) fun bs => ?_
  match bs with
  | [b] => exact readsAs_pure _
  | [] => exact readsAs_raise _
  | _ :: _ :: _ => exact readsAs_raise _

theorem readsAs_readDouble (e : Endian) : ReadsAs (ReaderSteps.readDouble e) (Reader.readDouble e) :=
  readsAs_bind (readsAs_read _) fun _ => readsAs_ite (readsAs_pure _) (readsAs_raise _)

theorem readsAs_readVarInt (max : Int) : ReadsAs (ReaderSteps.readVarInt max) (Reader.readVarInt max) := by
  refine readsAs_bind readsAs_readByte fun fb => readsAs_ite (readsAs_pure _) (readsAs_bind ?_ fun v => ?_)
  · exact readsAs_ite (readsAs_unpackInt _ _ _) (readsAs_ite (readsAs_unpackInt _ _ _) (readsAs_ite (readsAs_unpackInt _ _ _) (readsAs_pure _)))
  · exact readsAs_ite (readsAs_raise _) (readsAs_pure _)

theorem readsAs_readVarBytes (max : Int) : ReadsAs (ReaderSteps.readVarBytes max) (Reader.readVarBytes max) :=
  readsAs_bind (readsAs_readVarInt max) fun _ => readsAs_read _

theorem readsAs_readString : ReadsAs ReaderSteps.readString Reader.readString :=
  readsAs_bind (readsAs_unpackInt _ _ _) fun _ => readsAs_unpackStr _ _

theorem readsAs_readVarString (max : Int) : ReadsAs (ReaderSteps.readVarString max) (Reader.readVarString max) :=
  readsAs_bind (readsAs_readVarInt max) fun _ => readsAs_unpackStr _ _

theorem readsAs_readFixedString (n : Int) : ReadsAs (ReaderSteps.readFixedString n) (Reader.readFixedString n) :=
  readsAs_bind (readsAs_read _) fun _ => readsAs_pure _

theorem readsAs_deserializeUpTo {d : Steps α} {d' : IOM α} (hd : ReadsAs d d') (k : Nat) :
    ReadsAs (ReaderSteps.deserializeUpTo d k) (Reader.deserializeUpTo d' k) := by
  induction k with
  | zero => exact readsAs_pure _
  | succ k ih =>
    intro s
    have e := runOn_after Stream.read d (fun r =>
      match r with
      | .ok x => do
        let xs ← ReaderSteps.deserializeUpTo d k
        return x :: xs
      | .error _ => return []) s
    have hd' : d.runOn Stream.read s = d' s := hd s
    rw [hd'] at e
    refine Eq.trans e ?_
    simp only [Reader.deserializeUpTo]
    rcases d' s with ⟨r, s'⟩
    cases r with
    | error er => rfl
    | ok x =>
      refine (runOn_bind Stream.read (ReaderSteps.deserializeUpTo d k) (fun xs => pure (x :: xs)) s').trans ?_
      have h2 : (ReaderSteps.deserializeUpTo d k).runOn Stream.read s' = Reader.deserializeUpTo d' k s' := ih s'
      simp only [h2]
      rcases Reader.deserializeUpTo d' k s' with ⟨r, s''⟩
      cases r <;> rfl

theorem readsAs_array {d : Steps α} {d' : IOM α} (hd : ReadsAs d d') (max : Int) :
    ReadsAs (ReaderSteps.readSerializableArray d max) (Reader.readSerializableArray d' max) :=
  readsAs_bind (readsAs_readVarInt max) fun _ => readsAs_deserializeUpTo hd _

theorem readsAs_readUInt256 : ReadsAs ReaderSteps.readUInt256 Reader.readUInt256 := readsAs_bind (readsAs_read _) fun _ => readsAs_lift _
theorem readsAs_readUInt160 : ReadsAs ReaderSteps.readUInt160 Reader.readUInt160 := readsAs_bind (readsAs_read _) fun _ => readsAs_lift _

theorem readsAs_readHexItems (k : Nat) : ReadsAs (ReaderSteps.readHexItems k) (Reader.readHexItems k) := by
  induction k with
  | zero => exact readsAs_pure _
  | succ k ih => exact readsAs_bind (readsAs_read _) fun _ => readsAs_bind (readsAs_lift _) fun _ => readsAs_bind ih fun _ => readsAs_pure _

theorem readsAs_readHashItems (k : Nat) : ReadsAs (ReaderSteps.readHashItems k) (Reader.readHashItems k) := by
  induction k with
  | zero => exact readsAs_pure _
  | succ k ih => exact readsAs_bind (readsAs_read _) fun _ => readsAs_bind ih fun _ => readsAs_pure _

theorem readsAs_readHashes : ReadsAs ReaderSteps.readHashes Reader.readHashes :=
  readsAs_bind (readsAs_readVarInt _) fun _ => readsAs_readHashItems _

/-- A call and the kind of its result. -/
def mapSteps (f : α → Out) (m : Steps α) : Steps Out := m >>= fun a => pure (f a)

theorem readsAs_mapOut (f : α → Out) {m : Steps α} {m' : IOM α} (h : ReadsAs m m') : ReadsAs (mapSteps f m) (mapOut f m') :=
  readsAs_bind h fun _ => readsAs_pure _

/-- The reader's methods divided into steps. -/
def ReadOp.steps : ReadOp → Steps Out
  | .byte => mapSteps .int ReaderSteps.readByte
  | .byteRaw => mapSteps (Sum.elim .bytes .int) ReaderSteps.readByteRaw
  | .bytes n => mapSteps .bytes (ReaderSteps.readBytes n)
  | .safeBytes n => mapSteps .bytes (ReaderSteps.safeReadBytes n)
  | .bool => mapSteps .bool ReaderSteps.readBool
  | .char => mapSteps .bytes ReaderSteps.readChar
  | .double e => mapSteps .bits (ReaderSteps.readDouble e)
  | .i8 e => mapSteps .int (ReaderSteps.unpackInt 'b' e 1)
  | .u8 e => mapSteps .int (ReaderSteps.unpackInt 'B' e 1)
  | .i16 e => mapSteps .int (ReaderSteps.unpackInt 'h' e 2)
  | .u16 e => mapSteps .int (ReaderSteps.unpackInt 'H' e 2)
  | .i32 e => mapSteps .int (ReaderSteps.unpackInt 'i' e 4)
  | .u32 e => mapSteps .int (ReaderSteps.unpackInt 'I' e 4)
  | .i64 e => mapSteps .int (ReaderSteps.unpackInt 'q' e 8)
  | .u64 e => mapSteps .int (ReaderSteps.unpackInt 'Q' e 8)
  | .varInt m => mapSteps .int (ReaderSteps.readVarInt m)
  | .varBytes m => mapSteps .bytes (ReaderSteps.readVarBytes m)
  | .string => mapSteps .bytes ReaderSteps.readString
  | .varString m => mapSteps .bytes (ReaderSteps.readVarString m)
  | .fixedString n => mapSteps .bytes (ReaderSteps.readFixedString n)
  | .uint256 => mapSteps .bytes ReaderSteps.readUInt256
  | .uint160 => mapSteps .bytes ReaderSteps.readUInt160
  | .list2000 => mapSteps .chunks (ReaderSteps.readHexItems 2000)
  | .hashes => mapSteps .strs ReaderSteps.readHashes
  | .fixed8 => mapSteps .int (ReaderSteps.unpackInt 'q' .little 8)
  | .float e => mapSteps .float (ReaderSteps.unpackFloat .binary32 e 4)
  | .doubleVal e => mapSteps .float (ReaderSteps.unpackFloat .binary64 e 8)

/-- A client of a reader divided into steps. -/
def ReadClient.steps : ReadClient → Steps Out
  | .done o => pure o
  | .fail e => ReaderSteps.raise e
  | .call o k => o.steps.after fun r => (k r).steps
  | .array item max k => (mapSteps .items (ReaderSteps.readSerializableArray item.steps max)).after fun r => (k r).steps

theorem readsAs_op (o : ReadOp) : ReadsAs o.steps o.run := by
  cases o with
  | byte => exact readsAs_mapOut _ readsAs_readByte
  | byteRaw => exact fun s => rfl
  | bytes n => exact readsAs_mapOut _ (readsAs_read _)
  | safeBytes n => exact readsAs_mapOut _ (readsAs_safeBytes n)
  | bool => exact readsAs_mapOut _ readsAs_readBool
  | char => exact readsAs_mapOut _ readsAs_readChar
  | double e => exact readsAs_mapOut _ (readsAs_readDouble e)
  | i8 e => exact readsAs_mapOut _ (readsAs_unpackInt _ _ _)
  | u8 e => exact readsAs_mapOut _ (readsAs_unpackInt _ _ _)
  | i16 e => exact readsAs_mapOut _ (readsAs_unpackInt _ _ _)
  | u16 e => exact readsAs_mapOut _ (readsAs_unpackInt _ _ _)
  | i32 e => exact readsAs_mapOut _ (readsAs_unpackInt _ _ _)
  | u32 e => exact readsAs_mapOut _ (readsAs_unpackInt _ _ _)
  | i64 e => exact readsAs_mapOut _ (readsAs_unpackInt _ _ _)
  | u64 e => exact readsAs_mapOut _ (readsAs_unpackInt _ _ _)
  | varInt m => exact readsAs_mapOut _ (readsAs_readVarInt m)
  | varBytes m => exact readsAs_mapOut _ (readsAs_readVarBytes m)
  | string => exact readsAs_mapOut _ readsAs_readString
  | varString m => exact readsAs_mapOut _ (readsAs_readVarString m)
  | fixedString n => exact readsAs_mapOut _ (readsAs_readFixedString n)
  | uint256 => exact readsAs_mapOut _ readsAs_readUInt256
  | uint160 => exact readsAs_mapOut _ readsAs_readUInt160
  | list2000 => exact readsAs_mapOut _ (readsAs_readHexItems _)
  | hashes => exact readsAs_mapOut _ readsAs_readHashes
  | fixed8 => exact readsAs_mapOut _ (readsAs_unpackInt _ _ _)
  | float e => exact readsAs_mapOut _ (readsAs_unpackFloat _ _ _)
  | doubleVal e => exact readsAs_mapOut _ (readsAs_unpackFloat _ _ _)

/-- Every client of a reader, run alone step by step on an `io.BytesIO`, does what it does. -/
theorem readsAs_client (c : ReadClient) : ReadsAs c.steps c.run := by
  induction c with
  | done o => exact readsAs_pure o
  | fail e => exact readsAs_raise e
  | call o k ih => exact readsAs_after (k' := fun r => (k r).run) (readsAs_op o) ih
  | array item max k ih1 ih2 => exact readsAs_after (k' := fun r => (k r).run) (readsAs_mapOut _ (readsAs_array ih1 max)) ih2

end Neo.Props
