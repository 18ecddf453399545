import Verif.Props.History

/-! # C160, C161: what surrounds a record does not matter -/

namespace Neo.Props
open Py Spec

/-! ## C160 -/

/-- Inside a stream: exactly the bytes at the position are replaced. -/
theorem overwrite_inside (pre old post bs : Bytes) (h : old.length = bs.length) :
    overwrite ⟨pre ++ old ++ post, pre.length⟩ bs = ⟨pre ++ bs ++ post, (pre ++ bs).length⟩ := by
  unfold overwrite
  by_cases hb : bs = []
  · subst hb
    rw [if_pos rfl, List.length_eq_zero_iff.1 h, List.append_nil]
  · rw [if_neg hb]
    simp only [List.length_append]
    rw [show pre.length - (pre.length + old.length + post.length) = 0 by omega, List.replicate_zero, List.append_nil, ← h,
      List.append_assoc pre, List.take_left' rfl, ← List.append_assoc pre old, List.drop_left' (by simp)]

theorem overwrite_end (pre bs : Bytes) : overwrite ⟨pre, pre.length⟩ bs = ⟨pre ++ bs, (pre ++ bs).length⟩ := by
  unfold overwrite
  by_cases hb : bs = []
  · subst hb
    rw [if_pos rfl, List.append_nil]
  · rw [if_neg hb]
    simp

theorem overwrite_append (s : Stream) (a b : Bytes) : overwrite (overwrite s a) b = overwrite s (a ++ b) := by
  by_cases ha : a = []
  · subst ha
    simp [overwrite]
  by_cases hb : b = []
  · subst hb
    simp [overwrite]
  have hab : a ++ b ≠ [] := by simp [ha]
  unfold overwrite
  rw [if_neg ha, if_neg hb, if_neg hab]
  simp only [Stream.mk.injEq, List.length_append]
  refine ⟨?_, by omega⟩
  generalize hP : (s.buf ++ List.replicate (s.pos - s.buf.length) 0).take s.pos = P
  have hPl : P.length = s.pos := by
    rw [← hP, List.length_take, List.length_append, List.length_replicate]
    omega
  generalize hR : s.buf.drop (s.pos + a.length) = R
  have h1 : (P ++ a ++ R).length = s.pos + a.length + R.length := by simp [hPl]; omega
  have hd : (P ++ a ++ R).drop (s.pos + a.length + b.length) = s.buf.drop (s.pos + (a.length + b.length)) := by
    have hz : (P ++ a).drop (s.pos + a.length + b.length) = [] := List.drop_eq_nil_of_le (by simp [hPl])
    rw [List.drop_append, hz, List.nil_append, ← hR, List.drop_drop, List.length_append, hPl]
    congr 1
    omega
  rw [hd, ← List.length_append, ← List.length_append, h1, show s.pos + a.length - (s.pos + a.length + R.length) = 0 by omega,
    List.replicate_zero, List.append_nil, List.take_left' (by simp [hPl])]
  simp

/-- The outcome and the bytes written are always the same. -/
def Ctx (m : IOM α) : Prop := ∃ r bs, ∀ s, m s = (r, overwrite s bs)

theorem ctx_pure (a : α) : Ctx (pure a : IOM α) := ⟨.ok a, [], fun s => by simp [IOM.pure_apply, overwrite]⟩
theorem ctx_raise (e : Err) : Ctx (IOM.raise e : IOM α) := ⟨.error e, [], fun s => by simp [IOM.raise_apply, overwrite]⟩
theorem ctx_lift (x : Except Err α) : Ctx (IOM.lift x) := ⟨x, [], fun s => by simp [IOM.lift_apply, overwrite]⟩

theorem ctx_after {m : IOM α} {k : Except Err α → IOM β} (hm : Ctx m) (hk : ∀ r, Ctx (k r)) :
    Ctx (fun s => k (m s).1 (m s).2 : IOM β) := by
  obtain ⟨r, bs, h⟩ := hm
  obtain ⟨r', bs', h'⟩ := hk r
  exact ⟨r', bs ++ bs', fun s => by simp only [h, h', overwrite_append]⟩

/-- What follows a call that is not guarded by `try`. -/
private def orRaise (f : α → IOM β) : Except Err α → IOM β
  | .ok a => f a
  | .error e => IOM.raise e

theorem ctx_bind {m : IOM α} {f : α → IOM β} (hm : Ctx m) (hf : ∀ a, Ctx (f a)) : Ctx (m >>= f) := by
  have e : (m >>= f) = fun s => orRaise f (m s).1 (m s).2 := by
    funext s
    show IOM.bind m f s = _
    unfold IOM.bind
    rcases m s with ⟨r, s'⟩
    cases r <;> rfl
  rw [e]
  refine ctx_after (k := orRaise f) hm fun r => ?_
  cases r with
  | ok a => exact hf a
  | error e => exact ctx_raise e

theorem ctx_ite {c : Prop} [Decidable c] {a b : IOM α} (ha : Ctx a) (hb : Ctx b) : Ctx (if c then a else b) := by
  split <;> assumption

theorem write_overwrite (b : Bytes) (s : Stream) : Stream.write b s = (.ok b.length, overwrite s b) := by
  unfold Stream.write overwrite
  by_cases hb : b = []
  · subst hb; rfl
  · rw [if_neg (by simpa using hb), if_neg hb]
    simp only
    congr 3
    rw [List.drop_append]
    have : (List.replicate (s.pos - s.buf.length) (0 : UInt8)).drop (s.pos + b.length - s.buf.length) = [] :=
      List.drop_eq_nil_of_le (by simp; omega)
    rw [this, List.append_nil]

theorem ctx_write (b : Bytes) : Ctx (Stream.write b) := ⟨.ok b.length, b, write_overwrite b⟩

theorem ctx_writeVal (v : Val) : Ctx (Stream.writeVal v) := by
  unfold Stream.writeVal
  split
  · exact ctx_write _
  · exact ctx_write _
  · exact ctx_raise _

open Writer

theorem ctx_writeBytes (v : Val) (u : Bool) : Ctx (writeBytes v u) := by
  unfold writeBytes
  split
  · split
    · exact ctx_write _
    · exact ctx_writeVal _
    · exact ctx_raise _
  · exact ctx_writeVal _

theorem ctx_packInt (c : Char) (e : Endian) (v : Val) : Ctx (packInt c e v) := by
  unfold packInt
  split
  · exact ctx_writeBytes _ _
  · exact ctx_raise _

theorem ctx_packFloat (f : FloatFmt) (e : Endian) (v : FloatArg) : Ctx (packFloat f e v) := by
  unfold packFloat
  split
  · exact ctx_writeBytes _ _
  · exact ctx_raise _

theorem ctx_writeByte (v : Val) : Ctx (writeByte v) := by
  unfold writeByte
  split
  · exact ctx_bind (ctx_write _) fun _ => ctx_pure _
  · exact ctx_bind (ctx_write _) fun _ => ctx_pure _
  · exact ctx_ite (ctx_bind (ctx_write _) fun _ => ctx_pure _) (ctx_raise _)
  · exact ctx_pure _

theorem ctx_ignore {m : IOM α} (h : Ctx m) : Ctx (ignore m) := ctx_bind h fun _ => ctx_pure _

theorem ctx_writeVarInt (v : Val) (e : Endian) : Ctx (writeVarInt v e) := by
  unfold writeVarInt
  split
  · exact ctx_raise _
  · refine ctx_ite (ctx_raise _) (ctx_ite ?_ (ctx_ite ?_ (ctx_ite ?_ ?_)))
    · exact ctx_bind (ctx_writeByte _) fun _ => ctx_pure _
    all_goals exact ctx_bind (ctx_writeByte _) fun _ => ctx_bind (ctx_packInt _ _ _) fun _ => ctx_pure _

theorem ctx_reversedHex (l : List Val) : Ctx (writeReversedHex l) := by
  induction l with
  | nil => exact ctx_pure _
  | cons v l ih => exact ctx_bind (ctx_lift _) fun _ => ctx_bind (ctx_writeBytes _ _) fun _ => ih

theorem ctx_zeros (k : Nat) : Ctx (writeZeros k) := by
  induction k with
  | zero => exact ctx_pure _
  | succ k ih => exact ctx_bind (ctx_writeByte _) fun _ => ih

theorem ctx_serializeAll {ser : α → IOM Unit} (h : ∀ x, Ctx (ser x)) (l : List α) : Ctx (serializeAll ser l) := by
  induction l with
  | nil => exact ctx_pure _
  | cons x l ih => exact ctx_bind (h x) fun _ => ih

theorem ctx_array {ser : α → IOM Unit} (h : ∀ x, Ctx (ser x)) (a : Option (List α)) : Ctx (writeSerializableArray ser a) := by
  cases a with
  | none => exact ctx_writeByte (.int 0)
  | some l => exact ctx_bind (ctx_writeVarInt _ _) fun _ => ctx_serializeAll h l

theorem ctx_uintSerialize (d : Bytes) : Ctx (uintSerialize d) := ctx_bind (ctx_writeBytes _ _) fun _ => ctx_pure _

theorem ctx_varStringBytes (b : Bytes) : Ctx (writeVarStringBytes b) :=
  ctx_bind (ctx_writeVarInt _ _) fun _ => ctx_bind (ctx_writeBytes _ _) fun _ => ctx_pure _

theorem ctx_varStringBytesEnc (c : Codec) (b : Bytes) : Ctx (writeVarStringBytesEnc c b) :=
  ctx_bind (ctx_lift _) fun _ => ctx_bind (ctx_writeVarInt _ _) fun _ => ctx_bind (ctx_writeBytes _ _) fun _ => ctx_pure _

theorem ctx_op (o : WriteOp) : Ctx o.run := by
  cases o with
  | byte v => exact ctx_writeByte v
  | bytes v u => exact ctx_ignore (ctx_writeBytes _ _)
  | bool v => exact ctx_ignore (ctx_writeBytes _ _)
  | char v =>
    refine ctx_ignore ?_
    unfold writeChar
    split
    · exact ctx_writeBytes _ _
    · exact ctx_raise _
  | double b e => exact ctx_ignore (ctx_writeBytes _ _)
  | i8 v e => exact ctx_ignore (ctx_packInt _ _ _)
  | u8 v e => exact ctx_ignore (ctx_packInt _ _ _)
  | i16 v e => exact ctx_ignore (ctx_packInt _ _ _)
  | u16 v e => exact ctx_ignore (ctx_packInt _ _ _)
  | i32 v e => exact ctx_ignore (ctx_packInt _ _ _)
  | u32 v e => exact ctx_ignore (ctx_packInt _ _ _)
  | i64 v e => exact ctx_ignore (ctx_packInt _ _ _)
  | u64 v e => exact ctx_ignore (ctx_packInt _ _ _)
  | uint160 v =>
    show Ctx (writeUInt160 v)
    unfold writeUInt160
    split
    · exact ctx_uintSerialize _
    · exact ctx_raise _
  | uint256 v =>
    show Ctx (writeUInt256 v)
    unfold writeUInt256
    split
    · exact ctx_uintSerialize _
    · exact ctx_raise _
  | varInt v e => exact ctx_ignore (ctx_writeVarInt _ _)
  | varBytes b e => exact ctx_ignore (ctx_bind (ctx_writeVarInt _ _) fun _ => ctx_writeBytes _ _)
  | varString v =>
    show Ctx (writeVarString v)
    unfold writeVarString
    split
    · exact ctx_varStringBytes _
    · exact ctx_varStringBytes _
    · exact ctx_varStringBytes _
    · exact ctx_raise _
  | fixedString s n => exact ctx_ite (ctx_raise _) (ctx_bind (ctx_writeBytes _ _) fun _ => ctx_zeros _)
  | list2000 l => exact ctx_reversedHex l
  | hashes l => exact ctx_bind (ctx_writeVarInt _ _) fun _ => ctx_reversedHex l
  | fixed8 n => exact ctx_ignore (ctx_packInt _ _ _)
  | float v e => exact ctx_ignore (ctx_packFloat _ _ _)
  | doubleOf v e => exact ctx_ignore (ctx_packFloat _ _ _)
  | varBytesOf v e =>
    refine ctx_ignore ?_
    unfold writeVarBytesOf
    split
    · exact ctx_raise _
    · exact ctx_bind (ctx_writeVarInt _ _) fun _ => ctx_writeBytes _ _
  | varStringEnc c v =>
    show Ctx (writeVarStringEnc c v)
    unfold writeVarStringEnc
    split
    · split
      · exact ctx_raise _
      · exact ctx_varStringBytesEnc _ _
    · exact ctx_varStringBytesEnc _ _
    · exact ctx_varStringBytesEnc _ _
    · exact ctx_raise _

theorem writeVarInt_context (v : Val) (e : Endian) : ∃ r bs, ∀ s, writeVarInt v e s = (r, overwrite s bs) := ctx_writeVarInt v e

theorem reversedHex_context (l : List Val) : ∃ r bs, ∀ s, writeReversedHex l s = (r, overwrite s bs) := ctx_reversedHex l

/-- C160. Whatever a program does with a writer, the results of its calls and the bytes it writes are the same on every stream at
every position: they replace what is at the position, and nothing else. -/
theorem C160_writing_in_context (c : WriteClient) : ∃ r bs, ∀ s, c.run s = (r, overwrite s bs) := by
  induction c with
  | done => exact ctx_pure ()
  | fail e => exact ctx_raise e
  | call o k ih => exact ctx_after (k := fun r => (k r).run) (ctx_op o) ih
  | array n item k ih1 ih2 => exact ctx_after (k := fun r => (k r).run) (ctx_array ih1 _) ih2

/-- C160. A field is patched in place: a program that appends `bs` to a stream, run at a field of the same size, replaces that
field and leaves what is before and after it. -/
theorem C160_patch (c : WriteClient) (at_ old pre post bs : Bytes) (r : Except Err Unit)
    (h : c.run ⟨at_, at_.length⟩ = (r, ⟨at_ ++ bs, (at_ ++ bs).length⟩)) (hl : old.length = bs.length) :
    c.run ⟨pre ++ old ++ post, pre.length⟩ = (r, ⟨pre ++ bs ++ post, (pre ++ bs).length⟩) := by
  obtain ⟨r', bs', h'⟩ := C160_writing_in_context c
  rw [h', overwrite_end] at h
  obtain ⟨h1, h2⟩ := Prod.mk.inj h
  have : bs' = bs := List.append_cancel_left (congrArg Stream.buf h2)
  rw [h', h1, this, overwrite_inside _ _ _ _ hl]

/-- A 16-bit length patched into a record. -/
example : (WriteClient.call (.u16 (.int 5) .little) fun _ => .done).run ⟨[1, 0, 0, 2, 3], 1⟩ = (.ok (), ⟨[1, 5, 0, 2, 3], 3⟩) := by
  decide

/-! ## C161 -/

/-- How the outcome of a computation and the number of bytes it passes depend on the bytes ahead: bytes beyond those passed
matter only if all were passed. -/
structure LocalFn (f : Bytes → Except Err α × Nat) : Prop where
  le : ∀ a, (f a).2 ≤ a.length
  more : ∀ a b, (f a).2 < a.length → f (a.take (f a).2 ++ b) = f a

def Local (m : IOM α) : Prop := ∃ f, LocalFn f ∧ ∀ s, m s = ((f (ahead s)).1, advance s (f (ahead s)).2)

theorem local_const (m : IOM α) (x : Except Err α) (h : ∀ s, m s = (x, s)) : Local m :=
  ⟨fun _ => (x, 0), ⟨fun _ => Nat.zero_le _, fun _ _ _ => rfl⟩, fun s => by rw [h]; rfl⟩

theorem local_pure (a : α) : Local (pure a : IOM α) := local_const _ (.ok a) fun _ => rfl
theorem local_raise (e : Err) : Local (IOM.raise e : IOM α) := local_const _ (.error e) fun _ => rfl
theorem local_lift (x : Except Err α) : Local (IOM.lift x) := local_const _ x fun _ => rfl

theorem ahead_advance (s : Stream) (k : Nat) : ahead (advance s k) = (ahead s).drop k := by
  simp [ahead, advance, List.drop_drop]

theorem local_after {m : IOM α} {k : Except Err α → IOM β} (hm : Local m) (hk : ∀ r, Local (k r)) :
    Local (fun s => k (m s).1 (m s).2 : IOM β) := by
  obtain ⟨f, hf, hm⟩ := hm
  choose g hg hk using hk
  refine ⟨fun a => ((g (f a).1 (a.drop (f a).2)).1, (f a).2 + (g (f a).1 (a.drop (f a).2)).2), ⟨fun a => ?_, fun a b h => ?_⟩, ?_⟩
  · have h1 := hf.le a
    have h2 := (hg (f a).1).le (a.drop (f a).2)
    rw [List.length_drop] at h2
    simp only
    omega
  · simp only at h ⊢
    have hle := hf.le a
    have h1 : (f a).2 < a.length := by omega
    have h2 : (g (f a).1 (a.drop (f a).2)).2 < (a.drop (f a).2).length := by rw [List.length_drop]; omega
    generalize hn : (g (f a).1 (a.drop (f a).2)).2 = n at h h2
    have e : a.take ((f a).2 + n) ++ b = a.take (f a).2 ++ ((a.drop (f a).2).take n ++ b) := by
      rw [List.take_add, List.append_assoc]
    have e1 := hf.more a ((a.drop (f a).2).take n ++ b) h1
    have e2 := (hg (f a).1).more (a.drop (f a).2) b (by rw [hn]; exact h2)
    rw [hn] at e2
    rw [e, e1, List.drop_left' (by rw [List.length_take]; omega), e2, hn]
  · intro s
    simp only [hm, hk, ahead_advance]
    simp [advance, Nat.add_assoc]

theorem local_bind {m : IOM α} {f : α → IOM β} (hm : Local m) (hf : ∀ a, Local (f a)) : Local (m >>= f) := by
  have e : (m >>= f) = fun s => orRaise f (m s).1 (m s).2 := by
    funext s
    show IOM.bind m f s = _
    unfold IOM.bind
    rcases m s with ⟨r, s'⟩
    cases r <;> rfl
  rw [e]
  refine local_after (k := orRaise f) hm fun r => ?_
  cases r with
  | ok a => exact hf a
  | error e => exact local_raise e

/-- What follows a call guarded by `try`. -/
private def handle (sel : Err → Bool) (h : IOM α) : Except Err α → IOM α
  | .ok a => pure a
  | .error e => if sel e then h else IOM.raise e

theorem local_try {m h : IOM α} {sel : Err → Bool} (hm : Local m) (hh : Local h) : Local (IOM.tryExcept m sel h) := by
  have e : IOM.tryExcept m sel h = fun s => handle sel h (m s).1 (m s).2 := by
    funext s
    unfold IOM.tryExcept
    rcases m s with ⟨r, s'⟩
    cases r with
    | ok a => rfl
    | error e =>
      unfold handle
      simp only
      split <;> rfl
  rw [e]
  refine local_after (k := handle sel h) hm fun r => ?_
  cases r with
  | ok a => exact local_pure a
  | error e =>
    unfold handle
    simp only
    split
    · exact hh
    · exact local_raise e

theorem local_ite {c : Prop} [Decidable c] {a b : IOM α} (ha : Local a) (hb : Local b) : Local (if c then a else b) := by
  split <;> assumption

theorem local_read (n : Int) : Local (Stream.read n) := by
  by_cases hn : n > maxsize
  · exact local_const _ (.error .overflowError) fun s => by unfold Stream.read; rw [if_pos hn]
  by_cases h0 : n < 0
  · refine ⟨fun a => (.ok a, a.length), ⟨fun _ => le_refl _, fun a b h => absurd h (lt_irrefl _)⟩, fun s => ?_⟩
    unfold Stream.read
    simp only [if_neg hn, if_pos h0]
    rfl
  · refine ⟨fun a => (.ok (a.take n.toNat), (a.take n.toNat).length), ⟨fun a => ?_, fun a b h => ?_⟩, fun s => ?_⟩
    · simp only [List.length_take]; omega
    · simp only [List.length_take] at h ⊢
      have hlt : n.toNat ≤ a.length := by omega
      rw [min_eq_left hlt, List.take_left' (by rw [List.length_take]; omega)]
      congr 1
      rw [List.length_append, List.length_take]
      omega
    · unfold Stream.read
      simp only [if_neg hn, if_neg h0]
      rfl

open Reader

theorem local_readByte : Local readByte := by
  refine local_try (local_bind (local_read 1) fun bs => ?_) (local_pure _)
  match bs with
  | [b] => exact local_pure _
  | [] => exact local_raise _
  | _ :: _ :: _ => exact local_raise _

theorem local_unpackInt (c : Char) (e : Endian) (n : Nat) : Local (unpackInt c e n) :=
  local_bind (local_read _) fun _ => local_lift _

theorem local_readVarInt (max : Int) : Local (readVarInt max) := by
  refine local_bind local_readByte fun fb => local_ite (local_pure _) (local_bind ?_ fun v => ?_)
  · unfold readVarIntValue
    exact local_ite (local_unpackInt _ _ _) (local_ite (local_unpackInt _ _ _)
      (local_ite (local_unpackInt _ _ _) (local_pure _)))
  · exact local_ite (local_raise _) (local_pure _)

theorem local_unpackStr (n k : Nat) : Local (unpackStr n k) :=
  local_bind (local_read _) fun _ => local_ite (local_pure _) (local_raise _)

theorem local_readHexItems (k : Nat) : Local (readHexItems k) := by
  induction k with
  | zero => exact local_pure _
  | succ k ih =>
    exact local_bind (local_read _) fun _ => local_bind (local_lift _) fun _ => local_bind ih fun _ => local_pure _

theorem local_readHashItems (k : Nat) : Local (readHashItems k) := by
  induction k with
  | zero => exact local_pure _
  | succ k ih => exact local_bind (local_read _) fun _ => local_bind ih fun _ => local_pure _

/-- What follows the first item of an array. -/
private def orStop (d : IOM α) (k : Nat) : Except Err α → IOM (List α)
  | .ok x => deserializeUpTo d k >>= fun xs => pure (x :: xs)
  | .error _ => pure []

theorem local_deserializeUpTo {d : IOM α} (hd : Local d) (k : Nat) : Local (deserializeUpTo d k) := by
  induction k with
  | zero => exact local_pure _
  | succ k ih =>
    have e : deserializeUpTo d (k + 1) = fun s => orStop d k (d s).1 (d s).2 := by
      funext s
      simp only [deserializeUpTo]
      rcases d s with ⟨r, s'⟩
      cases r with
      | error e => rfl
      | ok x =>
        show _ = (deserializeUpTo d k >>= fun xs => pure (x :: xs) : IOM (List α)) s'
        show _ = IOM.bind (deserializeUpTo d k) _ s'
        unfold IOM.bind
        simp only
        rcases deserializeUpTo d k s' with ⟨r, s''⟩
        cases r <;> rfl
    rw [e]
    refine local_after (k := orStop d k) hd fun r => ?_
    cases r with
    | error e => exact local_pure _
    | ok x => exact local_bind ih fun xs => local_pure _

theorem local_mapOut (f : α → Out) {m : IOM α} (h : Local m) : Local (mapOut f m) := local_bind h fun _ => local_pure _

theorem local_op (o : ReadOp) : Local o.run := by
  cases o with
  | byte => exact local_mapOut _ local_readByte
  | byteRaw => exact local_mapOut _ (local_read _)
  | bytes n => exact local_mapOut _ (local_read _)
  | safeBytes n => exact local_mapOut _ (local_bind (local_read _) fun _ => local_ite (local_raise _) (local_pure _))
  | bool =>
    refine local_mapOut _ (local_bind (local_read _) fun bs => ?_)
    match bs with
    | [b] => exact local_pure _
    | [] => exact local_raise _
    | _ :: _ :: _ => exact local_raise _
  | char =>
    refine local_mapOut _ (local_bind (local_read _) fun bs => ?_)
    match bs with
    | [b] => exact local_pure _
    | [] => exact local_raise _
    | _ :: _ :: _ => exact local_raise _
  | double e => exact local_mapOut _ (local_bind (local_read _) fun _ => local_ite (local_pure _) (local_raise _))
  | i8 e => exact local_mapOut _ (local_unpackInt _ _ _)
  | u8 e => exact local_mapOut _ (local_unpackInt _ _ _)
  | i16 e => exact local_mapOut _ (local_unpackInt _ _ _)
  | u16 e => exact local_mapOut _ (local_unpackInt _ _ _)
  | i32 e => exact local_mapOut _ (local_unpackInt _ _ _)
  | u32 e => exact local_mapOut _ (local_unpackInt _ _ _)
  | i64 e => exact local_mapOut _ (local_unpackInt _ _ _)
  | u64 e => exact local_mapOut _ (local_unpackInt _ _ _)
  | varInt m => exact local_mapOut _ (local_readVarInt m)
  | varBytes m => exact local_mapOut _ (local_bind (local_readVarInt m) fun _ => local_read _)
  | string => exact local_mapOut _ (local_bind (local_unpackInt _ _ _) fun _ => local_unpackStr _ _)
  | varString m => exact local_mapOut _ (local_bind (local_readVarInt m) fun _ => local_unpackStr _ _)
  | fixedString n => exact local_mapOut _ (local_bind (local_read _) fun _ => local_pure _)
  | uint256 => exact local_mapOut _ (local_bind (local_read _) fun _ => local_lift _)
  | uint160 => exact local_mapOut _ (local_bind (local_read _) fun _ => local_lift _)
  | list2000 => exact local_mapOut _ (local_readHexItems _)
  | hashes => exact local_mapOut _ (local_bind (local_readVarInt _) fun _ => local_readHashItems _)
  | fixed8 => exact local_mapOut _ (local_unpackInt _ _ _)
  | float e => exact local_mapOut _ (local_bind (local_read _) fun _ => local_lift _)
  | doubleVal e => exact local_mapOut _ (local_bind (local_read _) fun _ => local_lift _)

theorem local_client (c : ReadClient) : Local c.run := by
  induction c with
  | done o => exact local_pure o
  | fail e => exact local_raise e
  | call o k ih => exact local_after (k := fun r => (k r).run) (local_op o) ih
  | array item max k ih1 ih2 =>
    exact local_after (k := fun r => (k r).run) (local_mapOut _ (local_bind (local_readVarInt max) fun _ => local_deserializeUpTo ih1 _)) ih2

/-- C161. Whatever a program does with a reader, its results and the number of bytes it passes depend only on the bytes from the
position on, not on those before. -/
theorem C161_before (c : ReadClient) (s t : Stream) (h : ahead s = ahead t) :
    (c.run s).1 = (c.run t).1 ∧ ∃ k, (c.run s).2 = advance s k ∧ (c.run t).2 = advance t k := by
  obtain ⟨f, -, hf⟩ := local_client c
  rw [hf, hf, h]
  exact ⟨rfl, _, rfl, rfl⟩

/-- C161. Nor on those after the bytes it has passed, unless it has run into the end of the stream. -/
theorem C161_after (c : ReadClient) (pre pre' bs rest rest' : Bytes) (r : Except Err Out) (hrest : rest ≠ [])
    (h : c.run ⟨pre ++ bs ++ rest, pre.length⟩ = (r, ⟨pre ++ bs ++ rest, (pre ++ bs).length⟩)) :
    c.run ⟨pre' ++ bs ++ rest', pre'.length⟩ = (r, ⟨pre' ++ bs ++ rest', (pre' ++ bs).length⟩) := by
  obtain ⟨f, hf, hc⟩ := local_client c
  have e : ∀ p q : Bytes, ahead ⟨p ++ bs ++ q, p.length⟩ = bs ++ q := fun p q => by
    unfold ahead
    simp only [List.append_assoc]
    exact List.drop_left' rfl
  rw [hc, e] at h
  obtain ⟨h1, h2⟩ := Prod.mk.inj h
  have h3 : (f (bs ++ rest)).2 = bs.length := by
    have := congrArg Stream.pos h2
    simp only [advance, List.length_append] at this
    omega
  have hlt : (f (bs ++ rest)).2 < (bs ++ rest).length := by
    rw [h3, List.length_append]
    have := List.length_pos_iff.2 hrest
    omega
  have := hf.more _ rest' hlt
  rw [h3, List.take_left' rfl] at this
  rw [hc, e, this, h1, h3]
  simp [advance]

/-- A program that reads a byte string and a number, catching nothing. -/
example : ∃ c : ReadClient, ∃ r, c.run ⟨[9] ++ [2, 7, 8, 5] ++ [1], 1⟩ = (.ok r, ⟨[9] ++ [2, 7, 8, 5] ++ [1], 5⟩) :=
  ⟨.call (.varBytes 100) fun _ => .call (.u8 .little) fun | .ok o => .done o | .error e => .fail e, .int 5, by rfl⟩

end Neo.Props
