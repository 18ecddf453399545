import Verif.Model.WriterSteps
import Verif.Props.StreamContext
import Verif.Props.Layout
import Verif.Spec.Threads

/-! # C211, C212: threads that share one writer -/

namespace Neo.Props
open Py Spec
open WriterSteps (Steps turn exec)

/-! ### The methods divided into steps are the methods -/

/-- Without other threads the steps do the same as the method. -/
def Refines (m : Steps α) (f : IOM α) : Prop := ∀ s, m.run s = f s

theorem refines_pure (a : α) : Refines (pure a : Steps α) (pure a) := fun _ => rfl
theorem refines_raise (e : Err) : Refines (WriterSteps.raise e : Steps α) (IOM.raise e) := fun _ => rfl
theorem refines_lift (x : Except Err α) : Refines (WriterSteps.lift x) (IOM.lift x) := fun _ => rfl

/-- Any stream, one computation after another. -/
theorem writeOn_bind (sink : Bytes → σ → Except Err Nat × σ) (m : Steps α) (f : α → Steps β) (s : σ) :
    (m >>= f : Steps β).runOn sink s =
      match m.runOn sink s with
      | (.ok a, s') => (f a).runOn sink s'
      | (.error e, s') => (.error e, s') := by
  induction m generalizing s with
  | ret r => cases r <;> rfl
  | write n k ih => exact ih _ _

theorem writeOn_after (sink : Bytes → σ → Except Err Nat × σ) (m : Steps α) (f : Except Err α → Steps β) (s : σ) :
    (m.after f).runOn sink s = (f (m.runOn sink s).1).runOn sink (m.runOn sink s).2 := by
  induction m generalizing s with
  | ret r => rfl
  | write n k ih => exact ih _ _

theorem refines_bind {m : Steps α} {m' : IOM α} {f : α → Steps β} {f' : α → IOM β} (h : Refines m m') (hf : ∀ a, Refines (f a) (f' a)) :
    Refines (m >>= f) (m' >>= f') := by
  intro s
  have e := writeOn_bind Stream.write m f s
  rcases hr : m' s with ⟨r, s'⟩
  have hm : m.runOn Stream.write s = (r, s') := (h s).trans hr
  rw [hm] at e
  cases r with
  | ok a => rw [IOM.bind_ok hr]; exact e.trans (hf a s')
  | error er => rw [IOM.bind_err hr]; exact e

theorem refines_after {m : Steps α} {m' : IOM α} {k : Except Err α → Steps β} {k' : Except Err α → IOM β} (h : Refines m m')
    (hk : ∀ r, Refines (k r) (k' r)) : Refines (m.after k) (fun s => k' (m' s).1 (m' s).2) := by
  intro s
  have e := writeOn_after Stream.write m k s
  have hm : m.runOn Stream.write s = m' s := h s
  rw [hm] at e
  exact e.trans (hk _ _)

theorem refines_ite {c : Prop} [Decidable c] {a b : Steps α} {a' b' : IOM α} (ha : Refines a a') (hb : Refines b b') :
    Refines (if c then a else b) (if c then a' else b') := by
  split <;> assumption

theorem refines_write (b : Bytes) : Refines (WriterSteps.streamWrite b) (Stream.write b) := by
  exact fun _ => rfl

theorem refines_writeVal (v : Val) : Refines (WriterSteps.streamWriteVal v) (Stream.writeVal v) := by
  cases v with
  | bytes b => exact refines_write _
  | bytearray b => exact refines_write _
  | _ => exact refines_raise _

theorem refines_writeByte (v : Val) : Refines (WriterSteps.writeByte v) (Writer.writeByte v) := by
  cases v with
  | bytes b => exact refines_bind (refines_write _) fun _ => refines_pure _
  | str s => exact refines_bind (refines_write _) fun _ => refines_pure _
  | int n => exact refines_ite (refines_bind (refines_write _) fun _ => refines_pure _) (refines_raise _)
  | _ => exact refines_pure _

theorem refines_writeBytes (v : Val) (u : Bool) : Refines (WriterSteps.writeBytes v u) (Writer.writeBytes v u) := by
  unfold WriterSteps.writeBytes Writer.writeBytes
  cases u with
  | false => exact refines_writeVal _
  | true =>
    rw [if_pos rfl, if_pos rfl]
    cases unhexlifyVal v with
    | ok b => exact refines_write _
    | error e => cases e <;> first | exact refines_writeVal _ | exact refines_raise _

theorem refines_packInt (c : Char) (e : Endian) (v : Val) : Refines (WriterSteps.packInt c e v) (Writer.packInt c e v) := by
  unfold WriterSteps.packInt Writer.packInt
  cases structPackInt c e v with
  | ok b => exact refines_writeBytes _ _
  | error e => exact refines_raise _

theorem refines_packFloat (f : FloatFmt) (e : Endian) (v : FloatArg) : Refines (WriterSteps.packFloat f e v) (Writer.packFloat f e v) := by
  unfold WriterSteps.packFloat Writer.packFloat
  cases structPackFloat f e v with
  | ok b => exact refines_writeBytes _ _
  | error e => exact refines_raise _

theorem refines_writeChar (v : Val) : Refines (WriterSteps.writeChar v) (Writer.writeChar v) := by
  match v with
  | .bytes [b] => exact refines_writeBytes (.bytes [b]) false
  | .bytes [] | .bytes (_ :: _ :: _) => exact refines_raise _
  | .none | .bool _ | .int _ | .bigInteger _ | .bytearray _ | .str _ | .uint _ _ | .other => exact refines_raise _

theorem refines_uintSerialize (d : Bytes) : Refines (WriterSteps.uintSerialize d) (Writer.uintSerialize d) :=
  refines_bind (refines_writeBytes _ _) fun _ => refines_pure _

theorem refines_writeUInt160 (v : Val) : Refines (WriterSteps.writeUInt160 v) (Writer.writeUInt160 v) := by
  cases v with
  | uint k d => cases k <;> first | exact refines_uintSerialize _ | exact refines_raise _
  | _ => exact refines_raise _

theorem refines_writeUInt256 (v : Val) : Refines (WriterSteps.writeUInt256 v) (Writer.writeUInt256 v) := by
  cases v with
  | uint k d => cases k <;> first | exact refines_uintSerialize _ | exact refines_raise _
  | _ => exact refines_raise _

theorem refines_writeVarInt (v : Val) (e : Endian) : Refines (WriterSteps.writeVarInt v e) (Writer.writeVarInt v e) := by
  unfold WriterSteps.writeVarInt Writer.writeVarInt
  cases v.index? with
  | none => exact refines_raise _
  | some n =>
    refine refines_ite (refines_raise _) (refines_ite ?_ (refines_ite ?_ (refines_ite ?_ ?_)))
    · exact refines_bind (refines_writeByte _) fun _ => refines_pure _
    all_goals exact refines_bind (refines_writeByte _) fun _ => refines_bind (refines_packInt _ _ _) fun _ => refines_pure _

theorem refines_writeVarBytes (b : Bytes) (e : Endian) : Refines (WriterSteps.writeVarBytes b e) (Writer.writeVarBytes b e) :=
  refines_bind (refines_writeVarInt _ _) fun _ => refines_writeBytes _ _

theorem refines_writeVarBytesOf (v : Val) (e : Endian) : Refines (WriterSteps.writeVarBytesOf v e) (Writer.writeVarBytesOf v e) := by
  unfold WriterSteps.writeVarBytesOf Writer.writeVarBytesOf
  cases Writer.pyLen v with
  | none => exact refines_raise _
  | some n => exact refines_bind (refines_writeVarInt _ _) fun _ => refines_writeBytes _ _

theorem refines_varStringBytes (b : Bytes) : Refines (WriterSteps.writeVarStringBytes b) (Writer.writeVarStringBytes b) :=
  refines_bind (refines_writeVarInt _ _) fun _ => refines_bind (refines_writeBytes _ _) fun _ => refines_pure _

theorem refines_writeVarString (v : Val) : Refines (WriterSteps.writeVarString v) (Writer.writeVarString v) := by
  cases v with
  | str s => exact refines_varStringBytes _
  | bytes b => exact refines_varStringBytes _
  | bytearray b => exact refines_varStringBytes _
  | _ => exact refines_raise _

theorem refines_varStringBytesEnc (c : Codec) (b : Bytes) : Refines (WriterSteps.writeVarStringBytesEnc c b) (Writer.writeVarStringBytesEnc c b) :=
  refines_bind (refines_lift _) fun _ => refines_bind (refines_writeVarInt _ _) fun _ => refines_bind (refines_writeBytes _ _) fun _ => refines_pure _

theorem refines_writeVarStringEnc (c : Codec) (v : Val) : Refines (WriterSteps.writeVarStringEnc c v) (Writer.writeVarStringEnc c v) := by
  cases v with
  | str s =>
    simp only [WriterSteps.writeVarStringEnc, Writer.writeVarStringEnc]
    cases c.encode s with
    | error e => exact refines_raise _
    | ok b => exact refines_varStringBytesEnc _ _
  | bytes b => exact refines_varStringBytesEnc _ _
  | bytearray b => exact refines_varStringBytesEnc _ _
  | _ => exact refines_raise _

theorem refines_writeZeros (k : Nat) : Refines (WriterSteps.writeZeros k) (Writer.writeZeros k) := by
  induction k with
  | zero => exact refines_pure _
  | succ k ih => exact refines_bind (refines_writeByte _) fun _ => ih

theorem refines_writeFixedString (s : Str) (n : Int) : Refines (WriterSteps.writeFixedString s n) (Writer.writeFixedString s n) :=
  refines_ite (refines_raise _) (refines_bind (refines_writeBytes _ _) fun _ => refines_writeZeros _)

theorem refines_serializeAll {ser : α → Steps Unit} {ser' : α → IOM Unit} (h : ∀ x, Refines (ser x) (ser' x)) (l : List α) :
    Refines (WriterSteps.serializeAll ser l) (Writer.serializeAll ser' l) := by
  induction l with
  | nil => exact refines_pure _
  | cons x l ih => exact refines_bind (h x) fun _ => ih

theorem refines_array {ser : α → Steps Unit} {ser' : α → IOM Unit} (h : ∀ x, Refines (ser x) (ser' x)) (a : Option (List α)) :
    Refines (WriterSteps.writeSerializableArray ser a) (Writer.writeSerializableArray ser' a) := by
  cases a with
  | none => exact refines_writeByte (.int 0)
  | some l => exact refines_bind (refines_writeVarInt _ _) fun _ => refines_serializeAll h l

theorem refines_reversedHex (l : List Val) : Refines (WriterSteps.writeReversedHex l) (Writer.writeReversedHex l) := by
  induction l with
  | nil => exact refines_pure _
  | cons v l ih => exact refines_bind (refines_lift _) fun _ => refines_bind (refines_writeBytes _ _) fun _ => ih

theorem refines_writeHashes (l : List Val) : Refines (WriterSteps.writeHashes l) (Writer.writeHashes l) :=
  refines_bind (refines_writeVarInt _ _) fun _ => refines_reversedHex l

/-- A call whose result is not used. -/
def ignoreSteps (m : Steps α) : Steps Unit := m >>= fun _ => pure ()

theorem refines_ignore {m : Steps α} {m' : IOM α} (h : Refines m m') : Refines (ignoreSteps m) (ignore m') :=
  refines_bind h fun _ => refines_pure _

/-- The writer's methods divided into steps. -/
def WriteOp.steps : WriteOp → Steps Unit
  | .byte v => WriterSteps.writeByte v
  | .bytes v u => ignoreSteps (WriterSteps.writeBytes v u)
  | .bool v => ignoreSteps (WriterSteps.writeBool v)
  | .char v => ignoreSteps (WriterSteps.writeChar v)
  | .double b e => ignoreSteps (WriterSteps.writeDouble b e)
  | .i8 v e => ignoreSteps (WriterSteps.packInt 'b' e v)
  | .u8 v e => ignoreSteps (WriterSteps.packInt 'B' e v)
  | .i16 v e => ignoreSteps (WriterSteps.packInt 'h' e v)
  | .u16 v e => ignoreSteps (WriterSteps.packInt 'H' e v)
  | .i32 v e => ignoreSteps (WriterSteps.packInt 'i' e v)
  | .u32 v e => ignoreSteps (WriterSteps.packInt 'I' e v)
  | .i64 v e => ignoreSteps (WriterSteps.packInt 'q' e v)
  | .u64 v e => ignoreSteps (WriterSteps.packInt 'Q' e v)
  | .uint160 v => WriterSteps.writeUInt160 v
  | .uint256 v => WriterSteps.writeUInt256 v
  | .varInt v e => ignoreSteps (WriterSteps.writeVarInt v e)
  | .varBytes b e => ignoreSteps (WriterSteps.writeVarBytes b e)
  | .varString v => WriterSteps.writeVarString v
  | .fixedString s n => WriterSteps.writeFixedString s n
  | .list2000 l => WriterSteps.writeReversedHex l
  | .hashes l => WriterSteps.writeHashes l
  | .fixed8 n => ignoreSteps (WriterSteps.packInt 'q' .little (.int n))
  | .float v e => ignoreSteps (WriterSteps.packFloat .binary32 e v)
  | .doubleOf v e => ignoreSteps (WriterSteps.packFloat .binary64 e v)
  | .varBytesOf v e => ignoreSteps (WriterSteps.writeVarBytesOf v e)
  | .varStringEnc c v => WriterSteps.writeVarStringEnc c v

/-- A client of a writer divided into steps. -/
def WriteClient.steps : WriteClient → Steps Unit
  | .done => pure ()
  | .fail e => WriterSteps.raise e
  | .call o k => o.steps.after fun r => (k r).steps
  | .array n item k => (WriterSteps.writeSerializableArray (fun i => (item i).steps) (n.map List.range)).after fun r => (k r).steps

theorem refines_op (o : WriteOp) : Refines o.steps o.run := by
  cases o with
  | byte v => exact refines_writeByte v
  | bytes v u => exact refines_ignore (refines_writeBytes _ _)
  | bool v => exact refines_ignore (refines_writeBytes _ _)
  | char v => exact refines_ignore (refines_writeChar v)
  | double b e => exact refines_ignore (refines_writeBytes _ _)
  | i8 v e => exact refines_ignore (refines_packInt _ _ _)
  | u8 v e => exact refines_ignore (refines_packInt _ _ _)
  | i16 v e => exact refines_ignore (refines_packInt _ _ _)
  | u16 v e => exact refines_ignore (refines_packInt _ _ _)
  | i32 v e => exact refines_ignore (refines_packInt _ _ _)
  | u32 v e => exact refines_ignore (refines_packInt _ _ _)
  | i64 v e => exact refines_ignore (refines_packInt _ _ _)
  | u64 v e => exact refines_ignore (refines_packInt _ _ _)
  | uint160 v => exact refines_writeUInt160 v
  | uint256 v => exact refines_writeUInt256 v
  | varInt v e => exact refines_ignore (refines_writeVarInt _ _)
  | varBytes b e => exact refines_ignore (refines_writeVarBytes _ _)
  | varString v => exact refines_writeVarString v
  | fixedString s n => exact refines_writeFixedString s n
  | list2000 l => exact refines_reversedHex l
  | hashes l => exact refines_writeHashes l
  | fixed8 n => exact refines_ignore (refines_packInt _ _ _)
  | float v e => exact refines_ignore (refines_packFloat _ _ _)
  | doubleOf v e => exact refines_ignore (refines_packFloat _ _ _)
  | varBytesOf v e => exact refines_ignore (refines_writeVarBytesOf _ _)
  | varStringEnc c v => exact refines_writeVarStringEnc c v

/-- Every client of a writer, run alone step by step, does what it does. -/
theorem refines_client (c : WriteClient) : Refines c.steps c.run := by
  induction c with
  | done => exact refines_pure ()
  | fail e => exact refines_raise e
  | call o k ih => exact refines_after (k' := fun r => (k r).run) (refines_op o) ih
  | array n item k ih1 ih2 => exact refines_after (k' := fun r => (k r).run) (refines_array ih1 _) ih2

/-! ### C212 -/

/-- What the remaining steps write, and how they end. -/
def bytesOf : Steps α → Bytes
  | .ret _ => []
  | .write b k => b ++ bytesOf (k (.ok b.length))

def resultOf : Steps α → Except Err α
  | .ret r => r
  | .write b k => resultOf (k (.ok b.length))

theorem run_eq (m : Steps α) (s : Stream) : m.run s = (resultOf m, overwrite s (bytesOf m)) := by
  induction m generalizing s with
  | ret r => simp [Steps.run, Steps.runOn, resultOf, bytesOf, overwrite]
  | write b k ih =>
    show (k (Stream.write b s).1).run (Stream.write b s).2 = _
    rw [ih, write_overwrite, overwrite_append]
    rfl

theorem ofThread_append (i : Nat) (w w' : List (Nat × UInt8)) : ofThread i (w ++ w') = ofThread i w ++ ofThread i w' := by
  simp [ofThread]

theorem ofThread_same (i : Nat) (b : Bytes) : ofThread i (b.map fun x => (i, x)) = b := by
  unfold ofThread
  rw [List.filter_eq_self.2 (by simp), List.map_map]
  simp

theorem ofThread_other (i j : Nat) (h : j ≠ i) (b : Bytes) : ofThread i (b.map fun x => (j, x)) = [] := by
  unfold ofThread
  rw [List.filter_eq_nil_iff.2 (by simp [h])]
  rfl

theorem exec_written (sched : List Nat) (ts : List (Steps Unit)) (s : Stream) :
    ∃ w : List (Nat × UInt8), (exec sched ts s).2 = overwrite s (w.map Prod.snd) ∧ (∀ x ∈ w, x.1 < ts.length) ∧
      ∀ i t, ts[i]? = some t → ∃ t', (exec sched ts s).1[i]? = some t' ∧ bytesOf t = ofThread i w ++ bytesOf t' ∧ resultOf t' = resultOf t := by
  induction sched generalizing ts s with
  | nil => exact ⟨[], by simp [exec, overwrite], by simp, fun i t h => ⟨t, h, rfl, rfl⟩⟩
  | cons j sched ih =>
    rw [exec]
    unfold turn
    split
    · next b k hj =>
      rw [write_overwrite]
      obtain ⟨w, h1, h2, h3⟩ := ih (ts.set j (k (.ok b.length))) (overwrite s b)
      refine ⟨b.map (fun x => (j, x)) ++ w, ?_, ?_, ?_⟩
      · rw [h1, overwrite_append]
        simp
      · intro x hx
        rcases List.mem_append.1 hx with hx | hx
        · obtain ⟨y, -, rfl⟩ := List.mem_map.1 hx
          exact (List.getElem?_eq_some_iff.1 hj).1
        · simpa using h2 x hx
      · intro i t hi
        by_cases hij : j = i
        · subst hij
          rw [hj] at hi
          cases hi
          obtain ⟨t', g1, g2, g3⟩ := h3 j (k (.ok b.length)) (by rw [List.getElem?_set_self (List.getElem?_eq_some_iff.1 hj).1])
          refine ⟨t', g1, ?_, g3⟩
          rw [ofThread_append, ofThread_same, bytesOf, g2, List.append_assoc]
        · obtain ⟨t', g1, g2, g3⟩ := h3 i t (by rw [List.getElem?_set_ne hij, hi])
          refine ⟨t', g1, ?_, g3⟩
          rw [ofThread_append, ofThread_other i j hij, g2, List.nil_append]
    · exact ih ts s

/-- C212. However the threads are interleaved, every byte in the stream was written by one of them, none is lost, overwritten or
changed: those of each thread are in order a beginning of what it would have written alone, and all of it, with the same result,
when it has ended. -/
theorem C212_no_byte_lost (cs : List WriteClient) (sched : List Nat) (s : Stream) :
    ∃ w : List (Nat × UInt8), (exec sched (cs.map WriteClient.steps) s).2 = overwrite s (w.map Prod.snd) ∧ (∀ x ∈ w, x.1 < cs.length) ∧
      ∀ i c, cs[i]? = some c → ∃ r bs, (∀ s, c.run s = (r, overwrite s bs)) ∧ ofThread i w <+: bs ∧
        ∀ r', (exec sched (cs.map WriteClient.steps) s).1[i]? = some (.ret r') → r' = r ∧ ofThread i w = bs := by
  obtain ⟨w, h1, h2, h3⟩ := exec_written sched (cs.map WriteClient.steps) s
  refine ⟨w, h1, by simpa using h2, fun i c hi => ?_⟩
  obtain ⟨t', g1, g2, g3⟩ := h3 i c.steps (by simp [hi])
  refine ⟨resultOf c.steps, bytesOf c.steps, fun s => by rw [← refines_client c s, run_eq], g2 ▸ List.prefix_append _ _, fun r' hr => ?_⟩
  rw [hr] at g1
  cases g1
  exact ⟨g3, by rw [g2]; simp [bytesOf]⟩

/-- C212. Every thread that gets enough turns ends. -/
theorem C212_every_thread_ends (c : WriteClient) : ∃ n, ∀ (cs : List WriteClient) (i : Nat), cs[i]? = some c → ∀ (sched : List Nat) (s : Stream),
    n ≤ sched.count i → ∃ r, (exec sched (cs.map WriteClient.steps) s).1[i]? = some (.ret r) := by
  have key : ∀ t : Steps Unit, ∃ n, ∀ (ts : List (Steps Unit)) (i : Nat), ts[i]? = some t → ∀ (sched : List Nat) (s : Stream),
      n ≤ sched.count i → ∃ r, (exec sched ts s).1[i]? = some (.ret r) := by
    intro t
    induction t with
    | ret r =>
      refine ⟨0, fun ts i hi sched s _ => ?_⟩
      obtain ⟨w, -, -, h⟩ := exec_written sched ts s
      refine ⟨r, ?_⟩
      clear h w
      induction sched generalizing ts s with
      | nil => exact hi
      | cons j sched ih =>
        rw [exec]
        unfold turn
        split
        · next b k hj =>
          have hij : j ≠ i := by
            rintro rfl
            rw [hi] at hj
            cases hj
          exact ih _ (by rw [List.getElem?_set_ne hij, hi]) _ (Nat.zero_le _)
        · exact ih _ hi _ (Nat.zero_le _)
    | write b k ih =>
      obtain ⟨n, ih⟩ := ih (.ok b.length)
      refine ⟨n + 1, fun ts i hi sched => ?_⟩
      induction sched generalizing ts with
      | nil => intro s h; simp at h
      | cons j sched ihs =>
        intro s h
        rw [exec]
        by_cases hij : j = i
        · subst hij
          simp only [turn, hi, write_overwrite]
          exact ih _ _ (by rw [List.getElem?_set_self (List.getElem?_eq_some_iff.1 hi).1]) _ _ (by simpa using h)
        · have h' : n + 1 ≤ sched.count i := by simpa [List.count_cons, hij] using h
          unfold turn
          split
          · exact ihs _ (by rw [List.getElem?_set_ne hij, hi]) _ h'
          · exact ihs _ hi _ h'
  obtain ⟨n, h⟩ := key c.steps
  exact ⟨n, fun cs i hi => h _ _ (by simp [hi])⟩

/-! ### C211 -/

/-- Threads whose calls are not divided: whenever a thread gets its turn it performs its next call as a whole. -/
def callTurn (i : Nat) (cs : List WriteClient) (s : Stream) : List WriteClient × Stream :=
  match cs[i]? with
  | some (.call o k) => (cs.set i (k (o.run s).1), (o.run s).2)
  | some (.array n item k) =>
    (cs.set i (k (Writer.writeSerializableArray (fun i => (item i).run) (n.map List.range) s).1),
      (Writer.writeSerializableArray (fun i => (item i).run) (n.map List.range) s).2)
  | _ => (cs, s)

def callExec : List Nat → List WriteClient → Stream → List WriteClient × Stream
  | [], cs, s => (cs, s)
  | i :: sched, cs, s => callExec sched (callTurn i cs s).1 (callTurn i cs s).2

/-- How a client ended. -/
def WriteClient.ended : WriteClient → Option (Except Err Unit)
  | .done => some (.ok ())
  | .fail e => some (.error e)
  | _ => none

/-- The calls that write all their bytes at once. -/
def OneWrite : WriteOp → Prop
  | .varInt v _ => ∀ n, v.index? = some n → n < 0xfd
  | .fixedString s n => n ≤ (utf8 s).length
  | .list2000 l => l.length ≤ 1
  | .varBytes _ _ | .varBytesOf _ _ | .varString _ | .varStringEnc _ _ | .hashes _ => False
  | _ => True

/-- A client that only makes such calls. -/
def WriteClient.OneWrites : WriteClient → Prop
  | .done => True
  | .fail _ => True
  | .call o k => OneWrite o ∧ ∀ r, (k r).OneWrites
  | .array _ _ _ => False

/-- At most one call of `stream.write`. -/
def One (m : Steps α) : Prop := (∃ r, m = .ret r) ∨ ∃ (b : Bytes) (f : Except Err Nat → Except Err α), m = .write b fun x => .ret (f x)

theorem one_ret (r : Except Err α) : One (.ret r) := .inl ⟨r, rfl⟩

theorem one_map {m : Steps α} (h : One m) (f : α → β) : One (m >>= fun a => (pure (f a) : Steps β)) := by
  rcases h with ⟨r, rfl⟩ | ⟨b, g, rfl⟩
  · cases r
    · exact .inl ⟨_, rfl⟩
    · exact .inl ⟨_, rfl⟩
  · refine .inr ⟨b, fun x => match g x with | .ok b => .ok (f b) | .error e => .error e, ?_⟩
    show Steps.write b _ = _
    congr 1
    funext x
    show Steps.bind (.ret (g x)) _ = _
    cases hg : g x <;> simp only [hg] <;> rfl

theorem one_streamWrite (b : Bytes) : One (WriterSteps.streamWrite b) := .inr ⟨b, _, rfl⟩

theorem one_streamWriteVal (v : Val) : One (WriterSteps.streamWriteVal v) := by
  cases v with
  | bytes b => exact one_streamWrite b
  | bytearray b => exact one_streamWrite b
  | _ => exact one_ret _

theorem one_ite {c : Prop} [Decidable c] {a b : Steps α} (ha : c → One a) (hb : ¬ c → One b) : One (if c then a else b) := by
  split
  · exact ha ‹_›
  · exact hb ‹_›

theorem one_writeByte (v : Val) : One (WriterSteps.writeByte v) := by
  cases v with
  | bytes b => exact one_map (one_streamWrite _) _
  | str s => exact one_map (one_streamWrite _) _
  | int n => exact one_ite (fun _ => one_map (one_streamWrite _) _) fun _ => one_ret _
  | _ => exact one_ret _

theorem one_writeBytes (v : Val) (u : Bool) : One (WriterSteps.writeBytes v u) := by
  unfold WriterSteps.writeBytes
  refine one_ite (fun _ => ?_) fun _ => one_streamWriteVal _
  cases unhexlifyVal v with
  | ok b => exact one_streamWrite _
  | error e => cases e <;> first | exact one_streamWriteVal _ | exact one_ret _

theorem one_packInt (c : Char) (e : Endian) (v : Val) : One (WriterSteps.packInt c e v) := by
  unfold WriterSteps.packInt
  split
  · exact one_writeBytes _ _
  · exact one_ret _

theorem one_packFloat (f : FloatFmt) (e : Endian) (v : FloatArg) : One (WriterSteps.packFloat f e v) := by
  unfold WriterSteps.packFloat
  split
  · exact one_writeBytes _ _
  · exact one_ret _

theorem one_ignore {m : Steps α} (h : One m) : One (ignoreSteps m) := one_map h _

theorem one_op (o : WriteOp) (h : OneWrite o) : One o.steps := by
  cases o with
  | byte v => exact one_writeByte v
  | bytes v u => exact one_ignore (one_writeBytes _ _)
  | bool v => exact one_ignore (one_writeBytes _ _)
  | char v =>
    refine one_ignore ?_
    unfold WriterSteps.writeChar
    split
    · exact one_writeBytes _ _
    · exact one_ret _
  | double b e => exact one_ignore (one_writeBytes _ _)
  | i8 v e => exact one_ignore (one_packInt _ _ _)
  | u8 v e => exact one_ignore (one_packInt _ _ _)
  | i16 v e => exact one_ignore (one_packInt _ _ _)
  | u16 v e => exact one_ignore (one_packInt _ _ _)
  | i32 v e => exact one_ignore (one_packInt _ _ _)
  | u32 v e => exact one_ignore (one_packInt _ _ _)
  | i64 v e => exact one_ignore (one_packInt _ _ _)
  | u64 v e => exact one_ignore (one_packInt _ _ _)
  | uint160 v =>
    show One (WriterSteps.writeUInt160 v)
    unfold WriterSteps.writeUInt160
    split
    · exact one_map (one_writeBytes _ _) _
    · exact one_ret _
  | uint256 v =>
    show One (WriterSteps.writeUInt256 v)
    unfold WriterSteps.writeUInt256
    split
    · exact one_map (one_writeBytes _ _) _
    · exact one_ret _
  | varInt v e =>
    refine one_ignore ?_
    unfold WriterSteps.writeVarInt
    cases hv : v.index? with
    | none => exact one_ret _
    | some n =>
      refine one_ite (fun _ => one_ret _) fun _ => one_ite (fun _ => one_map (one_writeByte _) _) fun hn => absurd (h n hv) hn
  | fixedString s n =>
    refine one_ite (fun _ => one_ret _) fun _ => ?_
    have h0 : n - ((utf8 s).length : Int) ≤ 0 := by
      simp only [OneWrite] at h
      omega
    rw [Int.toNat_of_nonpos h0]
    exact one_map (one_writeBytes _ _) _
  | list2000 l =>
    match l, h with
    | [], _ => exact one_ret _
    | [v], _ =>
      show One (WriterSteps.lift (unhexlifyVal v) >>= _)
      cases unhexlifyVal v with
      | error e => exact one_ret _
      | ok b => exact one_map (one_writeBytes (.bytearray b.reverse) true) _
    | _ :: _ :: _, h => simp [OneWrite] at h
  | fixed8 n => exact one_ignore (one_packInt _ _ _)
  | float v e => exact one_ignore (one_packFloat _ _ _)
  | doubleOf v e => exact one_ignore (one_packFloat _ _ _)
  | varBytes | varString | varStringEnc | varBytesOf | hashes => exact h.elim

/-- Turns one after another. -/
theorem callExec_append (a b : List Nat) (cs : List WriteClient) (s : Stream) :
    callExec (a ++ b) cs s = callExec b (callExec a cs s).1 (callExec a cs s).2 := by
  induction a generalizing cs s with
  | nil => rfl
  | cons i a ih => exact ih _ _

private theorem set_self {cs : List α} {i : Nat} {c : α} (h : cs[i]? = some c) : cs.set i c = cs := by
  obtain ⟨h1, h2⟩ := List.getElem?_eq_some_iff.1 h
  rw [← h2, List.set_getElem_self]

private theorem call_turn {o : WriteOp} {k : Except Err Unit → WriteClient} {cs : List WriteClient} {i : Nat} (hi : cs[i]? = some (.call o k))
    (s : Stream) : callTurn i cs s = (cs.set i (k (resultOf o.steps)), overwrite s (bytesOf o.steps)) := by
  simp only [callTurn, hi]
  rw [← refines_op o s, run_eq]

/-- A thread that ends without writing anything more can be brought to its end. -/
private theorem call_end (c : WriteClient) (hc : c.OneWrites) (r : Except Err Unit) (h : c.steps = .ret r) (cs : List WriteClient) (i : Nat)
    (hi : cs[i]? = some c) (s : Stream) : ∃ τ c', callExec τ cs s = (cs.set i c', s) ∧ c'.ended = some r := by
  induction c generalizing cs with
  | done => cases h; exact ⟨[], .done, by rw [callExec, set_self hi], rfl⟩
  | fail e => cases h; exact ⟨[], .fail e, by rw [callExec, set_self hi], rfl⟩
  | call o k ih =>
    have ho := one_op o hc.1
    rw [WriteClient.steps] at h
    have ht := call_turn hi s
    rcases ho with ⟨r0, ho⟩ | ⟨b, r0, ho⟩
    · rw [ho] at h ht
      obtain ⟨τ, c', g1, g2⟩ := ih r0 (hc.2 r0) h (cs.set i (k r0)) (List.getElem?_set_self (List.getElem?_eq_some_iff.1 hi).1)
      refine ⟨i :: τ, c', ?_, g2⟩
      rw [callExec, ht]
      simp only [resultOf, bytesOf, overwrite, if_true]
      rw [g1, List.set_set]
    · rw [ho] at h
      cases h
  | array n item k ih1 ih2 => exact hc.elim

/-- The next step of a thread is the next call of it that writes something. -/
private theorem call_write (c : WriteClient) (hc : c.OneWrites) (b : Bytes) (t : Except Err Nat → Steps Unit) (h : c.steps = .write b t) (cs : List WriteClient)
    (i : Nat) (hi : cs[i]? = some c) (s : Stream) :
    ∃ τ c', callExec τ cs s = (cs.set i c', overwrite s b) ∧ c'.steps = t (.ok b.length) ∧ c'.OneWrites := by
  induction c generalizing cs with
  | done => cases h
  | fail e => cases h
  | call o k ih =>
    have ho := one_op o hc.1
    rw [WriteClient.steps] at h
    have ht := call_turn hi s
    rcases ho with ⟨r0, ho⟩ | ⟨b', r0, ho⟩
    · rw [ho] at h ht
      obtain ⟨τ, c', g1, g2⟩ := ih r0 (hc.2 r0) h (cs.set i (k r0)) (List.getElem?_set_self (List.getElem?_eq_some_iff.1 hi).1)
      refine ⟨i :: τ, c', ?_, g2⟩
      rw [callExec, ht]
      simp only [resultOf, bytesOf, overwrite, if_true] at g1 ⊢
      rw [g1, List.set_set]
    · rw [ho] at h ht
      cases h
      refine ⟨[i], k (r0 (.ok b.length)), ?_, rfl, hc.2 _⟩
      rw [callExec, ht, callExec]
      simp only [resultOf, bytesOf, List.append_nil]
  | array n item k ih1 ih2 => exact hc.elim

private theorem mem_set_of {cs : List α} {P : α → Prop} (h : ∀ c ∈ cs, P c) (i : Nat) {c : α} (hc : P c) : ∀ x ∈ cs.set i c, P x := by
  intro x hx
  rcases List.mem_or_eq_of_mem_set hx with hx | rfl
  · exact h x hx
  · exact hc

/-- Every interleaving of steps is one of calls. -/
private theorem exec_calls (sched : List Nat) (cs : List WriteClient) (hc : ∀ c ∈ cs, c.OneWrites) (s : Stream) :
    ∃ τ cs', callExec τ cs s = (cs', (exec sched (cs.map WriteClient.steps) s).2) ∧
      cs'.map WriteClient.steps = (exec sched (cs.map WriteClient.steps) s).1 ∧ ∀ c ∈ cs', c.OneWrites := by
  induction sched generalizing cs s with
  | nil => exact ⟨[], cs, rfl, rfl, hc⟩
  | cons j sched ih =>
    rw [exec]
    unfold turn
    split
    · next b t hj =>
      rw [List.getElem?_map] at hj
      obtain ⟨c, hcj, hct⟩ := Option.map_eq_some_iff.1 hj
      obtain ⟨τ, c', g1, g2, g3⟩ := call_write c (hc c (List.mem_of_getElem? hcj)) b t hct cs j hcj s
      obtain ⟨τ', cs', f1, f2, f3⟩ := ih (cs.set j c') (mem_set_of hc j g3) (overwrite s b)
      rw [List.map_set, g2] at f1 f2
      rw [write_overwrite]
      exact ⟨τ ++ τ', cs', by rw [callExec_append, g1]; exact f1, f2, f3⟩
    · exact ih cs hc s

/-- C211 for threads whose calls write all their bytes at once (numbers of fixed width, bools, floats, amounts, UInt160, UInt256,
raw bytes, small variable-length numbers): however the threads are interleaved, when they have ended the stream and all results are
those of performing the calls one after another as a whole, in some order that respects the order of each thread. -/
theorem C211_one_write_partial (cs : List WriteClient) (hc : ∀ c ∈ cs, c.OneWrites) (sched : List Nat) (s s' : Stream)
    (rs : List (Except Err Unit)) (h : exec sched (cs.map WriteClient.steps) s = (rs.map .ret, s')) :
    ∃ τ cs', callExec τ cs s = (cs', s') ∧ cs'.map WriteClient.ended = rs.map some := by
  obtain ⟨τ, cs', h1, h2, h3⟩ := exec_calls sched cs hc s
  rw [h] at h1 h2
  have hlen : cs'.length = rs.length := by simpa using congrArg List.length h2
  have key : ∀ n ≤ rs.length, ∃ τ' cs'', callExec τ' cs' s' = (cs'', s') ∧ (cs''.take n).map WriteClient.ended = (rs.take n).map some ∧
      cs''.drop n = cs'.drop n := by
    intro n
    induction n with
    | zero => exact fun _ => ⟨[], cs', rfl, rfl, rfl⟩
    | succ n ih =>
      intro hn
      obtain ⟨τ', cs'', f1, f2, f3⟩ := ih (by omega)
      have hn' : n < cs'.length := by omega
      have hl : cs''.length = cs'.length := by
        have h1 := congrArg List.length f2
        have h2 := congrArg List.length f3
        simp only [List.length_map, List.length_take, List.length_drop] at h1 h2
        omega
      have hget : cs''[n]? = some cs'[n] := by
        have := congrArg List.head? f3
        rw [List.head?_drop, List.head?_drop, List.getElem?_eq_getElem hn'] at this
        exact this
      have hst : cs'[n].steps = .ret (rs[n]'(by omega)) := by
        have := congrArg (·[n]?) h2
        simp only [List.getElem?_map, List.getElem?_eq_getElem hn', List.getElem?_eq_getElem (show n < rs.length by omega), Option.map_some,
          Option.some.injEq] at this
        exact this
      obtain ⟨τ2, c', g1, g2⟩ := call_end cs'[n] (h3 _ (List.getElem_mem _)) _ hst cs'' n hget s'
      refine ⟨τ' ++ τ2, cs''.set n c', ?_, ?_, ?_⟩
      · rw [callExec_append, f1]
        exact g1
      · rw [List.take_succ_eq_append_getElem (by simpa [hl] using hn'), List.take_succ_eq_append_getElem (by omega : n < rs.length), List.map_append,
          List.map_append, List.take_set_of_le (le_refl n), f2]
        simp [g2]
      · rw [List.drop_set_of_lt (by omega)]
        have := congrArg List.tail f3
        rwa [List.tail_drop, List.tail_drop] at this
  obtain ⟨τ', cs'', f1, f2, f3⟩ := key rs.length (le_refl _)
  have hl : cs''.length ≤ rs.length := by
    have := congrArg List.length f3
    simp only [List.length_drop] at this
    omega
  refine ⟨τ ++ τ', cs'', by rw [callExec_append, h1]; exact f1, ?_⟩
  rwa [List.take_of_length_le hl, List.take_length] at f2

/-- What follows a call of `stream.write`: an exception ends the call of the writer (the thread goes on, and ends). -/
private def andThen (m : Steps Unit) : Except Err Nat → Steps Unit
  | .ok _ => m
  | .error _ => .ret (.ok ())

private theorem write_andThen (b : Bytes) {m : Steps Unit} {k : Except Err Nat → Steps Unit} (h : ∀ n, k (.ok n) = m)
    (h' : ∀ e, k (.error e) = .ret (.ok ())) : Steps.write b k = .write b (andThen m) := by
  congr 1
  funext r
  cases r
  · exact h' _
  · exact h _

/-- The steps of WriteVarBytes of few bytes. -/
private theorem steps_varBytes (b : Bytes) (h : b.length < 0xfd) :
    (WriteClient.call (.varBytes b .little) fun _ => .done).steps =
      .write [UInt8.ofNat b.length] (andThen (.write b (andThen (.ret (.ok ()))))) := by
  have h1 : ¬ ((b.length : Int) < 0) := by omega
  have h2 : (b.length : Int) < 0xfd := by omega
  have h3 : (0 : Int) ≤ b.length ∧ (b.length : Int) ≤ 255 := by omega
  simp only [WriteClient.steps, WriteOp.steps, WriterSteps.writeVarBytes, WriterSteps.writeVarInt, Val.index?, if_neg h1, if_pos h2,
    WriterSteps.writeByte, if_pos h3]
  exact write_andThen _ (fun _ => write_andThen _ (fun _ => rfl) fun _ => rfl) fun _ => rfl

/-- Two threads of two steps, in turn. -/
private theorem in_turn (a a' b b' : Bytes) : exec [0, 1, 0, 1] [.write a (andThen (.write a' (andThen (.ret (.ok ()))))),
    .write b (andThen (.write b' (andThen (.ret (.ok ())))))] ⟨[], 0⟩ =
    ([.ret (.ok ()), .ret (.ok ())], ⟨a ++ b ++ a' ++ b', (a ++ b ++ a' ++ b').length⟩) := by
  simp only [exec, turn, List.getElem?_cons_zero, List.getElem?_cons_succ, List.set_cons_zero, List.set_cons_succ, write_overwrite, overwrite_append,
    andThen]
  rw [show (⟨[], 0⟩ : Stream) = ⟨[], ([] : Bytes).length⟩ from rfl, overwrite_end]
  simp

/-- C211 fails for byte strings: two threads that write a byte string each may leave bytes that are read back as neither of
them, but as a byte string that begins with the length of the other one. -/
theorem C211_varbytes_violated (a b : Bytes) (ha : 0 < a.length) (ha' : a.length < 0xfd) (hb' : b.length < 0xfd) :
    ∃ sched s', exec sched [(WriteClient.call (.varBytes a .little) fun _ => .done).steps, (WriteClient.call (.varBytes b .little) fun _ => .done).steps]
      ⟨[], 0⟩ = ([.ret (.ok ()), .ret (.ok ())], s') ∧
      ∃ s'', Reader.readVarBytes maxsize ⟨s'.buf, 0⟩ = (.ok (UInt8.ofNat b.length :: a.dropLast), s'') := by
  refine ⟨[0, 1, 0, 1], _, by rw [steps_varBytes a ha', steps_varBytes b hb']; exact in_turn _ _ _ _, ?_⟩
  have hlen : (UInt8.ofNat b.length :: a.dropLast).length = a.length := by simp; omega
  have hy := yields_readVarBytes (UInt8.ofNat b.length :: a.dropLast) maxsize (by rw [hlen]; simp only [maxsize]; omega)
    (by rw [hlen]; simp only [maxsize]; omega) [] (a.getLast (by rintro rfl; simp at ha) :: b)
  rw [hlen, varIntBytes, if_pos ha'] at hy
  have : [UInt8.ofNat a.length] ++ [UInt8.ofNat b.length] ++ a ++ b =
      [] ++ ([UInt8.ofNat a.length] ++ UInt8.ofNat b.length :: a.dropLast) ++ (a.getLast (by rintro rfl; simp at ha) :: b) := by
    have e := List.dropLast_append_getLast (l := a) (by rintro rfl; simp at ha)
    have key : ∀ (x y l : UInt8) (d : Bytes), [x] ++ [y] ++ (d ++ [l]) ++ b = [] ++ ([x] ++ y :: d) ++ (l :: b) := by simp
    rw [← key, e]
  simp only [this]
  exact ⟨_, hy⟩

private theorem pack_two (n : Nat) (h' : n ≤ 0xffff) : structPackInt 'H' .little (.int n) = .ok (natToLE 2 n) :=
  structPack_nat (w := 2) rfl .little rfl (by omega)

private theorem write_fd : WriterSteps.writeByte (.int 0xfd) = (WriterSteps.streamWrite [0xfd]).bind fun _ => .ret (.ok ()) := by
  have h5 : (0 : Int) ≤ 0xfd ∧ (0xfd : Int) ≤ 255 := by decide
  rw [WriterSteps.writeByte, if_pos h5]
  rfl

private theorem varInt_two (n : Nat) (h : 0xfd ≤ n) (h' : n ≤ 0xffff) : WriterSteps.writeVarInt (.int n) .little =
    (WriterSteps.writeByte (.int 0xfd)).bind fun _ => (WriterSteps.packInt 'H' .little (.int n)).bind fun k => .ret (.ok (some k)) := by
  have h1 : ¬ ((n : Int) < 0) := by omega
  have h2 : ¬ ((n : Int) < 0xfd) := by omega
  have h3 : (n : Int) ≤ 0xffff := by omega
  simp only [WriterSteps.writeVarInt, Val.index?, if_neg h1, if_neg h2, if_pos h3]
  generalize WriterSteps.packInt 'H' .little (.int n) = d
  rfl

/-- The steps of WriteVarInt of a number of two bytes. -/
private theorem steps_varInt (n : Nat) (h : 0xfd ≤ n) (h' : n ≤ 0xffff) :
    (WriteClient.call (.varInt (.int n) .little) fun _ => .done).steps =
      .write [0xfd] (andThen (.write (natToLE 2 n) (andThen (.ret (.ok ()))))) := by
  rw [WriteClient.steps, WriteOp.steps, varInt_two n h h', write_fd, WriterSteps.packInt, pack_two n h']
  generalize natToLE 2 n = d
  exact write_andThen _ (fun _ => write_andThen _ (fun _ => rfl) fun _ => rfl) fun _ => rfl

/-- C211 fails for variable-length numbers: two threads that write a number each may leave bytes that are read back as another
number. -/
theorem C211_varint_violated (n m : Nat) (hn : 0xfd ≤ n) (hn' : n ≤ 0xffff) (hm : 0xfd ≤ m) (hm' : m ≤ 0xffff) :
    ∃ sched s', exec sched [(WriteClient.call (.varInt (.int n) .little) fun _ => .done).steps, (WriteClient.call (.varInt (.int m) .little) fun _ => .done).steps]
      ⟨[], 0⟩ = ([.ret (.ok ()), .ret (.ok ())], s') ∧
      ∃ s'', Reader.readVarInt maxsize ⟨s'.buf, 0⟩ = (.ok (0xfd + 256 * (n % 256 : Nat)), s'') := by
  refine ⟨[0, 1, 0, 1], _, by rw [steps_varInt n hn hn', steps_varInt m hm hm']; exact in_turn _ _ _ _, ?_⟩
  have hy := yields_readVarInt (0xfd + 256 * (n % 256)) (by omega) maxsize (by simp only [maxsize]; omega) []
    (natToLE 1 (n / 256) ++ natToLE 2 m)
  have hb : varIntBytes .little (0xfd + 256 * (n % 256)) = [0xfd, 0xfd, UInt8.ofNat (n % 256)] := by
    have e1 : (0xfd + 256 * (n % 256)) % 256 = 0xfd := by omega
    have e2 : (0xfd + 256 * (n % 256)) / 256 = n % 256 := by omega
    have e3 : ¬ 0xfd + 256 * (n % 256) < 0xfd := by omega
    have e4 : 0xfd + 256 * (n % 256) ≤ 0xffff := by omega
    rw [varIntBytes, if_neg e3, if_pos e4]
    simp only [Endian.arrange, natToLE, e1, e2, Nat.mod_mod]
    rfl
  rw [hb] at hy
  have e : ([253] ++ [253] ++ natToLE 2 n ++ natToLE 2 m : Bytes) = [] ++ [253, 253, UInt8.ofNat (n % 256)] ++ (natToLE 1 (n / 256) ++ natToLE 2 m) := by
    simp [natToLE]
  have e' : ((0xfd + 256 * (n % 256) : Nat) : Int) = 0xfd + 256 * ((n % 256 : Nat) : Int) := by push_cast; rfl
  rw [e'] at hy
  simp only [e]
  exact ⟨_, hy⟩

/-- Threads of the two kinds. -/
example : (∀ c ∈ [WriteClient.call (.u32 (.int 7) .little) (fun _ => .call (.fixed8 5) fun _ => .done), .call (.bytes (.bytes [1, 2]) false) fun _ => .done],
    c.OneWrites) ∧
    exec [1, 0, 0] ([WriteClient.call (.u32 (.int 7) .little) (fun _ => .call (.fixed8 5) fun _ => .done),
      .call (.bytes (.bytes [1, 2]) false) fun _ => .done].map WriteClient.steps) ⟨[], 0⟩ =
      ([.ok (), .ok ()].map .ret, ⟨[1, 2, 7, 0, 0, 0, 5, 0, 0, 0, 0, 0, 0, 0], 14⟩) := by
  refine ⟨?_, rfl⟩
  intro c hc
  rcases List.mem_cons.1 hc with rfl | hc
  · exact ⟨trivial, fun _ => ⟨trivial, fun _ => trivial⟩⟩
  · rw [List.mem_singleton.1 hc]
    exact ⟨trivial, fun _ => trivial⟩

example : (0 < ([5, 6] : Bytes).length ∧ ([5, 6] : Bytes).length < 0xfd ∧ ([7, 8, 9] : Bytes).length < 0xfd) ∧
    UInt8.ofNat ([7, 8, 9] : Bytes).length :: ([5, 6] : Bytes).dropLast = [3, 5] := by decide

end Neo.Props
