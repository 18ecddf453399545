import Verif.Proofs.ReaderSteps

/-! # C215, C216: readers of other streams, that raise or deliver fewer bytes -/

namespace Neo.Props
open Py
open ReaderSteps (Steps)

/-! ### C215 -/

/-- What `stream.read` answers to the calls a computation makes, in order; the stream may be any object with a method `read`. -/
def answers (src : Int → σ → Except Err Bytes × σ) : Steps α → σ → List (Except Err Bytes)
  | .ret _, _ => []
  | .read n k, s => (src n s).1 :: answers src (k (src n s).1) (src n s).2

/-- Every exception of the stream is passed on. -/
def Reports (m : Steps α) : Prop :=
  ∀ (σ : Type) (src : Int → σ → Except Err Bytes × σ) (s : σ) (e : Err), .error e ∈ answers src m s → (m.runOn src s).1 = .error e

/-- Every exception of the stream, other than of the first `read`, is passed on. -/
def ReportsLater (m : Steps α) : Prop :=
  ∀ (σ : Type) (src : Int → σ → Except Err Bytes × σ) (s : σ) (e : Err), .error e ∈ (answers src m s).tail → (m.runOn src s).1 = .error e

theorem reports_ret (r : Except Err α) : Reports (.ret r) := fun _ _ _ _ h => by cases h

theorem reports_later {m : Steps α} (h : Reports m) : ReportsLater m := fun σ src s e he => h σ src s e (List.mem_of_mem_tail he)

theorem answers_bind (src : Int → σ → Except Err Bytes × σ) (m : Steps α) (f : α → Steps β) (s : σ) :
    answers src (m >>= f : Steps β) s = answers src m s ++
      match m.runOn src s with
      | (.ok a, s') => answers src (f a) s'
      | (.error _, _) => [] := by
  induction m generalizing s with
  | ret r => cases r <;> rfl
  | read n k ih => exact congrArg _ (ih _ _)

theorem answers_after (src : Int → σ → Except Err Bytes × σ) (m : Steps α) (f : Except Err α → Steps β) (s : σ) :
    answers src (m.after f) s = answers src m s ++ answers src (f (m.runOn src s).1) (m.runOn src s).2 := by
  induction m generalizing s with
  | ret r => rfl
  | read n k ih => exact congrArg _ (ih _ _)

theorem reports_read (n : Int) : Reports (ReaderSteps.streamRead n) := by
  intro σ src s e h
  simp only [ReaderSteps.streamRead, answers, List.mem_singleton] at h
  exact h.symm

theorem reports_bind {m : Steps α} {f : α → Steps β} (h : Reports m) (hf : ∀ a, Reports (f a)) : Reports (m >>= f) := by
  intro σ src s e he
  rw [answers_bind] at he
  rw [runOn_bind]
  rcases hr : m.runOn src s with ⟨r, s'⟩
  rw [hr] at he
  rcases List.mem_append.1 he with he | he
  · have := h σ src s e he
    rw [hr] at this
    simp only at this
    subst this
    rfl
  · cases r with
    | ok a => exact hf a σ src s' e he
    | error e' => cases he

/-- After a `read` the exceptions of which are not passed on, everything that follows passes them on. -/
theorem reportsLater_bind {m : Steps α} {f : α → Steps β} (h : ReportsLater m) (hm : ∀ (σ : Type) (src : Int → σ → Except Err Bytes × σ) (s : σ), answers src m s ≠ [])
    (hf : ∀ a, Reports (f a)) : ReportsLater (m >>= f) := by
  intro σ src s e he
  rw [answers_bind, List.tail_append_of_ne_nil (hm σ src s)] at he
  rw [runOn_bind]
  rcases hr : m.runOn src s with ⟨r, s'⟩
  rw [hr] at he
  rcases List.mem_append.1 he with he | he
  · have := h σ src s e he
    rw [hr] at this
    simp only at this
    subst this
    rfl
  · cases r with
    | ok a => exact hf a σ src s' e he
    | error e' => cases he

theorem reports_ite {c : Prop} [Decidable c] {a b : Steps α} (ha : Reports a) (hb : Reports b) : Reports (if c then a else b) := by
  split <;> assumption

theorem reports_map (f : α → Out) {m : Steps α} (h : Reports m) : Reports (mapSteps f m) := reports_bind h fun _ => reports_ret _

theorem reports_unpackInt (c : Char) (e : Endian) (n : Nat) : Reports (ReaderSteps.unpackInt c e n) :=
  reports_bind (reports_read _) fun _ => reports_ret _

theorem reports_unpackStr (n k : Nat) : Reports (ReaderSteps.unpackStr n k) :=
  reports_bind (reports_read _) fun _ => reports_ite (reports_ret _) (reports_ret _)

theorem reports_unpackFloat (f : FloatFmt) (e : Endian) (n : Nat) : Reports (ReaderSteps.unpackFloat f e n) :=
  reports_bind (reports_read _) fun _ => reports_ret _

theorem reports_hexItems (k : Nat) : Reports (ReaderSteps.readHexItems k) := by
  induction k with
  | zero => exact reports_ret _
  | succ k ih => exact reports_bind (reports_read _) fun _ => reports_bind (reports_ret _) fun _ => reports_bind ih fun _ => reports_ret _

theorem reports_hashItems (k : Nat) : Reports (ReaderSteps.readHashItems k) := by
  induction k with
  | zero => exact reports_ret _
  | succ k ih => exact reports_bind (reports_read _) fun _ => reports_bind ih fun _ => reports_ret _

private theorem byte_answers (σ : Type) (src : Int → σ → Except Err Bytes × σ) (s : σ) : answers src ReaderSteps.readByte s = [(src 1 s).1] := by
  unfold ReaderSteps.readByte ReaderSteps.tryExcept
  rw [answers_after, answers_bind]
  rcases hr : src 1 s with ⟨r, s'⟩
  have e : (ReaderSteps.streamRead 1).runOn src s = (r, s') := hr
  have e' : answers src (ReaderSteps.streamRead 1) s = [r] := by simp [ReaderSteps.streamRead, answers, hr]
  rw [e, e', runOn_bind, e]
  cases r with
  | error e => rfl
  | ok b =>
    match b with
    | [b] => rfl
    | [] => rfl
    | _ :: _ :: _ => rfl

theorem reportsLater_varInt (max : Int) : ReportsLater (ReaderSteps.readVarInt max) := by
  refine reportsLater_bind ?_ (fun σ src s => by rw [byte_answers]; simp) fun fb => reports_ite (reports_ret _) (reports_bind ?_ fun v => reports_ite (reports_ret _) (reports_ret _))
  · intro σ src s e h
    rw [byte_answers] at h
    cases h
  · exact reports_ite (reports_unpackInt _ _ _) (reports_ite (reports_unpackInt _ _ _) (reports_ite (reports_unpackInt _ _ _) (reports_ret _)))

private theorem varInt_answers (max : Int) (σ : Type) (src : Int → σ → Except Err Bytes × σ) (s : σ) : answers src (ReaderSteps.readVarInt max) s ≠ [] := by
  have e : answers src (ReaderSteps.readVarInt max) s = _ := answers_bind src ReaderSteps.readByte _ s
  rw [e, byte_answers]
  simp

/-- The calls that begin with ReadByte. -/
def StartsWithByte : ReadOp → Prop
  | .byte | .byteRaw | .varInt _ | .varBytes _ | .varString _ | .hashes => True
  | _ => False

theorem reports_op (o : ReadOp) (h : ¬ StartsWithByte o) : Reports o.steps := by
  cases o with
  | byte | byteRaw | varInt | varBytes | varString | hashes => exact (h trivial).elim
  | bytes n => exact reports_map _ (reports_read _)
  | safeBytes n => exact reports_map _ (reports_bind (reports_read _) fun _ => reports_ite (reports_ret _) (reports_ret _))
  | bool =>
    refine reports_map _ (reports_bind (reports_read _) fun bs => ?_)
    match bs with
    | [b] => exact reports_ret _
    | [] => exact reports_ret _
    | _ :: _ :: _ => exact reports_ret _
  | char =>
    refine reports_map _ (reports_bind (reports_read _) fun bs => ?_)
    match bs with
    | [b] => exact reports_ret _
    | [] => exact reports_ret _
    | _ :: _ :: _ => exact reports_ret _
  | double e => exact reports_map _ (reports_bind (reports_read _) fun _ => reports_ite (reports_ret _) (reports_ret _))
  | i8 | u8 | i16 | u16 | i32 | u32 | i64 | u64 | fixed8 => exact reports_map _ (reports_unpackInt _ _ _)
  | string => exact reports_map _ (reports_bind (reports_unpackInt _ _ _) fun _ => reports_unpackStr _ _)
  | fixedString n => exact reports_map _ (reports_bind (reports_read _) fun _ => reports_ret _)
  | uint256 | uint160 => exact reports_map _ (reports_bind (reports_read _) fun _ => reports_ret _)
  | list2000 => exact reports_map _ (reports_hexItems _)
  | float | doubleVal => exact reports_map _ (reports_unpackFloat _ _ _)

private theorem varIntFirst {f : Int → Steps α} (hf : ∀ n, Reports (f n)) (g : α → Out) (max : Int) :
    ReportsLater (mapSteps g (ReaderSteps.readVarInt max >>= f)) := by
  refine reportsLater_bind (reportsLater_bind (reportsLater_varInt max) (varInt_answers max) hf) (fun σ src s => ?_) fun _ => reports_ret _
  rw [answers_bind]
  have := varInt_answers max σ src s
  simp [this]

/-- C215 for all calls that do not begin with ReadByte: whatever the stream is, an exception it raises is passed on to the caller;
and for the calls that do begin with ReadByte, every exception but one of this first byte. -/
theorem C215_reported_partial {σ : Type} (o : ReadOp) (src : Int → σ → Except Err Bytes × σ) (s : σ) (e : Err) :
    (¬ StartsWithByte o → .error e ∈ answers src o.steps s → (o.steps.runOn src s).1 = .error e) ∧
    (.error e ∈ (answers src o.steps s).tail → (o.steps.runOn src s).1 = .error e) := by
  refine ⟨fun h => reports_op o h σ src s e, ?_⟩
  by_cases h : StartsWithByte o
  · have key : ReportsLater o.steps := by
      cases o with
      | byte =>
        refine reportsLater_bind (fun σ src s e h => ?_) (fun σ src s => by rw [byte_answers]; simp) fun _ => reports_ret _
        rw [byte_answers] at h
        cases h
      | byteRaw =>
        have ha : ∀ (σ : Type) (src : Int → σ → Except Err Bytes × σ) (s : σ), answers src ReaderSteps.readByteRaw s = [(src 1 s).1] := by
          intro σ src s
          unfold ReaderSteps.readByteRaw ReaderSteps.tryExcept
          rw [answers_after, answers_bind]
          rcases hr : src 1 s with ⟨r, s'⟩
          have e : (ReaderSteps.streamRead 1).runOn src s = (r, s') := hr
          have e' : answers src (ReaderSteps.streamRead 1) s = [r] := by simp [ReaderSteps.streamRead, answers, hr]
          rw [e, e', runOn_bind, e]
          cases r <;> rfl
        refine reportsLater_bind (fun σ src s e h => ?_) (fun σ src s => by rw [ha]; simp) fun _ => reports_ret _
        rw [ha] at h
        cases h
      | varInt max => exact reportsLater_bind (reportsLater_varInt max) (varInt_answers max) fun _ => reports_ret _
      | varBytes max => exact varIntFirst (fun n => reports_read n) _ max
      | varString max => exact varIntFirst (fun n => reports_unpackStr _ _) _ max
      | hashes => exact varIntFirst (fun n => reports_hashItems _) _ maxsize
      | _ => exact h.elim
    exact key σ src s e
  · exact reports_later (reports_op o h) σ src s e

/-- A program that ends with every exception it meets, and does not read arrays. -/
def ReadClient.PassesOn : ReadClient → Prop
  | .done _ => True
  | .fail _ => True
  | .call o k => ¬ StartsWithByte o ∧ (∀ e, k (.error e) = .fail e) ∧ ∀ r, (k r).PassesOn
  | .array _ _ _ => False

/-- C215 for whole programs of such calls: if any `read` of the stream raises, the program ends with this exception. -/
theorem C215_program_reports_partial {σ : Type} (c : ReadClient) (hc : c.PassesOn) (src : Int → σ → Except Err Bytes × σ) (s : σ) (e : Err)
    (h : .error e ∈ answers src c.steps s) : (c.steps.runOn src s).1 = .error e := by
  induction c generalizing s with
  | done o => cases h
  | fail e' => cases h
  | call o k ih =>
    obtain ⟨h1, h2, h3⟩ := hc
    rw [ReadClient.steps] at h ⊢
    rw [answers_after] at h
    rw [runOn_after]
    rcases List.mem_append.1 h with h | h
    · rw [reports_op o h1 σ src s e h, h2]
      rfl
    · exact ih _ (h3 _) _ h
  | array item max k => exact hc.elim

private theorem byte_swallows (src : Int → σ → Except Err Bytes × σ) (s : σ) (e : Err) (h : (src 1 s).1 = .error e) :
    ReaderSteps.readByte.runOn src s = (.ok 0, (src 1 s).2) := by
  unfold ReaderSteps.readByte ReaderSteps.tryExcept
  rw [runOn_after, runOn_bind]
  rcases hr : src 1 s with ⟨r, s'⟩
  rw [hr] at h
  have h' : r = .error e := h
  have e : (ReaderSteps.streamRead 1).runOn src s = (r, s') := hr
  rw [e, h']
  rfl

private theorem varInt_swallows (max : Int) (src : Int → σ → Except Err Bytes × σ) (s : σ) (e : Err) (h : (src 1 s).1 = .error e) :
    (ReaderSteps.readVarInt max).runOn src s = (.ok 0, (src 1 s).2) := by
  have e' : (ReaderSteps.readVarInt max).runOn src s = _ := runOn_bind src ReaderSteps.readByte _ s
  rw [e', byte_swallows src s e h]
  rfl

/-- C215 fails for the first byte: if the stream raises there, ReadByte and ReadVarInt return 0, ReadHashes returns an empty list,
and ReadVarBytes whatever the next read of no bytes gives. -/
theorem C215_first_byte_violated {σ : Type} (src : Int → σ → Except Err Bytes × σ) (s : σ) (e : Err) (h : (src 1 s).1 = .error e) (max : Int) :
    (ReadOp.byte.steps.runOn src s).1 = .ok (.int 0) ∧ ((ReadOp.varInt max).steps.runOn src s).1 = .ok (.int 0) ∧
    (ReadOp.hashes.steps.runOn src s).1 = .ok (.strs []) ∧
    (∀ b, (src 0 (src 1 s).2).1 = .ok b → ((ReadOp.varBytes max).steps.runOn src s).1 = .ok (.bytes b)) := by
  refine ⟨?_, ?_, ?_, fun b hb => ?_⟩
  · rw [ReadOp.steps, mapSteps, runOn_bind, byte_swallows src s e h]; rfl
  · rw [ReadOp.steps, mapSteps, runOn_bind, varInt_swallows max src s e h]; rfl
  · have e' : ReaderSteps.readHashes.runOn src s = _ := runOn_bind src (ReaderSteps.readVarInt maxsize) _ s
    rw [ReadOp.steps, mapSteps, runOn_bind, e', varInt_swallows _ src s e h]; rfl
  · have e' : (ReaderSteps.readVarBytes max).runOn src s = _ := runOn_bind src (ReaderSteps.readVarInt max) _ s
    rw [ReadOp.steps, mapSteps, runOn_bind, e', varInt_swallows _ src s e h]
    rcases hr : src 0 (src 1 s).2 with ⟨r, s'⟩
    rw [hr] at hb
    have e2 : (ReaderSteps.readBytes 0).runOn src (src 1 s).2 = (r, s') := hr
    have hb' : r = .ok b := hb
    simp only [e2, hb']
    rfl

/-- C215 fails for the items of arrays: the exception ends the array, which is returned as if it were shorter. -/
theorem C215_array_item_violated {σ : Type} (item : Steps α) (src : Int → σ → Except Err Bytes × σ) (s : σ) (e : Err) (h : (item.runOn src s).1 = .error e) (n : Nat) :
    ((ReaderSteps.deserializeUpTo item n).runOn src s).1 = .ok [] := by
  cases n with
  | zero => rfl
  | succ n =>
    rw [ReaderSteps.deserializeUpTo, runOn_after, h]
    rfl

/-- A stream that was closed: every `read` raises ValueError. -/
private def closed : Int → Unit → Except Err Bytes × Unit := fun _ s => (.error .valueError, s)

example : ¬ StartsWithByte .fixed8 ∧ .error .valueError ∈ answers closed (ReadOp.fixed8).steps () :=
  ⟨fun h => h, List.mem_cons_self ..⟩

/-- ReadVarInt from a stream the second `read` of which fails. -/
example : .error .valueError ∈ (answers (fun _ s => if s = 0 then (.ok [0xfd], 1) else (.error .valueError, s)) (ReadOp.varInt maxsize).steps 0).tail := by
  decide +kernel

example : (closed 1 ()).1 = .error .valueError ∧ (ReaderSteps.readBool.runOn closed ()).1 = .error .valueError := ⟨rfl, rfl⟩

example : (ReadClient.call .fixed8 fun r => match r with | .ok o => .done o | .error e => .fail e).PassesOn :=
  ⟨fun h => h, fun _ => rfl, fun r => by cases r <;> trivial⟩

/-! ### C216 -/

/-- A stream with the content of an `io.BytesIO` that may deliver fewer bytes than it is asked for, as sockets, pipes and unbuffered
files do: at least one, unless none is left. -/
def Short (src : Int → Stream × ω → Except Err Bytes × (Stream × ω)) : Prop :=
  ∀ (n : Int) (s : Stream) (w : ω), (n > maxsize → (src n (s, w)).1 = .error .overflowError) ∧
    (0 ≤ n → n ≤ maxsize → ∃ (k : Nat) (w' : ω), (k : Int) ≤ n ∧ (0 < n → 0 < k) ∧ src n (s, w) = ((Stream.read k s).1, ((Stream.read k s).2, w')))

/-- If the computation has a result, then it has the same one on a stream that delivers all bytes it is asked for, and the same
bytes are left. -/
def Exact (m : Steps α) : Prop :=
  ∀ (ω : Type) (src : Int → Stream × ω → Except Err Bytes × (Stream × ω)), Short src →
    ∀ (s : Stream) (w : ω) (a : α) (s' : Stream) (w' : ω), m.runOn src (s, w) = (.ok a, (s', w')) → m.run s = (.ok a, s')

theorem exact_pure (a : α) : Exact (pure a : Steps α) := by
  intro ω src _ s w b s' w' h
  cases h
  rfl

theorem exact_error (e : Err) : Exact (.ret (.error e) : Steps α) := by
  intro ω src _ s w b s' w' h
  cases h

theorem exact_ret (r : Except Err α) : Exact (.ret r : Steps α) := by
  cases r
  · exact exact_error _
  · exact exact_pure _

theorem exact_bind {m : Steps α} {f : α → Steps β} (h : Exact m) (hf : ∀ a, Exact (f a)) : Exact (m >>= f) := by
  intro ω src hs s w b s' w' hb
  rw [runOn_bind] at hb
  rcases hr : m.runOn src (s, w) with ⟨r, s1, w1⟩
  rw [hr] at hb
  cases r with
  | error e => cases hb
  | ok a =>
    have h1 := h ω src hs s w a s1 w1 hr
    have h2 := hf a ω src hs s1 w1 b s' w' hb
    have hrun : (m >>= f).run s = _ := runOn_bind Stream.read m f s
    have h1' : m.runOn Stream.read s = (.ok a, s1) := h1
    rw [hrun, h1']
    exact h2

theorem exact_ite {c : Prop} [Decidable c] {a b : Steps α} (ha : Exact a) (hb : Exact b) : Exact (if c then a else b) := by
  split <;> assumption

/-- One call of `read` of which the length of the answer is checked. -/
theorem exact_read (n : Nat) (f : Bytes → Steps β) (hf : ∀ b, b.length < n → ∃ e, f b = .ret (.error e)) (hf' : ∀ b, ∃ r, f b = .ret r) :
    Exact (ReaderSteps.streamRead n >>= f) := by
  intro ω src hs s w a s' w' h
  rw [runOn_bind] at h
  have hr0 : (ReaderSteps.streamRead n).runOn src (s, w) = src n (s, w) := rfl
  rw [hr0] at h
  by_cases hm : (n : Int) > maxsize
  · have := (hs n s w).1 hm
    rcases hr : src n (s, w) with ⟨r, s1⟩
    rw [hr] at this h
    simp only at this
    subst this
    cases h
  · obtain ⟨k, w1, hk, -, e⟩ := (hs n s w).2 (by omega) (by omega)
    have hk' : ¬ ((k : Int) > maxsize) := by omega
    have hk0 : ¬ ((k : Int) < 0) := by omega
    have hn0 : ¬ ((n : Int) < 0) := by omega
    have er : Stream.read k s = (.ok ((s.buf.drop s.pos).take k), ⟨s.buf, s.pos + ((s.buf.drop s.pos).take k).length⟩) := by
      simp only [Stream.read, if_neg hk', if_neg hk0, Int.toNat_natCast]
    have en : Stream.read n s = (.ok ((s.buf.drop s.pos).take n), ⟨s.buf, s.pos + ((s.buf.drop s.pos).take n).length⟩) := by
      simp only [Stream.read, if_neg hm, if_neg hn0, Int.toNat_natCast]
    rw [e, er] at h
    by_cases hl : ((s.buf.drop s.pos).take k).length = n
    · have hkn : (s.buf.drop s.pos).take k = (s.buf.drop s.pos).take n := by
        have : k = n := by
          rw [List.length_take] at hl
          omega
        rw [this]
      rw [hkn] at h
      have hrun : (ReaderSteps.streamRead (n : Int) >>= f).run s = _ := runOn_bind Stream.read (ReaderSteps.streamRead n) f s
      have hrs : (ReaderSteps.streamRead (n : Int)).runOn Stream.read s = Stream.read n s := rfl
      rw [hrun, hrs, en]
      obtain ⟨r, hr⟩ := hf' ((s.buf.drop s.pos).take n)
      simp only [hr, Steps.runOn] at h ⊢
      cases h
      rfl
    · obtain ⟨e, he⟩ := hf ((s.buf.drop s.pos).take k) (by
        rw [List.length_take] at hl ⊢
        omega)
      simp only [he, Steps.runOn] at h
      cases h

theorem exact_map (f : α → Out) {m : Steps α} (h : Exact m) : Exact (mapSteps f m) := exact_bind h fun _ => exact_pure _

/-- What ReadByte makes of an answer. -/
private def byteOf : Except Err Bytes → Int
  | .ok [b] => b.toNat
  | _ => 0

private theorem byte_runOn (src : Int → σ → Except Err Bytes × σ) (s : σ) : ReaderSteps.readByte.runOn src s = (.ok (byteOf (src 1 s).1), (src 1 s).2) := by
  unfold ReaderSteps.readByte ReaderSteps.tryExcept
  rw [runOn_after, runOn_bind]
  have e1 : (ReaderSteps.streamRead 1).runOn src s = src 1 s := rfl
  rw [e1]
  rcases src 1 s with ⟨r, s1⟩
  cases r with
  | error e => rfl
  | ok b =>
    match b with
    | [b] => rfl
    | [] => rfl
    | _ :: _ :: _ => rfl

private def rawOf : Except Err Bytes → Bytes ⊕ Int
  | .ok b => .inl b
  | .error _ => .inr 0

private theorem byteRaw_runOn (src : Int → σ → Except Err Bytes × σ) (s : σ) : ReaderSteps.readByteRaw.runOn src s = (.ok (rawOf (src 1 s).1), (src 1 s).2) := by
  unfold ReaderSteps.readByteRaw ReaderSteps.tryExcept
  rw [runOn_after, runOn_bind]
  have e1 : (ReaderSteps.streamRead 1).runOn src s = src 1 s := rfl
  rw [e1]
  rcases src 1 s with ⟨r, s1⟩
  cases r <;> rfl

private theorem short_one {src : Int → Stream × ω → Except Err Bytes × (Stream × ω)} (hs : Short src) (s : Stream) (w : ω) :
    ∃ w', src 1 (s, w) = ((Stream.read 1 s).1, ((Stream.read 1 s).2, w')) := by
  obtain ⟨k, w1, hk, hk1, e⟩ := (hs 1 s w).2 (by decide) (by decide)
  have : k = 1 := by have := hk1 (by decide); omega
  subst this
  exact ⟨w1, e⟩

theorem exact_readByte : Exact ReaderSteps.readByte := by
  intro ω src hs s w a s' w' h
  obtain ⟨w1, e⟩ := short_one hs s w
  rw [byte_runOn, e] at h
  have hrun : ReaderSteps.readByte.run s = _ := byte_runOn Stream.read s
  rw [hrun]
  cases h
  rfl

theorem exact_readByteRaw : Exact ReaderSteps.readByteRaw := by
  intro ω src hs s w a s' w' h
  obtain ⟨w1, e⟩ := short_one hs s w
  rw [byteRaw_runOn, e] at h
  have hrun : ReaderSteps.readByteRaw.run s = _ := byteRaw_runOn Stream.read s
  rw [hrun]
  cases h
  rfl

theorem exact_unpackInt {c : Char} {w : Nat} {sg : Bool} (hc : fmtOfChar c = some (.intFmt sg w)) (e : Endian) : Exact (ReaderSteps.unpackInt c e w) := by
  refine exact_read w _ (fun b hb => ⟨.structError, ?_⟩) fun b => ⟨_, rfl⟩
  simp only [structUnpackInt, hc, if_neg (Nat.ne_of_lt hb)]
  rfl

theorem exact_unpackStr (n : Nat) : Exact (ReaderSteps.unpackStr n n) := by
  refine exact_read n _ (fun b hb => ⟨.structError, by rw [if_neg (Nat.ne_of_lt hb)]; rfl⟩) fun b => ?_
  split
  · exact ⟨_, rfl⟩
  · exact ⟨_, rfl⟩

theorem exact_unpackFloat (f : FloatFmt) (e : Endian) : Exact (ReaderSteps.unpackFloat f e f.size) := by
  refine exact_read f.size _ (fun b hb => ⟨.structError, ?_⟩) fun b => ⟨_, rfl⟩
  simp only [structUnpackFloat, if_neg (Nat.ne_of_lt hb)]
  rfl

theorem exact_readVarInt (max : Int) : Exact (ReaderSteps.readVarInt max) := by
  refine exact_bind exact_readByte fun fb => exact_ite (exact_pure _) (exact_bind ?_ fun v => exact_ite (exact_error _) (exact_pure _))
  exact exact_ite (exact_unpackInt rfl _) (exact_ite (exact_unpackInt rfl _) (exact_ite (exact_unpackInt rfl _) (exact_pure _)))

/-- The calls that check how many bytes they got. -/
def ChecksLength : ReadOp → Prop
  | .safeBytes n => 0 ≤ n
  | .bytes _ | .varBytes _ | .fixedString _ | .list2000 | .hashes => False
  | _ => True

private theorem exact_one {f : UInt8 → α} {e : Err} : Exact (ReaderSteps.streamRead 1 >>= fun bs =>
    (match bs with | [b] => pure (f b) | _ => ReaderSteps.raise e : Steps α)) := by
  refine exact_read 1 _ (fun b hb => ?_) fun b => ?_
  · match b with
    | [b] => exact absurd hb (lt_irrefl 1)
    | [] => exact ⟨_, rfl⟩
    | _ :: _ :: _ => exact ⟨_, rfl⟩
  · match b with
    | [b] => exact ⟨_, rfl⟩
    | [] => exact ⟨_, rfl⟩
    | _ :: _ :: _ => exact ⟨_, rfl⟩

private theorem exact_uint (n : Nat) : Exact (ReaderSteps.streamRead n >>= fun bs => ReaderSteps.lift (Reader.uintOfBytes n bs)) := by
  refine exact_read n _ (fun b hb => ⟨.exc, ?_⟩) fun b => ⟨_, rfl⟩
  rw [Reader.uintOfBytes, if_pos (Nat.ne_of_lt hb)]
  rfl

theorem exact_op (o : ReadOp) (h : ChecksLength o) : Exact o.steps := by
  cases o with
  | byte => exact exact_map _ exact_readByte
  | byteRaw => exact exact_map _ exact_readByteRaw
  | safeBytes n =>
    obtain ⟨k, rfl⟩ := Int.eq_ofNat_of_zero_le h
    refine exact_map _ (exact_read k _ (fun b hb => ⟨.valueError, by rw [if_pos (by exact_mod_cast hb)]; rfl⟩) fun b => ?_)
    split
    · exact ⟨_, rfl⟩
    · exact ⟨_, rfl⟩
  | bool => exact exact_map _ exact_one
  | char => exact exact_map _ exact_one
  | double e =>
    refine exact_map _ (exact_read 8 _ (fun b hb => ⟨.structError, by rw [if_neg (Nat.ne_of_lt hb)]; rfl⟩) fun b => ?_)
    split
    · exact ⟨_, rfl⟩
    · exact ⟨_, rfl⟩
  | i8 e => exact exact_map _ (exact_unpackInt rfl e)
  | u8 e => exact exact_map _ (exact_unpackInt rfl e)
  | i16 e => exact exact_map _ (exact_unpackInt rfl e)
  | u16 e => exact exact_map _ (exact_unpackInt rfl e)
  | i32 e => exact exact_map _ (exact_unpackInt rfl e)
  | u32 e => exact exact_map _ (exact_unpackInt rfl e)
  | i64 e => exact exact_map _ (exact_unpackInt rfl e)
  | u64 e => exact exact_map _ (exact_unpackInt rfl e)
  | fixed8 => exact exact_map _ (exact_unpackInt rfl .little)
  | varInt m => exact exact_map _ (exact_readVarInt m)
  | string => exact exact_map _ (exact_bind (exact_unpackInt rfl .little) fun n => exact_unpackStr _)
  | varString m => exact exact_map _ (exact_bind (exact_readVarInt m) fun n => exact_unpackStr _)
  | uint256 => exact exact_map _ (exact_uint 32)
  | uint160 => exact exact_map _ (exact_uint 20)
  | float e => exact exact_map _ (exact_unpackFloat .binary32 e)
  | doubleVal e => exact exact_map _ (exact_unpackFloat .binary64 e)
  | bytes | varBytes | fixedString | list2000 | hashes => exact h.elim

/-- A program that only makes such calls and ends with every exception it meets. -/
def ReadClient.Checks : ReadClient → Prop
  | .done _ => True
  | .fail _ => True
  | .call o k => ChecksLength o ∧ (∀ e, k (.error e) = .fail e) ∧ ∀ r, (k r).Checks
  | .array _ _ _ => False

/-- C216 for the calls that check how many bytes they got (numbers of fixed and variable width, bools, chars, floats, amounts, UInt160,
UInt256, SafeReadBytes, ReadString, ReadVarString) and programs that make only such calls: if the stream delivers fewer bytes
than asked for, they raise or give what they give from a stream that delivers them all. -/
theorem C216_checked_partial (c : ReadClient) (hc : c.Checks) {ω : Type} (src : Int → Stream × ω → Except Err Bytes × (Stream × ω)) (hs : Short src)
    (s s' : Stream) (w w' : ω) (o : Out) (h : c.steps.runOn src (s, w) = (.ok o, (s', w'))) : c.run s = (.ok o, s') := by
  have key : Exact c.steps := by
    clear h
    induction c with
    | done o => exact exact_pure o
    | fail e => exact exact_error e
    | call p k ih =>
      obtain ⟨h1, h2, h3⟩ := hc
      intro ω src hs s w a s' w' h
      rw [ReadClient.steps] at h
      rw [runOn_after] at h
      rcases hr : p.steps.runOn src (s, w) with ⟨r, s1, w1⟩
      rw [hr] at h
      cases r with
      | error e =>
        simp only [h2] at h
        cases h
      | ok a1 =>
        have g := exact_op p h1 ω src hs s w a1 s1 w1 hr
        have g2 := ih (.ok a1) (h3 _) ω src hs s1 w1 a s' w' h
        have hrun : (ReadClient.call p k).steps.run s = _ := runOn_after Stream.read p.steps (fun r => (k r).steps) s
        have g' : p.steps.runOn Stream.read s = (.ok a1, s1) := g
        rw [hrun, g']
        exact g2
    | array item max k => exact hc.elim
  rw [← readsAs_client c s]
  exact key ω src hs s w o s' w' h

/-- A stream that delivers one byte at a time. -/
def oneByOne (n : Int) (s : Stream × Unit) : Except Err Bytes × (Stream × Unit) :=
  if n > maxsize then (.error .overflowError, s)
  else ((Stream.read (min n.toNat 1 : Nat) s.1).1, ((Stream.read (min n.toNat 1 : Nat) s.1).2, ()))

theorem short_oneByOne : Short oneByOne := by
  intro n s w
  refine ⟨fun h => by rw [oneByOne, if_pos h], fun h0 h1 => ⟨min n.toNat 1, (), by omega, by omega, ?_⟩⟩
  rw [oneByOne, if_neg (by omega)]

/-- C216 fails for byte strings: over a stream that delivers one byte at a time, ReadVarBytes returns the first byte of every byte
string, as its whole. -/
theorem C216_varbytes_violated (x : UInt8) (b rest : Bytes) (h : b.length + 1 < 0xfd) : Short oneByOne ∧
    (ReaderSteps.readVarBytes maxsize).runOn oneByOne (⟨UInt8.ofNat (b.length + 1) :: x :: b ++ rest, 0⟩, ()) =
      (.ok [x], (⟨UInt8.ofNat (b.length + 1) :: x :: b ++ rest, 2⟩, ())) := by
  refine ⟨short_oneByOne, ?_⟩
  have hn : (UInt8.ofNat (b.length + 1)).toNat = b.length + 1 := by simp; omega
  generalize UInt8.ofNat (b.length + 1) = y at *
  have r1 : oneByOne 1 (⟨y :: x :: b ++ rest, 0⟩, ()) = (.ok [y], (⟨y :: x :: b ++ rest, 1⟩, ())) := rfl
  have r2 : oneByOne (y.toNat : Int) (⟨y :: x :: b ++ rest, 1⟩, ()) = (.ok [x], (⟨y :: x :: b ++ rest, 2⟩, ())) := by
    rw [hn, oneByOne, if_neg (by simp only [maxsize]; omega)]
    have : min ((b.length + 1 : Nat) : Int).toNat 1 = 1 := by omega
    rw [this]
    rfl
  have e0 : ¬ ((y.toNat : Int) = 0) := by omega
  have e1 : ¬ ((y.toNat : Int) = 0xfd) := by omega
  have e2 : ¬ ((y.toNat : Int) = 0xfe) := by omega
  have e3 : ¬ ((y.toNat : Int) = 0xff) := by omega
  have e4 : ¬ ((y.toNat : Int) > maxsize) := by simp only [maxsize]; omega
  have hv : ReaderSteps.readVarIntValue (y.toNat : Int) >>= ReaderSteps.checkMax maxsize = .ret (.ok (y.toNat : Int)) := by
    simp only [ReaderSteps.readVarIntValue, if_neg e1, if_neg e2, if_neg e3]
    show ReaderSteps.checkMax maxsize (y.toNat : Int) = _
    simp only [ReaderSteps.checkMax, if_neg e4]
    rfl
  have hb : (ReaderSteps.readVarInt maxsize).runOn oneByOne (⟨y :: x :: b ++ rest, 0⟩, ()) = (.ok (y.toNat : Int), (⟨y :: x :: b ++ rest, 1⟩, ())) := by
    have e : (ReaderSteps.readVarInt maxsize).runOn oneByOne (⟨y :: x :: b ++ rest, 0⟩, ()) = _ := runOn_bind oneByOne ReaderSteps.readByte _ _
    rw [e, byte_runOn, r1]
    simp only [byteOf, if_neg e0, hv]
    rfl
  have e : (ReaderSteps.readVarBytes maxsize).runOn oneByOne (⟨y :: x :: b ++ rest, 0⟩, ()) = _ :=
    runOn_bind oneByOne (ReaderSteps.readVarInt maxsize) _ _
  rw [e, hb]
  exact r2

/-- An amount and a number over a stream that delivers one byte at a time, and over one that does not. -/
example : (ReadClient.call (.u8 .little) fun r => match r with | .ok o => .done o | .error e => .fail e).Checks ∧
    (ReadClient.call (.u8 .little) fun r => match r with | .ok o => .done o | .error e => .fail e).steps.runOn oneByOne (⟨[7, 8], 0⟩, ()) =
      (.ok (.int 7), (⟨[7, 8], 1⟩, ())) :=
  ⟨⟨trivial, fun _ => rfl, fun r => by cases r <;> trivial⟩, rfl⟩

example : ([5, 6, 7] : Bytes).length + 1 < 0xfd := by decide

end Neo.Props
