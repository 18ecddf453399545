import Verif.Props.WriterThreads

/-! # C217, C218: writers of other streams, that raise or take fewer bytes -/

namespace Neo.Props
open Py Spec
open WriterSteps (Steps)

/-- The calls of `stream.write` a computation makes, in order, and what the stream answers; the stream may be any object with a
method `write`. -/
def requests (sink : Bytes → σ → Except Err Nat × σ) : Steps α → σ → List (Bytes × Except Err Nat)
  | .ret _, _ => []
  | .write b k, s => (b, (sink b s).1) :: requests sink (k (sink b s).1) (sink b s).2

/-- The computation hands these pieces to `stream.write`, whatever number of bytes it answers, passes on the first exception
without any further call, and if there is none ends with the exception `r`, or with a result. -/
inductive Sends : Steps α → List Bytes → Option Err → Prop
  | done (a : α) : Sends (.ret (.ok a)) [] none
  | fail (e : Err) : Sends (.ret (.error e)) [] (some e)
  | write (b : Bytes) (k : Except Err Nat → Steps α) (bs : List Bytes) (r : Option Err) (h : ∀ n, Sends (k (.ok n)) bs r)
      (h' : ∀ e, k (.error e) = .ret (.error e)) : Sends (.write b k) (b :: bs) r

theorem sends_bind {m : Steps α} {f : α → Steps β} {bs bs' : List Bytes} {r : Option Err} (h : Sends m bs none) (hf : ∀ a, Sends (f a) bs' r) :
    Sends (m >>= f) (bs ++ bs') r := by
  generalize hr : (none : Option Err) = r0 at h
  induction h with
  | done a => exact hf a
  | fail e => cases hr
  | write b k bs r' h h' ih =>
    subst hr
    refine .write b _ _ _ (fun n => ih n rfl) fun e => ?_
    show Steps.bind (k (.error e)) f = _
    rw [h' e]
    rfl

theorem sends_bind_fail {m : Steps α} {f : α → Steps β} {bs : List Bytes} {e : Err} (h : Sends m bs (some e)) : Sends (m >>= f) bs (some e) := by
  generalize hr : some e = r0 at h
  induction h with
  | done a => cases hr
  | fail e' => cases hr; exact .fail e
  | write b k bs r' h h' ih =>
    subst hr
    refine .write b _ _ _ (fun n => ih n rfl) fun e' => ?_
    show Steps.bind (k (.error e')) f = _
    rw [h' e']
    rfl

/-- The same for some pieces and some ending. -/
def Sendable (m : Steps α) : Prop := ∃ bs r, Sends m bs r

theorem sendable_ret (r : Except Err α) : Sendable (.ret r) := by
  cases r with
  | ok a => exact ⟨_, _, .done a⟩
  | error e => exact ⟨_, _, .fail e⟩

theorem sendable_bind {m : Steps α} {f : α → Steps β} {bs' : List Bytes} {r' : Option Err} (h : Sendable m) (hf : ∀ a, Sends (f a) bs' r') :
    Sendable (m >>= f) := by
  obtain ⟨bs, r, h⟩ := h
  cases r with
  | none => exact ⟨_, _, sends_bind h hf⟩
  | some e => exact ⟨_, _, sends_bind_fail h⟩

/-- Without regard to the result of the first part. -/
theorem sendable_seq {m : Steps α} {m' : Steps β} (h : Sendable m) (h' : Sendable m') : Sendable (m >>= fun _ => m') := by
  obtain ⟨bs', r', h'⟩ := h'
  exact sendable_bind h fun _ => h'

theorem sendable_map {m : Steps α} (h : Sendable m) (f : α → β) : Sendable (m >>= fun a => (pure (f a) : Steps β)) :=
  sendable_bind h fun a => .done (f a)

theorem sendable_ite {c : Prop} [Decidable c] {a b : Steps α} (ha : Sendable a) (hb : Sendable b) : Sendable (if c then a else b) := by
  split <;> assumption

theorem sendable_lift (x : Except Err α) {f : α → Steps β} (hf : ∀ a, Sendable (f a)) : Sendable (WriterSteps.lift x >>= f) := by
  cases x with
  | ok a => exact hf a
  | error e => exact ⟨_, _, .fail e⟩

theorem sendable_write (b : Bytes) : Sendable (WriterSteps.streamWrite b) := ⟨_, _, .write b _ [] none (fun n => .done n) fun _ => rfl⟩

theorem sendable_writeVal (v : Val) : Sendable (WriterSteps.streamWriteVal v) := by
  cases v with
  | bytes b => exact sendable_write b
  | bytearray b => exact sendable_write b
  | _ => exact sendable_ret _

theorem sendable_writeByte (v : Val) : Sendable (WriterSteps.writeByte v) := by
  cases v with
  | bytes b => exact sendable_map (sendable_write _) _
  | str s => exact sendable_map (sendable_write _) _
  | int n => exact sendable_ite (sendable_map (sendable_write _) _) (sendable_ret _)
  | _ => exact sendable_ret _

theorem sendable_writeBytes (v : Val) (u : Bool) : Sendable (WriterSteps.writeBytes v u) := by
  unfold WriterSteps.writeBytes
  refine sendable_ite ?_ (sendable_writeVal _)
  cases unhexlifyVal v with
  | ok b => exact sendable_write _
  | error e => cases e <;> first | exact sendable_writeVal _ | exact sendable_ret _

theorem sendable_packInt (c : Char) (e : Endian) (v : Val) : Sendable (WriterSteps.packInt c e v) := by
  unfold WriterSteps.packInt
  split
  · exact sendable_writeBytes _ _
  · exact sendable_ret _

theorem sendable_packFloat (f : FloatFmt) (e : Endian) (v : FloatArg) : Sendable (WriterSteps.packFloat f e v) := by
  unfold WriterSteps.packFloat
  split
  · exact sendable_writeBytes _ _
  · exact sendable_ret _

theorem sendable_writeVarInt (v : Val) (e : Endian) : Sendable (WriterSteps.writeVarInt v e) := by
  unfold WriterSteps.writeVarInt
  cases v.index? with
  | none => exact sendable_ret _
  | some n =>
    refine sendable_ite (sendable_ret _) (sendable_ite ?_ (sendable_ite ?_ (sendable_ite ?_ ?_)))
    · exact sendable_map (sendable_writeByte _) _
    all_goals exact sendable_seq (sendable_writeByte _) (sendable_map (sendable_packInt _ _ _) _)

theorem sendable_ignore {m : Steps α} (h : Sendable m) : Sendable (ignoreSteps m) := sendable_map h _

theorem sendable_varStringBytes (b : Bytes) : Sendable (WriterSteps.writeVarStringBytes b) :=
  sendable_seq (sendable_writeVarInt _ _) (sendable_map (sendable_writeBytes _ _) _)

theorem sendable_varStringBytesEnc (c : Codec) (b : Bytes) : Sendable (WriterSteps.writeVarStringBytesEnc c b) :=
  sendable_lift _ fun _ => sendable_seq (sendable_writeVarInt _ _) (sendable_map (sendable_writeBytes _ _) _)

theorem sendable_zeros (k : Nat) : Sendable (WriterSteps.writeZeros k) := by
  induction k with
  | zero => exact sendable_ret _
  | succ k ih => exact sendable_seq (sendable_writeByte _) ih

theorem sendable_reversedHex (l : List Val) : Sendable (WriterSteps.writeReversedHex l) := by
  induction l with
  | nil => exact sendable_ret _
  | cons v l ih => exact sendable_lift _ fun _ => sendable_seq (sendable_writeBytes _ _) ih

theorem sendable_uint (d : Bytes) : Sendable (WriterSteps.uintSerialize d) := sendable_map (sendable_writeBytes _ _) _

theorem sendable_array {ser : α → Steps Unit} (h : ∀ x, Sendable (ser x)) (a : Option (List α)) : Sendable (WriterSteps.writeSerializableArray ser a) := by
  cases a with
  | none => exact sendable_writeByte (.int 0)
  | some l =>
    refine sendable_seq (sendable_writeVarInt _ _) ?_
    induction l with
    | nil => exact sendable_ret _
    | cons x l ih => exact sendable_seq (h x) ih

theorem sendable_op (o : WriteOp) : Sendable o.steps := by
  cases o with
  | byte v => exact sendable_writeByte v
  | bytes v u => exact sendable_ignore (sendable_writeBytes _ _)
  | bool v => exact sendable_ignore (sendable_writeBytes _ _)
  | char v =>
    refine sendable_ignore ?_
    unfold WriterSteps.writeChar
    split
    · exact sendable_writeBytes _ _
    · exact sendable_ret _
  | double b e => exact sendable_ignore (sendable_writeBytes _ _)
  | i8 | u8 | i16 | u16 | i32 | u32 | i64 | u64 | fixed8 => exact sendable_ignore (sendable_packInt _ _ _)
  | uint160 v =>
    show Sendable (WriterSteps.writeUInt160 v)
    unfold WriterSteps.writeUInt160
    split
    · exact sendable_uint _
    · exact sendable_ret _
  | uint256 v =>
    show Sendable (WriterSteps.writeUInt256 v)
    unfold WriterSteps.writeUInt256
    split
    · exact sendable_uint _
    · exact sendable_ret _
  | varInt v e => exact sendable_ignore (sendable_writeVarInt _ _)
  | varBytes b e => exact sendable_ignore (sendable_seq (sendable_writeVarInt _ _) (sendable_writeBytes _ _))
  | varString v =>
    cases v with
    | str s => exact sendable_varStringBytes _
    | bytes s => exact sendable_varStringBytes _
    | bytearray s => exact sendable_varStringBytes _
    | _ => exact sendable_ret _
  | fixedString s n => exact sendable_ite (sendable_ret _) (sendable_seq (sendable_writeBytes _ _) (sendable_zeros _))
  | list2000 l => exact sendable_reversedHex l
  | hashes l => exact sendable_seq (sendable_writeVarInt _ _) (sendable_reversedHex l)
  | float | doubleOf => exact sendable_ignore (sendable_packFloat _ _ _)
  | varBytesOf v e =>
    refine sendable_ignore ?_
    unfold WriterSteps.writeVarBytesOf
    split
    · exact sendable_ret _
    · exact sendable_seq (sendable_writeVarInt _ _) (sendable_writeBytes _ _)
  | varStringEnc c v =>
    show Sendable (WriterSteps.writeVarStringEnc c v)
    cases v with
    | str s =>
      simp only [WriterSteps.writeVarStringEnc]
      cases c.encode s with
      | error e => exact sendable_ret _
      | ok b => exact sendable_varStringBytesEnc _ _
    | bytes s => exact sendable_varStringBytesEnc _ _
    | bytearray s => exact sendable_varStringBytesEnc _ _
    | _ => exact sendable_ret _

/-- A program that ends with every exception it meets. -/
def WriteClient.PassesOn : WriteClient → Prop
  | .done => True
  | .fail _ => True
  | .call _ k => (∀ e, k (.error e) = .fail e) ∧ ∀ r, (k r).PassesOn
  | .array _ item k => (∀ i, (item i).PassesOn) ∧ (∀ e, k (.error e) = .fail e) ∧ ∀ r, (k r).PassesOn

theorem sendable_after {m : Steps Unit} {f : Except Err Unit → Steps β} (h : Sendable m) (hf : ∀ r, Sendable (f r)) (he : ∀ e, f (.error e) = .ret (.error e)) :
    Sendable (m.after f) := by
  have e : m.after f = (m >>= fun u => f (.ok u)) := by
    show _ = Steps.bind m _
    clear h
    induction m with
    | ret r =>
      cases r with
      | ok a => rfl
      | error e => exact he e
    | write b k ih =>
      show Steps.write b _ = Steps.write b _
      congr 1
      funext x
      exact ih x
  rw [e]
  exact sendable_seq h (hf (.ok ()))

theorem sendable_client (c : WriteClient) (hc : c.PassesOn) : Sendable c.steps := by
  induction c with
  | done => exact sendable_ret _
  | fail e => exact sendable_ret _
  | call o k ih => exact sendable_after (sendable_op o) (fun r => ih r (hc.2 r)) fun e => by rw [hc.1 e]; rfl
  | array n item k ih1 ih2 =>
    exact sendable_after (sendable_array (fun i => ih1 i (hc.1 i)) _) (fun r => ih2 r (hc.2.2 r)) fun e => by rw [hc.2.1 e]; rfl

/-- The bytes of the calls of `stream.write` that did not raise. -/
def accepted (l : List (Bytes × Except Err Nat)) : Bytes := (l.filterMap fun x => match x.2 with | .ok _ => some x.1 | .error _ => none).flatten

/-- Ended with this exception, or with a result. -/
def EndsAs : Option Err → Except Err α → Prop
  | none, x => ∃ a, x = .ok a
  | some e, x => x = .error e

/-- What follows for every stream. -/
private theorem sends_runOn {m : Steps α} {bs : List Bytes} {r : Option Err} (h : Sends m bs r) (sink : Bytes → σ → Except Err Nat × σ) (s : σ) :
    (∀ b e, (b, .error e) ∈ requests sink m s → (m.runOn sink s).1 = .error e) ∧
    accepted (requests sink m s) <+: bs.flatten ∧
    ((∀ x ∈ requests sink m s, ∃ n, x.2 = .ok n) → accepted (requests sink m s) = bs.flatten ∧ EndsAs r (m.runOn sink s).1) := by
  induction h generalizing s with
  | done a => exact ⟨(fun b e h => by cases h), List.nil_prefix, fun _ => ⟨rfl, a, rfl⟩⟩
  | fail e => exact ⟨(fun b e h => by cases h), List.nil_prefix, fun _ => ⟨rfl, rfl⟩⟩
  | write b k bs r h h' ih =>
    rw [Steps.runOn, requests]
    rcases hs : sink b s with ⟨x, s'⟩
    cases x with
    | error e =>
      simp only [h' e]
      refine ⟨fun b' e' hb => ?_, List.nil_prefix, fun hx => ?_⟩
      · rcases List.mem_cons.1 hb with hb | hb
        · cases hb; rfl
        · cases hb
      · obtain ⟨n, hn⟩ := hx _ (List.mem_cons_self ..)
        cases hn
    | ok n =>
      obtain ⟨g1, g2, g3⟩ := ih n s'
      have ea : ∀ l, accepted ((b, .ok n) :: l) = b ++ accepted l := fun l => rfl
      simp only [ea]
      refine ⟨fun b' e' hb => ?_, ?_, fun hx => ?_⟩
      · rcases List.mem_cons.1 hb with hb | hb
        · cases hb
        · exact g1 _ _ hb
      · rw [List.flatten_cons]
        exact (List.prefix_append_right_inj b).2 g2
      · obtain ⟨f1, f2⟩ := g3 fun x hx' => hx x (List.mem_cons_of_mem _ hx')
        exact ⟨by rw [f1]; rfl, f2⟩

/-- C217. Whatever the stream is: if one of its `write` raises, the program ends with this exception; the bytes it took before are a
beginning of what the program writes to an `io.BytesIO`, and all of it, with the same exception or none, if no `write` raised. -/
theorem C217_write_errors (c : WriteClient) (hc : c.PassesOn) {σ : Type} (sink : Bytes → σ → Except Err Nat × σ) (s : σ) :
    (∀ b e, (b, .error e) ∈ requests sink c.steps s → (c.steps.runOn sink s).1 = .error e) ∧
    ∃ (r : Except Err Unit) (bs : Bytes), (∀ t : Stream, c.run t = (r, overwrite t bs)) ∧ accepted (requests sink c.steps s) <+: bs ∧
      ((∀ x ∈ requests sink c.steps s, ∃ n, x.2 = .ok n) → accepted (requests sink c.steps s) = bs ∧ (c.steps.runOn sink s).1 = r) := by
  obtain ⟨bs, r, h⟩ := sendable_client c hc
  obtain ⟨h1, h2, h3⟩ := sends_runOn h sink s
  have key : bs.flatten = bytesOf c.steps ∧ EndsAs r (resultOf c.steps) := by
    clear h1 h2 h3
    generalize c.steps = m at h
    induction h with
    | done a => exact ⟨rfl, a, rfl⟩
    | fail e => exact ⟨rfl, rfl⟩
    | write b k bs r h h' ih =>
      obtain ⟨i1, i2⟩ := ih b.length
      exact ⟨by rw [List.flatten_cons, i1]; rfl, i2⟩
  refine ⟨h1, resultOf c.steps, bytesOf c.steps, fun t => by rw [← refines_client c t, run_eq], by rw [← key.1]; exact h2, fun hx => ?_⟩
  obtain ⟨f1, f2⟩ := h3 hx
  refine ⟨by rw [f1, key.1], ?_⟩
  have k2 := key.2
  cases r with
  | none =>
    obtain ⟨a, ha⟩ := f2
    obtain ⟨b, hb⟩ := k2
    rw [ha, hb]
  | some e => exact f2.trans k2.symm

/-- A stream that has room for some bytes only and raises when it is full. -/
private def disk (b : Bytes) (free : Nat) : Except Err Nat × Nat := if b.length ≤ free then (.ok b.length, free - b.length) else (.error .exc, 0)

/-- A byte string of three bytes and a stream with room for two: the length is taken, the bytes are not. -/
example : (WriteClient.call (.varBytes [7, 8, 9] .little) fun r => match r with | .ok _ => .done | .error e => .fail e).PassesOn ∧
    requests disk (WriteClient.call (.varBytes [7, 8, 9] .little) fun r => match r with | .ok _ => .done | .error e => .fail e).steps 2 =
      [([3], .ok 1), ([7, 8, 9], .error .exc)] :=
  ⟨⟨fun _ => rfl, fun r => by cases r <;> trivial⟩, rfl⟩

/-! ### C218 -/

/-- C218 for WriteBytes and the numbers of fixed width: the number returned is the number of bytes the stream said it took. -/
theorem C218_count_partial (sink : Bytes → σ → Except Err Nat × σ) (s : σ) (n : Nat) :
    (∀ v u, ((WriterSteps.writeBytes v u).runOn sink s).1 = .ok n → ∃ b, requests sink (WriterSteps.writeBytes v u) s = [(b, .ok n)]) ∧
    (∀ c e v, ((WriterSteps.packInt c e v).runOn sink s).1 = .ok n → ∃ b, structPackInt c e v = .ok b ∧
      requests sink (WriterSteps.packInt c e v) s = [(b, .ok n)]) := by
  have h1 : ∀ b, ((WriterSteps.streamWrite b).runOn sink s).1 = .ok n → requests sink (WriterSteps.streamWrite b) s = [(b, .ok n)] := by
    intro b h
    have h' : (sink b s).1 = .ok n := h
    simp [WriterSteps.streamWrite, requests, h']
  have h2 : ∀ v, ((WriterSteps.streamWriteVal v).runOn sink s).1 = .ok n → ∃ b, requests sink (WriterSteps.streamWriteVal v) s = [(b, .ok n)] := by
    intro v h
    cases v with
    | bytes b => exact ⟨b, h1 b h⟩
    | bytearray b => exact ⟨b, h1 b h⟩
    | _ => cases h
  refine ⟨fun v u h => ?_, fun c e v h => ?_⟩
  · unfold WriterSteps.writeBytes at h ⊢
    cases u with
    | false => exact h2 v h
    | true =>
      rw [if_pos rfl] at h ⊢
      cases hv : unhexlifyVal v with
      | ok b => simp only [hv] at h ⊢; exact ⟨b, h1 b h⟩
      | error e =>
        simp only [hv] at h ⊢
        cases e <;> first | exact h2 v h | cases h
  · unfold WriterSteps.packInt at h ⊢
    cases hp : structPackInt c e v with
    | ok b => simp only [hp] at h ⊢; exact ⟨b, rfl, h1 b h⟩
    | error er => simp only [hp] at h; cases h

/-- A stream that takes at most one byte of every call, and says so. -/
def takesOne (b : Bytes) (s : Bytes) : Except Err Nat × Bytes := (.ok (min b.length 1), s ++ b.take 1)

private theorem takesOne_varBytes (b : Bytes) (h : b.length < 0xfd) (s : Bytes) :
    (WriterSteps.writeVarBytes b .little).runOn takesOne s = (.ok (min b.length 1), s ++ [UInt8.ofNat b.length] ++ b.take 1) := by
  have h1 : ¬ ((b.length : Int) < 0) := by omega
  have h2 : (b.length : Int) < 0xfd := by omega
  have h3 : (0 : Int) ≤ b.length ∧ (b.length : Int) ≤ 255 := by omega
  simp only [WriterSteps.writeVarBytes, WriterSteps.writeVarInt, Val.index?, if_neg h1, if_pos h2, WriterSteps.writeByte, if_pos h3]
  rfl

/-- C218 fails for UInt160 and UInt256, byte strings and variable-length numbers: if the stream takes one byte of every call, WriteUInt160
returns as always and 19 bytes are lost; of a byte string the length and the first byte arrive. -/
theorem C218_lost_violated (d s : Bytes) (x : UInt8) (b : Bytes) (hd : unhexlifyVal (.bytearray d) = .error .binasciiError) (hb : b.length + 1 < 0xfd) :
    (WriterSteps.writeUInt160 (.uint .u160 d)).runOn takesOne s = (.ok (), s ++ d.take 1) ∧
    (WriterSteps.writeVarBytes (x :: b) .little).runOn takesOne s = (.ok 1, s ++ [UInt8.ofNat (b.length + 1), x]) := by
  constructor
  · have e : WriterSteps.writeUInt160 (.uint .u160 d) = (WriterSteps.streamWrite d >>= fun _ => pure ()) := by
      simp only [WriterSteps.writeUInt160, WriterSteps.uintSerialize, WriterSteps.writeBytes, if_pos, hd]
      rfl
    rw [e]
    rfl
  · have h : (x :: b).length < 0xfd := hb
    rw [takesOne_varBytes _ h s]
    simp

example : ((WriterSteps.packInt 'I' .little (.int 7)).runOn takesOne []).1 = .ok 1 := rfl

example : unhexlifyVal (.bytearray (List.replicate 20 1)) = .error .binasciiError ∧ ([5, 6] : Bytes).length + 1 < 0xfd := by
  decide +kernel

end Neo.Props
