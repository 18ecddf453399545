import Verif.Proofs.ReaderSteps
import Verif.Props.WriterThreads
import Verif.Spec.Threads

/-! # C213, C214: threads that share one reader -/

namespace Neo.Props
open Py Spec
open ReaderSteps (Steps turn exec)

/-- What `stream.read(n)` answers if these bytes are ahead, and how many of them it passes over. -/
def answer (n : Int) (a : Bytes) : Except Err Bytes × Nat :=
  if n > maxsize then (.error .overflowError, 0)
  else if n < 0 then (.ok a, a.length)
  else (.ok (a.take n.toNat), (a.take n.toNat).length)

theorem read_answer (n : Int) (s : Stream) : Stream.read n s = ((answer n (ahead s)).1, advance s (answer n (ahead s)).2) := by
  unfold Stream.read answer
  by_cases h : n > maxsize
  · rw [if_pos h, if_pos h]; rfl
  · rw [if_neg h, if_neg h]
    by_cases h0 : n < 0
    · simp only [if_pos h0]; rfl
    · simp only [if_neg h0]; rfl

theorem answer_le (n : Int) (a : Bytes) : (answer n a).2 ≤ a.length := by
  unfold answer
  split
  · exact Nat.zero_le _
  · split
    · exact le_refl _
    · simp

/-- Bytes that were not passed over do not matter; only if everything was passed over is it known that there is nothing more. -/
theorem answer_again (n : Int) (a b : Bytes) (h : a.drop (answer n a).2 = [] → b = []) : answer n (a.take (answer n a).2 ++ b) = answer n a := by
  by_cases h1 : n > maxsize
  · simp only [answer, if_pos h1]
  by_cases h0 : n < 0
  · simp only [answer, if_neg h1, if_pos h0, List.take_length] at h ⊢
    rw [h (by simp), List.append_nil]
  · simp only [answer, if_neg h1, if_neg h0, List.length_take] at h ⊢
    by_cases hl : n.toNat < a.length
    · rw [min_eq_left (by omega), List.take_left' (by rw [List.length_take]; omega), List.length_append, List.length_take]
      congr 1
      omega
    · rw [min_eq_right (by omega)] at h ⊢
      rw [h (by simp), List.append_nil, List.take_length]
      simp
      omega

/-- What a computation does, by the bytes ahead. -/
def outcome : Steps α → Bytes → Except Err α × Nat
  | .ret r, _ => (r, 0)
  | .read n k, a => ((outcome (k (answer n a).1) (a.drop (answer n a).2)).1, (answer n a).2 + (outcome (k (answer n a).1) (a.drop (answer n a).2)).2)

theorem run_outcome (m : Steps α) (s : Stream) : m.run s = ((outcome m (ahead s)).1, advance s (outcome m (ahead s)).2) := by
  induction m generalizing s with
  | ret r => rfl
  | read n k ih =>
    show (k (Stream.read n s).1).run (Stream.read n s).2 = _
    rw [read_answer, ih, ahead_advance]
    simp [outcome, advance, Nat.add_assoc]

/-- What is delivered to the threads. -/
theorem exec_delivered (sched : List Nat) (ts : List (Steps α)) (s : Stream) :
    ∃ d : List (Nat × UInt8), (exec sched ts s).2 = advance s d.length ∧ d.map Prod.snd <+: ahead s ∧ (∀ x ∈ d, x.1 < ts.length) ∧
      ∀ i t, ts[i]? = some t → ∃ t', (exec sched ts s).1[i]? = some t' ∧
        ∀ r, t' = .ret r → outcome t (ofThread i d) = (r, (ofThread i d).length) := by
  induction sched generalizing ts s with
  | nil =>
    refine ⟨[], by simp [exec, advance], List.nil_prefix, by simp, fun i t h => ⟨t, h, ?_⟩⟩
    rintro r rfl
    rfl
  | cons j sched ih =>
    rw [exec]
    unfold turn
    split
    · next n k hj =>
      rw [read_answer]
      generalize hA : answer n (ahead s) = A
      obtain ⟨d, h1, h2, h3, h4⟩ := ih (ts.set j (k A.1)) (advance s A.2)
      have hle : A.2 ≤ (ahead s).length := by rw [← hA]; exact answer_le _ _
      rw [ahead_advance] at h2
      refine ⟨((ahead s).take A.2).map (fun x => (j, x)) ++ d, ?_, ?_, ?_, ?_⟩
      · rw [h1]
        simp [advance, hle, Nat.add_assoc]
      · rw [List.map_append, List.map_map]
        obtain ⟨r, hr⟩ := h2
        refine ⟨r, ?_⟩
        rw [List.append_assoc, hr]
        simp
      · intro x hx
        rcases List.mem_append.1 hx with hx | hx
        · obtain ⟨y, -, rfl⟩ := List.mem_map.1 hx
          exact (List.getElem?_eq_some_iff.1 hj).1
        · simpa using h3 x hx
      · intro i t hi
        by_cases hij : j = i
        · subst hij
          rw [hj] at hi
          cases hi
          obtain ⟨t', g1, g2⟩ := h4 j (k A.1) (by rw [List.getElem?_set_self (List.getElem?_eq_some_iff.1 hj).1])
          refine ⟨t', g1, fun r hr => ?_⟩
          have g := g2 r hr
          have hag : answer n ((ahead s).take A.2 ++ ofThread j d) = A := by
            rw [← hA]
            refine answer_again n (ahead s) _ fun h => ?_
            rw [hA] at h
            rw [h] at h2
            have : d = [] := by simpa using h2
            rw [this]
            rfl
          rw [ofThread_append, ofThread_same, outcome, hag, List.drop_left' (by rw [List.length_take]; omega), g, List.length_append,
            List.length_take, min_eq_left hle]
        · obtain ⟨t', g1, g2⟩ := h4 i t (by rw [List.getElem?_set_ne hij, hi])
          refine ⟨t', g1, fun r hr => ?_⟩
          rw [ofThread_append, ofThread_other i j hij, List.nil_append]
          exact g2 r hr
    · exact ih ts s

/-- C213. However the threads are interleaved, the bytes they have passed over are delivered to them, each to one thread and in
order; and a thread that has ended has the results it has when it reads the bytes delivered to it alone, from a stream of its own. -/
theorem C213_each_byte_once (cs : List ReadClient) (sched : List Nat) (s : Stream) :
    ∃ d : List (Nat × UInt8), (exec sched (cs.map ReadClient.steps) s).2 = advance s d.length ∧ d.map Prod.snd <+: ahead s ∧
      (∀ x ∈ d, x.1 < cs.length) ∧
      ∀ (i : Nat) (c : ReadClient) (r : Except Err Out), cs[i]? = some c → (exec sched (cs.map ReadClient.steps) s).1[i]? = some (.ret r) →
        c.run ⟨ofThread i d, 0⟩ = (r, ⟨ofThread i d, (ofThread i d).length⟩) := by
  obtain ⟨d, h1, h2, h3, h4⟩ := exec_delivered sched (cs.map ReadClient.steps) s
  refine ⟨d, h1, h2, by simpa using h3, fun i c r hi hr => ?_⟩
  obtain ⟨t', g1, g2⟩ := h4 i c.steps (by simp [hi])
  rw [hr] at g1
  cases g1
  rw [← readsAs_client c, run_outcome]
  have e : ahead (⟨ofThread i d, 0⟩ : Stream) = ofThread i d := rfl
  rw [e, g2 r rfl]
  simp [advance]

/-! ### C214 -/

/-- Threads whose calls are not divided: whenever a thread gets its turn it performs its next call as a whole. -/
def readTurn (i : Nat) (cs : List ReadClient) (s : Stream) : List ReadClient × Stream :=
  match cs[i]? with
  | some (.call o k) => (cs.set i (k (o.run s).1), (o.run s).2)
  | some (.array item max k) =>
    (cs.set i (k (mapOut .items (Reader.readSerializableArray item.run max) s).1), (mapOut .items (Reader.readSerializableArray item.run max) s).2)
  | _ => (cs, s)

def readExec : List Nat → List ReadClient → Stream → List ReadClient × Stream
  | [], cs, s => (cs, s)
  | i :: sched, cs, s => readExec sched (readTurn i cs s).1 (readTurn i cs s).2

/-- How a client ended. -/
def ReadClient.ended : ReadClient → Option (Except Err Out)
  | .done o => some (.ok o)
  | .fail e => some (.error e)
  | _ => none

/-- The calls that read all their bytes at once. -/
def OneReading : ReadOp → Prop
  | .varInt _ | .varBytes _ | .string | .varString _ | .list2000 | .hashes => False
  | _ => True

/-- A client that only makes such calls. -/
def ReadClient.OneReadings : ReadClient → Prop
  | .done _ => True
  | .fail _ => True
  | .call o k => OneReading o ∧ ∀ r, (k r).OneReadings
  | .array _ _ _ => False

/-- Exactly one call of `stream.read`. -/
def OneRead (m : Steps α) : Prop := ∃ (n : Int) (f : Except Err Bytes → Except Err α), m = .read n fun x => .ret (f x)

private theorem oneRead_bind (n : Int) (f : Bytes → Steps β) (h : ∀ b, ∃ r, f b = .ret r) : OneRead (ReaderSteps.streamRead n >>= f) := by
  choose g hg using h
  refine ⟨n, fun x => match x with | .ok b => g b | .error e => .error e, ?_⟩
  show Steps.read n _ = _
  congr 1
  funext x
  cases x with
  | ok b => exact hg b
  | error e => rfl

private theorem oneRead_after {m : Steps α} (h : OneRead m) (f : Except Err α → Steps β) (hf : ∀ r, ∃ r', f r = .ret r') : OneRead (m.after f) := by
  obtain ⟨n, g, rfl⟩ := h
  choose f' hf' using hf
  refine ⟨n, fun x => f' (g x), ?_⟩
  show Steps.read n _ = _
  congr 1
  funext x
  exact hf' _

private theorem oneRead_map {m : Steps α} (h : OneRead m) (f : α → Out) : OneRead (mapSteps f m) := by
  obtain ⟨n, g, rfl⟩ := h
  refine ⟨n, fun x => match g x with | .ok b => .ok (f b) | .error e => .error e, ?_⟩
  show Steps.read n _ = _
  congr 1
  funext x
  show Steps.bind (.ret (g x)) _ = _
  cases hg : g x <;> simp only [hg] <;> rfl

private theorem oneRead_read (n : Int) : OneRead (ReaderSteps.streamRead n) := ⟨n, id, rfl⟩

private theorem oneRead_ite {c : Prop} [Decidable c] {a b : Steps α} (ha : ∃ r, a = .ret r) (hb : ∃ r, b = .ret r) :
    ∃ r, (if c then a else b) = .ret r := by
  split <;> assumption

private theorem oneRead_op (o : ReadOp) (h : OneReading o) : OneRead o.steps := by
  cases o with
  | byte =>
    refine oneRead_map (oneRead_after (oneRead_bind 1 _ fun bs => ?_) _ fun r => ?_) _
    · match bs with
      | [b] => exact ⟨_, rfl⟩
      | [] => exact ⟨_, rfl⟩
      | _ :: _ :: _ => exact ⟨_, rfl⟩
    · cases r <;> exact ⟨_, rfl⟩
  | byteRaw =>
    refine oneRead_map (oneRead_after (oneRead_bind 1 _ fun bs => ⟨_, rfl⟩) _ fun r => ?_) _
    cases r <;> exact ⟨_, rfl⟩
  | bytes n => exact oneRead_map (oneRead_read _) _
  | safeBytes n => exact oneRead_map (oneRead_bind _ _ fun bs => oneRead_ite ⟨_, rfl⟩ ⟨_, rfl⟩) _
  | bool =>
    refine oneRead_map (oneRead_bind _ _ fun bs => ?_) _
    match bs with
    | [b] => exact ⟨_, rfl⟩
    | [] => exact ⟨_, rfl⟩
    | _ :: _ :: _ => exact ⟨_, rfl⟩
  | char =>
    refine oneRead_map (oneRead_bind _ _ fun bs => ?_) _
    match bs with
    | [b] => exact ⟨_, rfl⟩
    | [] => exact ⟨_, rfl⟩
    | _ :: _ :: _ => exact ⟨_, rfl⟩
  | double e => exact oneRead_map (oneRead_bind _ _ fun bs => oneRead_ite ⟨_, rfl⟩ ⟨_, rfl⟩) _
  | fixedString n => exact oneRead_map (oneRead_bind _ _ fun bs => ⟨_, rfl⟩) _
  | i8 | u8 | i16 | u16 | i32 | u32 | i64 | u64 | uint256 | uint160 | fixed8 | float | doubleVal =>
    exact oneRead_map (oneRead_bind _ _ fun bs => ⟨_, rfl⟩) _
  | varInt | varBytes | string | varString | list2000 | hashes => exact h.elim

theorem readExec_append (a b : List Nat) (cs : List ReadClient) (s : Stream) :
    readExec (a ++ b) cs s = readExec b (readExec a cs s).1 (readExec a cs s).2 := by
  induction a generalizing cs s with
  | nil => rfl
  | cons i a ih => exact ih _ _

private theorem ended_of_ret (c : ReadClient) (hc : c.OneReadings) (r : Except Err Out) (h : c.steps = .ret r) : c.ended = some r := by
  cases c with
  | done o => cases h; rfl
  | fail e => cases h; rfl
  | call o k =>
    obtain ⟨n, f, ho⟩ := oneRead_op o hc.1
    rw [ReadClient.steps, ho] at h
    cases h
  | array item max k => exact hc.elim

/-- The next step of a thread is its next call. -/
private theorem read_step (c : ReadClient) (hc : c.OneReadings) (n : Int) (k : Except Err Bytes → Steps Out) (h : c.steps = .read n k)
    (cs : List ReadClient) (i : Nat) (hi : cs[i]? = some c) (s : Stream) :
    ∃ c', readTurn i cs s = (cs.set i c', (Stream.read n s).2) ∧ c'.steps = k (Stream.read n s).1 ∧ c'.OneReadings := by
  cases c with
  | done o => cases h
  | fail e => cases h
  | call o k' =>
    obtain ⟨m, f, ho⟩ := oneRead_op o hc.1
    have hr : o.run s = (f (Stream.read m s).1, (Stream.read m s).2) := by
      rw [← readsAs_op o s, ho]
      rfl
    rw [ReadClient.steps, ho] at h
    cases h
    refine ⟨k' (f (Stream.read n s).1), ?_, rfl, hc.2 _⟩
    simp only [readTurn, hi, hr]
  | array item max k => exact hc.elim

/-- C214 for threads whose calls read all their bytes at once (numbers of fixed width, bools, chars, floats, amounts, UInt160,
UInt256, raw bytes, fixed strings): however the threads are interleaved, the stream and all results are those of performing the
calls one after another as a whole, in some order that respects the order of each thread. -/
theorem C214_one_read_partial (cs : List ReadClient) (hc : ∀ c ∈ cs, c.OneReadings) (sched : List Nat) (s s' : Stream)
    (rs : List (Except Err Out)) (h : exec sched (cs.map ReadClient.steps) s = (rs.map .ret, s')) :
    ∃ τ cs', readExec τ cs s = (cs', s') ∧ cs'.map ReadClient.ended = rs.map some := by
  have key : ∀ (sched : List Nat) (cs : List ReadClient) (s : Stream), (∀ c ∈ cs, c.OneReadings) →
      ∃ τ cs', readExec τ cs s = (cs', (exec sched (cs.map ReadClient.steps) s).2) ∧
        cs'.map ReadClient.steps = (exec sched (cs.map ReadClient.steps) s).1 ∧ ∀ c ∈ cs', c.OneReadings := by
    intro sched
    induction sched with
    | nil => exact fun cs s hc => ⟨[], cs, rfl, rfl, hc⟩
    | cons j sched ih =>
      intro cs s hc
      rw [exec]
      unfold turn
      split
      · next n k hj =>
        rw [List.getElem?_map] at hj
        obtain ⟨c, hcj, hct⟩ := Option.map_eq_some_iff.1 hj
        obtain ⟨c', g1, g2, g3⟩ := read_step c (hc c (List.mem_of_getElem? hcj)) n k hct cs j hcj s
        have hm : ∀ x ∈ cs.set j c', x.OneReadings := by
          intro x hx
          rcases List.mem_or_eq_of_mem_set hx with hx | rfl
          · exact hc x hx
          · exact g3
        obtain ⟨τ, cs', f1, f2, f3⟩ := ih (cs.set j c') (Stream.read n s).2 hm
        rw [List.map_set, g2] at f1 f2
        refine ⟨j :: τ, cs', ?_, f2, f3⟩
        rw [readExec, g1]
        exact f1
      · exact ih cs s hc
  obtain ⟨τ, cs', h1, h2, h3⟩ := key sched cs s hc
  rw [h] at h1 h2
  refine ⟨τ, cs', h1, ?_⟩
  have hlen : cs'.length = rs.length := by simpa using congrArg List.length h2
  refine List.ext_getElem? fun i => ?_
  rw [List.getElem?_map, List.getElem?_map]
  by_cases hi : i < rs.length
  · have e := congrArg (·[i]?) h2
    have hi' : i < cs'.length := by omega
    simp only [List.getElem?_map, List.getElem?_eq_getElem hi', List.getElem?_eq_getElem hi, Option.map_some, Option.some.injEq] at e ⊢
    exact ended_of_ret _ (h3 _ (List.getElem_mem _)) _ e
  · rw [List.getElem?_eq_none (by omega), List.getElem?_eq_none (by omega)]
    rfl

/-- A program that reads one byte string. -/
def readOne : ReadClient := .call (.varBytes maxsize) fun r => match r with | .ok o => .done o | .error e => .fail e

/-- The steps of reading a short byte string. -/
private theorem steps_readOne : ∃ K, readOne.steps = .read 1 K ∧ ∀ y : UInt8, y ≠ 0 → y.toNat < 0xfd →
    K (.ok [y]) = .read y.toNat fun r => match r with | .ok b => .ret (.ok (.bytes b)) | .error e => .ret (.error e) := by
  refine ⟨_, rfl, fun y h0 h1 => ?_⟩
  have e0 : ¬ ((y.toNat : Int) = 0) := by
    intro h
    exact h0 (UInt8.toNat_inj.1 (by simpa using h))
  have e1 : ¬ ((y.toNat : Int) = 0xfd) := by omega
  have e2 : ¬ ((y.toNat : Int) = 0xfe) := by omega
  have e3 : ¬ ((y.toNat : Int) = 0xff) := by omega
  have e4 : ¬ ((y.toNat : Int) > maxsize) := by simp only [maxsize]; omega
  have hv : ReaderSteps.readVarIntValue (y.toNat : Int) = .ret (.ok (y.toNat : Int)) := by
    simp only [ReaderSteps.readVarIntValue, if_neg e1, if_neg e2, if_neg e3]
    rfl
  have hc : ReaderSteps.checkMax maxsize (y.toNat : Int) = .ret (.ok (y.toNat : Int)) := by
    simp only [ReaderSteps.checkMax, if_neg e4]
    rfl
  have key : ∀ m : Steps Int, m = .ret (.ok (y.toNat : Int)) →
      (mapSteps .bytes (m >>= ReaderSteps.readBytes)).after (fun r => (match r with | .ok o => ReadClient.done o | .error e => .fail e : ReadClient).steps) =
        .read y.toNat fun r => match r with | .ok b => .ret (.ok (.bytes b)) | .error e => .ret (.error e) := by
    rintro m rfl
    show Steps.read _ _ = _
    congr 1
    funext r
    cases r <;> rfl
  have hm : (if (y.toNat : Int) = 0 then pure (y.toNat : Int) else ReaderSteps.readVarIntValue (y.toNat : Int) >>= ReaderSteps.checkMax maxsize) =
      Steps.ret (.ok (y.toNat : Int)) := by
    rw [if_neg e0, hv]
    exact hc
  exact key _ hm

/-- C214 fails for byte strings: of two threads that read a byte string each, the first may get bytes that are no byte string of
the stream, but the first one shifted by one byte, with the length of the second one at its end. -/
theorem C214_varbytes_violated (x : UInt8) (a b : Bytes) (ha : a.length + 1 < 0xfd) :
    ∃ sched ts s', exec sched [readOne.steps, readOne.steps] ⟨[UInt8.ofNat (a.length + 1)] ++ x :: a ++ [UInt8.ofNat b.length] ++ b, 0⟩ = (ts, s') ∧
      ts[0]? = some (.ret (.ok (.bytes (a ++ [UInt8.ofNat b.length])))) := by
  obtain ⟨K, hK, hK'⟩ := steps_readOne
  rw [hK]
  have hn : (UInt8.ofNat (a.length + 1)).toNat = a.length + 1 := by simp; omega
  have h1 := hK' (UInt8.ofNat (a.length + 1)) (by intro h; have := congrArg UInt8.toNat h; rw [hn] at this; simp at this) (by omega)
  generalize UInt8.ofNat (a.length + 1) = y at *
  generalize UInt8.ofNat b.length = z
  have r1 : Stream.read 1 ⟨[y] ++ x :: a ++ [z] ++ b, 0⟩ = (.ok [y], ⟨[y] ++ x :: a ++ [z] ++ b, 1⟩) := rfl
  have r2 : Stream.read 1 ⟨[y] ++ x :: a ++ [z] ++ b, 1⟩ = (.ok [x], ⟨[y] ++ x :: a ++ [z] ++ b, 2⟩) := rfl
  have r3 : (Stream.read (y.toNat : Int) ⟨[y] ++ x :: a ++ [z] ++ b, 2⟩).1 = .ok (a ++ [z]) := by
    rw [hn]
    have e4 : ¬ (((a.length + 1 : Nat) : Int) > maxsize) := by simp only [maxsize]; omega
    have e5 : ¬ (((a.length + 1 : Nat) : Int) < 0) := by omega
    simp only [Stream.read, if_neg e4, if_neg e5, Int.toNat_natCast]
    have : ([y] ++ x :: a ++ [z] ++ b).drop 2 = (a ++ [z]) ++ b := by simp
    rw [this, List.take_left' (by simp)]
  refine ⟨[0, 1, 0], _, _, rfl, ?_⟩
  simp only [turn, List.getElem?_cons_zero, List.getElem?_cons_succ, List.set_cons_zero, List.set_cons_succ, r1, r2, h1, r3]

/-- Two threads that share a reader of the amount 5, the byte 7 and two bytes more. -/
example : (∀ c ∈ [ReadClient.call .fixed8 (fun _ => .call (.bytes 2) fun r => match r with | .ok o => .done o | .error e => .fail e),
    .call .byte fun r => match r with | .ok o => .done o | .error e => .fail e], c.OneReadings) ∧
    ∃ s', exec [0, 1, 0] ([ReadClient.call .fixed8 (fun _ => .call (.bytes 2) fun r => match r with | .ok o => .done o | .error e => .fail e),
      .call .byte fun r => match r with | .ok o => .done o | .error e => .fail e].map ReadClient.steps) ⟨[5, 0, 0, 0, 0, 0, 0, 0, 7, 1, 2], 0⟩ =
      ([.ok (.bytes [1, 2]), .ok (.int 7)].map .ret, s') := by
  refine ⟨?_, _, rfl⟩
  intro c hc
  rcases List.mem_cons.1 hc with rfl | hc
  · refine ⟨trivial, fun _ => ⟨trivial, fun r => ?_⟩⟩
    cases r <;> trivial
  · rw [List.mem_singleton.1 hc]
    refine ⟨trivial, fun r => ?_⟩
    cases r <;> trivial

end Neo.Props
