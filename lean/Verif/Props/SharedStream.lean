import Verif.Props.StreamContext
import Verif.Props.VarInt

/-! # C219, C220: a reader and a writer on one stream -/

namespace Neo.Props
open Py Spec

/-- A program with a BinaryReader and a BinaryWriter on the same stream: it reads and writes by turns, and goes on as the results say. -/
inductive SharedClient where
  | done
  | read (c : ReadClient) (k : Except Err Out → SharedClient)
  | write (c : WriteClient) (k : Except Err Unit → SharedClient)

def SharedClient.run : SharedClient → Stream → Stream
  | .done, s => s
  | .read c k, s => (k (c.run s).1).run (c.run s).2
  | .write c k, s => (k (c.run s).1).run (c.run s).2

/-- The results of the reader's calls, in order, with the position of each. -/
def SharedClient.results : SharedClient → Stream → List (Nat × ReadClient × Except Err Out)
  | .done, _ => []
  | .read c k, s => (s.pos, c, (c.run s).1) :: (k (c.run s).1).results (c.run s).2
  | .write c k, s => (k (c.run s).1).results (c.run s).2

private theorem overwrite_facts (s : Stream) (bs : Bytes) (h : s.pos ≤ s.buf.length) :
    s.pos ≤ (overwrite s bs).pos ∧ (overwrite s bs).pos ≤ (overwrite s bs).buf.length ∧ (overwrite s bs).buf.take s.pos = s.buf.take s.pos ∧
      (overwrite s bs).buf.drop (overwrite s bs).pos = s.buf.drop (overwrite s bs).pos := by
  unfold overwrite
  by_cases hb : bs = []
  · rw [if_pos hb]
    exact ⟨le_refl _, h, rfl, rfl⟩
  · rw [if_neg hb]
    have e : s.pos - s.buf.length = 0 := by omega
    have hl : (s.buf.take s.pos).length = s.pos := by rw [List.length_take]; omega
    simp only [e, List.replicate_zero, List.append_nil]
    refine ⟨Nat.le_add_right _ _, ?_, ?_, ?_⟩
    · simp only [List.length_append, hl]
      omega
    · rw [List.append_assoc, List.take_append_of_le_length (by rw [hl]), List.take_take, min_self]
    · rw [List.drop_left' (by rw [List.length_append, hl])]

/-- What a program leaves of the stream. -/
private theorem shared_facts (c : SharedClient) (s : Stream) (h : s.pos ≤ s.buf.length) :
    s.pos ≤ (c.run s).pos ∧ (c.run s).pos ≤ (c.run s).buf.length ∧ (c.run s).buf.take s.pos = s.buf.take s.pos ∧
      (c.run s).buf.drop (c.run s).pos = s.buf.drop (c.run s).pos := by
  induction c generalizing s with
  | done => exact ⟨le_refl _, h, rfl, rfl⟩
  | read c k ih =>
    obtain ⟨h1, h2, h3⟩ := C13_reading_is_safe c s h
    obtain ⟨g1, g2, g3, g4⟩ := ih (c.run s).1 (c.run s).2 (by rw [h1]; exact h3)
    rw [h1] at g3 g4
    refine ⟨le_trans h2 g1, g2, ?_, g4⟩
    have := congrArg (List.take s.pos) g3
    rwa [List.take_take, List.take_take, min_eq_left h2] at this
  | write c k ih =>
    obtain ⟨r, bs, hc⟩ := C160_writing_in_context c
    rw [SharedClient.run, hc s]
    obtain ⟨h1, h2, h3, h4⟩ := overwrite_facts s bs h
    obtain ⟨g1, g2, g3, g4⟩ := ih r (overwrite s bs) h2
    refine ⟨le_trans h1 g1, g2, ?_, ?_⟩
    · have := congrArg (List.take s.pos) g3
      rwa [List.take_take, List.take_take, min_eq_left h1, h3] at this
    · have := congrArg (List.drop (((k r).run (overwrite s bs)).pos - (overwrite s bs).pos)) h4
      rw [List.drop_drop, List.drop_drop, Nat.add_sub_cancel' g1] at this
      exact g4.trans this

/-- C220. Whatever a program does with a reader and a writer on one stream, the position never moves backwards nor beyond the end, what lies
before the position does not change any more, what lies after it has never been changed, and the stream does not get shorter. -/
theorem C220_tape (c : SharedClient) (s : Stream) (h : s.pos ≤ s.buf.length) :
    s.pos ≤ (c.run s).pos ∧ (c.run s).pos ≤ (c.run s).buf.length ∧ (c.run s).buf.take s.pos = s.buf.take s.pos ∧
      (c.run s).buf.drop (c.run s).pos = s.buf.drop (c.run s).pos ∧ s.buf.length ≤ (c.run s).buf.length := by
  obtain ⟨h1, h2, h3, h4⟩ := shared_facts c s h
  refine ⟨h1, h2, h3, h4, ?_⟩
  have := congrArg List.length h4
  simp only [List.length_drop] at this
  omega

/-- C220. Every call of the reader returns what it returns from the original stream at the position where it is made, whatever has
been written in between. -/
theorem C220_reads (c : SharedClient) (s : Stream) (h : s.pos ≤ s.buf.length) :
    ∀ x ∈ c.results s, x.2.2 = (x.2.1.run ⟨s.buf, x.1⟩).1 := by
  have key : ∀ (c : SharedClient) (t : Stream), t.pos ≤ t.buf.length → t.buf.drop t.pos = s.buf.drop t.pos →
      ∀ x ∈ c.results t, x.2.2 = (x.2.1.run ⟨s.buf, x.1⟩).1 := by
    intro c
    induction c with
    | done => intro t _ _ x hx; cases hx
    | read c k ih =>
      intro t ht hd x hx
      rw [SharedClient.results] at hx
      rcases List.mem_cons.1 hx with rfl | hx
      · exact (C161_before c t ⟨s.buf, t.pos⟩ hd).1
      · obtain ⟨h1, h2, h3⟩ := C13_reading_is_safe c t ht
        refine ih _ _ (by rw [h1]; exact h3) ?_ x hx
        have := congrArg (List.drop ((c.run t).2.pos - t.pos)) hd
        rw [List.drop_drop, List.drop_drop, Nat.add_sub_cancel' h2] at this
        rw [h1]
        exact this
    | write c k ih =>
      intro t ht hd x hx
      obtain ⟨r, bs, hc⟩ := C160_writing_in_context c
      rw [SharedClient.results, hc t] at hx
      obtain ⟨h1, h2, h3, h4⟩ := overwrite_facts t bs ht
      refine ih r (overwrite t bs) h2 ?_ x hx
      have := congrArg (List.drop ((overwrite t bs).pos - t.pos)) hd
      rw [List.drop_drop, List.drop_drop, Nat.add_sub_cancel' h1] at this
      exact h4.trans this
  exact key c s h rfl

/-- C219 holds if everything has been read: what the writer writes is appended. -/
theorem C219_all_read_partial (c : WriteClient) (pre : Bytes) :
    ∃ bs, (∀ at_ : Bytes, (c.run ⟨at_, at_.length⟩).2.buf = at_ ++ bs) ∧ (c.run ⟨pre, pre.length⟩).2 = ⟨pre ++ bs, (pre ++ bs).length⟩ := by
  obtain ⟨r, bs, hc⟩ := C160_writing_in_context c
  exact ⟨bs, fun p => by rw [hc, overwrite_end], by rw [hc, overwrite_end]⟩

/-- C219 fails otherwise: the bytes written take the place of the next unread ones, which are lost, and the reader goes on behind
them, so that it does not see what was written either; with as many unread bytes nothing is appended at all. -/
theorem C219_unread_violated (c : WriteClient) (pre bs old rest : Bytes) (hw : (c.run ⟨pre, pre.length⟩).2.buf = pre ++ bs)
    (hl : old.length = bs.length) : (c.run ⟨pre ++ old ++ rest, pre.length⟩).2 = ⟨pre ++ bs ++ rest, (pre ++ bs).length⟩ ∧
    (ReadOp.bytes (-1)).run (c.run ⟨pre ++ old ++ rest, pre.length⟩).2 = (.ok (.bytes rest), ⟨pre ++ bs ++ rest, (pre ++ bs ++ rest).length⟩) := by
  obtain ⟨r, bs', hc⟩ := C160_writing_in_context c
  rw [hc, overwrite_end] at hw
  have e : bs' = bs := List.append_cancel_left hw
  rw [hc, e, overwrite_inside _ _ _ _ hl]
  refine ⟨rfl, ?_⟩
  have e1 : (ReadOp.bytes (-1)).run ⟨pre ++ bs ++ rest, (pre ++ bs).length⟩ =
      (.ok (.bytes ((pre ++ bs ++ rest).drop (pre ++ bs).length)), ⟨pre ++ bs ++ rest, (pre ++ bs).length + ((pre ++ bs ++ rest).drop (pre ++ bs).length).length⟩) := rfl
  rw [e1, List.drop_left' rfl, ← List.length_append]

/-- C219 fails for what was just written: the reader on the same stream finds its end, and reads 0 or nothing. -/
theorem C219_written_violated (c : WriteClient) (pre : Bytes) (max : Int) :
    Reader.readVarInt max (c.run ⟨pre, pre.length⟩).2 = (.ok 0, (c.run ⟨pre, pre.length⟩).2) ∧
    Reader.readVarBytes max (c.run ⟨pre, pre.length⟩).2 = (.ok [], (c.run ⟨pre, pre.length⟩).2) := by
  obtain ⟨bs, -, h⟩ := C219_all_read_partial c pre
  rw [h]
  have h0 := C07_readVarInt_eof max ⟨pre ++ bs, (pre ++ bs).length⟩ (le_refl _)
  refine ⟨h0, ?_⟩
  show (Reader.readVarInt max >>= Reader.readBytes) _ = _
  rw [IOM.bind_ok h0]
  simp [Reader.readBytes, Stream.read, maxsize]

/-- A request is read, and the answer written over the next one. -/
example : ((WriteClient.call (.u16 (.int 0x0102) .little) fun _ => .done).run ⟨[9], 1⟩).2.buf = [9] ++ [2, 1] ∧ ([7, 8] : Bytes).length = ([2, 1] : Bytes).length :=
  ⟨rfl, rfl⟩

example : (SharedClient.read (.call .byte fun _ => .done (.int 0)) fun _ => .write (.call (.u16 (.int 0x0102) .little) fun _ => .done) fun _ => .done).run
    ⟨[9, 7, 8, 6], 0⟩ = ⟨[9, 2, 1, 6], 3⟩ := rfl

end Neo.Props
