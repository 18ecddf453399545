import Verif.Props.StreamContext
import Verif.Props.Decode
import Verif.Props.Layout
import Verif.Spec.Recovery

/-! # C132, which records refuse truncation; C209, C210: arrays and logs that end early -/

namespace Neo.Props
open Py Spec Reader Writer

theorem local_ty (t : Ty) : Local t.read := by
  induction t with
  | int k e => cases k <;> exact local_unpackInt _ _ _
  | varInt => exact local_readVarInt _
  | varBytes => exact local_bind (local_readVarInt _) fun _ => local_read _
  | varString => exact local_bind (local_readVarInt _) fun _ => local_unpackStr _ _
  | bool =>
    refine local_bind (local_read _) fun bs => ?_
    match bs with
    | [b] => exact local_pure _
    | [] => exact local_raise _
    | _ :: _ :: _ => exact local_raise _
  | char =>
    refine local_bind (local_read _) fun bs => ?_
    match bs with
    | [b] => exact local_pure _
    | [] => exact local_raise _
    | _ :: _ :: _ => exact local_raise _
  | double e => exact local_bind (local_read _) fun _ => local_ite (local_pure _) (local_raise _)
  | uint160 => exact local_bind (local_read _) fun _ => local_lift _
  | uint256 => exact local_bind (local_read _) fun _ => local_lift _
  | fixed8 => exact local_unpackInt _ _ _
  | hashes => exact local_bind (local_readVarInt _) fun _ => local_readHashItems _
  | unit => exact local_pure _
  | pair a b iha ihb => exact local_bind iha fun _ => local_bind ihb fun _ => local_pure _
  | array a ih => exact local_bind (local_readVarInt _) fun _ => local_deserializeUpTo ih _

/-- A read that ends early passes over everything there is. -/
theorem truncated_at_end {m : IOM α} (hm : Local m) {bs : Bytes} {x : α} (hy : Yields m bs x) {p : Bytes} (hp : p <+: bs) (hne : p ≠ bs)
    (pre : Bytes) : ∃ r, m ⟨pre ++ p, pre.length⟩ = (r, ⟨pre ++ p, (pre ++ p).length⟩) := by
  obtain ⟨f, hf, hm⟩ := hm
  have ha : ∀ q : Bytes, ahead ⟨pre ++ q, pre.length⟩ = q := fun q => List.drop_left' rfl
  have hend : (f p).2 = p.length := by
    by_contra hlt
    have hlt : (f p).2 < p.length := lt_of_le_of_ne (hf.le p) hlt
    obtain ⟨rest, rfl⟩ := hp
    have h1 := hf.more p (p.drop (f p).2 ++ rest) hlt
    rw [← List.append_assoc, List.take_append_drop] at h1
    have h2 := hy pre []
    rw [List.append_nil, hm, ha, h1] at h2
    have := congrArg Stream.pos (Prod.mk.inj h2).2
    simp only [advance, List.length_append] at this
    omega
  refine ⟨(f p).1, ?_⟩
  rw [hm, ha, hend]
  simp [advance]

/-- The last field of a record that takes any bytes. -/
def Ty.lastField : Ty → Option Ty
  | .unit => none
  | .pair a b => b.lastField.orElse fun _ => a.lastField
  | t => some t

/-- The encoding of a valid value. -/
theorem encoded {t : Ty} {v : t.Value} (hv : t.Valid v) {bs : Bytes} (hw : Appends (t.write v) () bs) : Yields t.read bs (t.same v) := by
  obtain ⟨b, h1, h2⟩ := C15_records_partial t v hv
  rw [(hw.unique h1).2]
  exact h2

private theorem yields_nil_at {rd : IOM α} {x : α} (h : Yields rd [] x) (s : Bytes) : rd ⟨s, 0⟩ = (.ok x, ⟨s, 0⟩) := by
  simpa using h [] s

/-- A read of the empty encoding neither raises at the end of the stream nor passes over a zero byte. -/
private theorem not_nil {rd : IOM α} {x : α} (h : Yields rd [] x)
    (hr : (∃ e s', rd ⟨[], 0⟩ = (.error e, s')) ∨ (rd ⟨[0], 0⟩).2.pos = 1) : False := by
  rcases hr with ⟨e, s', hr⟩ | hr
  · have := yields_nil_at h []
    rw [hr] at this
    cases this
  · rw [yields_nil_at h [0]] at hr
    cases hr

private theorem varInt_zero : readVarInt maxsize ⟨[0], 0⟩ = (.ok 0, ⟨[0], 1⟩) := by rfl

private theorem reads_something (t : Ty) (h1 : t ≠ .unit) (h2 : ∀ a b, t ≠ .pair a b) :
    (∃ e s', t.read ⟨[], 0⟩ = (.error e, s')) ∨ (t.read ⟨[0], 0⟩).2.pos = 1 := by
  cases t with
  | int k e =>
    obtain ⟨er, s', h⟩ := short_kind k e [] [] (by cases k <;> decide)
    exact .inl ⟨er, s', h⟩
  | varInt => exact .inr rfl
  | varBytes => exact .inr rfl
  | varString => exact .inr rfl
  | bool => exact .inl ⟨_, _, rfl⟩
  | char => exact .inl ⟨_, _, rfl⟩
  | double e => exact .inl ⟨_, _, rfl⟩
  | uint160 => exact .inl ⟨_, _, rfl⟩
  | uint256 => exact .inl ⟨_, _, rfl⟩
  | fixed8 => exact .inl ⟨_, _, rfl⟩
  | hashes => exact .inr rfl
  | unit => exact absurd rfl h1
  | pair a b => exact absurd rfl (h2 a b)
  | array a => exact .inr rfl

/-- Only records without fields have an empty encoding. -/
theorem encoding_nil_iff (t : Ty) (v : t.Value) (hv : t.Valid v) (bs : Bytes) (hw : Appends (t.write v) () bs) :
    bs = [] ↔ t.lastField = none := by
  induction t generalizing bs with
  | unit => exact ⟨fun _ => rfl, fun _ => (hw.unique (appends_pure ())).2⟩
  | pair a b iha ihb =>
    obtain ⟨x, y⟩ := v
    obtain ⟨bs1, h1, -⟩ := C15_records_partial a x hv.1
    obtain ⟨bs2, h2, -⟩ := C15_records_partial b y hv.2
    rw [(hw.unique (appends_bind h1 h2)).2, List.append_eq_nil_iff, iha x hv.1 bs1 h1, ihb y hv.2 bs2 h2, Ty.lastField]
    cases b.lastField <;> simp
  | _ =>
    refine ⟨fun h => ?_, fun h => by cases h⟩
    subst h
    exact (not_nil (encoded hv hw) (reads_something _ (fun h => by cases h) fun _ _ h => by cases h)).elim

/-- C132, exactly: the encoding of a record refuses truncation if its last field is of fixed width, and otherwise it does not:
there is a place, in front of its last field, where it can be cut off without notice. -/
theorem C132_iff_partial (t : Ty) (v : t.Value) (hv : t.Valid v) (bs : Bytes) (hw : Appends (t.write v) () bs) :
    RefusesTruncation t.read bs ↔ ∀ f, t.lastField = some f → f.FixedWidth := by
  constructor
  · intro h f hf
    by_contra hn
    suffices ∃ p, p <+: bs ∧ p ≠ bs ∧ ∀ pre, ∃ y, t.read ⟨pre ++ p, pre.length⟩ = (.ok y, ⟨pre ++ p, (pre ++ p).length⟩) by
      obtain ⟨p, h1, h2, h3⟩ := this
      obtain ⟨e, s', he⟩ := h [] p h1 h2
      obtain ⟨y, hy⟩ := h3 []
      rw [he] at hy
      cases hy
    clear h
    induction t generalizing bs with
    | pair a b iha ihb =>
      obtain ⟨x, y⟩ := v
      obtain ⟨bs1, h1, g1⟩ := C15_records_partial a x hv.1
      obtain ⟨bs2, h2, g2⟩ := C15_records_partial b y hv.2
      rw [(hw.unique (appends_bind h1 h2)).2]
      rw [Ty.lastField] at hf
      cases hb : b.lastField with
      | some f' =>
        rw [hb] at hf
        obtain ⟨p, q1, q2, q3⟩ := ihb y hv.2 bs2 h2 (hb.trans hf)
        refine ⟨bs1 ++ p, (List.prefix_append_right_inj bs1).2 q1, fun e => q2 (List.append_cancel_left e), fun pre => ?_⟩
        obtain ⟨z, hz⟩ := q3 (pre ++ bs1)
        have e1 := g1 pre p
        rw [List.append_assoc] at e1 hz
        exact ⟨(a.same x, z), (IOM.bind_ok e1).trans (IOM.bind_ok hz)⟩
      | none =>
        rw [hb] at hf
        obtain ⟨p, q1, q2, q3⟩ := iha x hv.1 bs1 h1 hf
        rw [(encoding_nil_iff b y hv.2 bs2 h2).2 hb] at g2 ⊢
        rw [List.append_nil]
        refine ⟨p, q1, q2, fun pre => ?_⟩
        obtain ⟨z, hz⟩ := q3 pre
        have e2 := g2 (pre ++ p) []
        rw [List.append_nil, List.append_nil] at e2
        exact ⟨(z, b.same y), (IOM.bind_ok hz).trans (IOM.bind_ok e2)⟩
    | unit => cases hf
    | varInt =>
      refine ⟨[], List.nil_prefix, fun e => ?_, fun pre => ⟨_, by rw [List.append_nil]; exact (C132_empty_violated pre 0 (by decide)).1⟩⟩
      exact absurd ((encoding_nil_iff .varInt v hv bs hw).1 e.symm) (by simp [Ty.lastField])
    | varBytes =>
      refine ⟨[], List.nil_prefix, fun e => ?_, fun pre => ⟨_, by rw [List.append_nil]; exact (C132_empty_violated pre 0 (by decide)).2.1⟩⟩
      exact absurd ((encoding_nil_iff .varBytes v hv bs hw).1 e.symm) (by simp [Ty.lastField])
    | varString =>
      refine ⟨[], List.nil_prefix, fun e => ?_, fun pre => ⟨_, by rw [List.append_nil]; exact (C132_empty_violated pre 0 (by decide)).2.2.1⟩⟩
      exact absurd ((encoding_nil_iff .varString v hv bs hw).1 e.symm) (by simp [Ty.lastField])
    | hashes =>
      refine ⟨[], List.nil_prefix, fun e => ?_, fun pre => ⟨_, by rw [List.append_nil]; exact (C132_empty_violated pre 0 (by decide)).2.2.2.1⟩⟩
      exact absurd ((encoding_nil_iff .hashes v hv bs hw).1 e.symm) (by simp [Ty.lastField])
    | array a _ =>
      refine ⟨[], List.nil_prefix, fun e => ?_, fun pre => ⟨[], by rw [List.append_nil]; exact IOM.bind_ok (C132_empty_violated pre 0 (by decide)).1⟩⟩
      exact absurd ((encoding_nil_iff (.array a) v hv bs hw).1 e.symm) (by simp [Ty.lastField])
    | _ =>
      cases hf
      exact absurd trivial hn
  · intro h
    induction t generalizing bs with
    | pair a b iha ihb =>
      obtain ⟨x, y⟩ := v
      obtain ⟨bs1, h1, g1⟩ := C15_records_partial a x hv.1
      obtain ⟨bs2, h2, g2⟩ := C15_records_partial b y hv.2
      rw [(hw.unique (appends_bind h1 h2)).2]
      rw [Ty.lastField] at h
      cases hb : b.lastField with
      | none =>
        rw [hb] at h
        rw [(encoding_nil_iff b y hv.2 bs2 h2).2 hb, List.append_nil]
        intro pre p hp hne
        obtain ⟨e, s', he⟩ := iha x hv.1 bs1 h1 h pre p hp hne
        exact ⟨e, s', IOM.bind_err he⟩
      | some f =>
        rw [hb] at h
        have r2 := ihb y hv.2 bs2 h2 (fun g hg => h g (by rw [← hg, hb]; rfl))
        have hne2 : [] ≠ bs2 := fun e => by
          rw [(encoding_nil_iff b y hv.2 bs2 h2).1 e.symm] at hb
          cases hb
        intro pre p hp hne
        by_cases hlt : p.length < bs1.length
        · have hp1 : p <+: bs1 := List.prefix_of_prefix_length_le hp (List.prefix_append _ _) (le_of_lt hlt)
          obtain ⟨r, hr⟩ := truncated_at_end (local_ty a) g1 hp1 (fun e => by rw [e] at hlt; omega) pre
          cases r with
          | error e => exact ⟨e, _, IOM.bind_err hr⟩
          | ok z =>
            obtain ⟨e, s', he⟩ := r2 (pre ++ p) [] List.nil_prefix hne2
            rw [List.append_nil] at he
            exact ⟨e, s', (IOM.bind_ok hr).trans (IOM.bind_err he)⟩
        · have hp1 : bs1 <+: p := List.prefix_of_prefix_length_le (List.prefix_append _ _) hp (by omega)
          obtain ⟨q, rfl⟩ := hp1
          have hq : q <+: bs2 := (List.prefix_append_right_inj bs1).mp hp
          obtain ⟨e, s', he⟩ := r2 (pre ++ bs1) q hq (fun e => hne (by rw [e]))
          have e1 := g1 pre q
          rw [List.append_assoc] at e1 he
          exact ⟨e, s', (IOM.bind_ok e1).trans (IOM.bind_err he)⟩
    | unit =>
      have : bs = [] := (encoding_nil_iff .unit v hv bs hw).2 rfl
      subst this
      intro pre p hp hne
      exact absurd (List.prefix_nil.mp hp) hne
    | varInt => exact (h _ rfl).elim
    | varBytes => exact (h _ rfl).elim
    | varString => exact (h _ rfl).elim
    | hashes => exact (h _ rfl).elim
    | array a _ => exact (h _ rfl).elim
    | _ => exact C132_fixed_width_partial _ (h _ rfl) v hv bs hw

private theorem at_end {rd : IOM α} {pre : Bytes} (h : ∃ e s', rd ⟨pre ++ [], pre.length⟩ = (.error e, s')) :
    ∃ e s', rd ⟨pre, pre.length⟩ = (.error e, s') := by rwa [List.append_nil] at h

/-- A record with a last field of fixed width is not read at the end of a stream. -/
theorem raises_at_end (t : Ty) (f : Ty) (hf : t.lastField = some f) (hw : f.FixedWidth) (pre : Bytes) :
    ∃ e s', t.read ⟨pre, pre.length⟩ = (.error e, s') := by
  induction t with
  | unit => cases hf
  | pair a b iha ihb =>
    rw [Ty.lastField] at hf
    cases hb : b.lastField with
    | none =>
      rw [hb] at hf
      obtain ⟨e, s', h⟩ := iha hf
      exact ⟨e, s', IOM.bind_err h⟩
    | some g =>
      rw [hb] at hf
      obtain ⟨e, s', h⟩ := ihb (hb.trans hf)
      obtain ⟨F, hF, ha⟩ := local_ty a
      have h0 : ahead ⟨pre, pre.length⟩ = [] := by simp [ahead]
      have h1 := ha ⟨pre, pre.length⟩
      have h2 : (F []).2 = 0 := by simpa using hF.le []
      rw [h0, h2] at h1
      cases hr : (F []).1 with
      | error er => rw [hr] at h1; exact ⟨_, _, IOM.bind_err h1⟩
      | ok x => rw [hr] at h1; exact ⟨_, _, (IOM.bind_ok h1).trans (IOM.bind_err (s' := s') (by simpa [advance] using h))⟩
  | int k e =>
    obtain ⟨er, s', h⟩ := short_kind k e pre [] (by cases k <;> decide)
    rw [List.append_nil] at h
    exact ⟨er, s', h⟩
  | bool => exact at_end (short_one _ rfl rfl pre [] (by decide))
  | char => exact at_end (short_one _ rfl rfl pre [] (by decide))
  | double e =>
    refine raises_trans (IOM.bind_ok (read_nat_apply 8 _ (by decide))) ?_
    simp only [List.drop_length, List.take_nil]
    rw [if_neg (by decide)]
    exact ⟨_, _, rfl⟩
  | uint160 => exact at_end (short_uint 20 (by decide) pre [] (by decide))
  | uint256 => exact at_end (short_uint 32 (by decide) pre [] (by decide))
  | fixed8 =>
    obtain ⟨er, s', h⟩ := short_kind .i64 .little pre [] (by decide)
    rw [List.append_nil] at h
    exact ⟨er, s', h⟩
  | _ =>
    cases hf
    exact hw.elim

/-- The values `xs` of the type `t` are valid and `bs` are their encodings. -/
def Encodings (t : Ty) (xs : List t.Value) (bs : List Bytes) : Prop :=
  List.Forall₂ (fun x b => t.Valid x ∧ Appends (t.write x) () b) xs bs

private theorem complete_items (t f : Ty) (hf : t.lastField = some f) (hw : f.FixedWidth) {xs : List t.Value} {bs : List Bytes}
    (henc : Encodings t xs bs) (n : Nat) (hn : xs.length ≤ n) (q : Bytes) (hq : q <+: bs.flatten) (pre : Bytes) :
    ∃ j, CompletePieces bs q j ∧
      (∃ s', deserializeUpTo t.read n ⟨pre ++ q, pre.length⟩ = (.ok ((xs.take j).map t.same), s')) ∧
      ReadsUntilError t.read ⟨pre ++ q, pre.length⟩ ((xs.take j).map t.same) := by
  induction henc generalizing n q pre with
  | nil =>
    have : q = [] := List.prefix_nil.1 hq
    subst this
    obtain ⟨e, s', h⟩ := raises_at_end t f hf hw pre
    rw [List.append_nil]
    refine ⟨0, ⟨by simp, by simp, fun h => by simp at h⟩, ?_, .stop h⟩
    cases n with
    | zero => exact ⟨_, rfl⟩
    | succ n => exact ⟨s', by simp only [deserializeUpTo, h]; rfl⟩
  | @cons x b xs bs hx henc ih =>
    obtain ⟨n, rfl⟩ : ∃ m, n = m + 1 := ⟨n - 1, by simp at hn; omega⟩
    have hy := encoded hx.1 hx.2
    rw [List.flatten_cons] at hq
    by_cases hb : b <+: q
    · obtain ⟨q, rfl⟩ := hb
      obtain ⟨j, ⟨c1, c2, c3⟩, ⟨s', h1⟩, h2⟩ := ih n (by simpa using hn) q ((List.prefix_append_right_inj b).1 hq) (pre ++ b)
      have e1 := hy pre q
      rw [List.append_assoc] at e1 h1 h2
      refine ⟨j + 1, ⟨by simpa using c1, ?_, fun hlt => ?_⟩, ⟨s', ?_⟩, ?_⟩
      · rw [List.take_succ_cons, List.flatten_cons]
        exact (List.prefix_append_right_inj b).2 c2
      · rw [List.take_succ_cons, List.flatten_cons, List.prefix_append_right_inj]
        exact c3 (by simpa using hlt)
      · rw [deserializeUpTo]
        simp only [e1, h1]
        rw [List.take_succ_cons, List.map_cons]
      · rw [List.take_succ_cons, List.map_cons]
        exact .next e1 h2
    · have hq' : q <+: b := by
        rcases List.prefix_or_prefix_of_prefix hq (List.prefix_append b bs.flatten) with h | h
        · exact h
        · exact absurd h hb
      have hne : q ≠ b := fun e => hb (e ▸ List.prefix_refl _)
      obtain ⟨e, s', h⟩ := (C132_iff_partial t x hx.1 b hx.2).2 (fun g hg => by rw [hf] at hg; cases hg; exact hw) pre q hq' hne
      refine ⟨0, ⟨by simp, by simp, fun _ => by simpa using hb⟩, ⟨s', by simp only [deserializeUpTo, h]; rfl⟩, .stop h⟩

private theorem until_unique {rd : IOM α} {s : Stream} {l l' : List α} (h : ReadsUntilError rd s l) (h' : ReadsUntilError rd s l') :
    l = l' := by
  induction h generalizing l' with
  | stop h =>
    cases h' with
    | stop => rfl
    | next g => rw [h] at g; cases g
  | next h _ ih =>
    cases h' with
    | stop g => rw [h] at g; cases g
    | next g g' =>
      rw [h] at g
      cases g
      rw [ih g']

/-! ### C209 -/

/-- C209 for items whose last field is of fixed width: if the data ends anywhere behind the length of the array,
ReadSerializableArray returns exactly the items that are complete. -/
theorem C209_complete_items_partial (t f : Ty) (hf : t.lastField = some f) (hw : f.FixedWidth) (xs : List t.Value) (bs : List Bytes)
    (henc : Encodings t xs bs) (hlen : (xs.length : Int) ≤ maxsize) (head : Bytes) (hh : IsVarInt xs.length head) (q : Bytes)
    (hq : q <+: bs.flatten) (pre : Bytes) :
    ∃ j, CompletePieces bs q j ∧ ∃ s', readSerializableArray t.read maxsize ⟨pre ++ (head ++ q), pre.length⟩ =
      (.ok ((xs.take j).map t.same), s') := by
  obtain ⟨r, ha⟩ := (C196_varint xs.length head).1 hh
  have hy : Yields (readVarInt maxsize) head (xs.length : Int) := by
    obtain ⟨r', b, h1, h2⟩ := C03_varint_roundtrip xs.length (by simp only [maxsize] at hlen; omega) maxsize hlen
    rw [(ha.unique h1).2]
    exact h2
  obtain ⟨j, h1, ⟨s', h2⟩, -⟩ := complete_items t f hf hw henc xs.length (le_refl _) q hq (pre ++ head)
  have e1 := hy pre q
  rw [List.append_assoc] at e1 h2
  exact ⟨j, h1, s', (IOM.bind_ok e1).trans h2⟩

/-- C209 fails for other items: an array of byte strings that ends after `k` items is filled up with empty byte strings. -/
theorem C209_filled_up_violated (xs : List Bytes) (bs : List Bytes) (henc : Encodings .varBytes xs bs) (hlen : (xs.length : Int) ≤ maxsize)
    (head : Bytes) (hh : IsVarInt xs.length head) (k : Nat) (hk : k ≤ xs.length) (pre : Bytes) :
    ∃ s', readSerializableArray readVarBytes maxsize ⟨pre ++ (head ++ (bs.take k).flatten), pre.length⟩ =
      (.ok (xs.take k ++ List.replicate (xs.length - k) []), s') := by
  obtain ⟨r, ha⟩ := (C196_varint xs.length head).1 hh
  have hy : Yields (readVarInt maxsize) head (xs.length : Int) := by
    obtain ⟨r', b, h1, h2⟩ := C03_varint_roundtrip xs.length (by simp only [maxsize] at hlen; omega) maxsize hlen
    rw [(ha.unique h1).2]
    exact h2
  have key : ∀ (xs bs : List Bytes), Encodings .varBytes xs bs → ∀ k, k ≤ xs.length → ∀ pre : Bytes, ∃ s',
      deserializeUpTo readVarBytes xs.length ⟨pre ++ (bs.take k).flatten, pre.length⟩ =
        (.ok (xs.take k ++ List.replicate (xs.length - k) []), s') := by
    intro xs bs henc
    induction henc with
    | nil => intro k hk pre; exact ⟨_, by simp [deserializeUpTo]; rfl⟩
    | @cons x b xs bs hx henc ih =>
      intro k hk pre
      cases k with
      | zero =>
        obtain ⟨s', h⟩ := ih 0 (Nat.zero_le _) pre
        have e1 : readVarBytes maxsize ⟨pre, pre.length⟩ = (.ok [], ⟨pre, pre.length⟩) := (C132_empty_violated pre 0 (by decide)).2.1
        simp only [List.take_zero, List.flatten_nil, List.append_nil, List.nil_append, Nat.sub_zero] at h ⊢
        refine ⟨s', ?_⟩
        rw [List.length_cons, deserializeUpTo]
        simp only [e1, h]
        rfl
      | succ k =>
        obtain ⟨s', h⟩ := ih k (by simpa using hk) (pre ++ b)
        have e1 : readVarBytes maxsize ⟨pre ++ b ++ (bs.take k).flatten, pre.length⟩ = (.ok x, _) := encoded (t := .varBytes) hx.1 hx.2 pre _
        rw [List.take_succ_cons, List.flatten_cons, ← List.append_assoc, List.length_cons, deserializeUpTo]
        refine ⟨s', ?_⟩
        simp only [e1, h]
        simp
  obtain ⟨s', h⟩ := key xs bs henc k hk (pre ++ head)
  have e1 := hy pre (bs.take k).flatten
  rw [List.append_assoc] at e1 h
  exact ⟨s', (IOM.bind_ok e1).trans h⟩

/-! ### C210 -/

/-- C210 for records whose last field is of fixed width: of a log cut off anywhere, reading until a read raises gives exactly the
records that are complete, in order. -/
theorem C210_log_partial (t f : Ty) (hf : t.lastField = some f) (hw : f.FixedWidth) (xs : List t.Value) (bs : List Bytes)
    (henc : Encodings t xs bs) (q : Bytes) (hq : q <+: bs.flatten) (pre : Bytes) :
    ∃ j, CompletePieces bs q j ∧ ∀ l, ReadsUntilError t.read ⟨pre ++ q, pre.length⟩ l ↔ l = (xs.take j).map t.same := by
  obtain ⟨j, h1, -, h2⟩ := complete_items t f hf hw henc xs.length (le_refl _) q hq pre
  exact ⟨j, h1, fun l => ⟨fun h => until_unique h h2, fun h => h ▸ h2⟩⟩

/-- C210 fails for records that end otherwise: some cut inside every record is read as a record. -/
theorem C210_phantom_violated (t f : Ty) (hf : t.lastField = some f) (hw : ¬ f.FixedWidth) (x : t.Value) (hx : t.Valid x) (b : Bytes)
    (hb : Appends (t.write x) () b) : ∃ pre q, q <+: b ∧ q ≠ b ∧ ∀ l, ReadsUntilError t.read ⟨pre ++ q, pre.length⟩ l → l ≠ [] := by
  have h : ¬ RefusesTruncation t.read b := fun h => hw ((C132_iff_partial t x hx b hb).1 h f hf)
  unfold RefusesTruncation at h
  push Not at h
  obtain ⟨pre, q, h1, h2, h3⟩ := h
  refine ⟨pre, q, h1, h2, fun l hl e => ?_⟩
  subst e
  cases hl with
  | stop h => exact h3 _ _ h

/-- C210 fails for byte strings even without a crash: reading a complete log until a read raises never ends. -/
theorem C210_endless_violated (xs bs : List Bytes) (henc : Encodings .varBytes xs bs) (pre : Bytes) :
    ¬ ∃ l, ReadsUntilError readVarBytes ⟨pre ++ bs.flatten, pre.length⟩ l := by
  have hend : ∀ (l : List Bytes) (s : Stream), ReadsUntilError readVarBytes s l → ∀ p : Bytes, s ≠ ⟨p, p.length⟩ := by
    intro l s h
    induction h with
    | stop h =>
      rintro p rfl
      rw [(C132_empty_violated p 0 (by decide)).2.1] at h
      cases h
    | next h _ ih =>
      rintro p rfl
      rw [(C132_empty_violated p 0 (by decide)).2.1] at h
      cases h
      exact ih p rfl
  induction henc generalizing pre with
  | nil => rintro ⟨l, h⟩; exact hend l _ h pre (by simp)
  | @cons x b xs bs hx henc ih =>
    rintro ⟨l, h⟩
    have e1 : readVarBytes maxsize ⟨pre ++ b ++ bs.flatten, pre.length⟩ = (.ok x, _) := encoded (t := .varBytes) hx.1 hx.2 pre _
    rw [List.flatten_cons, ← List.append_assoc] at h
    cases h with
    | stop g => rw [e1] at g; cases g
    | next g g' =>
      rw [e1] at g
      cases g
      exact ih (pre ++ b) ⟨_, g'⟩

/-- The encoding of a record of a byte string and an amount. -/
private theorem pair_record (b p : Bytes) (x : Int) (d : Bytes) (h : IsVarInt b.length p) (hb : (b.length : Int) ≤ maxsize)
    (hlo : -2 ^ 63 ≤ x) (hhi : x < 2 ^ 63) (hd : TwosComplementLE 8 x d) :
    (Ty.pair .varBytes .fixed8).Valid (b, x) ∧ Appends ((Ty.pair .varBytes .fixed8).write (b, x)) () (p ++ b ++ d) := by
  refine ⟨⟨hb, by simp only [Ty.Valid]; omega⟩, ?_⟩
  have h1 := appends_bind (f := fun _ => (pure () : IOM Unit)) (C196_varbytes b p h).1 (appends_pure ())
  have h2 := appends_bind (f := fun _ => (pure () : IOM Unit)) (C196_fixed8 x hlo hhi d hd) (appends_pure ())
  rw [List.append_nil] at h1 h2
  exact appends_bind h1 h2

/-- A log of two records (a byte string and an amount each), cut inside the second. -/
example : (Ty.pair .varBytes .fixed8).lastField = some .fixed8 ∧ Ty.FixedWidth .fixed8 ∧
    Encodings (.pair .varBytes .fixed8) [(([5] : Bytes), (1 : Int)), ([6, 7], (-1 : Int))]
      [[1, 5, 1, 0, 0, 0, 0, 0, 0, 0], [2, 6, 7, 255, 255, 255, 255, 255, 255, 255, 255]] ∧
    CompletePieces [[1, 5, 1, 0, 0, 0, 0, 0, 0, 0], [2, 6, 7, 255, 255, 255, 255, 255, 255, 255, 255]] [1, 5, 1, 0, 0, 0, 0, 0, 0, 0, 2] 1 := by
  refine ⟨rfl, trivial, ?_, ⟨by decide, by decide, by decide⟩⟩
  exact .cons (pair_record [5] [1] 1 [1, 0, 0, 0, 0, 0, 0, 0] (.inl ⟨by decide, 1, by decide, rfl⟩) (by decide) (by decide) (by decide)
      ⟨rfl, by decide⟩)
    (.cons (pair_record [6, 7] [2] (-1) [255, 255, 255, 255, 255, 255, 255, 255] (.inl ⟨by decide, 2, by decide, rfl⟩) (by decide) (by decide)
      (by decide) ⟨rfl, by decide⟩) .nil)

/-- A log of two byte strings (the hypotheses of `C209_filled_up_violated` and `C210_endless_violated`), and a record that ends in one
(those of `C210_phantom_violated`). -/
example : Encodings .varBytes [([5] : Bytes), [6, 7]] [[1, 5], [2, 6, 7]] ∧ IsVarInt 2 [2] ∧
    (Ty.pair .fixed8 .varBytes).lastField = some .varBytes ∧ ¬ Ty.FixedWidth .varBytes := by
  have key : ∀ b p : Bytes, IsVarInt b.length p → (b.length : Int) ≤ maxsize → Ty.Valid .varBytes b ∧ Appends (Ty.write .varBytes b) () (p ++ b) :=
    fun b p h hb => ⟨hb, by
      have h1 := appends_bind (f := fun _ => (pure () : IOM Unit)) (C196_varbytes b p h).1 (appends_pure ())
      rw [List.append_nil] at h1
      exact h1⟩
  exact ⟨.cons (key [5] [1] (.inl ⟨by decide, 1, by decide, rfl⟩) (by decide))
    (.cons (key [6, 7] [2] (.inl ⟨by decide, 2, by decide, rfl⟩) (by decide)) .nil), .inl ⟨by decide, 2, by decide, rfl⟩, rfl, fun h => h⟩

end Neo.Props
