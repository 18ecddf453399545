import Verif.Props.Encodings

/-! # C170: how much a reader makes of how little data -/

namespace Neo.Props
open Py Spec Writer Reader

/-- How many bytes (or characters of texts) a result holds. -/
def contentSize : Out → Nat
  | .bytes b => b.length
  | .strs l => (l.map List.length).sum
  | .chunks l => (l.map List.length).sum
  | _ => 0

private theorem slice_length (s s' : Stream) : (slice s s').length ≤ s'.pos - s.pos := by
  unfold slice
  rw [List.length_drop, List.length_take]
  omega

private theorem mapOut_ok {f : α → Out} {m : IOM α} {s s' : Stream} {o : Out} (h : mapOut f m s = (.ok o, s')) :
    ∃ a, m s = (.ok a, s') ∧ o = f a := by
  unfold mapOut at h
  cases hr : m s with
  | mk r s1 =>
    cases r with
    | error e => rw [IOM.bind_err hr] at h; cases h
    | ok a =>
      rw [IOM.bind_ok hr] at h
      cases h
      exact ⟨a, rfl, rfl⟩

private theorem hexItems_size (k : Nat) : ∀ (s s' : Stream) (l : List Bytes), s.pos ≤ s.buf.length →
    readHexItems k s = (.ok l, s') → (l.map List.length).sum ≤ s'.pos - s.pos ∧ l.length = k := by
  induction k with
  | zero =>
    intro s s' l _ h
    cases h
    exact ⟨by simp, rfl⟩
  | succ k ih =>
    intro s s' l hs h
    change (readBytes 64 >>= _) s = _ at h
    cases hr : readBytes 64 s with
    | mk r s1 =>
      cases r with
      | error e => rw [IOM.bind_err hr] at h; cases h
      | ok data =>
        rw [IOM.bind_ok hr] at h
        have hd := (C13_raw_reads_return_slice s s1 data 64).1 hr
        obtain ⟨h1, h2, h3⟩ := readSafe_read 64 s hs
        change Stream.read 64 s = _ at hr
        rw [hr] at h1 h2 h3
        simp only at h1 h2 h3
        cases hu : unhexlify data with
        | error e => rw [hu, IOM.bind_err (by rw [IOM.lift_apply])] at h; cases h
        | ok ba =>
          rw [hu, IOM.bind_ok (s := s1) (s' := s1) (a := ba) (by rw [IOM.lift_apply])] at h
          have hl := unhexlify_length hu
          change (readHexItems k >>= _) s1 = _ at h
          cases hr2 : readHexItems k s1 with
          | mk r s2 =>
            cases r with
            | error e => rw [IOM.bind_err hr2] at h; cases h
            | ok rest =>
              rw [IOM.bind_ok hr2] at h
              cases h
              obtain ⟨hi, hk⟩ := ih s1 _ rest (by rw [h1]; exact h3) hr2
              have hm := readSafe_readHexItems k s1 (by rw [h1]; exact h3)
              rw [hr2] at hm
              have := slice_length s s1
              rw [← hd] at this
              have hx : (hexlify ba.reverse).length = data.length := by
                rw [hexlify_length, List.length_reverse]; omega
              refine ⟨?_, by simp [hk]⟩
              simp only [List.map_cons, List.sum_cons, hx]
              have := hm.2.1
              simp only at this
              omega

private theorem hashItems_size (k : Nat) : ∀ (s s' : Stream) (l : List Str), s.pos ≤ s.buf.length →
    readHashItems k s = (.ok l, s') → (l.map List.length).sum ≤ 2 * (s'.pos - s.pos) := by
  induction k with
  | zero =>
    intro s s' l _ h
    cases h
    simp
  | succ k ih =>
    intro s s' l hs h
    change (readBytes 32 >>= _) s = _ at h
    cases hr : readBytes 32 s with
    | mk r s1 =>
      cases r with
      | error e => rw [IOM.bind_err hr] at h; cases h
      | ok data =>
        rw [IOM.bind_ok hr] at h
        have hd := (C13_raw_reads_return_slice s s1 data 32).1 hr
        obtain ⟨h1, h2, h3⟩ := readSafe_read 32 s hs
        change Stream.read 32 s = _ at hr
        rw [hr] at h1 h2 h3
        simp only at h1 h2 h3
        change (readHashItems k >>= _) s1 = _ at h
        cases hr2 : readHashItems k s1 with
        | mk r s2 =>
          cases r with
          | error e => rw [IOM.bind_err hr2] at h; cases h
          | ok rest =>
            rw [IOM.bind_ok hr2] at h
            cases h
            have hi := ih s1 _ rest (by rw [h1]; exact h3) hr2
            have hm := readSafe_readHashItems k s1 (by rw [h1]; exact h3)
            rw [hr2] at hm
            have := slice_length s s1
            rw [← hd] at this
            simp only [List.map_cons, List.sum_cons, hexStr_length, List.length_reverse]
            have := hm.2.1
            simp only at this
            omega

/-- C170 for what the results are made of: no method of a reader returns more bytes than it passed over; hashes as hexadecimal
texts have two characters for each byte.  (`Read2000256List` returns 2000 items, whatever there is.) -/
theorem C170_contents_partial (o : ReadOp) (s s' : Stream) (hs : s.pos ≤ s.buf.length) (out : Out) (h : o.run s = (.ok out, s')) :
    (o ≠ .hashes → contentSize out ≤ s'.pos - s.pos) ∧ contentSize out ≤ 2 * (s'.pos - s.pos) ∧
    (o = .list2000 → ∃ l, out = .chunks l ∧ l.length = 2000) := by
  have hsl := slice_length s s'
  have key : contentSize out ≤ s'.pos - s.pos → o ≠ .list2000 →
      (o ≠ .hashes → contentSize out ≤ s'.pos - s.pos) ∧ contentSize out ≤ 2 * (s'.pos - s.pos) ∧
      (o = .list2000 → ∃ l, out = .chunks l ∧ l.length = 2000) :=
    fun h h' => ⟨fun _ => h, by omega, fun h'' => absurd h'' h'⟩
  have hb : ∀ b : Bytes, out = .bytes b → b <:+ slice s s' → contentSize out ≤ s'.pos - s.pos := by
    rintro b rfl hx
    exact hx.length_le.trans hsl
  have hraw := fun b n => C13_raw_reads_return_slice s s' b n
  have hpre := fun b max => C13_prefixed_reads_return_suffix s s' hs b max
  cases o
  case hashes =>
    obtain ⟨l, hl, rfl⟩ := mapOut_ok h
    refine ⟨(fun hne => absurd rfl hne), ?_, (fun hne => by cases hne)⟩
    change (readVarInt maxsize >>= _) s = _ at hl
    obtain ⟨h1, h2, h3⟩ := readSafe_readVarInt maxsize s hs
    cases hr : readVarInt maxsize s with
    | mk r s1 =>
      rw [hr] at h1 h2 h3
      simp only at h1 h2 h3
      cases r with
      | error e => rw [IOM.bind_err hr] at hl; cases hl
      | ok n =>
        rw [IOM.bind_ok hr] at hl
        have := hashItems_size n.toNat s1 s' l (by rw [h1]; exact h3) hl
        show (l.map List.length).sum ≤ _
        omega
  case list2000 =>
    obtain ⟨l, hl, rfl⟩ := mapOut_ok h
    obtain ⟨h1, h2⟩ := hexItems_size 2000 s s' l hs hl
    refine ⟨fun _ => h1, ?_, fun _ => ⟨l, rfl, h2⟩⟩
    show (l.map List.length).sum ≤ _
    omega
  case fixedString n =>
    obtain ⟨b, hl, rfl⟩ := mapOut_ok h
    refine key ?_ (fun hne => by cases hne)
    obtain ⟨k, hk⟩ := C13_fixedString_returns_slice s s' b n hl
    rw [hk, List.length_append] at hsl
    show b.length ≤ _
    omega
  all_goals
    obtain ⟨b, hl, rfl⟩ := mapOut_ok h
    refine key ?_ (fun hne => by cases hne)
    first
    | exact Nat.zero_le _
    | exact hb _ rfl ((hraw b _).1 hl ▸ List.suffix_rfl)
    | exact hb _ rfl ((hraw b _).2.1 hl ▸ List.suffix_rfl)
    | exact hb _ rfl ((hraw b 0).2.2.1 hl ▸ List.suffix_rfl)
    | exact hb _ rfl ((hraw b 0).2.2.2.1 hl ▸ List.suffix_rfl)
    | exact hb _ rfl ((hraw b 0).2.2.2.2.1 hl ▸ List.suffix_rfl)
    | exact hb _ rfl ((hraw b 0).2.2.2.2.2 hl ▸ List.suffix_rfl)
    | exact hb _ rfl ((hpre b _).1 hl)
    | exact hb _ rfl ((hpre b _).2.1 hl)
    | exact hb _ rfl ((hpre b 0).2.2 hl)

private theorem upTo_size {d : IOM α} (hd : ReadSafe d) (hp : ∀ s x s', d s = (.ok x, s') → s.pos < s'.pos) (k : Nat) :
    ∀ (s s' : Stream) (l : List α), s.pos ≤ s.buf.length → deserializeUpTo d k s = (.ok l, s') → l.length ≤ s'.pos - s.pos := by
  induction k with
  | zero =>
    intro s s' l _ h
    cases h
    simp
  | succ k ih =>
    intro s s' l hs h
    simp only [deserializeUpTo] at h
    have h1 := hd s hs
    cases hr : d s with
    | mk r s1 =>
      rw [hr] at h h1
      cases r with
      | error e =>
        cases h
        exact Nat.zero_le _
      | ok x =>
        simp only at h h1
        have hle : s1.pos ≤ s1.buf.length := by rw [h1.1]; exact h1.2.2
        have h2 := readSafe_deserializeUpTo hd k s1 hle
        cases hr2 : deserializeUpTo d k s1 with
        | mk r2 s2 =>
          rw [hr2] at h h2
          cases r2 with
          | error e => cases h
          | ok xs =>
            cases h
            have := ih s1 _ xs hle hr2
            have := hp s x s1 hr
            have := h2.2.1
            simp only [List.length_cons] at *
            omega

/-- C170 for `ReadSerializableArray`: if an item's `Deserialize` never returns without passing over at least one byte, the
array has no more items than bytes passed over. -/
theorem C170_array_partial (d : IOM α) (hd : ReadSafe d) (hp : ∀ s x s', d s = (.ok x, s') → s.pos < s'.pos) (max : Int)
    (s s' : Stream) (hs : s.pos ≤ s.buf.length) (l : List α) (h : readSerializableArray d max s = (.ok l, s')) :
    l.length ≤ s'.pos - s.pos := by
  change (readVarInt max >>= _) s = _ at h
  obtain ⟨h1, h2, h3⟩ := readSafe_readVarInt max s hs
  cases hr : readVarInt max s with
  | mk r s1 =>
    rw [hr] at h1 h2 h3
    simp only at h1 h2 h3
    cases r with
    | error e => rw [IOM.bind_err hr] at h; cases h
    | ok n =>
      rw [IOM.bind_ok hr] at h
      have := upTo_size hd hp n.toNat s1 s' l (by rw [h1]; exact h3) h
      omega

private theorem varInt_stream (n : Nat) (hn : n < 2 ^ 63) (pre : Bytes) :
    ∃ bs : Bytes, bs.length ≤ 9 ∧ readVarInt maxsize ⟨pre ++ bs, pre.length⟩ = (.ok (n : Int), ⟨pre ++ bs, (pre ++ bs).length⟩) := by
  refine ⟨varIntBytes .little n, ?_, ?_⟩
  · rw [varIntBytes_length]; split_ifs <;> omega
  · have := yields_readVarInt n (by omega) maxsize (by unfold maxsize; omega) pre []
    simpa using this

/-- C170 fails for the number of items: for every n below 2^63 there is a stream of at most nine bytes from which `ReadHashes`
returns n (empty) hashes, and `ReadSerializableArray` n items of any class whose `Deserialize` returns at the end of the stream
(as with `ReadVarBytes`, `ReadBytes`, `ReadByte`). -/
theorem C170_items_violated (n : Nat) (hn : n < 2 ^ 63) (pre : Bytes) :
    ∃ bs : Bytes, bs.length ≤ 9 ∧
      (∃ s', readHashes ⟨pre ++ bs, pre.length⟩ = (.ok (List.replicate n []), s')) ∧
      (∀ (α : Type) (d : IOM α) (x : α), (∀ s : Stream, s.buf.length ≤ s.pos → d s = (.ok x, s)) →
        ∃ s', readSerializableArray d maxsize ⟨pre ++ bs, pre.length⟩ = (.ok (List.replicate n x), s')) ∧
      ∀ s : Stream, s.buf.length ≤ s.pos → readVarBytes maxsize s = (.ok [], s) := by
  obtain ⟨bs, hl, hv⟩ := varInt_stream n hn pre
  refine ⟨bs, hl, ⟨_, (C165_short_violated _ _ _ hv).trans (Prod.ext (congrArg Except.ok ?_) rfl)⟩, fun α d x hd => ?_, ?_⟩
  · rw [List.eq_replicate_iff]
    refine ⟨by simp, fun x hx => ?_⟩
    obtain ⟨i, -, rfl⟩ := List.mem_map.mp hx
    simp [ahead, hexStr, hexlify, asciiStr]
  · refine ⟨⟨pre ++ bs, (pre ++ bs).length⟩, ?_⟩
    change (readVarInt maxsize >>= _) _ = _
    rw [IOM.bind_ok hv]
    have : ∀ k, deserializeUpTo d k ⟨pre ++ bs, (pre ++ bs).length⟩ =
        (.ok (List.replicate k x), ⟨pre ++ bs, (pre ++ bs).length⟩) := by
      intro k
      induction k with
      | zero => rfl
      | succ k ih =>
        simp only [deserializeUpTo, hd ⟨pre ++ bs, (pre ++ bs).length⟩ (Nat.le_refl _), ih, List.replicate_succ]
    exact this n
  · intro s hs
    change (readVarInt maxsize >>= _) s = _
    rw [IOM.bind_ok (C07_readVarInt_eof maxsize s hs)]
    show Stream.read 0 s = _
    unfold Stream.read
    simp [maxsize]

/-- Five bytes for a thousand million empty hashes; an array of one-byte items (`ReadUInt8`) stays within its data. -/
example : (∃ s', readHashes ⟨[0xfe, 0, 0xca, 0x9a, 0x3b], 0⟩ = (.ok (List.replicate 1000000000 []), s')) ∧
    readSerializableArray (readUInt8 .little) maxsize ⟨[3, 7, 8], 0⟩ = (.ok [7, 8], ⟨[3, 7, 8], 3⟩) := by
  refine ⟨?_, by rfl⟩
  have h := C165_short_violated ⟨[0xfe, 0, 0xca, 0x9a, 0x3b], 0⟩ ⟨[0xfe, 0, 0xca, 0x9a, 0x3b], 5⟩ 1000000000 (by decide)
  rw [show (1000000000 : Int).toNat = 1000000000 from by decide] at h
  generalize (1000000000 : Nat) = n at h ⊢
  refine ⟨_, h.trans (Prod.ext (congrArg Except.ok ?_) rfl)⟩
  rw [List.eq_replicate_iff]
  refine ⟨by simp, fun x hx => ?_⟩
  obtain ⟨i, -, rfl⟩ := List.mem_map.mp hx
  simp [ahead, hexStr, hexlify, asciiStr]

end Neo.Props
