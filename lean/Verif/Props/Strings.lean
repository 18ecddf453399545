import Verif.Proofs.VarInt
import Verif.Proofs.Utf8
import Verif.Props.VarInt

/-!
# C10–C12, C17, C18, C20: raw bytes, fixed strings, UInt objects and hash lists on the wire

`Spec.HexText b` says that `b` is an even number of ASCII hex digits: that is exactly the content which `WriteBytes` with
its default `unhex=True` mistakes for hexadecimal text.
-/

namespace Neo.Props
open Py Spec Writer Reader

/-! ### C11 -/

/-- C11 holds for content that does not read as hexadecimal text (for `bytes` and `bytearray` arguments). -/
theorem C11_writeBytes_exact_partial (b : Bytes) (h : ¬ HexText b) :
    Appends (writeBytes (.bytes b)) b.length b ∧ Appends (writeBytes (.bytearray b)) b.length b :=
  ⟨appends_writeBytes_plain ((hexLike_false_iff b).mpr h), appends_writeBytearray_plain ((hexLike_false_iff b).mpr h)⟩

example : ¬ HexText [0x61, 0x62, 0x63] ∧ ¬ HexText [0, 1] := by
  constructor
  · rintro ⟨h, _⟩; exact absurd h (by decide)
  · rintro ⟨_, h⟩; exact absurd (h 0 (by simp)) (by unfold IsHexDigit; decide)

/-- C83 holds for every content when the caller passes `unhex=False`. -/
theorem C83_raw_exact (b : Bytes) :
    Appends (writeBytes (.bytes b) false) b.length b ∧ Appends (writeBytes (.bytearray b) false) b.length b :=
  ⟨appends_writeBytes_raw b, by simpa [writeBytes] using appends_writeVal_bytearray b⟩

/-- C11 fails for every nonempty hexadecimal text: half as many bytes are written (and reported). -/
theorem C11_writeBytes_hex_violated (b : Bytes) (h : HexText b) (hne : b ≠ []) :
    ∃ r, 2 * r.length = b.length ∧ r.length < b.length ∧ Appends (writeBytes (.bytes b)) r.length r ∧
      Appends (writeBytes (.bytearray b)) r.length r := by
  obtain ⟨r, hr, hl⟩ := unhexlify_hexLike ((hexLike_iff b).mpr h)
  have : 0 < b.length := List.length_pos_iff.mpr hne
  exact ⟨r, by omega, by omega, appends_writeBytes_hexText hr, appends_writeBytearray_hexText hr⟩

example : HexText [0x61, 0x62] ∧ ([0x61, 0x62] : Bytes) ≠ [] := by
  refine ⟨⟨by decide, ?_⟩, by decide⟩
  intro c hc; simp at hc; rcases hc with rfl | rfl <;> unfold IsHexDigit <;> decide

/-- C83, complete characterisation: the content is written as given exactly when it is empty or not hexadecimal text. -/
theorem C83_as_given_iff (b : Bytes) : (∃ r, Appends (writeBytes (.bytes b)) r b) ↔ (b = [] ∨ ¬ HexText b) := by
  constructor
  · rintro ⟨r, h⟩
    by_cases hb : HexText b
    · by_cases hne : b = []
      · exact .inl hne
      · obtain ⟨r', h1, h2, h3, _⟩ := C11_writeBytes_hex_violated b hb hne
        have := (h.unique h3).2
        rw [← this] at h2
        omega
    · exact .inr hb
  · rintro (rfl | h)
    · exact ⟨0, appends_writeBytes_hexText (b := []) (r := []) rfl⟩
    · exact ⟨_, (C11_writeBytes_exact_partial b h).1⟩

/-! ### C10 -/

theorem appends_writeZeros (k : Nat) : Appends (writeZeros k) () (List.replicate k 0) := by
  induction k with
  | zero => exact appends_pure ()
  | succ k ih =>
    have := appends_bind (f := fun _ => writeZeros k) (appends_writeByte_int 0 (by omega)) ih
    simpa [writeZeros, List.replicate_succ] using this

theorem rstripZero_replicate (b : Bytes) (k : Nat) (h : b.getLast? ≠ some 0) :
    rstripZero (b ++ List.replicate k 0) = b := by
  unfold rstripZero
  have h1 : ∀ k : Nat, ((List.replicate k (0 : UInt8)) ++ b.reverse).dropWhile (· == 0) = b.reverse := by
    intro k
    induction k with
    | zero =>
      cases hb : b.reverse with
      | nil => rfl
      | cons x xs =>
        have : b.getLast? = some x := by rw [List.getLast?_eq_head?_reverse, hb]; rfl
        rw [this] at h
        have hx : x ≠ 0 := fun hx => h (by rw [hx])
        simp [hx]
    | succ k ih => simpa [List.replicate_succ] using ih
  rw [List.reverse_append, List.reverse_replicate, h1, List.reverse_reverse]

/-- C82. Too long a string raises and writes nothing. -/
theorem C82_too_long (s : Str) (n : Int) (h : n < (utf8 s).length) :
    RaisesCleanly (writeFixedString s n) .exc := by
  intro st
  unfold writeFixedString
  rw [if_pos (show ((utf8 s).length : Int) > n by omega)]
  rfl

/-- C10 holds for strings whose UTF-8 does not read as hexadecimal text: exactly `n` bytes are written, and they are read
back as the string's UTF-8 when it does not end in NUL. -/
theorem C10_fixedString_partial (s : Str) (n : Nat) (hlen : (utf8 s).length ≤ n) (hmem : (n : Int) ≤ maxsize)
    (hhex : ¬ HexText (utf8 s)) :
    ∃ bs, bs.length = n ∧ Appends (writeFixedString s n) () bs ∧
      ((utf8 s).getLast? ≠ some 0 → Yields (readFixedString n) bs (utf8 s)) := by
  refine ⟨utf8 s ++ List.replicate (n - (utf8 s).length) 0, by simp; omega, ?_, ?_⟩
  · unfold writeFixedString
    rw [if_neg (by omega)]
    have h := appends_bind (f := fun _ => writeZeros ((n : Int) - (utf8 s).length).toNat)
      (C11_writeBytes_exact_partial (utf8 s) hhex).1 (appends_writeZeros _)
    rw [show ((n : Int) - (utf8 s).length).toNat = n - (utf8 s).length by omega] at h ⊢
    exact h
  · intro hlast
    have hl : (utf8 s ++ List.replicate (n - (utf8 s).length) 0).length = n := by simp; omega
    have := yields_bind (f := fun bs => (pure (rstripZero bs) : IOM Bytes))
      (yields_read (utf8 s ++ List.replicate (n - (utf8 s).length) 0) n (by rw [hl]) hmem) (yields_pure _)
    rw [rstripZero_replicate _ _ hlast] at this
    simpa [readFixedString, readBytes] using this

example : (utf8 ['h', 'e', 'y']).length ≤ 32 ∧ ¬ HexText (utf8 ['h', 'e', 'y']) := by
  refine ⟨by decide, ?_⟩
  rintro ⟨h, _⟩; exact absurd h (by decide)

/-- C10 fails for every string of hex digits of even nonzero length: fewer than `n` bytes are written. -/
theorem C10_fixedString_hex_violated (s : Str) (n : Nat) (hlen : (utf8 s).length ≤ n)
    (hhex : HexText (utf8 s)) (hne : s ≠ []) :
    ∃ bs, bs.length = n - (utf8 s).length / 2 ∧ bs.length < n ∧ Appends (writeFixedString s n) () bs := by
  have hne' : utf8 s ≠ [] := fun h => hne ((utf8_nil_iff s).mp h)
  have hpos : 0 < (utf8 s).length := List.length_pos_iff.mpr hne'
  obtain ⟨r, h1, h2, h3, _⟩ := C11_writeBytes_hex_violated _ hhex hne'
  refine ⟨r ++ List.replicate (n - (utf8 s).length) 0, by simp; omega, by simp; omega, ?_⟩
  unfold writeFixedString
  rw [if_neg (by omega)]
  have h := appends_bind (f := fun _ => writeZeros ((n : Int) - (utf8 s).length).toNat) h3 (appends_writeZeros _)
  rw [show ((n : Int) - (utf8 s).length).toNat = n - (utf8 s).length by omega] at h ⊢
  exact h

example : HexText (utf8 ['a', 'b', 'c', 'd']) ∧ (utf8 ['a', 'b', 'c', 'd']).length ≤ 32 := by
  refine ⟨⟨by decide, ?_⟩, by decide⟩
  intro c hc
  have : c ∈ ([0x61, 0x62, 0x63, 0x64] : Bytes) := hc
  simp at this; rcases this with rfl | rfl | rfl | rfl <;> unfold IsHexDigit <;> decide

/-! ### C12 (WriteUInt160/256 and ReadUInt160/256) -/

theorem yields_readUInt (n : Nat) (d : Bytes) (hd : d.length = n) (hn : (n : Int) ≤ maxsize) :
    Yields (do let bs ← readBytes n; IOM.lift (uintOfBytes n bs)) d d := by
  have := yields_bind (f := fun bs => IOM.lift (uintOfBytes n bs)) (yields_read d n (by omega) hn)
    (yields_lift (show uintOfBytes n d = .ok d by simp [uintOfBytes, hd]))
  simpa [readBytes] using this

theorem appends_uintSerialize (d : Bytes) (hhex : ¬ HexText d) : Appends (uintSerialize d) () d := by
  have := appends_bind (f := fun _ => (pure () : IOM Unit)) (C11_writeBytes_exact_partial d hhex).2 (appends_pure ())
  simpa [uintSerialize] using this

theorem appends_uintSerialize_hex (d : Bytes) (hhex : HexText d) (hne : d ≠ []) :
    ∃ r, 2 * r.length = d.length ∧ Appends (uintSerialize d) () r := by
  obtain ⟨r, h1, _, _, h4⟩ := C11_writeBytes_hex_violated d hhex hne
  refine ⟨r, h1, ?_⟩
  have := appends_bind (f := fun _ => (pure () : IOM Unit)) h4 (appends_pure ())
  simpa [uintSerialize] using this

/-- C12 holds for contents that do not read as hexadecimal text: exactly the 20 (32) bytes are written and read back. -/
theorem C12_uint_roundtrip_partial (d : Bytes) (hhex : ¬ HexText d) :
    (d.length = 20 → Appends (writeUInt160 (.uint .u160 d)) () d ∧ Yields readUInt160 d d) ∧
    (d.length = 32 → Appends (writeUInt256 (.uint .u256 d)) () d ∧ Yields readUInt256 d d) :=
  ⟨fun h => ⟨appends_uintSerialize d hhex, yields_readUInt 20 d h (by decide)⟩,
   fun h => ⟨appends_uintSerialize d hhex, yields_readUInt 32 d h (by decide)⟩⟩

example : ¬ HexText (List.replicate 20 7) ∧ (List.replicate 20 (7 : UInt8)).length = 20 := by
  refine ⟨?_, by decide⟩
  rintro ⟨_, h⟩; exact absurd (h 7 (by decide)) (by unfold IsHexDigit; decide)

/-- C12 fails for every 20-byte content made of ASCII hex digits: 10 bytes are written, and reading them back raises. -/
theorem C12_uint160_hex_violated (d : Bytes) (hl : d.length = 20) (hhex : HexText d) :
    ∃ r, r.length = 10 ∧ Appends (writeUInt160 (.uint .u160 d)) () r ∧
      ∀ pre, (readUInt160 ⟨pre ++ r, pre.length⟩).1 = .error .exc := by
  obtain ⟨r, h1, h2⟩ := appends_uintSerialize_hex d hhex (by rintro rfl; simp at hl)
  refine ⟨r, by omega, h2, ?_⟩
  intro pre
  unfold readUInt160 readBytes
  refine (congrArg Prod.fst (IOM.bind_ok (read_apply 20 _ (by decide)))).trans ?_
  simp [IOM.lift_apply, uintOfBytes, List.take_of_length_le (show r.length ≤ 20 by omega)]
  omega

/-- C12 fails for every 32-byte content made of ASCII hex digits. -/
theorem C12_uint256_hex_violated (d : Bytes) (hl : d.length = 32) (hhex : HexText d) :
    ∃ r, r.length = 16 ∧ Appends (writeUInt256 (.uint .u256 d)) () r ∧
      ∀ pre, (readUInt256 ⟨pre ++ r, pre.length⟩).1 = .error .exc := by
  obtain ⟨r, h1, h2⟩ := appends_uintSerialize_hex d hhex (by rintro rfl; simp at hl)
  refine ⟨r, by omega, h2, ?_⟩
  intro pre
  unfold readUInt256 readBytes
  refine (congrArg Prod.fst (IOM.bind_ok (read_apply 32 _ (by decide)))).trans ?_
  simp [IOM.lift_apply, uintOfBytes, List.take_of_length_le (show r.length ≤ 32 by omega)]
  omega

example : HexText (List.replicate 20 0x61) ∧ (List.replicate 20 (0x61 : UInt8)).length = 20 := by
  refine ⟨⟨by decide, ?_⟩, by decide⟩
  intro c hc; rw [(List.mem_replicate.mp hc).2]; unfold IsHexDigit; decide

/-- C12. Only objects of the right class are accepted; anything else raises and writes nothing. -/
theorem C12_uint_rejected (v : Val) :
    ((∀ d, v ≠ .uint .u160 d) → RaisesCleanly (writeUInt160 v) .exc) ∧
    ((∀ d, v ≠ .uint .u256 d) → RaisesCleanly (writeUInt256 v) .exc) := by
  constructor
  · intro h s
    unfold writeUInt160
    split
    · rename_i d; exact absurd rfl (h d)
    · rfl
  · intro h s
    unfold writeUInt256
    split
    · rename_i d; exact absurd rfl (h d)
    · rfl

/-! ### C17 -/

theorem hexText_reverse (d : Bytes) : HexText d.reverse ↔ HexText d := by simp [HexText]

theorem appends_reversedHex (ds : List Bytes) (hhex : ∀ d ∈ ds, ¬ HexText d) :
    Appends (writeReversedHex (ds.map fun d => .str (hexStr d))) () (ds.flatMap List.reverse) := by
  induction ds with
  | nil => exact appends_pure ()
  | cons d ds ih =>
    have h1 : Appends (IOM.lift (unhexlifyVal (.str (hexStr d)))) d [] := by
      intro pre; simp only [IOM.lift_apply, hexStr, unhexlifyVal_hexStr, List.append_nil]
    have h2 := (C11_writeBytes_exact_partial d.reverse (by rw [hexText_reverse]; exact hhex d (by simp))).2
    have h3 := ih (fun x hx => hhex x (by simp [hx]))
    have := appends_bind h1 (f := fun raw => do let _ ← writeBytes (.bytearray raw.reverse)
                                                writeReversedHex (ds.map fun d => .str (hexStr d)))
      (appends_bind h2 h3)
    simpa [writeReversedHex] using this

theorem yields_readHashItems (ds : List Bytes) (hl : ∀ d ∈ ds, d.length = 32) :
    Yields (readHashItems ds.length) (ds.flatMap List.reverse) (ds.map hexStr) := by
  induction ds with
  | nil => exact yields_pure _
  | cons d ds ih =>
    have h1 := yields_read d.reverse 32 (by simp [hl d (by simp)]) (by decide)
    have h2 := ih (fun x hx => hl x (by simp [hx]))
    have := yields_bind h1 (f := fun ba => do let rest ← readHashItems ds.length
                                              return hexStr ba.reverse :: rest)
      (yields_bind h2 (yields_pure _))
    simpa [readHashItems, readBytes] using this

/-- C17 holds for lists of 32-byte hashes none of which reads as hexadecimal text: the list of their hex strings is
written and read back. -/
theorem C17_hashes_roundtrip_partial (ds : List Bytes) (hl : ∀ d ∈ ds, d.length = 32) (hhex : ∀ d ∈ ds, ¬ HexText d)
    (hmem : (ds.length : Int) ≤ maxsize) :
    RoundTrip (writeHashes (ds.map fun d => .str (hexStr d))) readHashes (ds.map hexStr) := by
  have h64 : ds.length < 2 ^ 64 := by simp only [maxsize] at hmem; omega
  refine ⟨(), varIntBytes .little ds.length ++ ds.flatMap List.reverse, ?_, ?_⟩
  · have := appends_bind (appends_writeVarInt .little ds.length h64)
      (f := fun _ => writeReversedHex (ds.map fun d => .str (hexStr d))) (appends_reversedHex ds hhex)
    simpa [writeHashes] using this
  · have := yields_bind (f := fun len : Int => readHashItems len.toNat) (yields_readVarInt ds.length h64 maxsize hmem)
      (by simpa using yields_readHashItems ds hl)
    simpa [readHashes] using this

example : ∃ ds : List Bytes, ds.length = 2 ∧ (∀ d ∈ ds, d.length = 32) ∧ (∀ d ∈ ds, ¬ HexText d) := by
  refine ⟨[List.replicate 32 1, List.replicate 32 2], rfl, by simp, ?_⟩
  intro d hd
  simp at hd
  rcases hd with rfl | rfl
  · rintro ⟨_, h⟩; exact absurd (h 1 (by decide)) (by unfold IsHexDigit; decide)
  · rintro ⟨_, h⟩; exact absurd (h 2 (by decide)) (by unfold IsHexDigit; decide)

/-- C17 fails for every 32-byte hash made of ASCII hex digits: what a one-element list writes is read back as something
else. -/
theorem C17_hash_hex_violated (d : Bytes) (hl : d.length = 32) (hhex : HexText d) :
    ∃ bs, Appends (writeHashes [.str (hexStr d)]) () bs ∧ (readHashes ⟨bs, 0⟩).1 ≠ .ok [hexStr d] := by
  obtain ⟨r, h1, _, _, h4⟩ := C11_writeBytes_hex_violated d.reverse ((hexText_reverse d).mpr hhex)
    (by intro h; rw [List.reverse_eq_nil_iff] at h; subst h; simp at hl)
  have hrl : r.length = 16 := by simp at h1; omega
  refine ⟨varIntBytes .little 1 ++ r, ?_, ?_⟩
  · have hlift : Appends (IOM.lift (unhexlifyVal (.str (hexStr d)))) d [] := by
      intro pre; simp only [IOM.lift_apply, hexStr, unhexlifyVal_hexStr, List.append_nil]
    have hin : Appends (writeReversedHex [.str (hexStr d)]) () r := by
      have := appends_bind hlift (f := fun raw => do let _ ← writeBytes (.bytearray raw.reverse)
                                                     writeReversedHex [])
        (appends_bind h4 (appends_pure ()))
      simpa [writeReversedHex] using this
    have := appends_bind (appends_writeVarInt .little 1 (by omega)) (f := fun _ => writeReversedHex [.str (hexStr d)]) hin
    simpa [writeHashes] using this
  · have hy := yields_readVarInt 1 (by omega) maxsize (by decide) [] r
    simp only [List.nil_append, List.length_nil] at hy
    unfold readHashes
    rw [IOM.bind_ok hy]
    have hrd : ∀ s : Stream, s.buf.drop s.pos = r → ∃ s', readHashItems 1 s = (.ok [hexStr r.reverse], s') := by
      intro s hs
      have hra := read_apply 32 s (by decide)
      rw [hs, if_neg (by decide), List.take_of_length_le (by omega : r.length ≤ Int.toNat 32)] at hra
      refine ⟨{ s with pos := s.pos + r.length }, ?_⟩
      show (readBytes 32 >>= fun ba => (readHashItems 0 >>= fun rest => pure (hexStr ba.reverse :: rest))) s = _
      exact IOM.bind_ok hra
    obtain ⟨s', hs'⟩ := hrd ⟨varIntBytes .little 1 ++ r, (varIntBytes .little 1).length⟩ (by simp)
    have he : (readHashItems (Int.toNat ((1 : Nat) : Int))) ⟨varIntBytes .little 1 ++ r, (varIntBytes .little 1).length⟩
        = (.ok [hexStr r.reverse], s') := hs'
    rw [he]
    simp only [ne_eq, Except.ok.injEq, List.cons.injEq, and_true]
    intro heq
    have := congrArg List.length heq
    simp [hexStr, asciiStr, hexlify_length, hrl, hl] at this

/-! ### C18 -/

/-- What the 2000-hash reader really understands: each hash as 64 ASCII hex digits of its reversed bytes. -/
theorem C18_reader_layout (ds : List Bytes) (hl : ∀ d ∈ ds, d.length = 32) :
    Yields (readHexItems ds.length) (ds.flatMap fun d => hexlify d.reverse) (ds.map hexlify) := by
  induction ds with
  | nil => exact yields_pure _
  | cons d ds ih =>
    have hd := hl d (by simp)
    have h1 := yields_read (hexlify d.reverse) 64 (by simp [hexlify_length, hd]) (by decide)
    have h2 := ih (fun x hx => hl x (by simp [hx]))
    have := yields_bind h1 (f := fun data => do let ba ← IOM.lift (unhexlify data)
                                                let rest ← readHexItems ds.length
                                                return hexlify ba.reverse :: rest)
      (yields_bind (yields_lift (unhexlify_hexlify _)) (yields_bind h2 (yields_pure _)))
    simpa [readHexItems, readBytes] using this

/-- What the 2000-hash writer really writes: the raw reversed bytes (for hashes that are not themselves hex text). -/
theorem C18_writer_layout_partial (ds : List Bytes) (hhex : ∀ d ∈ ds, ¬ HexText d) :
    Appends (write2000256List (ds.map fun d => .str (hexStr d))) () (ds.flatMap List.reverse) :=
  appends_reversedHex ds hhex

theorem readHexItems_needs (k : Nat) (s s' : Stream) (items : List Bytes) (h : readHexItems k s = (.ok items, s'))
    (hl : ∀ x ∈ items, x.length = 64) : 64 * k ≤ s.buf.length - s.pos := by
  induction k generalizing s s' items with
  | zero => simp
  | succ k ih =>
    have h' : (Stream.read 64 >>= fun data => (IOM.lift (unhexlify data) >>= fun ba =>
        (readHexItems k >>= fun rest => pure (hexlify ba.reverse :: rest)))) s = (.ok items, s') := h
    rw [IOM.bind_ok (read_apply 64 s (by decide)), if_neg (by decide)] at h'
    cases hu : unhexlify ((s.buf.drop s.pos).take (Int.toNat 64)) with
    | error e =>
      rw [IOM.bind_err (m := IOM.lift _) (by rw [IOM.lift_apply, hu])] at h'
      simp at h'
    | ok ba =>
      rw [IOM.bind_ok (m := IOM.lift _) (by rw [IOM.lift_apply, hu])] at h'
      cases hr : readHexItems k { s with pos := s.pos + ((s.buf.drop s.pos).take (Int.toNat 64)).length } with
      | mk q s2 =>
        cases q with
        | error e => rw [IOM.bind_err hr] at h'; simp at h'
        | ok rest =>
          rw [IOM.bind_ok hr] at h'
          simp only [IOM.pure_apply, Prod.mk.injEq, Except.ok.injEq] at h'
          obtain ⟨rfl, rfl⟩ := h'
          have h64 := hl (hexlify ba.reverse) (by simp)
          have hlen := unhexlify_length hu
          rw [hexlify_length, List.length_reverse] at h64
          have := ih _ _ _ hr (fun x hx => hl x (by simp [hx]))
          simp only [List.length_take, List.length_drop] at hlen this
          have h64' : Int.toNat 64 = 64 := rfl
          rw [h64'] at hlen this
          omega

theorem reversedHex_short (ds : List Bytes) (hl : ∀ d ∈ ds, d.length = 32) :
    ∃ bs, bs.length ≤ 32 * ds.length ∧ Appends (writeReversedHex (ds.map fun d => .str (hexStr d))) () bs := by
  induction ds with
  | nil => exact ⟨[], by simp, appends_pure ()⟩
  | cons d ds ih =>
    obtain ⟨bs, h1, h2⟩ := ih (fun x hx => hl x (by simp [hx]))
    have hd := hl d (by simp)
    have hlift : Appends (IOM.lift (unhexlifyVal (.str (hexStr d)))) d [] := by
      intro pre; simp only [IOM.lift_apply, hexStr, unhexlifyVal_hexStr, List.append_nil]
    obtain ⟨r, hr, hw⟩ : ∃ r : Bytes, r.length ≤ 32 ∧ Appends (writeBytes (.bytearray d.reverse)) r.length r := by
      by_cases hx : HexText d.reverse
      · obtain ⟨r, a1, a2, _, a4⟩ := C11_writeBytes_hex_violated d.reverse hx
          (by intro h; rw [List.reverse_eq_nil_iff] at h; subst h; simp at hd)
        exact ⟨r, by simp at a2; omega, a4⟩
      · exact ⟨d.reverse, by simp [hd], (C11_writeBytes_exact_partial _ hx).2⟩
    refine ⟨r ++ bs, by simp; omega, ?_⟩
    have := appends_bind hlift (f := fun raw => do let _ ← writeBytes (.bytearray raw.reverse)
                                                   writeReversedHex (ds.map fun d => .str (hexStr d)))
      (appends_bind hw h2)
    simpa [writeReversedHex] using this

/-- C18 fails for *every* list of 2000 hashes: what `Write2000256List` writes, `Read2000256List` never reads back. -/
theorem C18_list2000_violated (ds : List Bytes) (hn : ds.length = 2000) (hl : ∀ d ∈ ds, d.length = 32) :
    ∃ bs, Appends (write2000256List (ds.map fun d => .str (hexStr d))) () bs ∧
      ∀ pre, (read2000256List ⟨pre ++ bs, pre.length⟩).1 ≠ .ok (ds.map hexlify) := by
  obtain ⟨bs, h1, h2⟩ := reversedHex_short ds hl
  refine ⟨bs, h2, ?_⟩
  intro pre hcon
  cases hr : read2000256List ⟨pre ++ bs, pre.length⟩ with
  | mk q s' =>
    rw [hr] at hcon
    simp only at hcon
    subst hcon
    have := readHexItems_needs 2000 _ _ _ hr (by
      intro x hx
      obtain ⟨d, hd, rfl⟩ := List.mem_map.mp hx
      rw [hexlify_length, hl d hd])
    simp at this
    omega

example : ∃ ds : List Bytes, ds.length = 2000 ∧ ∀ d ∈ ds, d.length = 32 :=
  ⟨List.replicate 2000 (List.replicate 32 7), by rw [List.length_replicate], fun d hd => by
    rw [(List.mem_replicate.mp hd).2, List.length_replicate]⟩

/-! ### C20 -/

/-- C20. `SafeReadBytes(n)` returns exactly the next `n` bytes when that many remain, and otherwise raises ValueError.
(`n` at most sys.maxsize.) -/
theorem C20_safeRead (n : Nat) (hn : (n : Int) ≤ maxsize) (s : Stream) :
    safeReadBytes n s =
      if n ≤ (s.buf.drop s.pos).length then (.ok ((s.buf.drop s.pos).take n), { s with pos := s.pos + n })
      else (.error .valueError, { s with pos := s.pos + (s.buf.drop s.pos).length }) := by
  unfold safeReadBytes readBytes
  rw [IOM.bind_ok (read_nat_apply n s hn)]
  by_cases h : n ≤ (s.buf.drop s.pos).length
  · rw [if_pos h, if_neg (by simp only [List.length_take]; omega)]
    simp only [IOM.pure_apply, List.length_take, Nat.min_eq_left h]
  · rw [if_neg h, if_pos (by simp only [List.length_take]; omega)]
    simp only [IOM.raise_apply, List.length_take, Nat.min_eq_right (show (s.buf.drop s.pos).length ≤ n by omega)]

/-- C20. `ReadBytes(n)` returns the next `min n remaining` bytes and moves past them. -/
theorem C20_read (n : Nat) (hn : (n : Int) ≤ maxsize) (s : Stream) :
    readBytes n s = (.ok ((s.buf.drop s.pos).take n),
      { s with pos := s.pos + min n (s.buf.drop s.pos).length }) := by
  unfold readBytes
  rw [read_nat_apply n s hn, List.length_take]

example : (safeReadBytes 2 ⟨[1, 2, 3], 1⟩).1 = .ok [2, 3] ∧ (safeReadBytes 3 ⟨[1, 2, 3], 1⟩).1 = .error .valueError := by
  decide

/-- C20. A negative length reads everything that remains, a length above sys.maxsize raises OverflowError. -/
theorem C20_read_edge (n : Int) (s : Stream) :
    (n < 0 → (safeReadBytes n s).1 = .ok (s.buf.drop s.pos)) ∧
    (maxsize < n → safeReadBytes n s = (.error .overflowError, s)) := by
  constructor
  · intro h
    unfold safeReadBytes readBytes
    rw [IOM.bind_ok (read_apply n s (by simp only [maxsize]; omega)), if_pos h, if_neg (by omega)]
    rfl
  · intro h
    unfold safeReadBytes readBytes
    refine IOM.bind_err ?_
    simp only [Stream.read]
    rw [if_pos (by omega)]

end Neo.Props
