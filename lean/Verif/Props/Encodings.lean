import Verif.Props.FailedCalls
import Verif.Proofs.Hex

/-! # C164: strings in other encodings; C165: lists of hashes that are shorter than announced -/

namespace Neo.Props
open Py Spec Writer Reader

/-! ## C164 -/

/-- The codec reads plain ASCII data as that text (as utf-8, ascii and all the 8-bit encodings of the west do). -/
def ReadsAscii (c : Codec) : Prop := ∀ b : Bytes, (∀ x ∈ b, x.toNat < 128) → c.decode b = .ok (asciiStr b)

private theorem enc_eq {c : Codec} (hc : ReadsAscii c) (b : Bytes) : writeVarStringBytesEnc c b = writeVarStringBytes b := by
  funext s
  unfold writeVarStringBytesEnc writeVarStringBytes
  refine (IOM.bind_ok (s := s) (s' := s) (a := asciiStr (hexlify b)) ?_).trans rfl
  rw [hc _ (hexlify_ascii b), IOM.lift_apply]

/-- C164 for the encodings that read ASCII data as ASCII text: `WriteVarString` writes the length of the encoded text and the
encoded text, and `ReadVarString` returns it; bytes are written as they are. -/
theorem C164_writes_encoded_partial (c : Codec) (hc : ReadsAscii c) (t : Str) (b : Bytes) (hb : b.length < 2 ^ 63) :
    (c.encode t = .ok b → Appends (writeVarStringEnc c (.str t)) () (varIntBytes .little b.length ++ b) ∧
      RoundTrip (writeVarStringEnc c (.str t)) (readVarString maxsize) b) ∧
    (∀ e, c.encode t = .error e → RaisesCleanly (writeVarStringEnc c (.str t)) e) ∧
    Appends (writeVarStringEnc c (.bytes b)) () (varIntBytes .little b.length ++ b) ∧
    Appends (writeVarStringEnc c (.bytearray b)) () (varIntBytes .little b.length ++ b) := by
  have hw : Appends (writeVarStringBytesEnc c b) () (varIntBytes .little b.length ++ b) := by
    rw [enc_eq hc]
    exact appends_writeVarStringBytes b (by omega)
  have hm : (b.length : Int) ≤ maxsize := by unfold maxsize; omega
  refine ⟨fun h => ?_, fun e h s => ?_, hw, hw⟩
  · have he : writeVarStringEnc c (.str t) = writeVarStringBytesEnc c b := by
      unfold writeVarStringEnc
      simp only [h]
    rw [he]
    exact ⟨hw, _, _, hw, yields_readVarString b maxsize hm hm⟩
  · unfold writeVarStringEnc
    simp only [h]
    rfl

/-- The encodings of C164's theorem include ascii and latin-1, which differ on 'é'; and what they write of it. -/
example : ReadsAscii .ascii ∧ ReadsAscii .latin1 ∧ Codec.ascii.encode ['é'] = .error .valueError ∧
    Codec.latin1.encode ['h', 'é'] = .ok [104, 233] ∧
    writeVarStringEnc .latin1 (.str ['h', 'é']) ⟨[], 0⟩ = (.ok (), ⟨[2, 104, 233], 3⟩) := by
  refine ⟨fun b h => if_pos ?_, fun b h => rfl, by decide, by decide, by decide⟩
  simpa using h

private theorem hexDigit_range (n : Nat) (h : n < 16) : 48 ≤ (hexDigit n).toNat ∧ (hexDigit n).toNat ≤ 102 := by
  revert n h; decide

/-- The hexadecimal text of some bytes, misread as UTF-16: one character per byte, none of them ASCII. -/
private theorem misread (b : Bytes) : ∃ t : Str, utf16Decode (hexlify b) = .ok t ∧ t.length = b.length ∧ ∀ c ∈ t, 128 ≤ c.toNat := by
  induction b with
  | nil => exact ⟨[], rfl, rfl, by simp⟩
  | cons x b ih =>
    obtain ⟨t, h1, h2, h3⟩ := ih
    have hx : x.toNat < 256 := x.toNat_lt
    obtain ⟨l1, u1⟩ := hexDigit_range (x.toNat / 16) (by omega)
    obtain ⟨l2, u2⟩ := hexDigit_range (x.toNat % 16) (by omega)
    refine ⟨Char.ofNat ((hexDigit (x.toNat / 16)).toNat + 256 * (hexDigit (x.toNat % 16)).toNat) :: t, ?_, by simp [h2], ?_⟩
    · unfold hexlify utf16Decode
      rw [if_pos (.inl (by omega)), h1]
    · intro c hc
      rcases List.mem_cons.mp hc with rfl | hc
      · generalize (hexDigit (x.toNat / 16)).toNat = p at *
        generalize (hexDigit (x.toNat % 16)).toNat = q at *
        have hv : (p + 256 * q).isValidChar := Or.inl (by omega)
        have : (Char.ofNat (p + 256 * q)).toNat = p + 256 * q := by
          simp [Char.ofNat, hv, Char.toNat, Char.ofNatAux]
          omega
        omega
      · exact h3 c hc

/-- C164 fails for UTF-16: every text but the empty one makes `WriteVarString` raise, after the length has been written; so do
bytes, which need no encoding at all. -/
theorem C164_utf16_violated (t : Str) (ht : t ≠ []) (hl : (t.flatMap utf16Char).length < 2 ^ 64) (b : Bytes) (hb : b ≠ [])
    (hlb : b.length < 2 ^ 64) (s : Stream) :
    writeVarStringEnc .utf16le (.str t) s = (.error .valueError, overwrite s (varIntBytes .little (t.flatMap utf16Char).length)) ∧
    writeVarStringEnc .utf16le (.bytes b) s = (.error .valueError, overwrite s (varIntBytes .little b.length)) := by
  have key : ∀ b : Bytes, b ≠ [] → b.length < 2 ^ 64 →
      writeVarStringBytesEnc .utf16le b s = (.error .valueError, overwrite s (varIntBytes .little b.length)) := by
    intro b hb hl
    obtain ⟨t, h1, h2, h3⟩ := misread b
    have hv := varInt_anywhere _ _ (appends_writeVarInt .little _ hl []) s
    rw [List.nil_append] at hv
    have hd : Codec.utf16le.decode (hexlify b) = .ok t := h1
    have hn : unhexlifyVal (.str t) = .error .valueError := by
      unfold unhexlifyVal asciiBytes?
      cases t with
      | nil => exact absurd (List.length_eq_zero_iff.mp h2.symm) hb
      | cons c t =>
        have : ((c :: t).all fun c => decide (c.toNat < 128)) = false := by
          have := h3 c (by simp)
          simp [Nat.not_lt.mpr this]
        simp only
        rw [if_neg (by rw [this]; exact Bool.false_ne_true)]
    unfold writeVarStringBytesEnc
    refine (IOM.bind_ok (s := s) (s' := s) (a := t) (by rw [hd, IOM.lift_apply])).trans ?_
    refine (IOM.bind_ok hv).trans ?_
    refine IOM.bind_err ?_
    unfold writeBytes
    rw [if_pos rfl, hn]
    rfl
  refine ⟨key _ ?_ hl, key b hb hlb⟩
  intro h
  cases t with
  | nil => exact ht rfl
  | cons c t =>
    have := congrArg List.length h
    rw [List.flatMap_cons, List.length_append, List.length_nil] at this
    have hc : 0 < (utf16Char c).length := by
      unfold utf16Char
      split <;> simp [utf16Unit]
    omega

/-- 'hi' in UTF-16: the stream ends up with the length 4 and nothing after it. -/
example : writeVarStringEnc .utf16le (.str ['h', 'i']) ⟨[], 0⟩ = (.error .valueError, ⟨[4], 1⟩) ∧
    Codec.utf16le.encode ['h', 'i'] = .ok [104, 0, 105, 0] ∧ Codec.utf16le.decode [104, 0, 105, 0] = .ok ['h', 'i'] := by decide

/-! ## C165 -/

/-- Whatever the stream holds, `k` items are returned: the item at `i` is made of the bytes from `32 i` to `32 (i + 1)`, as many
of them as there are. -/
private theorem hashItems (k : Nat) (s : Stream) :
    readHashItems k s = (.ok ((List.range k).map fun i => hexStr (((ahead s).drop (32 * i)).take 32).reverse),
      advance s (min (32 * k) (ahead s).length)) := by
  induction k generalizing s with
  | zero =>
    show (Except.ok [], s) = _
    simp [advance]
  | succ k ih =>
    have hr : Stream.read (32 : Int) s = (.ok ((ahead s).take 32), advance s ((ahead s).take 32).length) := by
      unfold Stream.read
      simp only [if_neg (show ¬ ((32 : Int) > maxsize) by unfold maxsize; omega), if_neg (show ¬ ((32 : Int) < 0) by omega)]
      rfl
    show (Stream.read 32 >>= _) s = _
    rw [IOM.bind_ok hr]
    have hd : ahead (advance s ((ahead s).take 32).length) = (ahead s).drop 32 := by
      unfold ahead advance
      simp only [List.drop_drop, List.length_take, List.length_drop]
      rcases Nat.le_total 32 (s.buf.length - s.pos) with h | h
      · rw [min_eq_left h]
      · rw [min_eq_right h, List.drop_eq_nil_of_le (by omega), List.drop_eq_nil_of_le (by omega)]
    show (readHashItems k >>= _) _ = _
    refine (IOM.bind_ok (ih _)).trans ?_
    rw [hd]
    refine Prod.ext (congrArg Except.ok ?_) ?_
    · rw [List.range_succ_eq_map, List.map_cons, List.map_map]
      congr 1
      apply List.map_congr_left
      intro i _
      simp only [Function.comp, List.drop_drop]
      rw [show 32 * (i + 1) = 32 + 32 * i by ring]
    · show advance (advance _ _) _ = _
      unfold advance
      simp only [List.length_take, List.length_drop]
      congr 1
      omega

/-- C165 fails, exactly: `ReadHashes` returns as many items as the stream announces, however few it holds; whatever is missing
turns into shorter, and finally empty, hashes, and no error is raised. -/
theorem C165_short_violated (s s1 : Stream) (n : Int) (hn : readVarInt maxsize s = (.ok n, s1)) :
    readHashes s = (.ok ((List.range n.toNat).map fun i => hexStr (((ahead s1).drop (32 * i)).take 32).reverse),
      advance s1 (min (32 * n.toNat) (ahead s1).length)) := by
  show (readVarInt maxsize >>= _) s = _
  rw [IOM.bind_ok hn]
  exact hashItems _ _

/-- C165 where it holds: when everything announced is there, every hash comes from its own 32 bytes, and the position is exactly
past them. -/
theorem C165_complete_partial (s s1 : Stream) (n : Int) (hn : readVarInt maxsize s = (.ok n, s1))
    (hs : 32 * n.toNat ≤ (ahead s1).length) :
    ∃ l, readHashes s = (.ok l, advance s1 (32 * n.toNat)) ∧ l.length = n.toNat ∧
      ∀ i, i < n.toNat → l[i]? = some (hexStr (((ahead s1).drop (32 * i)).take 32).reverse) ∧
        (hexStr (((ahead s1).drop (32 * i)).take 32).reverse).length = 64 := by
  refine ⟨_, by rw [C165_short_violated s s1 n hn, min_eq_left hs], by simp, fun i hi => ⟨by simp [hi], ?_⟩⟩
  rw [hexStr_length, List.length_reverse, List.length_take, List.length_drop]
  omega

/-- Three bytes that announce two hashes: two items, one of them empty; 253 and a count: a thousand empty hashes from three bytes. -/
example : readHashes ⟨[2, 17, 34], 0⟩ = (.ok [['2', '2', '1', '1'], []], ⟨[2, 17, 34], 3⟩) ∧
    readHashes ⟨[253, 232, 3], 0⟩ = (.ok (List.replicate 1000 []), ⟨[253, 232, 3], 3⟩) := by
  refine ⟨by decide, ?_⟩
  rw [C165_short_violated _ ⟨[253, 232, 3], 3⟩ 1000 (by decide)]
  have h : ∀ n : Nat, (List.range n).map (fun i => hexStr ((([] : Bytes).drop (32 * i)).take 32).reverse) = List.replicate n [] := by
    intro n
    rw [List.eq_replicate_iff]
    refine ⟨by simp, fun x hx => ?_⟩
    obtain ⟨i, -, rfl⟩ := List.mem_map.mp hx
    simp [hexStr, hexlify, asciiStr]
  exact Prod.ext (congrArg Except.ok (h 1000)) rfl

end Neo.Props
