import Verif.Proofs.VarInt
import Verif.Proofs.Utf8

/-!
# C03–C09: variable-length integers, byte strings and strings
-/

namespace Neo.Props
open Py Spec Writer Reader

/-! ### C03 -/

/-- C03. Every value below 2^64 is written and read back by any reader call whose bound admits it, which moves exactly
past the bytes written. -/
theorem C03_varint_roundtrip (n : Nat) (hn : n < 2 ^ 64) (max : Int) (hmax : (n : Int) ≤ max) :
    RoundTrip (writeVarInt (.int n)) (readVarInt max) (n : Int) :=
  ⟨_, _, appends_writeVarInt .little n hn, yields_readVarInt n hn max hmax⟩

example : (70000 : Nat) < 2 ^ 64 ∧ ((70000 : Nat) : Int) ≤ 70000 := by decide

/-- C81, default bound: up to 2^63 − 1 = sys.maxsize. -/
theorem C81_default_bound_partial (n : Nat) (hn : n < 2 ^ 63) :
    RoundTrip (writeVarInt (.int n)) (readVarInt) (n : Int) :=
  C03_varint_roundtrip n (by omega) _ (by simp only [maxsize]; omega)

/-- What every successful `ReadVarInt` does: either the first byte was 0 (or missing), or the value announced by the
first byte passed the bound check. -/
theorem readVarInt_ok {max v : Int} {s s' : Stream} (h : readVarInt max s = (.ok v, s')) :
    ∃ fb s1, readByte s = (.ok fb, s1) ∧
      ((fb = 0 ∧ v = 0 ∧ s' = s1) ∨ (fb ≠ 0 ∧ readVarIntValue fb s1 = (.ok v, s') ∧ v ≤ max)) := by
  unfold readVarInt at h
  cases hb : readByte s with
  | mk r s1 =>
    cases r with
    | error e => rw [IOM.bind_err hb] at h; simp at h
    | ok fb =>
      rw [IOM.bind_ok hb] at h
      refine ⟨fb, s1, rfl, ?_⟩
      by_cases h0 : fb = 0
      · rw [if_pos h0] at h
        simp only [IOM.pure_apply, Prod.mk.injEq, Except.ok.injEq] at h
        exact .inl ⟨h0, by omega, h.2.symm⟩
      · rw [if_neg h0] at h
        refine .inr ⟨h0, ?_⟩
        cases hv : readVarIntValue fb s1 with
        | mk r2 s2 =>
          cases r2 with
          | error e => rw [IOM.bind_err hv] at h; simp at h
          | ok w =>
            rw [IOM.bind_ok hv] at h
            unfold checkMax at h
            by_cases hw : w > max
            · rw [if_pos hw] at h; simp [IOM.raise_apply] at h
            · rw [if_neg hw] at h
              simp only [IOM.pure_apply, Prod.mk.injEq, Except.ok.injEq] at h
              exact ⟨by rw [h.1, h.2], by omega⟩

/-- C07. Whatever the stream, `ReadVarInt(max)` with `max ≥ 0` returns a value between 0 and max, or raises. -/
theorem C07_readVarInt_bounded (max v : Int) (hmax : 0 ≤ max) (s s' : Stream)
    (h : readVarInt max s = (.ok v, s')) : 0 ≤ v ∧ v ≤ max := by
  obtain ⟨fb, s1, hb, hcase⟩ := readVarInt_ok h
  rcases hcase with ⟨_, rfl, _⟩ | ⟨h0, hv, hm⟩
  · omega
  · refine ⟨?_, hm⟩
    have hunsigned : ∀ (c : Char) (w : Nat), fmtOfChar c = some (.intFmt false w) → ∀ k,
        unpackInt c .little k s1 = (.ok v, s') → 0 ≤ v := by
      intro c w hc k hk
      unfold unpackInt at hk
      cases hr : Stream.read (k : Int) s1 with
      | mk r s2 =>
        cases r with
        | error e => rw [IOM.bind_err hr] at hk; simp at hk
        | ok bs =>
          rw [IOM.bind_ok hr] at hk
          simp only [IOM.lift_apply, Prod.mk.injEq] at hk
          have := hk.1
          simp only [structUnpackInt, hc] at this
          split at this
          · simp only [Except.ok.injEq, intFromBytes, Bool.false_and, Bool.false_eq_true, if_false] at this
            omega
          · simp at this
    unfold readVarIntValue at hv
    split at hv
    · exact hunsigned 'H' 2 rfl _ hv
    · split at hv
      · exact hunsigned 'I' 4 rfl _ hv
      · split at hv
        · exact hunsigned 'Q' 8 rfl _ hv
        · simp only [IOM.pure_apply, Prod.mk.injEq, Except.ok.injEq] at hv
          obtain ⟨rfl, _⟩ := hv
          -- a byte value
          cases hd : s.buf[s.pos]? with
          | none =>
            rw [readByte_eof (List.getElem?_eq_none_iff.mp hd)] at hb
            simp only [Prod.mk.injEq, Except.ok.injEq] at hb
            omega
          | some b =>
            rw [readByte_some hd] at hb
            simp only [Prod.mk.injEq, Except.ok.injEq] at hb
            omega

/-- C07. At the end of the stream the result is 0 and nothing moves. -/
theorem C07_readVarInt_eof (max : Int) (s : Stream) (h : s.buf.length ≤ s.pos) : readVarInt max s = (.ok 0, s) := by
  unfold readVarInt
  rw [IOM.bind_ok (readByte_eof h)]
  simp [IOM.pure_apply]

example : (readVarInt 300 ⟨[0xfd, 44, 1], 0⟩).1 = .ok 300 ∧ (readVarInt 299 ⟨[0xfd, 44, 1], 0⟩).1 = .error .exc := by
  decide

/-- C81 fails with the default bound for *every* value from 2^63 on: what was written cannot be read back. -/
theorem C81_default_bound_violated (n : Nat) (hlo : 2 ^ 63 ≤ n) (hn : n < 2 ^ 64) :
    ¬ RoundTrip (writeVarInt (.int n)) (readVarInt) (n : Int) := by
  rintro ⟨r, bs, _, hy⟩
  have := C07_readVarInt_bounded maxsize n (by decide) _ _ (hy [] [])
  simp only [maxsize] at this
  omega

/-! ### C04 -/

/-- Number of bytes of the shortest form. -/
def shortest (n : Nat) : Nat := if n < 0xfd then 1 else if n ≤ 0xffff then 3 else if n ≤ 0xffffffff then 5 else 9

/-- C04. Lengths: 1 byte below 0xfd, 3 up to 0xffff, 5 up to 0xffffffff, 9 above. -/
theorem C04_varint_length (n : Nat) (hn : n < 2 ^ 64) (r : Option Nat) (bs : Bytes)
    (h : Appends (writeVarInt (.int n)) r bs) : bs.length = shortest n := by
  rw [(h.unique (appends_writeVarInt .little n hn)).2, varIntBytes_length, shortest]

/-- Reading is deterministic: no encoding is a prefix of the encoding of a different value. -/
theorem yields_prefix {rd : IOM α} {a b : Bytes} {v w : α} (ha : Yields rd a v) (hb : Yields rd b w) (hp : a <+: b) :
    v = w ∧ a.length = b.length := by
  obtain ⟨t, rfl⟩ := hp
  have h1 := ha [] t
  have h2 := hb [] []
  simp only [List.nil_append, List.append_nil, List.length_nil] at h1 h2
  rw [h1] at h2
  simp only [Prod.mk.injEq, Except.ok.injEq, Stream.mk.injEq] at h2
  exact ⟨h2.1, h2.2.2⟩

/-- C04. Prefix-free: encodings of different values are never prefixes of one another (so also never equal). -/
theorem C04_varint_prefix_free (n m : Nat) (hn : n < 2 ^ 64) (hm : m < 2 ^ 64) (hne : n ≠ m)
    (r r' : Option Nat) (a b : Bytes) (ha : Appends (writeVarInt (.int n)) r a)
    (hb : Appends (writeVarInt (.int m)) r' b) : ¬ a <+: b := by
  intro hp
  rw [(ha.unique (appends_writeVarInt .little n hn)).2, (hb.unique (appends_writeVarInt .little m hm)).2] at hp
  have := (yields_prefix (yields_readVarInt n hn (2 ^ 64) (by omega)) (yields_readVarInt m hm (2 ^ 64) (by omega)) hp).1
  omega

example : ∃ r bs, Appends (writeVarInt (.int 253)) r bs ∧ bs = [0xfd, 253, 0] :=
  ⟨_, _, appends_writeVarInt .little 253 (by decide), by decide⟩

/-- C04. The form written is the shortest: whatever bytes `ReadVarInt` accepts for a value, there are at least as many. -/
theorem C04_varint_no_shorter (n : Nat) (max : Int) (bs : Bytes) (h : Yields (readVarInt max) bs (n : Int)) :
    shortest n ≤ bs.length := by
  have hun : ∀ (c : Char) (w : Nat), fmtOfChar c = some (.intFmt false w) → ∀ (s s' : Stream) (v : Int),
      unpackInt c .little w s = (.ok v, s') → w ≤ 8 → v < 256 ^ w ∧ s'.pos = s.pos + w := by
    intro c w hc s s' v hk hw
    unfold unpackInt at hk
    rw [IOM.bind_ok (read_nat_apply w s (by simp only [maxsize]; omega))] at hk
    simp only [IOM.lift_apply, Prod.mk.injEq, structUnpackInt, hc] at hk
    obtain ⟨h1, h2⟩ := hk
    by_cases hl : ((s.buf.drop s.pos).take w).length = w
    · rw [if_pos hl] at h1
      simp only [Except.ok.injEq, intFromBytes, Bool.false_and, Bool.false_eq_true, if_false, Endian.arrange] at h1
      have := leToNat_lt ((s.buf.drop s.pos).take w)
      rw [hl] at this
      have hc' := cast_pow256 w
      refine ⟨by omega, ?_⟩
      rw [← h2, hl]
    · rw [if_neg hl] at h1; simp at h1
  cases bs with
  | nil =>
    have h5 := h [] [5]
    have h6 := h [] [6]
    by_cases hm : max < 5
    · have : (readVarInt max ⟨[5], 0⟩).1 = .error .exc := by
        have hb : readByte ⟨[5], 0⟩ = (.ok 5, ⟨[5], 1⟩) := by decide
        unfold readVarInt
        rw [IOM.bind_ok hb, if_neg (by decide), IOM.bind_ok (m := readVarIntValue 5) (a := 5) (s' := ⟨[5], 1⟩) (by decide)]
        unfold checkMax
        rw [if_pos (by omega)]
        rfl
      simp only [List.nil_append, List.length_nil] at h5
      rw [h5] at this; simp at this
    · have : readVarInt max ⟨[5], 0⟩ = (.ok 5, ⟨[5], 1⟩) := by
        have hb : readByte ⟨[5], 0⟩ = (.ok 5, ⟨[5], 1⟩) := by decide
        unfold readVarInt
        rw [IOM.bind_ok hb, if_neg (by decide), IOM.bind_ok (m := readVarIntValue 5) (a := 5) (s' := ⟨[5], 1⟩) (by decide)]
        unfold checkMax
        rw [if_neg (by omega)]
        rfl
      simp only [List.nil_append, List.length_nil] at h5
      rw [h5] at this; simp at this
  | cons b rest =>
    have h0 := h [] []
    simp only [List.nil_append, List.append_nil, List.length_nil, List.length_cons] at h0 ⊢
    obtain ⟨fb, s1, hb, hcase⟩ := readVarInt_ok h0
    have hb' := readByte_some (s := ⟨b :: rest, 0⟩) (b := b) rfl
    rw [hb'] at hb
    simp only [Prod.mk.injEq, Except.ok.injEq] at hb
    obtain ⟨rfl, rfl⟩ := hb
    have hbl := b.toNat_lt
    rcases hcase with ⟨_, hn, _⟩ | ⟨_, hv, _⟩
    · unfold shortest; rw [if_pos (by omega)]; omega
    · unfold readVarIntValue at hv
      split at hv
      · have := hun 'H' 2 rfl _ _ _ hv (by omega)
        simp only at this
        unfold shortest
        split
        · omega
        · split <;> omega
      · split at hv
        · have := hun 'I' 4 rfl _ _ _ hv (by omega)
          simp only at this
          unfold shortest
          split
          · omega
          · split
            · omega
            · split <;> omega
        · split at hv
          · have := hun 'Q' 8 rfl _ _ _ hv (by omega)
            simp only at this
            unfold shortest
            split
            · omega
            · split
              · omega
              · split <;> omega
          · simp only [IOM.pure_apply, Prod.mk.injEq, Except.ok.injEq] at hv
            unfold shortest
            rw [if_pos (by omega)]; omega

/-! ### C05 -/

/-- C05. A negative value or a non-integer raises and leaves the stream exactly as it was. -/
theorem C05_varint_rejects_partial (v : Val) (h : ∀ n, v.index? = some n → n < 0) (e : Endian) :
    RaisesCleanly (writeVarInt v e) (if v.index?.isSome then .exc else .typeError) := by
  intro s
  unfold writeVarInt
  cases hv : v.index? with
  | none => simp [IOM.raise_apply]
  | some n => simp [h n hv, IOM.raise_apply]

example : ∀ n, (Val.bigInteger (-7)).index? = some n → n < 0 := by intro n h; cases h; decide
example : ∀ n, (Val.bytes [1]).index? = some n → n < 0 := by intro n h; cases h

/-- C05 fails for every value from 2^64 on: it raises, but a stray 0xff byte stays on the stream. -/
theorem C05_varint_too_large_violated (v : Val) (n : Int) (hv : v.index? = some n) (h : 2 ^ 64 ≤ n) (e : Endian)
    (pre : Bytes) :
    writeVarInt v e ⟨pre, pre.length⟩ = (.error .structError, ⟨pre ++ [0xff], (pre ++ [0xff]).length⟩) := by
  unfold writeVarInt
  simp only [hv]
  rw [if_neg (by omega), if_neg (by omega), if_neg (by omega), if_neg (by omega)]
  refine (IOM.bind_ok (appends_writeByte_int 0xff (by omega) pre)).trans ?_
  have hp := packInt_raises (e := e) (v := v) (structPack_err (c := 'Q') (w := 8) (signed := false) rfl hv
    (by simp only [inRange, Bool.false_eq_true, if_false]; omega))
  exact IOM.bind_err (hp _)

example : (2 : Int) ^ 64 ≤ 18446744073709551616 ∧ (Val.int 18446744073709551616).index? = some 18446744073709551616 := by
  decide

/-! ### C06 -/

/-- C06 holds from 0xfd on: any integer object writes the same bytes as the plain int of equal value. -/
theorem C06_varint_subclass_partial (v : Val) (n : Int) (hv : v.index? = some n) (hn : 0xfd ≤ n) (e : Endian) :
    writeVarInt v e = writeVarInt (.int n) e := by
  have hp : ∀ c, packInt c e v = packInt c e (.int n) := by
    intro c
    simp only [packInt, structPackInt, hv, show (Val.int n).index? = some n from rfl]
  unfold writeVarInt writeUInt16 writeUInt32 writeUInt64
  simp only [hv, show (Val.int n).index? = some n from rfl, hp]
  rw [if_neg (show ¬ n < 253 by omega), if_neg (show ¬ n < 253 by omega)]

example : (Val.bigInteger 1000).index? = some 1000 ∧ (0xfd : Int) ≤ 1000 := by decide

/-- C06 fails below 0xfd: a BigInteger or bool is accepted and *nothing at all* is written. -/
theorem C06_small_subclass_violated (v : Val) (n : Int) (hv : v.index? = some n) (hsub : ∀ m, v ≠ .int m)
    (h0 : 0 ≤ n) (hn : n < 0xfd) (e : Endian) (s : Stream) : writeVarInt v e s = (.ok none, s) := by
  unfold writeVarInt
  simp only [hv]
  rw [if_neg (by omega), if_pos hn]
  cases v with
  | int m => exact absurd rfl (hsub m)
  | bool b => rfl
  | bigInteger m => rfl
  | none => simp [Val.index?] at hv
  | bytes b => simp [Val.index?] at hv
  | bytearray b => simp [Val.index?] at hv
  | str b => simp [Val.index?] at hv
  | uint _ b => simp [Val.index?] at hv
  | other => simp [Val.index?] at hv

example : (Val.bigInteger 100).index? = some 100 ∧ (Val.bool true).index? = some 1 := by decide

/-! ### C08 -/

/-- Bytes written by `WriteVarBytes`. -/
theorem appends_writeVarBytes (b : Bytes) (h : b.length < 2 ^ 64) :
    Appends (writeVarBytes b) b.length (varIntBytes .little b.length ++ b) :=
  appends_bind (appends_writeVarInt .little b.length h) (appends_writeBytes_raw b)

theorem yields_readVarBytes (b : Bytes) (max : Int) (hmax : (b.length : Int) ≤ max)
    (hmem : (b.length : Int) ≤ maxsize) : Yields (readVarBytes max) (varIntBytes .little b.length ++ b) b :=
  yields_bind (yields_readVarInt b.length (by simp only [maxsize] at hmem; omega) max hmax)
    (yields_read b b.length rfl hmem)

/-- C08. Every byte string whose length the reader's bound admits (and that fits in memory: at most sys.maxsize bytes)
is read back exactly. -/
theorem C08_varbytes_roundtrip (b : Bytes) (max : Int) (hmax : (b.length : Int) ≤ max)
    (hmem : (b.length : Int) ≤ maxsize) : RoundTrip (writeVarBytes b) (readVarBytes max) b :=
  ⟨_, _, appends_writeVarBytes b (by simp only [maxsize] at hmem; omega), yields_readVarBytes b max hmax hmem⟩

example : (([1, 2, 0x61, 0x62] : Bytes).length : Int) ≤ 4 := by decide

/-- C08. A byte string longer than the bound is refused. -/
theorem C08_varbytes_bound (b pre post : Bytes) (max : Int) (h0 : 0 ≤ max) (hmax : max < b.length)
    (hmem : (b.length : Int) ≤ maxsize) (r : Nat) (bs : Bytes) (hw : Appends (writeVarBytes b) r bs) :
    ∀ v s', readVarBytes max ⟨pre ++ bs ++ post, pre.length⟩ ≠ (.ok v, s') := by
  intro v s' hr
  have hl : b.length < 2 ^ 64 := by simp only [maxsize] at hmem; omega
  rw [(hw.unique (appends_writeVarBytes b hl)).2] at hr
  have hy := yields_readVarInt b.length hl (2 ^ 64) (by omega) pre (b ++ post)
  unfold readVarBytes at hr
  -- the unbounded read gives the length; the bounded one either fails or gives something ≤ max
  cases hb : readVarInt max ⟨pre ++ (varIntBytes .little b.length ++ b) ++ post, pre.length⟩ with
  | mk q s1 =>
    cases q with
    | error e => rw [IOM.bind_err hb] at hr; simp at hr
    | ok w =>
      have hbd := C07_readVarInt_bounded max w h0 _ _ hb
      obtain ⟨fb, t, hfb, hc⟩ := readVarInt_ok hb
      have hstream : pre ++ (varIntBytes .little b.length ++ b) ++ post = pre ++ varIntBytes .little b.length ++ (b ++ post) := by
        simp [List.append_assoc]
      rw [hstream] at hfb
      obtain ⟨fb', t', hfb', hc'⟩ := readVarInt_ok hy
      rw [hfb] at hfb'
      simp only [Prod.mk.injEq, Except.ok.injEq] at hfb'
      obtain ⟨rfl, rfl⟩ := hfb'
      rcases hc with ⟨h0', hw0, _⟩ | ⟨h0', hv, _⟩ <;> rcases hc' with ⟨h1', hw1, _⟩ | ⟨h1', hv', _⟩
      · omega
      · exact h1' h0'
      · exact h0' h1'
      · rw [hv] at hv'
        simp only [Prod.mk.injEq, Except.ok.injEq] at hv'
        omega

/-! ### C09 -/

theorem appends_writeVarStringBytes (b : Bytes) (h : b.length < 2 ^ 64) :
    Appends (writeVarStringBytes b) () (varIntBytes .little b.length ++ b) := by
  have h2 : Appends (writeBytes (.str (asciiStr (hexlify b)))) b.length b := by
    simp only [writeBytes, unhexlifyVal_hexStr, if_true]
    exact appends_write b
  have := appends_bind (appends_writeVarInt .little b.length h)
    (f := fun _ => do let _ ← writeBytes (.str (asciiStr (hexlify b))); return ())
    (appends_bind h2 (appends_pure ()))
  simpa [writeVarStringBytes] using this

theorem yields_unpackStr (b : Bytes) (hmem : (b.length : Int) ≤ maxsize) : Yields (unpackStr b.length b.length) b b := by
  have := yields_bind (f := fun bs : Bytes => if bs.length = b.length then (pure bs : IOM Bytes) else IOM.raise .structError)
    (yields_read b b.length rfl hmem) (v' := b) (b' := []) (by rw [if_pos rfl]; exact yields_pure _)
  simpa [unpackStr] using this

theorem yields_readVarString (b : Bytes) (max : Int) (hmax : (b.length : Int) ≤ max) (hmem : (b.length : Int) ≤ maxsize) :
    Yields (readVarString max) (varIntBytes .little b.length ++ b) b :=
  yields_bind (yields_readVarInt b.length (by simp only [maxsize] at hmem; omega) max hmax)
    (by simpa using yields_unpackStr b hmem)

/-- C09. Every string is read back as its UTF-8 encoding. -/
theorem C09_varstring_roundtrip (s : Str) (max : Int) (hmax : ((utf8 s).length : Int) ≤ max)
    (hmem : ((utf8 s).length : Int) ≤ maxsize) : RoundTrip (writeVarString (.str s)) (readVarString max) (utf8 s) :=
  ⟨_, _, appends_writeVarStringBytes _ (by simp only [maxsize] at hmem; omega), yields_readVarString _ max hmax hmem⟩

/-- C09. So is every bytes argument. -/
theorem C09_varstring_bytes_roundtrip (b : Bytes) (max : Int) (hmax : (b.length : Int) ≤ max)
    (hmem : (b.length : Int) ≤ maxsize) : RoundTrip (writeVarString (.bytes b)) (readVarString max) b ∧
      RoundTrip (writeVarString (.bytearray b)) (readVarString max) b :=
  ⟨⟨_, _, appends_writeVarStringBytes _ (by simp only [maxsize] at hmem; omega), yields_readVarString _ max hmax hmem⟩,
    ⟨_, _, appends_writeVarStringBytes _ (by simp only [maxsize] at hmem; omega), yields_readVarString _ max hmax hmem⟩⟩

example : ((utf8 ['a', 'b', 'é']).length : Int) ≤ maxsize := by decide

/-- C09. Two different strings are never written identically, nor is one a prefix of the other. -/
theorem C09_varstring_injective (s t : Str) (hs : ((utf8 s).length : Int) ≤ maxsize) (ht : ((utf8 t).length : Int) ≤ maxsize)
    (a b : Bytes) (ha : Appends (writeVarString (.str s)) () a) (hb : Appends (writeVarString (.str t)) () b)
    (hp : a <+: b) : s = t := by
  have ha' := (ha.unique (appends_writeVarStringBytes _ (by simp only [maxsize] at hs; omega))).2
  have hb' := (hb.unique (appends_writeVarStringBytes _ (by simp only [maxsize] at ht; omega))).2
  rw [ha', hb'] at hp
  exact utf8_inj (yields_prefix (yields_readVarString _ maxsize hs hs) (yields_readVarString _ maxsize ht ht) hp).1

end Neo.Props
