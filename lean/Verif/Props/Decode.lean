import Verif.Spec.Decode
import Verif.Props.Records

/-!
# Reading arbitrary bytes: exact results, truncation, canonical forms
-/

namespace Neo.Props
open Py Spec Writer Reader

theorem leNumber_eq (bs : Bytes) : leNumber bs = leToNat bs := ofDigits_eq_leToNat bs

/-! ### Fixed-width integers on every stream -/

/-- Reading at the end of `pre` when `rest` follows, fewer than `w` bytes. -/
theorem unpackInt_short {c : Char} {signed : Bool} {w : Nat} (hc : fmtOfChar c = some (.intFmt signed w)) (hw : w ≤ 8)
    (e : Endian) (pre rest : Bytes) (h : rest.length < w) :
    unpackInt c e w ⟨pre ++ rest, pre.length⟩ = (.error .structError, ⟨pre ++ rest, (pre ++ rest).length⟩) := by
  unfold unpackInt
  rw [IOM.bind_ok (read_nat_apply w _ (by simp only [maxsize]; omega))]
  simp only [IOM.lift_apply, structUnpackInt, hc, List.drop_left, List.length_append]
  rw [List.take_of_length_le (by omega), if_neg (by omega)]

theorem unpackInt_enough {c : Char} {signed : Bool} {w : Nat} (hc : fmtOfChar c = some (.intFmt signed w)) (hw : w ≤ 8)
    (e : Endian) (pre bs post : Bytes) (h : bs.length = w) :
    unpackInt c e w ⟨pre ++ bs ++ post, pre.length⟩ =
      (.ok (intFromBytes bs e signed), ⟨pre ++ bs ++ post, (pre ++ bs).length⟩) := by
  have := yields_unpackInt (c := c) (e := e) (v := intFromBytes bs e signed) h hw
    (by simp only [structUnpackInt, hc]; rw [if_pos h])
  exact this pre post

theorem intFromBytes_range {w : Nat} (hw : 0 < w) (bs : Bytes) (e : Endian) (signed : Bool) (h : bs.length = w) :
    inRange signed w (intFromBytes bs e signed) ∧
      (intFromBytes bs e signed) % 256 ^ w = (leToNat (e.arrange bs) : Int) := by
  have hlt := leToNat_lt (e.arrange bs)
  rw [Endian.arrange_length, h] at hlt
  have hc := cast_pow256 w
  obtain ⟨m, hm⟩ := pow256_even hw
  cases signed with
  | false =>
    simp only [intFromBytes, Bool.false_and, Bool.false_eq_true, if_false, inRange]
    refine ⟨by omega, ?_⟩
    rw [Int.emod_eq_of_lt (by omega) (by omega)]
  | true =>
    simp only [intFromBytes, Bool.true_and, inRange, if_true, h, hw, decide_true, decide_eq_true_eq]
    split
    · rename_i hd
      refine ⟨by omega, ?_⟩
      rw [Int.sub_emod_right, Int.emod_eq_of_lt (by omega) (by omega)]
    · rename_i hd
      refine ⟨by omega, ?_⟩
      rw [Int.emod_eq_of_lt (by omega) (by omega)]

theorem kind_bytes_pos (k : IntKind) : 0 < k.bytes := by cases k <;> decide

/-- C129. Every `w` bytes are the encoding of exactly one in-range value: reading returns the value whose two's complement
they are (least significant byte first for '<', the reverse for '>'), and writing that value gives the same bytes back. -/
theorem C129_bytes_decode (k : IntKind) (e : Endian) (bs : Bytes) (h : bs.length = k.bytes) :
    ∃ n : Int, k.min ≤ n ∧ n ≤ k.max ∧
      TwosComplementLE k.bytes n (match e with | .little => bs | .big => bs.reverse) ∧
      Yields (readKind k e) bs n ∧ Appends (writeKind k (.int n) e) k.bytes bs := by
  obtain ⟨c, signed, hc, h8, hw, hr, hrange⟩ := kind_core k
  obtain ⟨hin, hmod⟩ := intFromBytes_range (kind_bytes_pos k) bs e signed h
  have hr' := (hrange _).mp hin
  refine ⟨_, hr'.1, hr'.2, ⟨?_, ?_⟩, ?_, ?_⟩
  · cases e <;> simpa using h
  · rw [ofDigits_eq_leToNat, hmod]; cases e <;> rfl
  · rw [hr]; exact fun pre post => unpackInt_enough hc h8 e pre bs post h
  · rw [hw]
    have := appends_int (v := .int (intFromBytes bs e signed)) hc rfl e hin
    rw [hmod, Int.toNat_natCast] at this
    have hb : natToLE k.bytes (leToNat (e.arrange bs)) = e.arrange bs := by
      conv_lhs => rw [← h, ← Endian.arrange_length e bs]
      exact natToLE_leToNat _
    rwa [hb, Endian.arrange_arrange] at this

example : ([0xff, 0xfe] : Bytes).length = (IntKind.i16).bytes := by decide
example : (readKind .i16 .big ⟨[0xff, 0xfe], 0⟩).1 = .ok (-2) := by decide

/-- C129. With fewer bytes left the call raises `struct.error`; the position is then at the end. -/
theorem C129_truncated (k : IntKind) (e : Endian) (pre rest : Bytes) (h : rest.length < k.bytes) :
    readKind k e ⟨pre ++ rest, pre.length⟩ = (.error .structError, ⟨pre ++ rest, (pre ++ rest).length⟩) := by
  obtain ⟨c, signed, hc, h8, hw, hr, hrange⟩ := kind_core k
  rw [hr]; exact unpackInt_short hc h8 e pre rest h

example : ([1, 2, 3] : Bytes).length < (IntKind.u32).bytes := by decide

/-! ### `ReadVarInt` on every stream -/

theorem readVarInt_cons (max : Int) (pre t : Bytes) (b : UInt8) (h0 : b ≠ 0) :
    readVarInt max ⟨pre ++ b :: t, pre.length⟩ =
      (readVarIntValue b.toNat >>= checkMax max) ⟨pre ++ b :: t, (pre ++ [b]).length⟩ := by
  unfold readVarInt
  have h1 := yields_readByte b pre t
  rw [show pre ++ [b] ++ t = pre ++ b :: t by simp] at h1
  rw [IOM.bind_ok h1, if_neg]
  intro h
  exact h0 (UInt8.toNat_inj.mp (by simpa using h))

/-- C130. On every stream and for every bound `max ≥ 0`, `ReadVarInt(max)` returns the number written at the position (0 at
the end of the stream) and moves past it if it is at most `max`; it raises and stands behind it if it is larger; and if the
data ends inside it, it raises `struct.error` and stands at the end. -/
theorem C130_varint_decodes (max : Int) (hmax : 0 ≤ max) (pre rest : Bytes) :
    readVarInt max ⟨pre ++ rest, pre.length⟩ =
      match varIntAt rest with
      | none => (.error .structError, ⟨pre ++ rest, (pre ++ rest).length⟩)
      | some (n, k) => if (n : Int) ≤ max then (.ok (n : Int), ⟨pre ++ rest, pre.length + k⟩)
                       else (.error .exc, ⟨pre ++ rest, pre.length + k⟩) := by
  cases rest with
  | nil =>
    simp only [varIntAt, List.append_nil]
    rw [C07_readVarInt_eof max _ (le_refl _), if_pos (by omega)]
    simp
  | cons b t =>
    have hwide : ∀ (c : Char) (w : Nat), fmtOfChar c = some (.intFmt false w) → w ≤ 8 → 0 < w → b ≠ 0 →
        readVarIntValue b.toNat = unpackInt c .little w →
        readVarInt max ⟨pre ++ b :: t, pre.length⟩ =
          match (if t.length < w then none else some (leNumber (t.take w), 1 + w)) with
          | none => (.error .structError, ⟨pre ++ b :: t, (pre ++ b :: t).length⟩)
          | some (n, k) => if (n : Int) ≤ max then (.ok (n : Int), ⟨pre ++ b :: t, pre.length + k⟩)
                           else (.error .exc, ⟨pre ++ b :: t, pre.length + k⟩) := by
      intro c w hc h8 hpos h0 hval
      rw [readVarInt_cons max pre t b h0, hval]
      by_cases hs : t.length < w
      · rw [if_pos hs]
        have := unpackInt_short hc h8 .little (pre ++ [b]) t hs
        rw [show pre ++ [b] ++ t = pre ++ b :: t by simp] at this
        exact IOM.bind_err this
      · rw [if_neg hs]
        have hl : (t.take w).length = w := by simp; omega
        have := unpackInt_enough hc h8 .little (pre ++ [b]) (t.take w) (t.drop w) hl
        rw [show pre ++ [b] ++ t.take w ++ t.drop w = pre ++ b :: t by simp] at this
        refine (IOM.bind_ok this).trans ?_
        have hv : intFromBytes (t.take w) .little false = (leNumber (t.take w) : Int) := by
          rw [leNumber_eq]; simp [intFromBytes, Endian.arrange]
        have hp : (pre ++ [b] ++ t.take w).length = pre.length + (1 + w) := by
          simp only [List.length_append, hl, List.length_cons, List.length_nil]; omega
        rw [hv, hp]
        unfold checkMax
        by_cases hm : (leNumber (t.take w) : Int) ≤ max
        · simp only [if_neg (show ¬ (leNumber (t.take w) : Int) > max by omega), if_pos hm, IOM.pure_apply]
        · simp only [if_pos (show (leNumber (t.take w) : Int) > max by omega), if_neg hm, IOM.raise_apply]
    simp only [varIntAt]
    by_cases h1 : b = 0xfd
    · subst h1
      simpa using hwide 'H' 2 rfl (by decide) (by decide) (by decide) rfl
    by_cases h2 : b = 0xfe
    · subst h2
      simpa using hwide 'I' 4 rfl (by decide) (by decide) (by decide) rfl
    by_cases h3 : b = 0xff
    · subst h3
      simpa using hwide 'Q' 8 rfl (by decide) (by decide) (by decide) rfl
    rw [if_neg h1, if_neg h2, if_neg h3, if_pos rfl]
    by_cases h0 : b = 0
    · subst h0
      have := yields_readVarInt_zero max pre t
      rw [show pre ++ [0] ++ t = pre ++ 0 :: t by simp] at this
      rw [this]
      simp [hmax]
    · rw [readVarInt_cons max pre t b h0]
      have hne : ∀ k : UInt8, b ≠ k → (b.toNat : Int) ≠ (k.toNat : Int) := fun k hk h =>
        hk (UInt8.toNat_inj.mp (by omega))
      have e1 : (b.toNat : Int) ≠ 253 := hne 0xfd h1
      have e2 : (b.toNat : Int) ≠ 254 := hne 0xfe h2
      have e3 : (b.toNat : Int) ≠ 255 := hne 0xff h3
      have hv : readVarIntValue b.toNat = pure (b.toNat : Int) := by
        unfold readVarIntValue
        rw [if_neg e1, if_neg e2, if_neg e3]
      rw [hv]
      refine (IOM.bind_ok (IOM.pure_apply _ _)).trans ?_
      unfold checkMax
      by_cases hm : (b.toNat : Int) ≤ max
      · simp only [if_neg (show ¬ (b.toNat : Int) > max by omega), if_pos hm, IOM.pure_apply]; simp
      · simp only [if_pos (show (b.toNat : Int) > max by omega), if_neg hm, IOM.raise_apply]; simp

example : varIntAt [0xfd, 5, 0, 9] = some (5, 3) ∧ varIntAt [0xfe, 1, 2] = none ∧ varIntAt [7] = some (7, 1) := by
  decide

/-! ### `WriteVarInt` of every argument -/

/-- C131. For every argument whatever the outcome is determined: `BigInteger`s and bools below 0xfd append nothing and the call returns;
all other integers from 0 to 2^64-1 append bytes that `ReadVarInt` decodes to that number, and no more; integers from 2^64
on raise and leave one byte 0xff behind; negatives and everything that is no integer raise and leave nothing behind. Earlier
bytes never change. -/
theorem C131_writeVarInt_outcome (v : Val) (e : Endian) (pre : Bytes) :
    (v.index? = none ∧ writeVarInt v e ⟨pre, pre.length⟩ = (.error .typeError, ⟨pre, pre.length⟩)) ∨
    ∃ n : Int, v.index? = some n ∧
      ((n < 0 ∧ writeVarInt v e ⟨pre, pre.length⟩ = (.error .exc, ⟨pre, pre.length⟩)) ∨
       (0 ≤ n ∧ n < 0xfd ∧ (∀ m, v ≠ .int m) ∧ writeVarInt v e ⟨pre, pre.length⟩ = (.ok none, ⟨pre, pre.length⟩)) ∨
       (0 ≤ n ∧ n < 2 ^ 64 ∧ (n < 0xfd → v = .int n) ∧ ∃ r bs,
          writeVarInt v e ⟨pre, pre.length⟩ = (.ok r, ⟨pre ++ bs, (pre ++ bs).length⟩) ∧
          (e = .little → varIntAt bs = some (n.toNat, bs.length))) ∨
       (2 ^ 64 ≤ n ∧ writeVarInt v e ⟨pre, pre.length⟩ = (.error .structError, ⟨pre ++ [0xff], (pre ++ [0xff]).length⟩))) := by
  cases hv : v.index? with
  | none =>
    have := C05_varint_rejects_partial v (by simp [hv]) e ⟨pre, pre.length⟩
    rw [hv] at this
    exact .inl ⟨rfl, this⟩
  | some n =>
    refine .inr ⟨n, rfl, ?_⟩
    by_cases hneg : n < 0
    · have := C05_varint_rejects_partial v (by intro m hm; rw [hv] at hm; cases hm; exact hneg) e ⟨pre, pre.length⟩
      rw [hv] at this
      exact .inl ⟨hneg, this⟩
    right
    by_cases hbig : 2 ^ 64 ≤ n
    · exact .inr (.inr ⟨hbig, C05_varint_too_large_violated v n hv hbig e pre⟩)
    have hplain : (n < 0xfd → v = .int n) → ∃ r bs,
          writeVarInt v e ⟨pre, pre.length⟩ = (.ok r, ⟨pre ++ bs, (pre ++ bs).length⟩) ∧
          (e = .little → varIntAt bs = some (n.toNat, bs.length)) := by
      intro hsmall
      obtain ⟨k, rfl⟩ : ∃ k : Nat, n = k := ⟨n.toNat, by omega⟩
      have hw : writeVarInt v e = writeVarInt (.int k) e := by
        by_cases hlt : (k : Int) < 0xfd
        · rw [hsmall hlt]
        · exact C06_varint_subclass_partial v k hv (by omega) e
      refine ⟨_, _, by rw [hw]; exact appends_writeVarInt e k (by omega) pre, ?_⟩
      rintro rfl
      have hy := yields_readVarInt k (by omega) (2 ^ 64) (by omega) [] []
      have hd := C130_varint_decodes (2 ^ 64) (by decide) [] (varIntBytes .little k)
      simp only [List.nil_append, List.append_nil, List.length_nil] at hy hd
      rw [hy] at hd
      cases hvi : varIntAt (varIntBytes .little k) with
      | none => rw [hvi] at hd; simp at hd
      | some p =>
        obtain ⟨m, j⟩ := p
        rw [hvi] at hd
        simp only at hd
        split at hd
        · simp only [Prod.mk.injEq, Except.ok.injEq, Stream.mk.injEq] at hd
          obtain ⟨h1, _, h2⟩ := hd
          rw [Int.toNat_natCast, show m = k by omega, show j = (varIntBytes .little k).length by omega]
        · simp at hd
    by_cases hs : n < 0xfd
    · by_cases hi : ∃ m, v = .int m
      · obtain ⟨m, rfl⟩ := hi
        have : m = n := by simpa [Val.index?] using hv
        subst this
        exact .inr (.inl ⟨by omega, by omega, fun _ => rfl, hplain fun _ => rfl⟩)
      · have hni : ∀ m, v ≠ .int m := fun m hm => hi ⟨m, hm⟩
        exact .inl ⟨by omega, hs, hni, C06_small_subclass_violated v n hv hni (by omega) hs e _⟩
    · exact .inr (.inl ⟨by omega, by omega, fun h => absurd h hs, hplain fun h => absurd h hs⟩)

example : (Val.bool true).index? = some 1 ∧ (Val.bytes [1]).index? = none ∧ (Val.int (-3)).index? = some (-3) ∧
    (Val.bigInteger 300).index? = some 300 := by decide

/-! ### Truncation -/

theorem raises_trans {x y : Except Err α × Stream} (h : x = y) (hy : ∃ e s', y = (.error e, s')) :
    ∃ e s', x = (.error e, s') := h ▸ hy

theorem returns_trans {x y : Except Err α × Stream} {v : α} (h : x = y) (hy : ∃ s', y = (.ok v, s')) :
    ∃ s', x = (.ok v, s') := h ▸ hy

theorem prefix_length_lt {p bs : Bytes} (hp : p <+: bs) (hne : p ≠ bs) : p.length < bs.length := by
  rcases Nat.lt_or_ge p.length bs.length with h | h
  · exact h
  · exact absurd (hp.eq_of_length (le_antisymm hp.length_le h)) hne

theorem refuses_pair {a : IOM α} {f : α → IOM β} {x : α} {bs1 bs2 : Bytes} (ha : RefusesTruncation a bs1)
    (hy : Yields a bs1 x) (hb : RefusesTruncation (f x) bs2) : RefusesTruncation (a >>= f) (bs1 ++ bs2) := by
  intro pre p hp hne
  by_cases hlen : p.length < bs1.length
  · have hp1 : p <+: bs1 := List.prefix_of_prefix_length_le hp (List.prefix_append _ _) (le_of_lt hlen)
    obtain ⟨e, s', h⟩ := ha pre p hp1 (fun h => by rw [h] at hlen; omega)
    exact ⟨e, s', IOM.bind_err h⟩
  · have hp1 : bs1 <+: p := List.prefix_of_prefix_length_le (List.prefix_append _ _) hp (by omega)
    obtain ⟨q, rfl⟩ := hp1
    have hq : q <+: bs2 := (List.prefix_append_right_inj bs1).mp hp
    have hqne : q ≠ bs2 := fun h => hne (by rw [h])
    obtain ⟨e, s', h⟩ := hb (pre ++ bs1) q hq hqne
    have h1 := hy pre q
    rw [List.append_assoc] at h1
    refine ⟨e, s', (IOM.bind_ok h1).trans ?_⟩
    rw [List.append_assoc] at h
    exact h

/-- A record with fields of fixed width only. -/
def Ty.FixedWidth : Ty → Prop
  | .int _ _ | .bool | .char | .double _ | .uint160 | .uint256 | .fixed8 | .unit => True
  | .pair a b => a.FixedWidth ∧ b.FixedWidth
  | .varInt | .varBytes | .varString | .hashes | .array _ => False

/-- What a writer appended, given that it appended something, is what a round-trip theorem names. -/
theorem refuses_of_short {rd : IOM α} {w : Nat} (h : ∀ pre rest : Bytes, rest.length < w → ∃ e s', rd ⟨pre ++ rest, pre.length⟩ = (.error e, s'))
    {bs : Bytes} (hl : bs.length = w) : RefusesTruncation rd bs :=
  fun pre p hp hne => h pre p (hl ▸ prefix_length_lt hp hne)

theorem short_kind (k : IntKind) (e : Endian) (pre rest : Bytes) (h : rest.length < k.bytes) :
    ∃ er s', readKind k e ⟨pre ++ rest, pre.length⟩ = (.error er, s') := ⟨_, _, C129_truncated k e pre rest h⟩

theorem short_one {rd : IOM α} (f : Bytes → IOM α) (hrd : rd = (Stream.read 1 >>= f)) (hf : f [] = IOM.raise .structError)
    (pre rest : Bytes) (h : rest.length < 1) : ∃ e s', rd ⟨pre ++ rest, pre.length⟩ = (.error e, s') := by
  have h0 : rest = [] := List.length_eq_zero_iff.mp (by omega)
  subst h0
  have hr := read_apply 1 ⟨pre ++ [], pre.length⟩ (by decide)
  simp only [List.append_nil, List.drop_length, List.take_nil] at hr
  rw [if_neg (by decide)] at hr
  rw [hrd, List.append_nil]
  refine raises_trans (IOM.bind_ok hr) ?_
  rw [hf]
  exact ⟨_, _, rfl⟩

theorem short_uint (w : Nat) (hw : (w : Int) ≤ maxsize) (pre rest : Bytes) (h : rest.length < w) :
    ∃ e s', (readBytes w >>= fun bs => IOM.lift (uintOfBytes w bs)) ⟨pre ++ rest, pre.length⟩ = (.error e, s') := by
  refine raises_trans (IOM.bind_ok (read_nat_apply w _ hw)) ?_
  simp only [IOM.lift_apply, List.drop_left]
  rw [List.take_of_length_le (by omega), uintOfBytes, if_pos (by omega)]
  exact ⟨_, _, rfl⟩

/-- C132 holds for fields of fixed width and all records made of them (fixed-width integers, bool, char, double, UInt160,
UInt256, Fixed8, in any combination): if the stream ends anywhere inside the record, reading it raises. -/
theorem C132_fixed_width_partial (t : Ty) (hf : t.FixedWidth) (v : t.Value) (hv : t.Valid v) (bs : Bytes)
    (hw : Appends (t.write v) () bs) : RefusesTruncation t.read bs := by
  have key : ∀ (t : Ty), t.FixedWidth → ∀ (v : t.Value), t.Valid v →
      ∃ bs, Appends (t.write v) () bs ∧ Yields t.read bs (t.same v) ∧ RefusesTruncation t.read bs := by
    intro t
    have hunit : ∀ {α : Type} {m : IOM α} {r : α} {b : Bytes}, Appends m r b →
        Appends (m >>= fun _ => (pure () : IOM Unit)) () b := by
      intro α m r b h
      have := appends_bind (f := fun _ => (pure () : IOM Unit)) h (appends_pure ())
      simpa using this
    induction t with
    | int k e =>
      intro _ v hv
      obtain ⟨bs, hl, h1, h2⟩ := C01_int_roundtrip k e (.int v) v rfl hv.1 hv.2
      exact ⟨bs, hunit h1, h2, refuses_of_short (short_kind k e) hl⟩
    | fixed8 =>
      intro _ v hv
      obtain ⟨bs, hl, h1, h2⟩ := C19_fixed8_roundtrip v hv.1 hv.2
      exact ⟨bs, hunit h1, h2, refuses_of_short (short_kind .i64 .little) hl⟩
    | bool =>
      intro _ v _
      obtain ⟨bs, hl, h1, h2⟩ := C21_bool_roundtrip (.bool v)
      exact ⟨bs, hunit h1, h2, refuses_of_short (short_one _ rfl rfl) hl⟩
    | char =>
      intro _ v _
      exact ⟨[v], hunit (C21_char_roundtrip v).1, (C21_char_roundtrip v).2, refuses_of_short (short_one _ rfl rfl) rfl⟩
    | double e =>
      intro _ v _
      obtain ⟨bs, hl, h1, h2⟩ := C21_double_roundtrip v e
      refine ⟨bs, hunit h1, h2, refuses_of_short ?_ hl⟩
      intro pre rest h
      refine raises_trans (IOM.bind_ok (read_nat_apply 8 _ (by decide))) ?_
      simp only [List.drop_left]
      rw [List.take_of_length_le (by omega), if_neg (by omega)]
      exact ⟨_, _, rfl⟩
    | uint160 =>
      intro _ v hv
      obtain ⟨h1, h2⟩ := (C12_uint_roundtrip_partial v hv.2).1 hv.1
      exact ⟨v, h1, h2, refuses_of_short (short_uint 20 (by decide)) hv.1⟩
    | uint256 =>
      intro _ v hv
      obtain ⟨h1, h2⟩ := (C12_uint_roundtrip_partial v hv.2).2 hv.1
      exact ⟨v, h1, h2, refuses_of_short (short_uint 32 (by decide)) hv.1⟩
    | unit =>
      intro _ v _
      refine ⟨[], appends_pure (), yields_pure (), ?_⟩
      intro pre p hp hne
      exact absurd (List.prefix_nil.mp hp) hne
    | pair a b iha ihb =>
      rintro ⟨hfa, hfb⟩ ⟨x, y⟩ hv
      obtain ⟨bs1, h1, h2, h3⟩ := iha hfa x hv.1
      obtain ⟨bs2, g1, g2, g3⟩ := ihb hfb y hv.2
      refine ⟨bs1 ++ bs2, appends_bind h1 g1, ?_, ?_⟩
      · have h5 := yields_bind (f := fun y' => (pure (a.same x, y') : IOM (a.Result × b.Result))) g2 (yields_pure _)
        rw [List.append_nil] at h5
        exact yields_bind h2 h5
      · refine refuses_pair h3 h2 ?_
        intro pre p hp hne
        obtain ⟨e, s', h⟩ := g3 pre p hp hne
        exact ⟨e, s', IOM.bind_err h⟩
    | varInt => exact fun h => h.elim
    | varBytes => exact fun h => h.elim
    | varString => exact fun h => h.elim
    | hashes => exact fun h => h.elim
    | array a _ => exact fun h => h.elim
  obtain ⟨bs', h1, _, h3⟩ := key t hf v hv
  rw [(hw.unique h1).2]
  exact h3

example : (Ty.pair (.int .u32 .little) (.pair .bool .fixed8)).FixedWidth ∧
    (Ty.pair (.int .u32 .little) (.pair .bool .fixed8)).Valid ((7 : Int), (true, (-5 : Int))) :=
  ⟨⟨trivial, trivial, trivial⟩, by
    refine ⟨?_, trivial, ?_⟩
    · show (0 : Int) ≤ 7 ∧ (7 : Int) ≤ 4294967295; decide
    · show (-9223372036854775808 : Int) ≤ -5 ∧ (-5 : Int) ≤ 9223372036854775807; decide⟩

/-- C132 fails for byte strings: whenever the stream ends inside the contents (not inside the length), `ReadVarBytes`
returns the shorter byte string without complaint. -/
theorem C132_varBytes_violated (b pre : Bytes) (hmem : (b.length : Int) ≤ maxsize) (r : Nat) (bs : Bytes)
    (hw : Appends (writeVarBytes b) r bs) (k : Nat) (hk : k < b.length) :
    ∃ head, bs = head ++ b ∧ b.take k ≠ b ∧ ∃ s', readVarBytes maxsize ⟨pre ++ (head ++ b.take k), pre.length⟩ = (.ok (b.take k), s') := by
  have hl : b.length < 2 ^ 64 := by simp only [maxsize] at hmem; omega
  refine ⟨varIntBytes .little b.length, (hw.unique (appends_writeVarBytes b hl)).2, ?_, ?_⟩
  · intro h
    have := congrArg List.length h
    simp only [List.length_take] at this
    omega
  have h1 := yields_readVarInt b.length hl maxsize hmem pre (b.take k)
  rw [List.append_assoc] at h1
  refine returns_trans ((IOM.bind_ok h1).trans (read_nat_apply b.length _ hmem)) ?_
  simp only [← List.append_assoc, List.drop_left]
  rw [List.take_of_length_le (by simp)]
  exact ⟨_, rfl⟩

example : (([1, 2, 3] : Bytes).length : Int) ≤ maxsize ∧ 1 < ([1, 2, 3] : Bytes).length := by decide

/-- C132 fails at the end of the stream: a variable-length integer, byte string, string or hash list that is missing
altogether reads as 0, empty, empty, none; a fixed string of any length reads as empty. -/
theorem C132_empty_violated (pre : Bytes) (n : Nat) (hn : (n : Int) ≤ maxsize) :
    readVarInt maxsize ⟨pre, pre.length⟩ = (.ok 0, ⟨pre, pre.length⟩) ∧
    readVarBytes maxsize ⟨pre, pre.length⟩ = (.ok [], ⟨pre, pre.length⟩) ∧
    readVarString maxsize ⟨pre, pre.length⟩ = (.ok [], ⟨pre, pre.length⟩) ∧
    readHashes ⟨pre, pre.length⟩ = (.ok [], ⟨pre, pre.length⟩) ∧
    readFixedString n ⟨pre, pre.length⟩ = (.ok [], ⟨pre, pre.length⟩) := by
  have h0 := C07_readVarInt_eof maxsize ⟨pre, pre.length⟩ (le_refl _)
  have hr : ∀ m : Nat, (m : Int) ≤ maxsize → Stream.read m ⟨pre, pre.length⟩ = (.ok [], ⟨pre, pre.length⟩) := by
    intro m hm
    rw [read_nat_apply m _ hm]
    simp
  refine ⟨h0, (IOM.bind_ok h0).trans (hr 0 (by decide)), (IOM.bind_ok h0).trans ?_, (IOM.bind_ok h0).trans rfl, ?_⟩
  · exact (IOM.bind_ok (hr 0 (by decide))).trans rfl
  · exact (IOM.bind_ok (hr n hn)).trans rfl

theorem varIntAt_truncated (n : Nat) (p : Bytes) (hp1 : p <+: varIntBytes .little n)
    (hlen : p.length < (varIntBytes .little n).length) (h0 : p ≠ []) : varIntAt p = none := by
  obtain ⟨t, ht⟩ := hp1
  cases p with
  | nil => exact absurd rfl h0
  | cons c q =>
    have hq : q.length + 1 < (varIntBytes .little n).length := by simpa using hlen
    rw [varIntBytes_length] at hq
    unfold varIntBytes at ht
    unfold varIntAt
    split at ht
    · rename_i h1; rw [if_pos h1] at hq; omega
    · rename_i h1
      rw [if_neg h1] at hq
      split at ht
      · rename_i h2
        rw [if_pos h2] at hq
        simp only [List.cons_append, List.cons.injEq] at ht
        obtain ⟨rfl, _⟩ := ht
        exact if_pos (show q.length < 2 by omega)
      · rename_i h2
        rw [if_neg h2] at hq
        split at ht
        · rename_i h3
          rw [if_pos h3] at hq
          simp only [List.cons_append, List.cons.injEq] at ht
          obtain ⟨rfl, _⟩ := ht
          exact if_pos (show q.length < 4 by omega)
        · rename_i h3
          rw [if_neg h3] at hq
          simp only [List.cons_append, List.cons.injEq] at ht
          obtain ⟨rfl, _⟩ := ht
          exact if_pos (show q.length < 8 by omega)

theorem readVarInt_truncated (n : Nat) (_hn : n < 2 ^ 64) (max : Int) (hmax : 0 ≤ max) (pre p : Bytes)
    (hp : p <+: varIntBytes .little n) (hne : p ≠ varIntBytes .little n) (h0 : p ≠ []) :
    ∃ e s', readVarInt max ⟨pre ++ p, pre.length⟩ = (.error e, s') := by
  rw [C130_varint_decodes max hmax pre p, varIntAt_truncated n p hp (prefix_length_lt hp hne) h0]
  exact ⟨_, _, rfl⟩

/-- C133. A variable-length integer cut short after its first byte is refused. -/
theorem C133_varInt (n : Nat) (hn : n < 2 ^ 64) (max : Int) (hmax : 0 ≤ max) (pre p : Bytes) (r : Option Nat) (bs : Bytes)
    (hw : Appends (writeVarInt (.int n)) r bs) (hp : p <+: bs) (hne : p ≠ bs) (h0 : p ≠ []) :
    ∃ e s', readVarInt max ⟨pre ++ p, pre.length⟩ = (.error e, s') := by
  rw [(hw.unique (appends_writeVarInt .little n hn)).2] at hp hne
  exact readVarInt_truncated n hn max hmax pre p hp hne h0

example : (70000 : Nat) < 2 ^ 64 ∧ ([0xfe, 0x70] : Bytes) <+: varIntBytes .little 70000 := by decide

/-- C133. A string whose contents are cut short is refused: whenever at least the first byte is there, `ReadVarString`
raises on every strict prefix of what `WriteVarString` wrote. -/
theorem C133_varString (b pre p : Bytes) (hmem : (b.length : Int) ≤ maxsize) (bs : Bytes)
    (hw : Appends (writeVarString (.bytes b)) () bs) (hp : p <+: bs) (hne : p ≠ bs) (h0 : p ≠ []) :
    ∃ e s', readVarString maxsize ⟨pre ++ p, pre.length⟩ = (.error e, s') := by
  have hl : b.length < 2 ^ 64 := by simp only [maxsize] at hmem; omega
  rw [(hw.unique (appends_writeVarStringBytes b hl)).2] at hp hne
  by_cases hlen : p.length < (varIntBytes .little b.length).length
  · have hp1 : p <+: varIntBytes .little b.length :=
      List.prefix_of_prefix_length_le hp (List.prefix_append _ _) (le_of_lt hlen)
    obtain ⟨e, s', h⟩ := readVarInt_truncated b.length hl maxsize (by decide) pre p hp1 (fun h => by rw [h] at hlen; omega) h0
    exact ⟨e, s', IOM.bind_err h⟩
  · have hp1 : varIntBytes .little b.length <+: p :=
      List.prefix_of_prefix_length_le (List.prefix_append _ _) hp (by omega)
    obtain ⟨q, rfl⟩ := hp1
    have hq : q <+: b := (List.prefix_append_right_inj _).mp hp
    have hqne : q ≠ b := fun h => hne (by rw [h])
    have hlt := prefix_length_lt hq hqne
    have h1 := yields_readVarInt b.length hl maxsize hmem pre q
    rw [List.append_assoc] at h1
    refine raises_trans ((IOM.bind_ok h1).trans (IOM.bind_ok (read_nat_apply b.length _ hmem))) ?_
    simp only [← List.append_assoc, List.drop_left, Int.toNat_natCast]
    rw [List.take_of_length_le (by omega), if_neg (by omega)]
    exact ⟨_, _, rfl⟩

example : ([2, 65] : Bytes) <+: varIntBytes .little 2 ++ [65, 66] ∧ ([2, 65] : Bytes) ≠ [] := by decide

/-! ### Canonical forms -/

/-- C134, exactly when it holds for variable-length integers: the bytes read are those `WriteVarInt` writes for the number
read exactly if they are the shortest form. -/
theorem C134_varint_iff_partial (max : Int) (bs : Bytes) (n : Nat) (hn : n < 2 ^ 64)
    (hmax : 0 ≤ max) (h : Yields (readVarInt max) bs (n : Int)) :
    (∃ r, Appends (writeVarInt (.int n)) r bs) ↔ bs.length = shortest n := by
  constructor
  · rintro ⟨r, hr⟩
    exact C04_varint_length n hn r bs hr
  · intro hl
    refine ⟨varIntRet n, ?_⟩
    have hy := h [] []
    have hd := C130_varint_decodes max hmax [] bs
    simp only [List.nil_append, List.append_nil, List.length_nil] at hy hd
    rw [hy] at hd
    have hbs : bs = varIntBytes .little n := by
      cases hv : varIntAt bs with
      | none => rw [hv] at hd; simp at hd
      | some q =>
        obtain ⟨m, k⟩ := q
        rw [hv] at hd
        simp only at hd
        split at hd
        · simp only [Prod.mk.injEq, Except.ok.injEq, Stream.mk.injEq] at hd
          obtain ⟨h1, _, h2⟩ := hd
          have hmn : m = n := by omega
          subst hmn
          cases bs with
          | nil =>
            exfalso
            revert hl
            unfold shortest
            simp only [List.length_nil]
            split
            · omega
            · split
              · omega
              · split <;> omega
          | cons b t =>
            have hb := b.toNat_lt
            simp only [varIntAt] at hv
            simp only [List.length_cons] at hl
            have hwide : ∀ w, t.length = w → m = leNumber (t.take w) → natToLE w m = t := by
              intro w hw hm
              rw [hm, leNumber_eq, List.take_of_length_le (by omega), ← hw, natToLE_leToNat]
            unfold varIntBytes
            unfold shortest at hl
            by_cases c1 : b = 0xfd
            · rw [if_pos c1, if_neg (by decide)] at hv
              split at hv
              · simp at hv
              · simp only [Option.some.injEq, Prod.mk.injEq] at hv
                have ht : t.length = 2 := by
                  simp only [List.length_cons] at h2; omega
                rw [ht] at hl
                split at hl
                · omega
                · rename_i g1
                  split at hl
                  · rename_i g2
                    rw [if_neg g1, if_pos g2, c1]
                    simp only [Endian.arrange]
                    rw [hwide 2 ht hv.1.symm]
                  · split at hl <;> omega
            by_cases c2 : b = 0xfe
            · rw [if_neg c1, if_pos c2, if_neg (by decide)] at hv
              split at hv
              · simp at hv
              · simp only [Option.some.injEq, Prod.mk.injEq] at hv
                have ht : t.length = 4 := by
                  simp only [List.length_cons] at h2; omega
                rw [ht] at hl
                split at hl
                · omega
                · rename_i g1
                  split at hl
                  · omega
                  · rename_i g2
                    split at hl
                    · rename_i g3
                      rw [if_neg g1, if_neg g2, if_pos g3, c2]
                      simp only [Endian.arrange]
                      rw [hwide 4 ht hv.1.symm]
                    · omega
            by_cases c3 : b = 0xff
            · rw [if_neg c1, if_neg c2, if_pos c3, if_neg (by decide)] at hv
              split at hv
              · simp at hv
              · simp only [Option.some.injEq, Prod.mk.injEq] at hv
                have ht : t.length = 8 := by
                  simp only [List.length_cons] at h2; omega
                rw [ht] at hl
                split at hl
                · omega
                · rename_i g1
                  split at hl
                  · omega
                  · rename_i g2
                    split at hl
                    · omega
                    · rename_i g3
                      rw [if_neg g1, if_neg g2, if_neg g3, c3]
                      simp only [Endian.arrange]
                      rw [hwide 8 ht hv.1.symm]
            · rw [if_neg c1, if_neg c2, if_neg c3, if_pos rfl] at hv
              simp only [Option.some.injEq, Prod.mk.injEq] at hv
              have ht : t = [] := List.length_eq_zero_iff.mp (by simp only [List.length_cons] at h2; omega)
              have hne : ∀ k : UInt8, b ≠ k → b.toNat ≠ k.toNat := fun k hk h => hk (UInt8.toNat_inj.mp h)
              have e1 : b.toNat ≠ 253 := hne 0xfd c1
              have e2 : b.toNat ≠ 254 := hne 0xfe c2
              have e3 : b.toNat ≠ 255 := hne 0xff c3
              rw [if_pos (by omega), ht, ← hv.1]
              simp
        · simp at hd
    rw [hbs]
    exact appends_writeVarInt .little n hn

example : Yields (readVarInt 100) [5] ((5 : Nat) : Int) ∧ shortest 5 = 1 :=
  ⟨yields_readVarInt 5 (by decide) 100 (by decide), by decide⟩

/-- C134 fails: 5 is read from the three bytes fd 05 00 as well, but written as the one byte 05. -/
theorem C134_varint_violated :
    Yields (readVarInt 100) [0xfd, 5, 0] 5 ∧ Appends (writeVarInt (.int 5)) none [5] := by
  refine ⟨fun pre post => ?_, appends_writeVarInt .little 5 (by decide)⟩
  have := C130_varint_decodes 100 (by decide) pre ([0xfd, 5, 0] ++ post)
  have hv : varIntAt ([0xfd, 5, 0] ++ post) = some (5, 3) := by
    simp [varIntAt, leNumber, Nat.ofDigits_cons]
  rw [hv] at this
  rw [List.append_assoc, this]
  simp

/-- C134 fails for booleans: every non-zero byte reads as True, and True is written as the byte 1. -/
theorem C134_bool_violated (b : UInt8) (h0 : b ≠ 0) (h1 : b ≠ 1) :
    Yields readBool [b] true ∧ Appends (writeBool (.bool true)) 1 [1] ∧ ([b] : Bytes) ≠ [1] := by
  refine ⟨?_, ?_, by simpa using h1⟩
  · intro pre post
    unfold readBool
    rw [IOM.bind_ok (read_apply 1 _ (by decide))]
    simp [IOM.pure_apply, h0]
  · obtain ⟨bs, _, h, _⟩ := C21_bool_roundtrip (.bool true)
    exact appends_writeBytes_raw _

example : (2 : UInt8) ≠ 0 ∧ (2 : UInt8) ≠ 1 := by decide

/-! ### Unique decoding -/

/-- C135. Of two different records of one type neither's encoding is a prefix of the other's. -/
theorem C135_prefix_free (t : Ty) (v w : t.Value) (hv : t.Valid v) (hw : t.Valid w) (a b : Bytes)
    (ha : Appends (t.write v) () a) (hb : Appends (t.write w) () b) (hp : a <+: b) : t.same v = t.same w ∧ a = b := by
  obtain ⟨a', h1, h2⟩ := C15_records_partial t v hv
  obtain ⟨b', g1, g2⟩ := C15_records_partial t w hw
  rw [(ha.unique h1).2, (hb.unique g1).2] at hp ⊢
  have := yields_prefix h2 g2 hp
  exact ⟨this.1, hp.eq_of_length this.2⟩

/-- The value read back determines the value written. -/
theorem C135_same_inj (t : Ty) (v w : t.Value) (h : t.same v = t.same w) : v = w := by
  induction t with
  | int k e => exact h
  | varInt => exact h
  | varBytes => exact h
  | varString => exact h
  | bool => exact h
  | char =>
    have : ([v] : Bytes) = [w] := h
    exact (List.cons.inj this).1
  | double e => exact h
  | uint160 => exact h
  | uint256 => exact h
  | fixed8 => exact h
  | hashes =>
    have h' : List.map hexStr v = List.map hexStr w := h
    refine List.map_injective_iff.mpr ?_ h'
    intro x y hxy
    exact hexlify_inj (asciiStr_inj (hexlify_ascii x) (hexlify_ascii y) hxy)
  | unit => rfl
  | pair a b iha ihb =>
    obtain ⟨x, y⟩ := v
    obtain ⟨x', y'⟩ := w
    have h' : (a.same x, b.same y) = (a.same x', b.same y') := h
    simp only [Prod.mk.injEq] at h'
    rw [iha _ _ h'.1, ihb _ _ h'.2]
  | array a ih =>
    have h' : List.map a.same v = List.map a.same w := h
    exact List.map_injective_iff.mpr (fun x y hxy => ih x y hxy) h'

/-- A record without raw hash fields. -/
def Ty.NoHashes : Ty → Prop
  | .uint160 | .uint256 | .hashes => False
  | .pair a b => a.NoHashes ∧ b.NoHashes
  | .array a => a.NoHashes
  | _ => True

/-- Values in the documented domain of each method. -/
def Ty.InDomain : (t : Ty) → t.Value → Prop
  | .int k _, (n : Int) => k.min ≤ n ∧ n ≤ k.max
  | .varInt, (n : Int) => 0 ≤ n ∧ n ≤ maxsize
  | .varBytes, (b : Bytes) => (b.length : Int) ≤ maxsize
  | .varString, (b : Bytes) => (b.length : Int) ≤ maxsize
  | .fixed8, (n : Int) => -9223372036854775808 ≤ n ∧ n ≤ 9223372036854775807
  | .pair a b, (x, y) => a.InDomain x ∧ b.InDomain y
  | .array a, xs => (List.length (α := a.Value) xs : Int) ≤ maxsize ∧ ∀ x, List.Mem (α := a.Value) x xs → a.InDomain x
  | .bool, _ => True
  | .char, _ => True
  | .double _, _ => True
  | .uint160, _ => True
  | .uint256, _ => True
  | .hashes, _ => True
  | .unit, _ => True

/-- C136. Every record made of integers, variable-length integers up to `sys.maxsize`, byte strings, strings, bools, chars, doubles,
amounts and arrays of such records, nested in any way, is read back exactly, and no other record of that type has an
encoding that begins with or is the beginning of its encoding. -/
theorem C136_records (t : Ty) (hn : t.NoHashes) (v : t.Value) (hv : t.InDomain v) :
    ∃ bs, Appends (t.write v) () bs ∧ Yields t.read bs (t.same v) ∧
      ∀ (w : t.Value) (b : Bytes), t.InDomain w → Appends (t.write w) () b → (bs <+: b ∨ b <+: bs) → w = v := by
  have key : ∀ (t : Ty), t.NoHashes → ∀ v : t.Value, t.InDomain v → t.Valid v := by
    intro t
    induction t with
    | int k e => exact fun _ v h => h
    | varInt => exact fun _ v h => h
    | varBytes => exact fun _ v h => h
    | varString => exact fun _ v h => h
    | bool => exact fun _ v h => trivial
    | char => exact fun _ v h => trivial
    | double e => exact fun _ v h => trivial
    | uint160 => exact fun h => h.elim
    | uint256 => exact fun h => h.elim
    | fixed8 => exact fun _ v h => h
    | hashes => exact fun h => h.elim
    | unit => exact fun _ v h => trivial
    | pair a b iha ihb => exact fun hn v h => ⟨iha hn.1 v.1 h.1, ihb hn.2 v.2 h.2⟩
    | array a ih => exact fun hn v h => ⟨h.1, fun x hx => ih hn x (h.2 x hx)⟩
  obtain ⟨bs, h1, h2⟩ := C15_records_partial t v (key t hn v hv)
  refine ⟨bs, h1, h2, ?_⟩
  rintro w b hw hb (hp | hp)
  · exact (C135_same_inj t v w (C135_prefix_free t v w (key t hn v hv) (key t hn w hw) bs b h1 hb hp).1).symm
  · exact C135_same_inj t w v (C135_prefix_free t w v (key t hn w hw) (key t hn v hv) b bs hb h1 hp).1

example : (Ty.array (.pair .varString .varInt)).NoHashes ∧
    (Ty.array (.pair .varString .varInt)).InDomain [(([65, 66] : Bytes), (1000 : Int))] := by
  refine ⟨⟨trivial, trivial⟩, by decide, ?_⟩
  intro x hx
  rcases List.mem_cons.mp hx with rfl | hx
  · exact ⟨by show (([65, 66] : Bytes).length : Int) ≤ maxsize; decide,
      by show (0 : Int) ≤ 1000 ∧ (1000 : Int) ≤ maxsize; decide⟩
  · cases hx

end Neo.Props
