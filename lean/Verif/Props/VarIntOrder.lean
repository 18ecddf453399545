import Verif.Props.VarInt

/-!
# C191: lengths written in the other byte order

`WriteVarInt` and `WriteVarBytes` take a byte order; `ReadVarInt` and `ReadVarBytes` do not.
-/

namespace Neo.Props
open Py Spec Writer Reader

/-- The number `m` has the base-256 digits of `n`, `w` of them, in reverse order. -/
def DigitsReversed (w n m : Nat) : Prop :=
  ∃ bs, TwosComplementLE w (n : Int) bs ∧ TwosComplementLE w (m : Int) bs.reverse

theorem leToNat_ofDigits (bs : Bytes) : Nat.ofDigits 256 (bs.map UInt8.toNat) = leToNat bs := by
  induction bs with
  | nil => rfl
  | cons b bs ih => simp [Nat.ofDigits_cons, leToNat, ih]

theorem twosComplement_nat {w n : Nat} (h : n < 256 ^ w) (bs : Bytes) :
    TwosComplementLE w (n : Int) bs ↔ bs = natToLE w n := by
  have hc := cast_pow256 w
  unfold TwosComplementLE
  rw [leToNat_ofDigits, Int.emod_eq_of_lt (by omega) (by omega)]
  constructor
  · rintro ⟨hl, hv⟩
    apply leToNat_inj (by rw [hl, natToLE_length])
    rw [leToNat_natToLE_of_lt h]; omega
  · rintro rfl
    exact ⟨natToLE_length _ _, by rw [leToNat_natToLE_of_lt h]⟩

theorem digitsReversed_iff {w n m : Nat} (hn : n < 256 ^ w) (hm : m < 256 ^ w) :
    DigitsReversed w n m ↔ m = leToNat (natToLE w n).reverse := by
  unfold DigitsReversed
  constructor
  · rintro ⟨bs, h1, h2⟩
    rw [twosComplement_nat hn] at h1
    rw [twosComplement_nat hm, h1] at h2
    rw [h2, leToNat_natToLE_of_lt hm]
  · rintro rfl
    refine ⟨_, (twosComplement_nat hn _).mpr rfl, (twosComplement_nat hm _).mpr ?_⟩
    have := natToLE_leToNat (natToLE w n).reverse
    rw [List.length_reverse, natToLE_length] at this
    exact this.symm

/-- The long forms of `WriteVarInt(n, '>')`: a marker, then the digits with the most significant first, which the reader takes for those of another number. -/
theorem big_form (n : Nat) (h0 : 0xfd ≤ n) (hn : n < 2 ^ 64) : ∃ (hdr : UInt8) (w : Nat),
    varIntBytes .big n = hdr :: (natToLE w n).reverse ∧ (hdr.toNat : Int) ≠ 0 ∧ n < 256 ^ w ∧ w = shortest n - 1 ∧ w ≤ 8 ∧
      ∀ m, m < 256 ^ w → Yields (readVarIntValue hdr.toNat) (natToLE w m) m := by
  unfold varIntBytes shortest
  have h1 : ¬ n < 0xfd := by omega
  by_cases h2 : n ≤ 0xffff
  · simp only [if_neg h1, if_pos h2]
    exact ⟨0xfd, 2, rfl, by decide, by omega, rfl, by omega, fun m hm => yields_u 'H' 2 rfl (by omega) m .little hm⟩
  · by_cases h3 : n ≤ 0xffffffff
    · simp only [if_neg h1, if_neg h2, if_pos h3]
      exact ⟨0xfe, 4, rfl, by decide, by omega, rfl, by omega, fun m hm => yields_u 'I' 4 rfl (by omega) m .little hm⟩
    · simp only [if_neg h1, if_neg h2, if_neg h3]
      exact ⟨0xff, 8, rfl, by decide, by omega, rfl, by omega, fun m hm => yields_u 'Q' 8 rfl (by omega) m .little hm⟩

theorem yields_unique {rd : IOM α} {a : Bytes} {v w : α} (ha : Yields rd a v) (hb : Yields rd a w) : v = w :=
  (yields_prefix ha hb (List.prefix_refl a)).1

/-- C191 fails: from 0xfd on, what `WriteVarInt(n, '>')` writes is read as the number with the digits reversed. -/
theorem C191_reads_reversed_violated (n : Nat) (h0 : 0xfd ≤ n) (hn : n < 2 ^ 64) :
    ∃ m, DigitsReversed (shortest n - 1) n m ∧
      ∀ max : Int, (m : Int) ≤ max → RoundTrip (writeVarInt (.int n) .big) (readVarInt max) (m : Int) := by
  obtain ⟨hdr, w, hb, hh, hlt, hw, _, hy⟩ := big_form n h0 hn
  have hm : leToNat (natToLE w n).reverse < 256 ^ w := by
    have := leToNat_lt (natToLE w n).reverse
    rwa [List.length_reverse, natToLE_length] at this
  refine ⟨leToNat (natToLE w n).reverse, hw ▸ (digitsReversed_iff hlt hm).mpr rfl, fun max hmax => ⟨_, _, appends_writeVarInt .big n hn, ?_⟩⟩
  rw [hb]
  refine yields_readVarInt_cons _ _ _ _ hmax hh ?_
  have hv := hy _ hm
  have hr := natToLE_leToNat (natToLE w n).reverse
  rw [List.length_reverse, natToLE_length] at hr
  rwa [hr] at hv

/-- What is written for 256 in the other byte order is read as 1. -/
example : (writeVarInt (.int 256) .big ⟨[], 0⟩).2.buf = [0xfd, 1, 0] ∧ (readVarInt 1000 ⟨[0xfd, 1, 0], 0⟩).1 = .ok 1 := by decide

/-- C191. Numbers are read back exactly in the reader's own byte order, in one byte, or if the digits read the same backwards. -/
theorem C191_varint_iff_partial (n : Nat) (hn : n < 2 ^ 64) (e : Endian) (max : Int) (hmax : (n : Int) ≤ max) :
    RoundTrip (writeVarInt (.int n) e) (readVarInt max) (n : Int) ↔
      e = .little ∨ n < 0xfd ∨ DigitsReversed (shortest n - 1) n n := by
  cases e with
  | little => exact iff_of_true (C03_varint_roundtrip n hn max hmax) (.inl rfl)
  | big =>
    by_cases h0 : n < 0xfd
    · refine iff_of_true ⟨_, _, appends_writeVarInt .big n hn, ?_⟩ (.inr (.inl h0))
      have := yields_readVarInt n hn max hmax
      unfold varIntBytes at this ⊢
      rwa [if_pos h0] at this ⊢
    · obtain ⟨hdr, w, hb, hh, hlt, hw, _, hy⟩ := big_form n (by omega) hn
      have hm : leToNat (natToLE w n).reverse < 256 ^ w := by
        have := leToNat_lt (natToLE w n).reverse
        rwa [List.length_reverse, natToLE_length] at this
      have hr := natToLE_leToNat (natToLE w n).reverse
      rw [List.length_reverse, natToLE_length] at hr
      have hv := hy _ hm
      rw [hr] at hv
      rw [← hw, digitsReversed_iff hlt hlt]
      constructor
      · rintro ⟨r, bs, ha, hyl⟩
        refine .inr (.inr ?_)
        rw [(ha.unique (appends_writeVarInt .big n hn)).2, hb] at hyl
        by_cases hle : ((leToNat (natToLE w n).reverse : Nat) : Int) ≤ max
        · have := yields_unique hyl (yields_readVarInt_cons _ _ _ _ hle hh hv)
          omega
        · obtain ⟨fb, s1, hfb, hc⟩ := readVarInt_ok (hyl [] [])
          have hb1 := yields_readByte hdr [] ((natToLE w n).reverse)
          simp only [List.nil_append, List.append_nil, List.singleton_append, List.length_nil] at hfb hb1
          rw [hb1] at hfb
          simp only [Prod.mk.injEq, Except.ok.injEq] at hfb
          obtain ⟨rfl, rfl⟩ := hfb
          rcases hc with ⟨hz, _⟩ | ⟨_, hval, hmx⟩
          · exact absurd hz hh
          · have h1 := hv [hdr] []
            simp only [List.append_nil, List.singleton_append, List.length_cons, List.length_nil, List.nil_append] at h1 hval
            rw [h1] at hval
            simp only [Prod.mk.injEq, Except.ok.injEq] at hval
            omega
      · rintro (h | h | h)
        · exact absurd h (by decide)
        · exact absurd h h0
        · refine ⟨_, _, appends_writeVarInt .big n hn, ?_⟩
          rw [hb]
          refine yields_readVarInt_cons _ _ _ _ hmax hh ?_
          rwa [← h] at hv

/-- 0x1212 reads the same backwards, 0x1213 does not. -/
example : DigitsReversed (shortest 0x1212 - 1) 0x1212 0x1212 ∧ ¬ DigitsReversed (shortest 0x1213 - 1) 0x1213 0x1213 := by
  rw [digitsReversed_iff (by decide) (by decide), digitsReversed_iff (by decide) (by decide)]
  decide

/-- C191. The same for byte strings, whose length is written in the byte order asked for. -/
theorem C191_varbytes_iff_partial (b : Bytes) (e : Endian) (max : Int) (hmax : (b.length : Int) ≤ max)
    (hmem : (b.length : Int) ≤ maxsize) :
    RoundTrip (writeVarBytes b e) (readVarBytes max) b ↔
      e = .little ∨ b.length < 0xfd ∨ DigitsReversed (shortest b.length - 1) b.length b.length := by
  have hlen : b.length < 2 ^ 64 := by simp only [maxsize] at hmem; omega
  have happ : Appends (writeVarBytes b e) b.length (varIntBytes e b.length ++ b) :=
    appends_bind (appends_writeVarInt e _ hlen) (appends_writeBytes_raw b)
  rw [← C191_varint_iff_partial b.length hlen e max hmax]
  constructor
  · rintro ⟨r, bs, ha, hy⟩
    rw [(ha.unique happ).2] at hy
    refine ⟨_, _, appends_writeVarInt e _ hlen, ?_⟩
    cases e with
    | little => exact yields_readVarInt _ hlen _ hmax
    | big =>
      by_cases h0 : b.length < 0xfd
      · have := yields_readVarInt _ hlen max hmax
        unfold varIntBytes at this ⊢
        rwa [if_pos h0] at this ⊢
      · obtain ⟨hdr, w, hb, hh, hlt, hw, _, hyv⟩ := big_form b.length (by omega) hlen
        have hm : leToNat (natToLE w b.length).reverse < 256 ^ w := by
          have := leToNat_lt (natToLE w b.length).reverse
          rwa [List.length_reverse, natToLE_length] at this
        have hr := natToLE_leToNat (natToLE w b.length).reverse
        rw [List.length_reverse, natToLE_length] at hr
        have hv := hyv _ hm
        rw [hr] at hv
        rw [hb] at hy ⊢
        refine yields_readVarInt_cons _ _ _ _ hmax hh ?_
        generalize hmdef : leToNat (natToLE w b.length).reverse = m at hv
        have hrun := hy [] (List.replicate m 0)
        unfold readVarBytes at hrun
        cases hvi : readVarInt max ⟨[] ++ (hdr :: (natToLE w b.length).reverse ++ b) ++ List.replicate m 0, ([] : Bytes).length⟩ with
        | mk res s1 =>
          cases res with
          | error err => rw [IOM.bind_err hvi] at hrun; simp at hrun
          | ok v =>
            rw [IOM.bind_ok hvi] at hrun
            obtain ⟨fb, s2, hfb, hc⟩ := readVarInt_ok hvi
            have hb1 := yields_readByte hdr [] ((natToLE w b.length).reverse ++ b ++ List.replicate m 0)
            simp only [List.nil_append, List.cons_append, List.append_assoc, List.length_nil] at hfb hb1
            rw [hb1] at hfb
            simp only [Prod.mk.injEq, Except.ok.injEq] at hfb
            obtain ⟨rfl, rfl⟩ := hfb
            rcases hc with ⟨hz, _⟩ | ⟨_, hval, hmx⟩
            · exact absurd hz hh
            · have h1 := hv [hdr] (b ++ List.replicate m 0)
              simp only [List.cons_append, List.nil_append, List.length_cons, List.length_nil] at h1 hval
              rw [h1] at hval
              simp only [Prod.mk.injEq, Except.ok.injEq] at hval
              obtain ⟨rfl, rfl⟩ := hval
              by_cases hbig : (m : Int) ≤ maxsize
              · unfold readBytes at hrun
                rw [read_nat_apply m _ hbig] at hrun
                simp only [Prod.mk.injEq, Except.ok.injEq, Stream.mk.injEq] at hrun
                have hl := congrArg List.length hrun.1
                simp only [List.length_take, List.length_drop, List.length_append, List.length_cons,
                  List.length_reverse, natToLE_length, List.length_replicate] at hl
                have : m = b.length := by omega
                rwa [this] at hv
              · unfold readBytes Stream.read at hrun
                rw [if_pos (by omega)] at hrun
                simp at hrun
  · rintro ⟨r, bs, ha, hy⟩
    rw [(ha.unique (appends_writeVarInt e _ hlen)).2] at hy
    exact ⟨_, _, happ, yields_bind hy (yields_read b _ rfl hmem)⟩

/-- A string of 256 bytes written in the other byte order comes back as its first byte. -/
example : (readVarBytes 1000 (⟨(writeVarBytes (List.replicate 256 7) .big ⟨[], 0⟩).2.buf, 0⟩)).1 = .ok [7] := by decide +kernel

end Neo.Props
