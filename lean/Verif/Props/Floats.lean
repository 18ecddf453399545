import Verif.Proofs.FloatFmt
import Verif.Proofs.IO
import Verif.Props.Ints

/-!
# WriteFloat, ReadFloat, WriteDouble, ReadDouble of numbers: C106-C110

Trusted besides the kernel: `Py.FloatFmt.decode` says what a bit pattern means (IEEE-754), `Spec.RoundsTo` what rounding to
nearest is.
-/

namespace Neo.Props
open Py Spec Writer Reader

private theorem size32 : FloatFmt.binary32.size = 4 := rfl
private theorem size64 : FloatFmt.binary64.size = 8 := rfl

private theorem bytes_ok (f : FloatFmt) (hsz : f.size = 4 ∨ f.size = 8) (hfull : 2 ^ (1 + f.expBits + f.mant) = 256 ^ f.size) (e : Endian)
    (bits : ℕ) (hlt : bits < 2 ^ (1 + f.expBits + f.mant)) :
    (e.arrange (natToLE f.size bits)).length = f.size ∧
    Yields (unpackFloat f e f.size) (e.arrange (natToLE f.size bits)) (f.decode bits) := by
  have hl : (e.arrange (natToLE f.size bits)).length = f.size := by simp [natToLE_length]
  refine ⟨hl, ?_⟩
  have hmax : ((f.size : ℕ) : Int) ≤ maxsize := by rcases hsz with h | h <;> rw [h] <;> decide
  have hb : leToNat (natToLE f.size bits) = bits := leToNat_natToLE_of_lt (by rw [← hfull]; exact hlt)
  have := yields_bind (f := fun bs : Bytes => IOM.lift (structUnpackFloat f e bs)) (yields_read _ (f.size : ℕ) (by rw [hl]) hmax)
    (v' := f.decode bits) (b' := []) (yields_lift (by
      unfold structUnpackFloat; rw [if_pos hl, Endian.arrange_arrange, hb]))
  simpa [unpackFloat] using this

private theorem append_ok (f : FloatFmt) (e : Endian) (v : FloatArg) (bs : Bytes) (h : structPackFloat f e v = .ok bs) :
    Appends (packFloat f e v) bs.length bs := by
  unfold packFloat; rw [h]; exact appends_writeBytes_raw bs

private theorem raise_ok (f : FloatFmt) (e : Endian) (v : FloatArg) (err : Err) (h : structPackFloat f e v = .error err) :
    RaisesCleanly (packFloat f e v) err := by
  intro s; unfold packFloat; rw [h]; rfl

/-- What holds of both formats. -/
private theorem float_roundtrip (f : FloatFmt) (hsz : f.size = 4 ∨ f.size = 8) (hfull : 2 ^ (1 + f.expBits + f.mant) = 256 ^ f.size)
    (hm : 1 ≤ f.mant) (hb : 2 ≤ f.expBits) (e : Endian) (neg : Bool) (mag : ℚ) (h0 : 0 ≤ mag) :
    (mag < f.limit - 2 ^ (f.bias - f.mant - 1) → ∃ bs y, bs.length = f.size ∧
      structPackFloat f e (.float (.fin neg mag)) = .ok bs ∧
      Yields (unpackFloat f e f.size) bs (.fin neg y) ∧ RoundsTo (f.mant + 1) f.minExp mag y) ∧
    (f.limit - 2 ^ (f.bias - f.mant - 1) ≤ mag → structPackFloat f e (.float (.fin neg mag)) = .error .overflowError) := by
  have hlim := f.limit_le_round hb mag h0
  constructor
  · intro h
    have hlt : ¬ f.limit ≤ f.round mag := by rw [hlim]; exact not_le.mpr h
    obtain ⟨hdec, hbits⟩ := f.decode_encode hb neg (f.round_nonneg h0) (f.round_grid mag) (not_le.mp hlt)
    obtain ⟨hl, hy⟩ := bytes_ok f hsz hfull e _ hbits
    rw [hdec] at hy
    refine ⟨_, _, hl, ?_, hy, f.round_spec mag hm⟩
    simp only [structPackFloat, FloatFmt.pack, if_neg hlt]
  · intro h
    simp only [structPackFloat, FloatFmt.pack, if_pos (hlim.mpr h)]

private theorem limit32 : FloatFmt.binary32.limit = 2 ^ 128 := by
  unfold FloatFmt.limit; rw [show FloatFmt.binary32.bias + 1 = 128 by decide]; norm_num
private theorem limit64 : FloatFmt.binary64.limit = 2 ^ (1024 : ℤ) := by
  unfold FloatFmt.limit; rw [show FloatFmt.binary64.bias + 1 = 1024 by decide]
private theorem thr32 : FloatFmt.binary32.limit - 2 ^ (FloatFmt.binary32.bias - FloatFmt.binary32.mant - 1) = 2 ^ 128 - 2 ^ 103 := by
  rw [limit32, show FloatFmt.binary32.bias - FloatFmt.binary32.mant - 1 = 103 by decide]; norm_num
private theorem thr64 : FloatFmt.binary64.limit - 2 ^ (FloatFmt.binary64.bias - FloatFmt.binary64.mant - 1) =
    2 ^ (1024 : ℤ) - 2 ^ (970 : ℤ) := by
  rw [limit64, show FloatFmt.binary64.bias - FloatFmt.binary64.mant - 1 = 970 by decide]
private theorem min32 : FloatFmt.binary32.minExp = -149 := by decide
private theorem min64 : FloatFmt.binary64.minExp = -1074 := by decide

/-- C106. WriteFloat of a finite float below 2^128 - 2^103 in magnitude writes four bytes, which ReadFloat turns into the
binary32 number nearest to it (ties to even), with the same sign (also of zero). -/
theorem C106_float_nearest (e : Endian) (neg : Bool) (mag : ℚ) (h0 : 0 ≤ mag) (h : mag < 2 ^ 128 - 2 ^ 103) :
    ∃ bs y, bs.length = 4 ∧ Appends (writeFloat (.float (.fin neg mag)) e) 4 bs ∧
      Yields (readFloat e) bs (.fin neg y) ∧ RoundsTo 24 (-149) mag y := by
  have hr := (float_roundtrip .binary32 (Or.inl rfl) (by decide) (by decide) (by decide) e neg mag h0).1
  rw [thr32, min32] at hr
  obtain ⟨bs, y, hl, hp, hy, hs⟩ := hr h
  rw [size32] at hl
  refine ⟨bs, y, hl, ?_, hy, hs⟩
  have := append_ok _ e _ bs hp
  rwa [hl] at this

/-- C106. A float of at least that magnitude is refused with an OverflowError, and nothing is written. -/
theorem C106_float_too_large (e : Endian) (neg : Bool) (mag : ℚ) (h : 2 ^ 128 - 2 ^ 103 ≤ mag) :
    RaisesCleanly (writeFloat (.float (.fin neg mag)) e) .overflowError := by
  have h0 : 0 ≤ mag := le_trans (by norm_num) h
  have hr := (float_roundtrip .binary32 (Or.inl rfl) (by decide) (by decide) (by decide) e neg mag h0).2
  rw [thr32] at hr
  exact raise_ok _ e _ _ (hr h)

/-- Rounding leaves a number of the format alone. -/
private theorem roundsTo_self {p : ℕ} {k : ℤ} {x y : ℚ} (hx : OnGrid p k x) (h : RoundsTo p k x y) : y = x := by
  have := h.nearest x hx
  rw [sub_self, abs_zero] at this
  have := abs_eq_zero.mp (le_antisymm this (abs_nonneg _))
  linarith

/-- C106. A float that binary32 can hold (24-bit significand) is read back unchanged; so are the infinities, and a NaN is read
back as a NaN. -/
theorem C106_float_exact (e : Endian) :
    (∀ neg mag, 0 ≤ mag → mag < 2 ^ 128 → OnGrid 24 (-149) mag →
      RoundTrip (writeFloat (.float (.fin neg mag)) e) (readFloat e) (.fin neg mag)) ∧
    (∀ neg, RoundTrip (writeFloat (.float (.inf neg)) e) (readFloat e) (.inf neg)) ∧
    RoundTrip (writeFloat (.float .nan) e) (readFloat e) .nan := by
  refine ⟨fun neg mag h0 h hg => ?_, fun neg => ?_, ?_⟩
  · have hlt : mag < 2 ^ 128 - 2 ^ 103 := by
      by_contra hcon
      have hlim := (FloatFmt.binary32.limit_le_round (by decide) mag h0).mpr (by rw [thr32]; exact not_lt.mp hcon)
      have hr := FloatFmt.binary32.round_exact (x := mag) (by rw [min32]; exact hg)
      rw [hr, limit32] at hlim
      linarith
    obtain ⟨bs, y, -, ha, hy, hs⟩ := C106_float_nearest e neg mag h0 hlt
    rw [roundsTo_self hg hs] at hy
    exact ⟨_, bs, ha, hy⟩
  · have hf := FloatFmt.binary32.fields neg (2 ^ 8 - 1) 0 (by decide) (by decide)
    obtain ⟨hl, hy⟩ := bytes_ok .binary32 (Or.inl rfl) (by decide) e _ hf.2.2.2
    rw [FloatFmt.binary32.decode_assemble neg _ 0 (by decide) (by decide), if_pos (show 2 ^ 8 - 1 = 2 ^ FloatFmt.binary32.expBits - 1 from rfl), if_pos rfl] at hy
    exact ⟨_, _, append_ok .binary32 e (.float (.inf neg)) _ rfl, hy⟩
  · have hf := FloatFmt.binary32.fields false (2 ^ 8 - 1) (2 ^ (23 - 1)) (by decide) (by decide)
    obtain ⟨hl, hy⟩ := bytes_ok .binary32 (Or.inl rfl) (by decide) e _ hf.2.2.2
    rw [FloatFmt.binary32.decode_assemble false _ _ (by decide) (by decide), if_pos (show 2 ^ 8 - 1 = 2 ^ FloatFmt.binary32.expBits - 1 from rfl), if_neg (by decide)] at hy
    exact ⟨_, _, append_ok .binary32 e (.float .nan) _ rfl, hy⟩

/-- 0.1 is below the limit, so the theorem applies to it; it is not a binary32 number. -/
example : ∃ bs y, bs.length = 4 ∧ Appends (writeFloat (.float (.fin false (1 / 10)))) 4 bs ∧
    Yields readFloat bs (.fin false y) ∧ RoundsTo 24 (-149) (1 / 10) y :=
  C106_float_nearest .little false (1 / 10) (by norm_num) (by norm_num)

/-- A tie: 2^24 + 1 lies between 2^24 and 2^24 + 2; the even significand wins. -/
example : FloatFmt.binary32.round (2 ^ 24 + 1) = 2 ^ 24 ∧ FloatFmt.binary32.round (2 ^ 24 + 3) = 2 ^ 24 + 4 := by decide +kernel

theorem readFloat_inv (f : FloatFmt) (hsz : f.size = 4 ∨ f.size = 8) (e : Endian) (bs : Bytes) (hl : bs.length = f.size) :
    Yields (unpackFloat f e f.size) bs (f.decode (leToNat (e.arrange bs))) := by
  have hmax : ((f.size : ℕ) : Int) ≤ maxsize := by rcases hsz with h | h <;> rw [h] <;> decide
  have := yields_bind (f := fun bs : Bytes => IOM.lift (structUnpackFloat f e bs)) (yields_read bs (f.size : ℕ) (by rw [hl]) hmax)
    (v' := f.decode (leToNat (e.arrange bs))) (b' := []) (yields_lift (by
      unfold structUnpackFloat; rw [if_pos hl]))
  simpa [unpackFloat] using this

/-- What is read and not a NaN is written as the same bytes. -/
private theorem pack_decode (f : FloatFmt) (hfull : 2 ^ (1 + f.expBits + f.mant) = 256 ^ f.size) (hb : 2 ≤ f.expBits) (e : Endian)
    (bs : Bytes) (hl : bs.length = f.size) (hn : f.decode (leToNat (e.arrange bs)) ≠ .nan) :
    structPackFloat f e (.float (f.decode (leToNat (e.arrange bs)))) = .ok bs := by
  have hal : (e.arrange bs).length = f.size := by cases e <;> simp [Endian.arrange, hl]
  have hlt : leToNat (e.arrange bs) < 2 ^ (1 + f.expBits + f.mant) := by
    rw [hfull, ← hal]; exact leToNat_lt _
  have hback : e.arrange (natToLE f.size (leToNat (e.arrange bs))) = bs := by
    rw [← hal, natToLE_leToNat, Endian.arrange_arrange]
  generalize leToNat (e.arrange bs) = bits at *
  cases hd : f.decode bits with
  | nan => exact absurd hd hn
  | fin neg mag =>
    obtain ⟨h0, hg, hlim, henc⟩ := f.encode_decode hb bits hlt neg mag hd
    have hr := f.round_exact hg
    simp only [structPackFloat, FloatFmt.pack, hr, if_neg (not_le.mpr hlim), henc, hback]
  | inf neg =>
    have hself := f.assemble_self bits hlt
    have hEl : bits / 2 ^ f.mant % 2 ^ f.expBits < 2 ^ f.expBits := Nat.mod_lt _ (by positivity)
    have hFl : bits % 2 ^ f.mant < 2 ^ f.mant := Nat.mod_lt _ (by positivity)
    generalize decide (bits / 2 ^ (f.mant + f.expBits) % 2 = 1) = s at hself
    generalize bits / 2 ^ f.mant % 2 ^ f.expBits = E at hself hEl
    generalize bits % 2 ^ f.mant = F at hself hFl
    rw [hself, f.decode_assemble s E F hEl hFl] at hd
    by_cases hE : E = 2 ^ f.expBits - 1
    · rw [if_pos hE] at hd
      by_cases hF : F = 0
      · rw [if_pos hF] at hd
        injection hd with hd
        subst hd
        simp only [structPackFloat, FloatFmt.pack]
        rw [← hE, ← hF, ← hself, hback]
      · rw [if_neg hF] at hd; cases hd
    · rw [if_neg hE] at hd
      split at hd <;> cases hd

/-- C107. Whatever four bytes ReadFloat has turned into a number (not a NaN), WriteFloat turns that number into the same bytes. -/
theorem C107_float_read_write (e : Endian) (bs : Bytes) (hl : bs.length = 4) :
    ∃ v, Yields (readFloat e) bs v ∧ (v ≠ .nan → Appends (writeFloat (.float v) e) 4 bs) := by
  refine ⟨_, readFloat_inv .binary32 (Or.inl rfl) e bs hl, fun hn => ?_⟩
  have := append_ok .binary32 e _ bs (pack_decode .binary32 (by decide) (by decide) e bs hl hn)
  rwa [hl] at this

/-- C107. The same for ReadDouble and WriteDouble. -/
theorem C107_double_read_write (e : Endian) (bs : Bytes) (hl : bs.length = 8) :
    ∃ v, Yields (readDoubleVal e) bs v ∧ (v ≠ .nan → Appends (writeDoubleOf (.float v) e) 8 bs) := by
  refine ⟨_, readFloat_inv .binary64 (Or.inr rfl) e bs hl, fun hn => ?_⟩
  have := append_ok .binary64 e _ bs (pack_decode .binary64 (by decide) (by decide) e bs hl hn)
  rwa [hl] at this

/-- Four bytes that are no NaN. -/
example : FloatFmt.binary32.decode (leToNat (Endian.little.arrange [0x31, 0x32, 0x33, 0x34])) ≠ .nan := by decide +kernel

/-- C108. Every Python float (53-bit significand, exponent at least -1074, magnitude below 2^1024; both zeros, both infinities)
survives WriteDouble and ReadDouble unchanged; a NaN is read back as a NaN. -/
theorem C108_double_exact (e : Endian) :
    (∀ neg mag, 0 ≤ mag → mag < 2 ^ (1024 : ℤ) → OnGrid 53 (-1074) mag →
      RoundTrip (writeDoubleOf (.float (.fin neg mag)) e) (readDoubleVal e) (.fin neg mag)) ∧
    (∀ neg, RoundTrip (writeDoubleOf (.float (.inf neg)) e) (readDoubleVal e) (.inf neg)) ∧
    RoundTrip (writeDoubleOf (.float .nan) e) (readDoubleVal e) .nan := by
  refine ⟨fun neg mag h0 h hg => ?_, fun neg => ?_, ?_⟩
  · have hr := FloatFmt.binary64.round_exact (x := mag) (by rw [min64]; exact hg)
    have hlt : mag < FloatFmt.binary64.limit - 2 ^ (FloatFmt.binary64.bias - FloatFmt.binary64.mant - 1) := by
      by_contra hcon
      have hlim := (FloatFmt.binary64.limit_le_round (by decide) mag h0).mpr (not_lt.mp hcon)
      rw [hr, limit64] at hlim
      linarith
    obtain ⟨bs, y, hl, hp, hy, hs⟩ := (float_roundtrip .binary64 (Or.inr rfl) (by decide) (by decide) (by decide) e neg mag h0).1 hlt
    rw [min64] at hs
    rw [roundsTo_self hg hs] at hy
    exact ⟨_, bs, append_ok _ e _ bs hp, hy⟩
  · have hf := FloatFmt.binary64.fields neg (2 ^ 11 - 1) 0 (by decide) (by decide)
    obtain ⟨hl, hy⟩ := bytes_ok .binary64 (Or.inr rfl) (by decide) e _ hf.2.2.2
    rw [FloatFmt.binary64.decode_assemble neg _ 0 (by decide) (by decide), if_pos (show 2 ^ 11 - 1 = 2 ^ FloatFmt.binary64.expBits - 1 from rfl), if_pos rfl] at hy
    exact ⟨_, _, append_ok .binary64 e (.float (.inf neg)) _ rfl, hy⟩
  · have hf := FloatFmt.binary64.fields false (2 ^ 11 - 1) (2 ^ (52 - 1)) (by decide) (by decide)
    obtain ⟨hl, hy⟩ := bytes_ok .binary64 (Or.inr rfl) (by decide) e _ hf.2.2.2
    rw [FloatFmt.binary64.decode_assemble false _ _ (by decide) (by decide), if_pos (show 2 ^ 11 - 1 = 2 ^ FloatFmt.binary64.expBits - 1 from rfl), if_neg (by decide)] at hy
    exact ⟨_, _, append_ok .binary64 e (.float .nan) _ rfl, hy⟩

/-- The largest float and the smallest one are covered. -/
example : OnGrid 53 (-1074) ((2 ^ 53 - 1) * 2 ^ (971 : ℤ)) ∧ OnGrid 53 (-1074) (1 * 2 ^ (-1074 : ℤ)) :=
  ⟨⟨2 ^ 53 - 1, 971, by norm_num, by norm_num, by congr 1; norm_num⟩, ⟨1, -1074, by norm_num, by norm_num, by push_cast; rfl⟩⟩

private theorem int_packs (f : FloatFmt) (hsz : f.size = 4 ∨ f.size = 8) (hfull : 2 ^ (1 + f.expBits + f.mant) = 256 ^ f.size)
    (hm : 1 ≤ f.mant) (hb : 2 ≤ f.expBits) (e : Endian) (n : Int)
    (hd : FloatFmt.binary64.round |(n : ℚ)| < FloatFmt.binary64.limit)
    (h : FloatFmt.binary64.round |(n : ℚ)| < f.limit - 2 ^ (f.bias - f.mant - 1)) :
    ∃ bs y, bs.length = f.size ∧ structPackFloat f e (.int n) = .ok bs ∧
      Yields (unpackFloat f e f.size) bs (.fin (decide (n < 0)) y) ∧
      RoundsTo (f.mant + 1) f.minExp (FloatFmt.binary64.round |(n : ℚ)|) y := by
  obtain ⟨bs, y, hl, hp, hy, hs⟩ := (float_roundtrip f hsz hfull hm hb e (decide (n < 0)) _
    (FloatFmt.binary64.round_nonneg (abs_nonneg (n : ℚ)))).1 h
  refine ⟨bs, y, hl, ?_, hy, hs⟩
  simp only [structPackFloat, doubleOfInt, if_neg (not_le.mpr hd)]
  simp only [structPackFloat] at hp
  cases hk : f.pack (.fin (decide (n < 0)) (FloatFmt.binary64.round |(n : ℚ)|)) with
  | error err => rw [hk] at hp; cases hp
  | ok b => rw [hk] at hp; exact hp

private theorem int_grid {n : Int} (h : |n| ≤ 2 ^ 53) : OnGrid 53 (-1074) |(n : ℚ)| := by
  rcases h.lt_or_eq with h | h
  · exact ⟨|n|, 0, by rwa [abs_abs], by norm_num, by push_cast; simp⟩
  · refine ⟨2 ^ 52, 1, by norm_num, by norm_num, ?_⟩
    have : |(n : ℚ)| = ((|n| : ℤ) : ℚ) := by push_cast; rfl
    rw [this, h]; norm_num

private theorem thr_big : (2 : ℚ) ^ 53 < 2 ^ (1024 : ℤ) - 2 ^ (970 : ℤ) := by
  have h1 : (2 : ℚ) ^ (1024 : ℤ) = 2 ^ (54 : ℤ) * 2 ^ (970 : ℤ) := by rw [← zpow_add₀ (by norm_num)]; norm_num
  have h2 : (1 : ℚ) ≤ 2 ^ (970 : ℤ) := one_le_zpow₀ (by norm_num) (by norm_num)
  rw [h1]
  have h3 : (2 : ℚ) ^ (54 : ℤ) = 18014398509481984 := by norm_num
  have h4 : (2 : ℚ) ^ 53 = 9007199254740992 := by norm_num
  rw [h3, h4]
  clear h1 h3 h4
  generalize (2 : ℚ) ^ (970 : ℤ) = t at *
  linarith

/-- C109. WriteDouble of an int below 2^1024 - 2^970 in magnitude is read back as the nearest binary64 number (ties to even). -/
theorem C109_int_double_nearest (e : Endian) (n : Int) (h : |(n : ℚ)| < 2 ^ (1024 : ℤ) - 2 ^ (970 : ℤ)) :
    ∃ bs y, bs.length = 8 ∧ Appends (writeDoubleOf (.int n) e) 8 bs ∧
      Yields (readDoubleVal e) bs (.fin (decide (n < 0)) y) ∧ RoundsTo 53 (-1074) |(n : ℚ)| y := by
  have hlim := FloatFmt.binary64.limit_le_round (by decide) |(n : ℚ)| (abs_nonneg _)
  rw [thr64] at hlim
  have hlt : FloatFmt.binary64.round |(n : ℚ)| < FloatFmt.binary64.limit := by
    by_contra hcon
    have := hlim.mp (not_lt.mp hcon)
    linarith
  have hg := FloatFmt.binary64.round_grid |(n : ℚ)|
  have hthr : FloatFmt.binary64.round |(n : ℚ)| < FloatFmt.binary64.limit - 2 ^ (FloatFmt.binary64.bias - FloatFmt.binary64.mant - 1) := by
    by_contra hcon
    have h2 := (FloatFmt.binary64.limit_le_round (by decide) _ (FloatFmt.binary64.round_nonneg (abs_nonneg (n : ℚ)))).mpr (not_lt.mp hcon)
    rw [FloatFmt.binary64.round_exact hg] at h2
    linarith
  obtain ⟨bs, y, hl, hp, hy, hs⟩ := int_packs .binary64 (Or.inr rfl) (by decide) (by decide) (by decide) e n hlt hthr
  rw [min64] at hg hs
  have hye := roundsTo_self hg hs
  rw [hye] at hy
  have hspec := FloatFmt.binary64.round_spec |(n : ℚ)| (by decide)
  rw [min64] at hspec
  have := append_ok .binary64 e _ bs hp
  rw [hl] at this
  exact ⟨bs, _, hl, this, hy, hspec⟩

private theorem small_cast {n : Int} (h : |n| ≤ 2 ^ 53) : |(n : ℚ)| ≤ 2 ^ 53 := by exact_mod_cast h

/-- C109. An int up to 2^53 is read back exactly. -/
theorem C109_int_double_exact (e : Endian) (n : Int) (h : |n| ≤ 2 ^ 53) :
    RoundTrip (writeDoubleOf (.int n) e) (readDoubleVal e) (.fin (decide (n < 0)) |(n : ℚ)|) := by
  obtain ⟨bs, y, hl, ha, hy, hs⟩ := C109_int_double_nearest e n (lt_of_le_of_lt (small_cast h) thr_big)
  rw [roundsTo_self (int_grid h) hs] at hy
  exact ⟨_, bs, ha, hy⟩

/-- C109. A larger int, or an object that is no number, is refused with `struct.error` and nothing is written. -/
theorem C109_refused (e : Endian) :
    (∀ n : Int, 2 ^ (1024 : ℤ) - 2 ^ (970 : ℤ) ≤ |(n : ℚ)| → RaisesCleanly (writeDoubleOf (.int n) e) .structError) ∧
    RaisesCleanly (writeDoubleOf .other e) .structError := by
  refine ⟨fun n h => raise_ok _ e _ _ ?_, raise_ok _ e _ _ rfl⟩
  have hlim := (FloatFmt.binary64.limit_le_round (by decide) |(n : ℚ)| (abs_nonneg _)).mpr (by rw [thr64]; exact h)
  simp only [structPackFloat, doubleOfInt, if_pos hlim]

example : |((2 ^ 53 + 1 : ℤ) : ℚ)| < 2 ^ (1024 : ℤ) - 2 ^ (970 : ℤ) ∧ |(-(2 ^ 53) : ℤ)| ≤ 2 ^ 53 ∧
    2 ^ (1024 : ℤ) - 2 ^ (970 : ℤ) ≤ |((-2 ^ 1024 : ℤ) : ℚ)| := by decide +kernel

/-- The ints that round to 2^128 - 2^103 or more in binary64. -/
private theorem round_edge (a : ℚ) (h : 2 ^ 128 - 2 ^ 103 - 2 ^ 74 ≤ a) : 2 ^ 128 - 2 ^ 103 ≤ FloatFmt.binary64.round a := by
  rcases le_or_gt (2 ^ 128 - 2 ^ 103) a with hT | hT
  · have hspec := FloatFmt.binary64.round_spec a (by decide)
    rw [min64] at hspec
    have hn := hspec.nearest (2 ^ 128 - 2 ^ 103) ⟨2 ^ 25 - 1, 103, by decide, by decide, by norm_num⟩
    rw [abs_sub_comm ((2 : ℚ) ^ 128 - 2 ^ 103), abs_of_nonneg (sub_nonneg.2 hT)] at hn
    linarith [(abs_le.1 hn).1]
  · have hpos : 0 < a := lt_of_lt_of_le (by norm_num) h
    have hlog : Int.log 2 |a| = 127 := by
      rw [abs_of_pos hpos]
      have h1 : 127 ≤ Int.log 2 a := (Int.zpow_le_iff_le_log (by norm_num) hpos).1 (le_trans (by norm_num) h)
      have h2 : Int.log 2 a < 128 := (Int.lt_zpow_iff_log_lt (by norm_num) hpos).1 (lt_trans hT (by norm_num))
      omega
    have hu : FloatFmt.binary64.ulp a = 75 := by
      unfold FloatFmt.ulp
      rw [if_neg hpos.ne', hlog, min64]
      rfl
    unfold FloatFmt.round
    rw [hu]
    have h75 : (2 : ℚ) ^ (75 : ℤ) = 2 ^ 75 := by norm_num
    rw [h75]
    have hx1 : ((2 ^ 53 - 2 ^ 28 : ℤ) : ℚ) - 1 / 2 ≤ a / 2 ^ 75 := by
      rw [le_div_iff₀ (by norm_num)]; refine le_trans (le_of_eq ?_) h; norm_num
    have hx2 : a / 2 ^ 75 < ((2 ^ 53 - 2 ^ 28 : ℤ) : ℚ) := by
      rw [div_lt_iff₀ (by norm_num)]; refine lt_of_lt_of_le hT (le_of_eq ?_); norm_num
    generalize a / 2 ^ 75 = x at hx1 hx2
    have hN : (2 ^ 53 - 2 ^ 28 : ℤ) ≤ rne x := by
      have hodd : ¬ Even ((2 ^ 53 - 2 ^ 28 : ℤ) - 1) := by decide
      generalize (2 ^ 53 - 2 ^ 28 : ℤ) = N at hx1 hx2 hodd
      by_contra hcon
      have hc := rne_close x
      have hm' : (rne x : ℚ) ≤ (N : ℚ) - 1 := by
        have : rne x ≤ N - 1 := by omega
        exact_mod_cast this
      have hc1 := (abs_le.1 hc).1
      have hxe : x = (N : ℚ) - 1 / 2 := by linarith
      have hre : (rne x : ℚ) = (N : ℚ) - 1 := by linarith
      have hev := FloatFmt.rne_tie (q := x) (n := N) (by omega) (by
        rw [hre, hxe, show (N : ℚ) - (N - 1 / 2) = 1 / 2 by ring, show (N : ℚ) - 1 - (N - 1 / 2) = -(1 / 2) by ring, abs_neg])
      have hri : rne x = N - 1 := by exact_mod_cast hre
      rw [hri] at hev
      exact hodd hev
    have hN' : ((2 ^ 53 - 2 ^ 28 : ℤ) : ℚ) ≤ rne x := by exact_mod_cast hN
    have he : (2 : ℚ) ^ 128 - 2 ^ 103 = ((2 ^ 53 - 2 ^ 28 : ℤ) : ℚ) * 2 ^ 75 := by norm_num
    rw [he]
    exact mul_le_mul_of_nonneg_right hN' (by norm_num)

/-- C110 (partial). WriteFloat of an int up to 2^53 is read back as the nearest binary32 number; what is no number, and every int
from 2^128 - 2^103 - 2^74 on in magnitude, is refused with `struct.error` and nothing is written. Missing: larger ints, where the claim is false (below). -/
theorem C110_int_float_partial (e : Endian) :
    (∀ n : Int, |n| ≤ 2 ^ 53 → ∃ bs y, bs.length = 4 ∧ Appends (writeFloat (.int n) e) 4 bs ∧
      Yields (readFloat e) bs (.fin (decide (n < 0)) y) ∧ RoundsTo 24 (-149) |(n : ℚ)| y) ∧
    RaisesCleanly (writeFloat .other e) .structError ∧
    (∀ n : Int, 2 ^ 128 - 2 ^ 103 - 2 ^ 74 ≤ |(n : ℚ)| → RaisesCleanly (writeFloat (.int n) e) .structError) := by
  refine ⟨fun n h => ?_, raise_ok _ e _ _ rfl, fun n h => raise_ok _ e _ _ ?_⟩
  rotate_left
  next =>
    simp only [structPackFloat, doubleOfInt]
    by_cases h64 : FloatFmt.binary64.limit ≤ FloatFmt.binary64.round |(n : ℚ)|
    · rw [if_pos h64]
    rw [if_neg h64]
    have hge := round_edge _ h
    have hlim := (FloatFmt.binary32.limit_le_round (by decide) _ (FloatFmt.binary64.round_nonneg (abs_nonneg (n : ℚ)))).mpr
      (by rw [thr32]; exact hge)
    simp only [FloatFmt.pack, if_pos hlim]
  have hr : FloatFmt.binary64.round |(n : ℚ)| = |(n : ℚ)| :=
    FloatFmt.binary64.round_exact (by rw [min64]; exact int_grid h)
  have hsm := small_cast h
  have h1 : FloatFmt.binary64.round |(n : ℚ)| < FloatFmt.binary64.limit := by
    rw [hr, limit64]
    have h2 : (0 : ℚ) < 2 ^ (970 : ℤ) := two_zpow_pos 970
    have h3 := thr_big
    clear hr
    generalize (2 : ℚ) ^ (970 : ℤ) = t at *
    generalize (2 : ℚ) ^ (1024 : ℤ) = u at *
    linarith
  have h2 : FloatFmt.binary64.round |(n : ℚ)| < FloatFmt.binary32.limit - 2 ^ (FloatFmt.binary32.bias - FloatFmt.binary32.mant - 1) := by
    rw [hr, thr32]; refine lt_of_le_of_lt hsm (by norm_num)
  obtain ⟨bs, y, hl, hp, hy, hs⟩ := int_packs .binary32 (Or.inl rfl) (by decide) (by decide) (by decide) e n h1 h2
  rw [hr, min32] at hs
  have := append_ok .binary32 e _ bs hp
  rw [hl] at this
  exact ⟨bs, y, hl, this, hy, hs⟩

/-- C110 (partial). What WriteFloat does with any int: it is rounded to binary64 and the result to binary32. -/
theorem C110_int_float_twice_partial (e : Endian) (n : Int) (h : |(n : ℚ)| < 2 ^ 128 - 2 ^ 103 - 2 ^ 74) :
    ∃ bs x y, bs.length = 4 ∧ Appends (writeFloat (.int n) e) 4 bs ∧ Yields (readFloat e) bs (.fin (decide (n < 0)) y) ∧
      RoundsTo 53 (-1074) |(n : ℚ)| x ∧ RoundsTo 24 (-149) x y := by
  have hspec := FloatFmt.binary64.round_spec |(n : ℚ)| (by decide)
  rw [min64] at hspec
  have hle : FloatFmt.binary64.round |(n : ℚ)| < 2 ^ 128 - 2 ^ 103 := by
    have hg : OnGrid 53 (-1074) (2 ^ 128 - 2 ^ 103 - 2 ^ 75) := ⟨2 ^ 53 - 2 ^ 28 - 1, 75, by norm_num, by norm_num, by norm_num⟩
    have hnn := hspec.nearest _ hg
    clear hspec hg
    generalize FloatFmt.binary64.round |(n : ℚ)| = r at *
    generalize |(n : ℚ)| = a at *
    by_contra hcon
    have hcon := not_lt.mp hcon
    rw [abs_of_nonneg (by linarith)] at hnn
    rcases le_total (2 ^ 128 - 2 ^ 103 - 2 ^ 75) a with h2 | h2
    · rw [abs_of_nonpos (by linarith)] at hnn; linarith
    · rw [abs_of_nonneg (by linarith)] at hnn; linarith
  have hbig : (2 : ℚ) ^ 128 - 2 ^ 103 < FloatFmt.binary64.limit := by
    rw [limit64]
    have : (2 : ℚ) ^ (128 : ℤ) ≤ 2 ^ (1024 : ℤ) := zpow_le_zpow_right₀ (by norm_num) (by norm_num)
    have h4 : (2 : ℚ) ^ (128 : ℤ) = 2 ^ 128 := by norm_num
    rw [h4] at this
    refine lt_of_lt_of_le ?_ this
    norm_num
  obtain ⟨bs, y, hl, hp, hy, hs⟩ := int_packs .binary32 (Or.inl rfl) (by decide) (by decide) (by decide) e n (lt_trans hle hbig)
    (by rw [thr32]; exact hle)
  rw [min32] at hs
  have := append_ok .binary32 e _ bs hp
  rw [hl] at this
  exact ⟨bs, _, y, hl, this, hy, hspec, hs⟩

/-- C110 fails for larger ints in WriteFloat: 2^60 + 2^36 + 1 is rounded twice (to binary64, then to binary32) and read back as
2^60, although 2^60 + 2^37 is nearer. -/
theorem C110_double_rounding_violated :
    RoundTrip (writeFloat (.int (2 ^ 60 + 2 ^ 36 + 1))) readFloat (.fin false (2 ^ 60)) ∧
    OnGrid 24 (-149) (2 ^ 60 + 2 ^ 37) ∧
    |((2 : ℚ) ^ 60 + 2 ^ 37) - (2 ^ 60 + 2 ^ 36 + 1)| < |(2 : ℚ) ^ 60 - (2 ^ 60 + 2 ^ 36 + 1)| := by
  refine ⟨⟨4, [0, 0, 0x80, 0x5d], ?_, ?_⟩, ⟨2 ^ 23 + 1, 37, by norm_num, by norm_num, by norm_num⟩, ?_⟩
  · exact append_ok .binary32 .little (.int (2 ^ 60 + 2 ^ 36 + 1)) [0, 0, 0x80, 0x5d] (by decide +kernel)
  · have := readFloat_inv .binary32 (Or.inl rfl) .little [0, 0, 0x80, 0x5d] rfl
    rwa [show FloatFmt.binary32.decode (leToNat (Endian.little.arrange [0, 0, 0x80, 0x5d])) = .fin false (2 ^ 60) by decide +kernel] at this
  · rw [abs_of_nonneg (by norm_num), abs_of_nonpos (by norm_num)]; norm_num

end Neo.Props
