import Verif.Model.BigInteger
import Verif.Spec.TwosComplement
import Verif.Proofs.Hex
import Mathlib.Tactic.Ring
import Mathlib.Tactic.Linarith
import Mathlib.Tactic.Positivity
import Mathlib.Tactic.FieldSimp
import Mathlib.Algebra.Order.Floor.Ring
import Mathlib.Data.Rat.Floor
import Mathlib.Algebra.Order.Ring.Abs

/-!
# C24–C26: BigInteger
-/

namespace Neo.Props
open Py Spec BigInt

/-- Number of bytes of the absolute value. -/
private def absBytes (v : Int) : Nat := (bitLength v + 7) / 8

private theorem natAbs_lt (v : Int) : v.natAbs < 256 ^ absBytes v := by
  unfold absBytes bitLength natBitLength
  split
  · rename_i h; rw [h]; positivity
  · rename_i h
    have h1 : v.natAbs < 2 ^ (v.natAbs.log2 + 1) := Nat.lt_log2_self
    have h2 : (2 : Nat) ^ (v.natAbs.log2 + 1) ≤ 2 ^ (8 * ((v.natAbs.log2 + 1 + 7) / 8)) :=
      Nat.pow_le_pow_right (by decide) (by omega)
    rw [Nat.pow_mul] at h2
    exact lt_of_lt_of_le h1 h2

private theorem abs_ge (v : Int) (hv : v ≠ 0) : ∃ k, absBytes v = k + 1 ∧ 256 ^ k ≤ v.natAbs := by
  have h0 : v.natAbs ≠ 0 := by omega
  unfold absBytes bitLength natBitLength
  rw [if_neg h0]
  refine ⟨v.natAbs.log2 / 8, by omega, ?_⟩
  have h1 : 2 ^ v.natAbs.log2 ≤ v.natAbs := Nat.log2_self_le h0
  have h2 : (2 : Nat) ^ (8 * (v.natAbs.log2 / 8)) ≤ 2 ^ v.natAbs.log2 := Nat.pow_le_pow_right (by decide) (by omega)
  rw [Nat.pow_mul] at h2
  exact le_trans h2 h1

private theorem natAbs_lt' (v : Int) : (v.natAbs : Int) < 256 ^ absBytes v := by
  have := natAbs_lt v
  exact_mod_cast this

/-- `ToByteArray` in closed form. -/
private theorem toByteArray_eq (v : Int) (hv : v ≠ 0) (signed : Bool) :
    toByteArray v signed =
      if v < 0 then intToBytes v (1 + absBytes v) .little true
      else if signed = true ∧ 256 ^ absBytes v ≤ 2 * v then intToBytes v (1 + absBytes v) .little true
      else intToBytes v (absBytes v) .little signed := by
  have hlt := natAbs_lt' v
  unfold toByteArray
  rw [if_neg hv]
  by_cases hneg : v < 0
  · rw [if_pos hneg, if_pos hneg]; rfl
  · rw [if_neg hneg, if_neg hneg]
    have hab : (v.natAbs : Int) = v := by omega
    rw [hab] at hlt
    rw [show (bitLength v + 7) / 8 = absBytes v from rfl]
    have hp := pow256_pos (absBytes v)
    by_cases hc : signed = true ∧ 256 ^ absBytes v ≤ 2 * v
    · rw [if_pos hc]
      obtain ⟨rfl, hc⟩ := hc
      have : intToBytes v (absBytes v) .little true = .error .overflowError := by
        unfold intToBytes
        rw [if_pos rfl, if_neg (by omega)]
      rw [this]
    · rw [if_neg hc]
      have : ∃ b, intToBytes v (absBytes v) .little signed = .ok b := by
        unfold intToBytes
        cases signed
        · exact ⟨_, by rw [if_neg (by simp), if_neg hneg, if_pos hlt]⟩
        · have hc' : 2 * v < 256 ^ absBytes v := by
            by_contra h
            exact hc ⟨rfl, by omega⟩
          exact ⟨_, by rw [if_pos rfl, if_pos ⟨by omega, hc'⟩]⟩
      obtain ⟨b, hb⟩ := this
      rw [hb]

private theorem fits_succ (v : Int) : -(256 ^ (1 + absBytes v) : Int) ≤ 2 * v ∧ 2 * v < 256 ^ (1 + absBytes v) := by
  have hlt := natAbs_lt' v
  rw [pow_add, pow_one]
  omega

/-- What `ToByteArray(signed=True)` computes, for every integer. -/
private theorem toByteArray_signed (v : Int) : ∃ b n, toByteArray v true = .ok b ∧ intToBytes v n .little true = .ok b ∧
    b.length = n ∧ n = (if v = 0 then 1 else if v < 0 ∨ 256 ^ absBytes v ≤ 2 * v then 1 + absBytes v else absBytes v) := by
  by_cases hv : v = 0
  · subst hv
    exact ⟨[0], 1, rfl, by decide +kernel, rfl, rfl⟩
  · rw [toByteArray_eq v hv, if_neg hv]
    have hlt := natAbs_lt' v
    have hp := pow256_pos (absBytes v)
    have key : ∀ n, (-(256 ^ n : Int) ≤ 2 * v ∧ 2 * v < 256 ^ n) →
        ∃ b, intToBytes v n .little true = .ok b ∧ b.length = n := by
      intro n hn
      have h : intToBytes v n .little true = .ok (natToLE n (v % 256 ^ n).toNat) := by
        unfold intToBytes; rw [if_pos rfl, if_pos hn]; rfl
      exact ⟨_, h, intToBytes_length h⟩
    by_cases hneg : v < 0
    · rw [if_pos hneg, if_pos (.inl hneg)]
      obtain ⟨b, hb, hl⟩ := key _ (fits_succ v)
      exact ⟨b, _, hb, hb, hl, rfl⟩
    · rw [if_neg hneg]
      by_cases hc : 256 ^ absBytes v ≤ 2 * v
      · rw [if_pos ⟨rfl, hc⟩, if_pos (.inr hc)]
        obtain ⟨b, hb, hl⟩ := key _ (fits_succ v)
        exact ⟨b, _, hb, hb, hl, rfl⟩
      · rw [if_neg (by simp; omega), if_neg (by omega)]
        obtain ⟨b, hb, hl⟩ := key (absBytes v) (by omega)
        exact ⟨b, _, hb, hb, hl, rfl⟩

/-! ### C24 -/

/-- C24. For every integer, `FromBytes(x.ToByteArray(), signed=True)` is `x` again. -/
theorem C24_roundtrip_signed (v : Int) : ∃ b, toByteArray v true = .ok b ∧ fromBytes b true = .bigInteger v := by
  obtain ⟨b, n, h1, h2, _⟩ := toByteArray_signed v
  exact ⟨b, h1, by rw [fromBytes, intFromBytes_toBytes h2]⟩

/-- C24. For every non-negative integer also `FromBytes(x.ToByteArray(signed=False))`. -/
theorem C24_roundtrip_unsigned (v : Int) (hv : 0 ≤ v) :
    ∃ b, toByteArray v false = .ok b ∧ fromBytes b false = .bigInteger v := by
  by_cases h0 : v = 0
  · subst h0
    exact ⟨[0], rfl, rfl⟩
  · have hlt := natAbs_lt' v
    rw [show (v.natAbs : Int) = v by omega] at hlt
    rw [toByteArray_eq v h0, if_neg (by omega), if_neg (by simp)]
    have h : intToBytes v (absBytes v) .little false = .ok (natToLE (absBytes v) v.toNat) := by
      unfold intToBytes; rw [if_neg (by simp), if_neg (by omega), if_pos hlt]; rfl
    exact ⟨_, h, by rw [fromBytes, intFromBytes_toBytes h]⟩

example : (0 : Int) ≤ 12345678901234567890 := by decide

/-- C24. Hence different integers have different signed encodings. -/
theorem C24_injective (v w : Int) (h : toByteArray v true = toByteArray w true) : v = w := by
  obtain ⟨b, h1, h2⟩ := C24_roundtrip_signed v
  obtain ⟨c, h3, h4⟩ := C24_roundtrip_signed w
  rw [h, h3] at h1
  simp only [Except.ok.injEq] at h1
  subst h1
  rw [h2] at h4
  simpa using h4

/-- C24. `FromBytes` of any byte string is in the range of that many bytes and the encoding it came from denotes it. -/
theorem C24_fromBytes_denotes (b : Bytes) (hb : b ≠ []) :
    ∃ v, fromBytes b true = .bigInteger v ∧ IsTwos b v ∧ fromBytes b false = .bigInteger (leNumber b) := by
  have hlt := leToNat_lt b
  have hlen : 0 < b.length := List.length_pos_iff.mpr hb
  refine ⟨_, rfl, ?_, ?_⟩
  · unfold IsTwos intFromBytes
    rw [leNumber_eq]
    have hc := cast_pow256 b.length
    have : (leToNat b : Int) < 256 ^ b.length := by rw [← hc]; exact_mod_cast hlt
    simp only [Endian.arrange, hlen, decide_true, Bool.true_and, Bool.and_true]
    split
    · rename_i h
      have h : (256 ^ b.length : Nat) ≤ 2 * leToNat b := of_decide_eq_true h
      have h' : (256 ^ b.length : Int) ≤ 2 * (leToNat b : Int) := by rw [← hc]; exact_mod_cast h
      exact ⟨by omega, by omega, ⟨1, by ring⟩⟩
    · rename_i h
      have h : ¬ (256 ^ b.length : Nat) ≤ 2 * leToNat b := fun hh => h (decide_eq_true hh)
      have h' : ¬ (256 ^ b.length : Int) ≤ 2 * (leToNat b : Int) := by rw [← hc]; exact_mod_cast h
      have hp := pow256_pos b.length
      exact ⟨by omega, by omega, ⟨0, by ring⟩⟩
  · simp [fromBytes, intFromBytes, leNumber_eq, Endian.arrange]

/-! ### C25 -/

private theorem isTwos_of_toBytes {v : Int} {n : Nat} {b : Bytes} (h : intToBytes v n .little true = .ok b) : IsTwos b v := by
  have hl := intToBytes_length h
  unfold intToBytes at h
  rw [if_pos rfl] at h
  split at h
  · rename_i hr
    simp only [Except.ok.injEq, Endian.arrange] at h
    refine ⟨by rw [hl]; exact hr.1, by rw [hl]; exact hr.2, ?_⟩
    rw [hl, leNumber_eq, ← h, leToNat_natToLE]
    have hp := pow256_pos n
    have hm := Int.emod_nonneg v (ne_of_gt hp)
    have hm2 := Int.emod_lt_of_pos v hp
    have h1 : (v % 256 ^ n).toNat < 256 ^ n := by
      have := cast_pow256 n
      zify
      rw [Int.toNat_of_nonneg hm]
      exact hm2
    rw [Nat.mod_eq_of_lt h1, Int.toNat_of_nonneg hm]
    exact ⟨-(v / 256 ^ n), by linarith [Int.emod_add_mul_ediv v (256 ^ n)]⟩
  · simp at h

/-- C101, the part that always holds: the result is a two's complement form of the value, never empty, and at most one
byte longer than the shortest. -/
theorem C101_twos (v : Int) : ∃ b, toByteArray v true = .ok b ∧ b ≠ [] ∧ IsTwos b v ∧
    ∀ b' : Bytes, b' ≠ [] → IsTwos b' v → b.length ≤ b'.length + 1 := by
  obtain ⟨b, n, h1, h2, h3, h4⟩ := toByteArray_signed v
  refine ⟨b, h1, ?_, isTwos_of_toBytes h2, ?_⟩
  · rintro rfl
    simp only [List.length_nil] at h3
    by_cases hv : v = 0
    · rw [if_pos hv] at h4; omega
    · obtain ⟨k, hk, _⟩ := abs_ge v hv
      rw [if_neg hv] at h4
      split at h4 <;> omega
  · intro b' hb' hb
    rw [h3, h4]
    have hlen : 0 < b'.length := List.length_pos_iff.mpr hb'
    by_cases hv : v = 0
    · rw [if_pos hv]; omega
    · rw [if_neg hv]
      obtain ⟨k, hk, hkv⟩ := abs_ge v hv
      have hk' : (256 ^ k : Int) ≤ v.natAbs := by exact_mod_cast hkv
      have : k < b'.length := by
        by_contra hcon
        have hle : (256 ^ b'.length : Int) ≤ 256 ^ k := by
          have : (256 ^ b'.length : Nat) ≤ 256 ^ k := Nat.pow_le_pow_right (by decide) (by omega)
          exact_mod_cast this
        have := hb.1
        have := hb.2.1
        have := pow256_pos b'.length
        omega
      split <;> omega

/-- C101 holds for every non-negative integer: the shortest two's complement form. -/
theorem C101_minimal_nonneg (v : Int) (hv : 0 ≤ v) : ∃ b, toByteArray v true = .ok b ∧ IsMinimalTwos b v := by
  obtain ⟨b, h1, h2, h3, h4⟩ := C101_twos v
  refine ⟨b, h1, h2, h3, fun b' hb' hb => ?_⟩
  obtain ⟨c, n, k1, k2, k3, k4⟩ := toByteArray_signed v
  rw [h1] at k1
  simp only [Except.ok.injEq] at k1
  subst k1
  have hlen : 0 < b'.length := List.length_pos_iff.mpr hb'
  rw [k3, k4]
  by_cases h0 : v = 0
  · rw [if_pos h0]; omega
  · rw [if_neg h0]
    obtain ⟨k, hk, hkv⟩ := abs_ge v h0
    have hk' : (256 ^ k : Int) ≤ v.natAbs := by exact_mod_cast hkv
    have hmono : ∀ m, b'.length ≤ m → (256 ^ b'.length : Int) ≤ 256 ^ m := by
      intro m hm
      have : (256 ^ b'.length : Nat) ≤ 256 ^ m := Nat.pow_le_pow_right (by decide) hm
      exact_mod_cast this
    have hb1 := hb.2.1
    split
    · rename_i hc
      by_contra hcon
      have := hmono (absBytes v) (by omega)
      omega
    · by_contra hcon
      have := hmono k (by omega)
      omega

/-- C25, exactly where it fails: for a negative integer the result is the shortest form iff the magnitude exceeds half of
256^L, where L is the number of bytes of the magnitude. -/
theorem C25_minimal_negative_iff_partial (v : Int) (hv : v < 0) (L : Nat) (hlo : 256 ^ (L - 1) ≤ v.natAbs)
    (hhi : v.natAbs < 256 ^ L) :
    ∃ b, toByteArray v true = .ok b ∧ b.length = L + 1 ∧ (IsMinimalTwos b v ↔ 256 ^ L < 2 * v.natAbs) := by
  obtain ⟨b, n, h1, h2, h3, h4⟩ := toByteArray_signed v
  have hL : absBytes v = L := by
    have ha := natAbs_lt v
    obtain ⟨k, hk, hkv⟩ := abs_ge v (by omega)
    by_contra hne
    rcases Nat.lt_or_gt_of_ne hne with h | h
    · have : (256 : Nat) ^ absBytes v ≤ 256 ^ (L - 1) := Nat.pow_le_pow_right (by decide) (by omega)
      omega
    · have : (256 : Nat) ^ L ≤ 256 ^ k := Nat.pow_le_pow_right (by decide) (by omega)
      omega
  rw [if_neg (by omega), if_pos (.inl hv), hL] at h4
  refine ⟨b, h1, by omega, ?_⟩
  have hcL := cast_pow256 L
  constructor
  · rintro ⟨_, _, hmin⟩
    by_contra hcon
    have hLpos : L ≠ 0 := by rintro rfl; simp at hhi; omega
    have hfit : -(256 ^ L : Int) ≤ 2 * v ∧ 2 * v < 256 ^ L := by
      have := pow256_pos L
      have : (2 * v.natAbs : Int) ≤ 256 ^ L := by rw [← hcL]; exact_mod_cast Nat.not_lt.mp hcon
      omega
    have hok : intToBytes v L .little true = .ok (natToLE L (v % 256 ^ L).toNat) := by
      unfold intToBytes; rw [if_pos rfl, if_pos hfit]; rfl
    have hlen := intToBytes_length hok
    have := hmin _ (by intro h; rw [h] at hlen; simp at hlen; omega) (isTwos_of_toBytes hok)
    rw [hlen] at this
    omega
  · intro hc
    have hc' : (256 ^ L : Int) < 2 * v.natAbs := by rw [← hcL]; exact_mod_cast hc
    refine ⟨by rintro rfl; simp at h3; omega, isTwos_of_toBytes h2, fun b' hb' hb => ?_⟩
    rw [h3, h4]
    by_contra hcon
    have : (256 ^ b'.length : Int) ≤ 256 ^ L := by
      have : (256 ^ b'.length : Nat) ≤ 256 ^ L := Nat.pow_le_pow_right (by decide) (by omega)
      exact_mod_cast this
    have := hb.1
    omega

example : (-1 : Int) < 0 ∧ 256 ^ (1 - 1) ≤ (-1 : Int).natAbs ∧ (-1 : Int).natAbs < 256 ^ 1 := by decide

/-- C25 fails, for example, for -1: the code answers ff ff where the shortest form is ff. -/
theorem C25_minus_one_violated : toByteArray (-1) true = .ok [0xff, 0xff] ∧ IsTwos [0xff] (-1) := by
  refine ⟨by decide +kernel, ?_⟩
  unfold IsTwos leNumber
  decide

/-! ### C26 -/

/-- Every dynamically typed argument that is an integer (an int, a bool, another BigInteger). -/
private theorem binop_int (op : Int → Int → Except Err Int) (a : Int) (v : Val) (b : Int) (hv : v.index? = some b) :
    binop op a v = match op a b with | .ok r => .ok (.bigInteger r) | .error e => .error e := by
  rw [binop, hv]
  cases h : op a b <;> simp [h]

/-- C26. Addition, subtraction, multiplication, negation and absolute value are exact and yield BigIntegers. -/
theorem C26_ring_ops (a b : Int) (v : Val) (hv : v.index? = some b) :
    add a v = .ok (.bigInteger (a + b)) ∧ sub a v = .ok (.bigInteger (a - b)) ∧ mul a v = .ok (.bigInteger (a * b)) ∧
      neg a = .bigInteger (-a) ∧ BigInt.abs a = .bigInteger |a| := by
  refine ⟨?_, ?_, ?_, rfl, ?_⟩
  · rw [add, binop_int _ _ _ _ hv]
  · rw [sub, binop_int _ _ _ _ hv]
  · rw [mul, binop_int _ _ _ _ hv]
  · rw [BigInt.abs, Int.abs_eq_natAbs]

/-- C26. `//`, `/` and `%` with a nonzero divisor: `q` and `r` satisfy `a = q * b + r` with `|r| < |b|` and `r` zero or of
the sign of `b` — which determines them — and `/` equals `//`. -/
theorem C26_division (a b : Int) (v : Val) (hv : v.index? = some b) (hb : b ≠ 0) :
    ∃ q r, truediv a v = .ok (.bigInteger q) ∧ floordiv a v = .ok (.bigInteger q) ∧ mod a v = .ok (.bigInteger r) ∧
      a = q * b + r ∧ |r| < |b| ∧ (r = 0 ∨ (0 < r ∧ 0 < b) ∨ (r < 0 ∧ b < 0)) ∧
      ∀ q' r', a = q' * b + r' → |r'| < |b| → (r' = 0 ∨ (0 < r' ∧ 0 < b) ∨ (r' < 0 ∧ b < 0)) → q' = q ∧ r' = r := by
  have hsum : a.fmod b + b * a.fdiv b = a := Int.fmod_add_mul_fdiv a b
  have hr : (0 ≤ a.fmod b ∧ a.fmod b < b ∧ 0 < b) ∨ (b < a.fmod b ∧ a.fmod b ≤ 0 ∧ b < 0) := by
    rcases lt_or_gt_of_ne hb with h | h
    · right
      have h1 := Int.fmod_nonneg_of_pos (-a) (show 0 < -b by omega)
      have h2 := Int.fmod_lt_of_pos (-a) (show 0 < -b by omega)
      rw [Int.neg_fmod_neg] at h1 h2
      exact ⟨by omega, by omega, h⟩
    · left
      exact ⟨Int.fmod_nonneg_of_pos a h, Int.fmod_lt_of_pos a h, h⟩
  refine ⟨a.fdiv b, a.fmod b, ?_, ?_, ?_, by linarith [mul_comm b (a.fdiv b)], ?_, ?_, ?_⟩
  · rw [truediv, binop_int _ _ _ _ hv, if_neg hb]
  · rw [floordiv, binop_int _ _ _ _ hv, if_neg hb]
  · rw [mod, binop_int _ _ _ _ hv, if_neg hb]
  · rcases hr with h | h
    · rw [abs_of_nonneg h.1, abs_of_pos h.2.2]; exact h.2.1
    · rw [abs_of_nonpos h.2.1, abs_of_neg h.2.2]; omega
  · omega
  · intro q' r' h1 h2 h3
    have hmul : (q' - a.fdiv b) * b = a.fmod b - r' := by linarith [mul_comm b (a.fdiv b), sub_mul q' (a.fdiv b) b]
    have hz : q' - a.fdiv b = 0 := by
      by_contra hne
      have habs : |b| ≤ |a.fmod b - r'| := by
        rw [← hmul, abs_mul]
        have : 1 ≤ |q' - a.fdiv b| := Int.one_le_abs hne
        nlinarith [abs_nonneg b]
      have : |a.fmod b - r'| < |b| := by
        rcases hr with h | h
        · rw [abs_of_pos h.2.2] at h2 ⊢
          rw [abs_lt] at h2 ⊢
          omega
        · rw [abs_of_neg h.2.2] at h2 ⊢
          rw [abs_lt] at h2 ⊢
          omega
      omega
    have hq : q' = a.fdiv b := by omega
    refine ⟨hq, ?_⟩
    rw [hz] at hmul
    omega

example : (Val.bigInteger (-7)).index? = some (-7) ∧ (-7 : Int) ≠ 0 := by decide

/-- C26. The quotient is the floor of the rational quotient. -/
theorem C26_floor (a b : Int) (v : Val) (hv : v.index? = some b) (hb : b ≠ 0) :
    truediv a v = .ok (.bigInteger ⌊(a : Rat) / (b : Rat)⌋) := by
  obtain ⟨q, r, h1, _, _, h2, h3, h4, _⟩ := C26_division a b v hv hb
  rw [h1]
  congr 2
  symm
  rw [Int.floor_eq_iff]
  have e : (a : Rat) = q * b + r := by exact_mod_cast h2
  have hb' : (b : Rat) ≠ 0 := by exact_mod_cast hb
  have hq : (a : Rat) / b = q + r / b := by rw [e]; field_simp
  rw [hq]
  rcases lt_or_gt_of_ne hb with hneg | hpos
  · have hbn : (b : Rat) < 0 := by exact_mod_cast hneg
    rw [abs_of_neg hneg, abs_lt] at h3
    have hr0 : (r : Rat) ≤ 0 := by
      have : r ≤ 0 := by omega
      exact_mod_cast this
    have hrb : (b : Rat) < r := by
      have : b < r := by omega
      exact_mod_cast this
    have := div_nonneg_of_nonpos hr0 hbn.le
    have : (r : Rat) / b < 1 := by rw [div_lt_one_of_neg hbn]; exact hrb
    constructor <;> linarith
  · have hbn : (0 : Rat) < b := by exact_mod_cast hpos
    rw [abs_of_pos hpos, abs_lt] at h3
    have hr0 : (0 : Rat) ≤ r := by
      have : 0 ≤ r := by omega
      exact_mod_cast this
    have hrb : (r : Rat) < b := by
      have : r < b := by omega
      exact_mod_cast this
    have := div_nonneg hr0 hbn.le
    have : (r : Rat) / b < 1 := by rw [div_lt_one hbn]; exact hrb
    constructor <;> linarith

/-- C26. Shifts: left multiplies by a power of two, right is the floor of the division by it. -/
theorem C26_shifts (a : Int) (v : Val) (n : Nat) (hv : v.index? = some (n : Int)) :
    lshift a v = .ok (.bigInteger (a * 2 ^ n)) ∧
      ∃ q, rshift a v = .ok (.bigInteger q) ∧ q * 2 ^ n ≤ a ∧ a < (q + 1) * 2 ^ n := by
  refine ⟨?_, a >>> n, ?_, ?_, ?_⟩
  · rw [lshift, binop_int _ _ _ _ hv, if_neg (by omega), Int.toNat_natCast]
  · rw [rshift, binop_int _ _ _ _ hv, if_neg (by omega), Int.toNat_natCast]
  · rw [Int.shiftRight_eq_div_pow]
    exact Int.ediv_mul_le _ (by positivity)
  · rw [Int.shiftRight_eq_div_pow]
    exact_mod_cast Int.lt_ediv_add_one_mul_self a (by positivity)

example : (Val.bool true).index? = some ((1 : Nat) : Int) := rfl

/-- C26. Division by zero, negative shift counts and arguments that are no integers raise. -/
theorem C26_errors (a b : Int) (v : Val) :
    (v.index? = some 0 → truediv a v = .error .zeroDivision ∧ floordiv a v = .error .zeroDivision ∧
      mod a v = .error .zeroDivision) ∧
    (v.index? = some b → b < 0 → lshift a v = .error .valueError ∧ rshift a v = .error .valueError) ∧
    (v.index? = none → add a v = .error .typeError ∧ sub a v = .error .typeError ∧ mul a v = .error .typeError ∧
      truediv a v = .error .typeError ∧ floordiv a v = .error .typeError ∧ mod a v = .error .typeError ∧
      lshift a v = .error .typeError ∧ rshift a v = .error .typeError) := by
  refine ⟨fun h => ?_, fun h hb => ?_, fun h => ?_⟩
  · simp [truediv, floordiv, mod, binop, h]
  · simp [lshift, rshift, binop, h, hb]
  · simp [add, sub, mul, truediv, floordiv, mod, lshift, rshift, binop, h]

/-- C26. `Sign` is the sign. -/
theorem C26_sign (a : Int) : BigInt.sign a = Int.sign a := by
  unfold BigInt.sign
  rcases lt_trichotomy a 0 with h | h | h
  · rw [if_neg (by omega), if_neg (by omega), Int.sign_eq_neg_one_of_neg h]
  · subst h; rfl
  · rw [if_pos h, Int.sign_eq_one_of_pos h]

end Neo.Props
