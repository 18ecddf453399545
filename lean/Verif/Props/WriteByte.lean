import Verif.Props.Ints
import Verif.Proofs.Utf8

/-!
# C02 (default byte order) and C194 (WriteByte)
-/

namespace Neo.Props
open Py Spec Writer Reader

/-- A numeric method called without a byte order: the writer and the reader of each kind. -/
def writeKindDefault : IntKind → Val → IOM Nat
  | .i8, v => writeInt8 v
  | .u8, v => writeUInt8 v
  | .i16, v => writeInt16 v
  | .u16, v => writeUInt16 v
  | .i32, v => writeInt32 v
  | .u32, v => writeUInt32 v
  | .i64, v => writeInt64 v
  | .u64, v => writeUInt64 v

@[inherit_doc writeKindDefault]
def readKindDefault : IntKind → IOM Int
  | .i8 => readInt8
  | .u8 => readUInt8
  | .i16 => readInt16
  | .u16 => readUInt16
  | .i32 => readInt32
  | .u32 => readUInt32
  | .i64 => readInt64
  | .u64 => readUInt64

/-- C02. Without a byte order every method writes and reads the two's complement least significant byte first. -/
theorem C02_default_order (k : IntKind) (v : Val) (n : Int) (hv : v.index? = some n) (hlo : k.min ≤ n) (hhi : n ≤ k.max) :
    ∃ bs, TwosComplementLE k.bytes n bs ∧ Appends (writeKindDefault k v) k.bytes bs ∧ Yields (readKindDefault k) bs n := by
  have e1 : writeKindDefault k v = writeKind k v .little := by cases k <;> rfl
  have e2 : readKindDefault k = readKind k .little := by cases k <;> rfl
  obtain ⟨bs, ht, ha, -⟩ := C02_int_layout k v n hv hlo hhi
  obtain ⟨bs', -, ha', hy⟩ := C01_int_roundtrip k .little v n hv hlo hhi
  rw [(ha'.unique ha).2] at hy
  rw [e1, e2]
  exact ⟨bs, ht, ha, hy⟩

example : ∃ bs, TwosComplementLE 4 (-2) bs ∧ Appends (writeInt32 (.int (-2))) 4 bs ∧ Yields readInt32 bs (-2) :=
  C02_default_order .i32 (.int (-2)) (-2) rfl (by decide) (by decide)

/-! ### C194 -/

private theorem appends_write_unit (b : Bytes) :
    Appends ((do let _ ← Stream.write b; return ()) : IOM Unit) () b := by
  have := appends_bind (f := fun _ => (pure () : IOM Unit)) (appends_write b) (appends_pure ())
  simpa using this

/-- C194, what WriteByte does with every argument: a bytes object is written as it is, whatever its length; a text is written as
its UTF-8 bytes; an int from 0 to 255 is written as one byte, any other raises ValueError and nothing is written; any other object
is dropped without a word. -/
theorem C194_writeByte_effect (v : Val) :
    match v with
    | .bytes b => Appends (writeByte (.bytes b)) () b
    | .str s => Appends (writeByte (.str s)) () (utf8 s)
    | .int n => (0 ≤ n ∧ n ≤ 255 → ∃ b : UInt8, (b.toNat : Int) = n ∧ Appends (writeByte (.int n)) () [b]) ∧
        (n < 0 ∨ 255 < n → RaisesCleanly (writeByte (.int n)) .valueError)
    | v => Appends (writeByte v) () [] := by
  cases v with
  | bytes b => exact appends_write_unit b
  | str s => exact appends_write_unit (utf8 s)
  | int n =>
    refine ⟨fun h => ⟨UInt8.ofNat n.toNat, ?_, ?_⟩, fun h s => ?_⟩
    · simp; omega
    · simp only [writeByte, if_pos h]
      exact appends_write_unit _
    · simp only [writeByte, if_neg (show ¬ (0 ≤ n ∧ n ≤ 255) by omega)]
      rfl
  | _ => exact appends_pure ()

/-- The first character decides: a text is one byte in UTF-8 exactly if it is one ASCII character. -/
private theorem utf8_length_one (s : Str) : (utf8 s).length = 1 ↔ ∃ c : Char, s = [c] ∧ c.toNat < 128 := by
  have hpos : ∀ c : Char, 1 ≤ (String.utf8EncodeChar c).length ∧ ((String.utf8EncodeChar c).length = 1 ↔ c.toNat < 128) := by
    intro c
    rw [String.length_utf8EncodeChar]
    have h := c.utf8Size_eq
    have h1 := Char.utf8Size_eq_one_iff (c := c)
    refine ⟨by omega, h1.trans ?_⟩
    show c.val ≤ 127 ↔ c.val.toNat < 128
    rw [UInt32.le_iff_toNat_le]
    simp only [UInt32.reduceToNat]
    omega
  match s with
  | [] => simp [utf8]
  | [c] => simpa [utf8] using (hpos c).2
  | c :: d :: s =>
    have h1 := (hpos c).1
    have h2 := (hpos d).1
    constructor
    · intro h
      simp only [utf8, List.flatMap_cons, List.length_append] at h
      omega
    · rintro ⟨_, h, _⟩
      simp at h

/-- The arguments of which WriteByte writes a single byte. -/
def OneByte : Val → Prop
  | .bytes b => b.length = 1
  | .str s => ∃ c : Char, s = [c] ∧ c.toNat < 128
  | .int n => 0 ≤ n ∧ n ≤ 255
  | _ => False

/-- C194, exact: a single byte is appended exactly for a bytes object of one byte, a text of one ASCII character and a (plain) int
from 0 to 255. -/
theorem C194_single_byte_iff_partial (v : Val) : (∃ b, Appends (writeByte v) () [b]) ↔ OneByte v := by
  have h := C194_writeByte_effect v
  cases v with
  | bytes b =>
    refine ⟨fun ⟨c, hc⟩ => ?_, fun hb => ?_⟩
    · show b.length = 1
      rw [(h.unique hc).2]; rfl
    · obtain ⟨c, rfl⟩ := List.length_eq_one_iff.mp hb
      exact ⟨c, h⟩
  | str s =>
    refine ⟨fun ⟨c, hc⟩ => (utf8_length_one s).mp ?_, fun hs => ?_⟩
    · rw [(h.unique hc).2]; rfl
    · obtain ⟨c, hc⟩ := List.length_eq_one_iff.mp ((utf8_length_one s).mpr hs)
      exact ⟨c, hc ▸ h⟩
  | int n =>
    refine ⟨fun ⟨c, hc⟩ => ?_, fun hn => ?_⟩
    · by_contra hn
      have hn : ¬ (0 ≤ n ∧ n ≤ 255) := hn
      have := h.2 (by omega) ⟨[], 0⟩
      have hc := hc []
      rw [show (⟨[], ([] : Bytes).length⟩ : Stream) = ⟨[], 0⟩ from rfl, this] at hc
      cases hc
    · obtain ⟨b, -, hb⟩ := h.1 hn
      exact ⟨b, hb⟩
  | _ =>
    refine ⟨fun ⟨c, hc⟩ => ?_, fun hn => hn.elim⟩
    have := (h.unique hc).2
    cases this

/-- C194, exact: it raises exactly for a (plain) int outside 0..255, and then nothing is written. -/
theorem C194_raises_iff_partial (v : Val) :
    (∃ e, RaisesCleanly (writeByte v) e) ↔ ∃ n, v = .int n ∧ (n < 0 ∨ 255 < n) := by
  have hno : ∀ bs, Appends (writeByte v) () bs → ¬ ∃ e, RaisesCleanly (writeByte v) e := by
    rintro bs ha ⟨e, hr⟩
    have a := ha []
    rw [hr] at a
    cases a
  have h := C194_writeByte_effect v
  cases v with
  | int n =>
    constructor
    · intro he
      refine ⟨n, rfl, ?_⟩
      by_contra hn
      obtain ⟨b, -, hb⟩ := h.1 (by omega)
      exact hno _ hb he
    · rintro ⟨m, hm, hn⟩
      cases hm
      exact ⟨_, h.2 hn⟩
  | _ => exact ⟨fun he => absurd he (hno _ h), by rintro ⟨_, hm, _⟩; cases hm⟩

example : OneByte (.str ['A']) ∧ OneByte (.int 255) ∧ ¬ OneByte (.str ['é']) ∧ ¬ OneByte (.int 256) := by
  refine ⟨⟨'A', rfl, by decide⟩, ⟨by decide, by decide⟩, ?_, fun h => absurd h.2 (by decide)⟩
  rintro ⟨c, h, hc⟩
  cases h
  exact absurd hc (by decide)

/-- What is one byte is read back by ReadByte. -/
theorem C194_single_byte_read (v : Val) (h : OneByte v) :
    ∃ b, Appends (writeByte v) () [b] ∧ Yields readByte [b] (b.toNat : Int) := by
  obtain ⟨b, hb⟩ := (C194_single_byte_iff_partial v).mpr h
  refine ⟨b, hb, fun pre post => ?_⟩
  rw [readByte_some (b := b) (by simp)]
  simp

/-- C194 fails: one call writes any number of bytes, and a BigInteger, a bool, a bytearray or None, which hold a byte or not,
are dropped without an error. -/
theorem C194_violated :
    (∀ b : Bytes, Appends (writeByte (.bytes b)) () b) ∧
    (∀ n, Appends (writeByte (.bigInteger n)) () []) ∧ (∀ t, Appends (writeByte (.bool t)) () []) ∧
    (∀ b, Appends (writeByte (.bytearray b)) () []) ∧ Appends (writeByte .none) () [] :=
  ⟨fun b => C194_writeByte_effect (.bytes b), fun n => C194_writeByte_effect (.bigInteger n),
    fun t => C194_writeByte_effect (.bool t), fun b => C194_writeByte_effect (.bytearray b), C194_writeByte_effect .none⟩

end Neo.Props
