import Verif.Props.VarInt
import Verif.Spec.Decode

/-!
# C225: ReadString
-/

namespace Neo.Props
open Py Neo.Reader Neo.Writer Spec

private theorem unpack_byte (x : UInt8) : structUnpackInt 'B' .little [x] = .ok (x.toNat : Int) := by
  have hc : fmtOfChar 'B' = some (.intFmt false 1) := by decide
  simp only [structUnpackInt, hc]
  simp [intFromBytes, Endian.arrange, leToNat]

private theorem yields_length (x : UInt8) : Yields readUInt8 [x] (x.toNat : Int) :=
  yields_unpackInt rfl (by norm_num) (unpack_byte x)

/-- C225. ReadString reads data of up to 255 bytes preceded by one byte with their number, and moves exactly past them. -/
theorem C225_reads (n : UInt8) (b : Bytes) (h : b.length = n.toNat) : Yields readString (n :: b) b := by
  have hn : n.toNat < 256 := n.toNat_lt
  have := yields_bind (f := fun l : Int => unpackStr l.toNat l.toNat) (yields_length n) (v' := b) (b' := b)
    (by rw [Int.toNat_natCast, ← h]; exact yields_unpackStr b (by simp only [maxsize]; omega))
  exact this

/-- The hypothesis is met, by the longest data too; 200 bytes are 200 bytes although 200 does not fit a signed byte. -/
example : (List.replicate 255 (7 : UInt8)).length = (255 : UInt8).toNat ∧ Yields readString (200 :: List.replicate 200 1) (List.replicate 200 1) :=
  ⟨List.length_replicate, C225_reads 200 _ List.length_replicate⟩

/-- C225. If the stream ends before, ReadString raises struct.error. -/
theorem C225_short (pre : Bytes) (n : UInt8) (b : Bytes) (h : b.length < n.toNat) :
    (readString ⟨pre ++ n :: b, pre.length⟩).1 = .error .structError ∧ (readString ⟨pre, pre.length⟩).1 = .error .structError := by
  have hn : n.toNat < 256 := n.toNat_lt
  constructor
  · have h1 := yields_length n pre b
    rw [show pre ++ [n] ++ b = pre ++ n :: b by simp] at h1
    have e : readString = readUInt8 >>= fun l : Int => unpackStr l.toNat l.toNat := rfl
    rw [e, IOM.bind_ok h1, Int.toNat_natCast]
    have h2 : Stream.read (n.toNat : Int) ⟨pre ++ n :: b, (pre ++ [n]).length⟩ = (.ok b, ⟨pre ++ n :: b, (pre ++ [n]).length + b.length⟩) := by
      have hd : List.drop (pre ++ [n]).length (pre ++ n :: b) = b := by
        rw [show pre ++ n :: b = (pre ++ [n]) ++ b by simp, List.drop_left]
      simp only [Stream.read, hd]
      rw [if_neg (by simp only [maxsize]; omega), if_neg (by omega), Int.toNat_natCast, List.take_of_length_le h.le]
    rw [unpackStr, IOM.bind_ok h2, if_neg (by omega)]
    rfl
  · have e : readString = readUInt8 >>= fun l : Int => unpackStr l.toNat l.toNat := rfl
    have h1 : readUInt8 .little ⟨pre, pre.length⟩ = (.error .structError, ⟨pre, pre.length⟩) := by
      have h2 : Stream.read (1 : Nat) ⟨pre, pre.length⟩ = (.ok [], ⟨pre, pre.length⟩) := by
        simp [Stream.read, maxsize]
      have h3 : structUnpackInt 'B' .little [] = .error .structError := by decide +kernel
      rw [readUInt8, unpackInt, IOM.bind_ok h2, h3]
      rfl
    rw [e, IOM.bind_err h1]

/-- The hypothesis is met by three bytes announced and two there. -/
example : ([1, 2] : Bytes).length < (3 : UInt8).toNat := by decide

/-- C225. Data and texts of fewer than 253 bytes written by WriteVarBytes and WriteVarString are read back by ReadString. -/
theorem C225_written (b : Bytes) (hb : b.length < 253) (t : Str) (ht : (utf8 t).length < 253) :
    RoundTrip (writeVarBytes b) readString b ∧ RoundTrip (writeVarString (.bytes b)) readString b ∧
    RoundTrip (writeVarString (.str t)) readString (utf8 t) := by
  have main : ∀ b : Bytes, b.length < 253 → Yields readString (varIntBytes .little b.length ++ b) b := by
    intro b hb
    rw [varIntBytes, if_pos (by omega)]
    exact C225_reads _ b (by rw [UInt8.toNat_ofNat']; omega)
  exact ⟨⟨_, _, appends_writeVarBytes b (by omega), main b hb⟩, ⟨_, _, appends_writeVarStringBytes b (by omega), main b hb⟩,
    ⟨_, _, appends_writeVarStringBytes (utf8 t) (by omega), main _ ht⟩⟩

/-- The hypotheses are met by the longest such data. -/
example : (List.replicate 252 (1 : UInt8)).length < 253 := by rw [List.length_replicate]; norm_num

end Neo.Props
