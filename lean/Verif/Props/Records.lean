import Verif.Props.Ints
import Verif.Props.Strings

/-!
# C15, C16: mixed records and serializable arrays
-/

namespace Neo.Props
open Py Spec Writer Reader

/-! ### C16 -/

theorem appends_serializeAll {ser : α → IOM Unit} {enc : α → Bytes} (xs : List α)
    (h : ∀ x ∈ xs, Appends (ser x) () (enc x)) : Appends (serializeAll ser xs) () (xs.flatMap enc) := by
  induction xs with
  | nil => exact appends_pure ()
  | cons x xs ih =>
    have := appends_bind (f := fun _ => serializeAll ser xs) (h x (by simp)) (ih fun y hy => h y (by simp [hy]))
    simpa [serializeAll] using this

theorem yields_deserializeUpTo {deser : IOM α} {enc : α → Bytes} (xs : List α)
    (h : ∀ x ∈ xs, Yields deser (enc x) x) : Yields (deserializeUpTo deser xs.length) (xs.flatMap enc) xs := by
  induction xs with
  | nil => exact yields_pure _
  | cons x xs ih =>
    intro pre post
    have h1 := h x (by simp) pre (xs.flatMap enc ++ post)
    have h2 := ih (fun y hy => h y (by simp [hy])) (pre ++ enc x) post
    simp only [List.append_assoc] at h1 h2
    simp only [List.length_cons, deserializeUpTo, List.flatMap_cons, List.append_assoc, h1, h2]

theorem appends_array {ser : α → IOM Unit} {enc : α → Bytes} (xs : List α) (hlen : xs.length < 2 ^ 64)
    (h : ∀ x ∈ xs, Appends (ser x) () (enc x)) :
    Appends (writeSerializableArray ser (some xs)) () (varIntBytes .little xs.length ++ xs.flatMap enc) :=
  appends_bind (appends_writeVarInt .little xs.length hlen) (appends_serializeAll xs h)

theorem yields_array {deser : IOM α} {enc : α → Bytes} (xs : List α) (max : Int) (hmax : (xs.length : Int) ≤ max)
    (hlen : xs.length < 2 ^ 64) (h : ∀ x ∈ xs, Yields deser (enc x) x) :
    Yields (readSerializableArray deser max) (varIntBytes .little xs.length ++ xs.flatMap enc) xs := by
  have := yields_bind (f := fun len : Int => deserializeUpTo deser len.toNat)
    (yields_readVarInt xs.length hlen max hmax) (by simpa using yields_deserializeUpTo xs h)
  simpa [readSerializableArray] using this

/-- C16. If for each item what its Serialize appends is read back by Deserialize as an equal item, then the whole array is
read back: the same items in the same order, ending exactly where the writing ended. -/
theorem C16_array_roundtrip (ser : α → IOM Unit) (deser : IOM α) (xs : List α) (max : Int)
    (hmax : (xs.length : Int) ≤ max) (hlen : xs.length < 2 ^ 64)
    (hitems : ∀ x ∈ xs, ∃ bs, Appends (ser x) () bs ∧ Yields deser bs x) :
    RoundTrip (writeSerializableArray ser (some xs)) (readSerializableArray deser max) xs := by
  classical
  let enc : α → Bytes := fun x => if h : ∃ bs, Appends (ser x) () bs ∧ Yields deser bs x then h.choose else []
  have henc : ∀ x ∈ xs, Appends (ser x) () (enc x) ∧ Yields deser (enc x) x := by
    intro x hx
    have h := hitems x hx
    simp only [enc, dif_pos h]
    exact h.choose_spec
  exact ⟨(), _, appends_array xs hlen fun x hx => (henc x hx).1, yields_array xs max hmax hlen fun x hx => (henc x hx).2⟩

/-- C16. A missing (`None`) array is written as one zero byte and read back as the empty array. -/
theorem C16_none_array (ser : α → IOM Unit) (deser : IOM β) (max : Int) :
    RoundTrip (writeSerializableArray ser none) (readSerializableArray deser max) ([] : List β) := by
  refine ⟨(), [0], appends_writeByte_int 0 (by omega), ?_⟩
  have := yields_bind (f := fun len : Int => deserializeUpTo deser len.toNat) (yields_readVarInt_zero max)
    (v' := []) (b' := []) (yields_pure _)
  simpa [readSerializableArray] using this

/-- `Chain deser s xs s'`: deserializing repeatedly from `s` gives the items `xs` one after another and ends at `s'`. -/
inductive Chain (deser : IOM α) : Stream → List α → Stream → Prop where
  | nil (s) : Chain deser s [] s
  | cons {s s1 s2 x xs} : deser s = (.ok x, s1) → Chain deser s1 xs s2 → Chain deser s (x :: xs) s2

/-- C16. On any stream: once the count `n` has been read, the array read never raises; it returns the items that
deserialize one after another, all `n` of them, or those before the first item whose Deserialize raises. -/
theorem C16_array_stops_at_first_failure (deser : IOM α) (max : Int) (s s1 : Stream) (n : Int)
    (hcount : readVarInt max s = (.ok n, s1)) :
    ∃ xs s', readSerializableArray deser max s = (.ok xs, s') ∧
      ((xs.length = n.toNat ∧ Chain deser s1 xs s') ∨
       (xs.length < n.toNat ∧ ∃ s2 e, Chain deser s1 xs s2 ∧ deser s2 = (.error e, s'))) := by
  have key : ∀ (k : Nat) (t : Stream), ∃ xs t', deserializeUpTo deser k t = (.ok xs, t') ∧
      ((xs.length = k ∧ Chain deser t xs t') ∨
       (xs.length < k ∧ ∃ t2 e, Chain deser t xs t2 ∧ deser t2 = (.error e, t'))) := by
    intro k
    induction k with
    | zero => intro t; exact ⟨[], t, rfl, .inl ⟨rfl, .nil t⟩⟩
    | succ k ih =>
      intro t
      cases hd : deser t with
      | mk r t1 =>
        cases r with
        | error e =>
          exact ⟨[], t1, by simp [deserializeUpTo, hd], .inr ⟨by simp, t, e, .nil t, hd⟩⟩
        | ok x =>
          obtain ⟨xs, t', h1, h2⟩ := ih t1
          refine ⟨x :: xs, t', by simp [deserializeUpTo, hd, h1], ?_⟩
          rcases h2 with ⟨hl, hc⟩ | ⟨hl, t2, e, hc, he⟩
          · exact .inl ⟨by simp [hl], .cons hd hc⟩
          · exact .inr ⟨by simp [hl], t2, e, .cons hd hc, he⟩
  obtain ⟨xs, s', h1, h2⟩ := key n.toNat s1
  exact ⟨xs, s', (IOM.bind_ok hcount).trans h1, h2⟩

/-- C16. At most `max` items are ever returned. -/
theorem C16_array_bounded (deser : IOM α) (max : Int) (hmax : 0 ≤ max) (s s' : Stream) (xs : List α)
    (h : readSerializableArray deser max s = (.ok xs, s')) : (xs.length : Int) ≤ max := by
  cases hv : readVarInt max s with
  | mk r s1 =>
    cases r with
    | error e => unfold readSerializableArray at h; rw [IOM.bind_err hv] at h; simp at h
    | ok n =>
      have hb := C07_readVarInt_bounded max n hmax _ _ hv
      obtain ⟨ys, t, h1, h2⟩ := C16_array_stops_at_first_failure deser max s s1 n hv
      rw [h] at h1
      simp only [Prod.mk.injEq, Except.ok.injEq] at h1
      obtain ⟨rfl, rfl⟩ := h1
      rcases h2 with ⟨hl, _⟩ | ⟨hl, _⟩ <;> omega

example : (readSerializableArray readUInt16 10 ⟨[3, 1, 0, 2, 0, 3], 0⟩).1 = .ok [1, 2] := by decide

/-! ### C15 -/

/-- Field types of a record. -/
inductive Ty where
  | int (k : IntKind) (e : Endian)
  | varInt | varBytes | varString | bool | char | double (e : Endian) | uint160 | uint256 | fixed8 | hashes
  | unit | pair (a b : Ty) | array (a : Ty)

/-- Values of a field as the client holds them. -/
def Ty.Value : Ty → Type
  | .int _ _ => Int
  | .varInt => Int
  | .varBytes => Bytes
  | .varString => Bytes
  | .bool => Bool
  | .char => UInt8
  | .double _ => UInt64
  | .uint160 => Bytes
  | .uint256 => Bytes
  | .fixed8 => Int
  | .hashes => List Bytes
  | .unit => Unit
  | .pair a b => a.Value × b.Value
  | .array a => List a.Value

/-- Write a field with the writer method of its type (`hashes`: the hex strings of the hashes). -/
def Ty.write : (t : Ty) → t.Value → IOM Unit
  | .int k e, (n : Int) => writeKind k (.int n) e >>= fun _ => pure ()
  | .varInt, (n : Int) => writeVarInt (.int n) >>= fun _ => pure ()
  | .varBytes, (b : Bytes) => writeVarBytes b >>= fun _ => pure ()
  | .varString, (b : Bytes) => writeVarString (.bytes b)
  | .bool, (b : Bool) => writeBool (.bool b) >>= fun _ => pure ()
  | .char, (c : UInt8) => writeChar (.bytes [c]) >>= fun _ => pure ()
  | .double e, (d : UInt64) => writeDouble d e >>= fun _ => pure ()
  | .uint160, (d : Bytes) => writeUInt160 (.uint .u160 d)
  | .uint256, (d : Bytes) => writeUInt256 (.uint .u256 d)
  | .fixed8, (n : Int) => writeFixed8 n >>= fun _ => pure ()
  | .hashes, (l : List Bytes) => writeHashes (l.map fun d => .str (hexStr d))
  | .unit, _ => pure ()
  | .pair a b, (x, y) => a.write x >>= fun _ => b.write y
  | .array a, xs => writeSerializableArray a.write (some xs)

/-- What the reader method of each type returns. -/
def Ty.Result : Ty → Type
  | .char => Bytes
  | .hashes => List Str
  | .pair a b => a.Result × b.Result
  | .array a => List a.Result
  | .int _ _ => Int
  | .varInt => Int
  | .varBytes => Bytes
  | .varString => Bytes
  | .bool => Bool
  | .double _ => UInt64
  | .uint160 => Bytes
  | .uint256 => Bytes
  | .fixed8 => Int
  | .unit => Unit

/-- Read a field with the reader method of its type, default arguments. -/
def Ty.read : (t : Ty) → IOM t.Result
  | .int k e => readKind k e
  | .varInt => readVarInt
  | .varBytes => readVarBytes
  | .varString => readVarString
  | .bool => readBool
  | .char => readChar
  | .double e => readDouble e
  | .uint160 => readUInt160
  | .uint256 => readUInt256
  | .fixed8 => readFixed8
  | .hashes => readHashes
  | .unit => (pure () : IOM Unit)
  | .pair a b => a.read >>= fun x => b.read >>= fun y => (pure (x, y) : IOM (a.Result × b.Result))
  | .array a => readSerializableArray a.read

/-- The value the client expects to get back. -/
def Ty.same : (t : Ty) → t.Value → t.Result
  | .char, (c : UInt8) => [c]
  | .hashes, (l : List Bytes) => l.map hexStr
  | .pair a b, (x, y) => (a.same x, b.same y)
  | .array a, xs => xs.map a.same
  | .int _ _, (n : Int) => n
  | .varInt, (n : Int) => n
  | .varBytes, (b : Bytes) => b
  | .varString, (b : Bytes) => b
  | .bool, (b : Bool) => b
  | .double _, (d : UInt64) => d
  | .uint160, (d : Bytes) => d
  | .uint256, (d : Bytes) => d
  | .fixed8, (n : Int) => n
  | .unit, _ => ()

/-- Values in the domain of their type: integers in range, byte strings and lists no longer than sys.maxsize, 20- and
32-byte contents; and — because of the known defect of `WriteBytes` (C11) — UInt and hash contents which are not hex text. -/
def Ty.Valid : (t : Ty) → t.Value → Prop
  | .int k _, (n : Int) => k.min ≤ n ∧ n ≤ k.max
  | .varInt, (n : Int) => 0 ≤ n ∧ n ≤ maxsize
  | .varBytes, (b : Bytes) => (b.length : Int) ≤ maxsize
  | .varString, (b : Bytes) => (b.length : Int) ≤ maxsize
  | .bool, _ => True
  | .char, _ => True
  | .double _, _ => True
  | .uint160, (d : Bytes) => d.length = 20 ∧ ¬ HexText d
  | .uint256, (d : Bytes) => d.length = 32 ∧ ¬ HexText d
  | .fixed8, (n : Int) => -9223372036854775808 ≤ n ∧ n ≤ 9223372036854775807
  | .hashes, (l : List Bytes) => (l.length : Int) ≤ maxsize ∧ (∀ d ∈ l, d.length = 32) ∧ ∀ d ∈ l, ¬ HexText d
  | .unit, _ => True
  | .pair a b, (x, y) => a.Valid x ∧ b.Valid y
  | .array a, xs => (List.length (α := a.Value) xs : Int) ≤ maxsize ∧ ∀ x, List.Mem (α := a.Value) x xs → a.Valid x

theorem roundtrip_unit {m : IOM α} {rd : IOM β} {v : β} (h : RoundTrip m rd v) :
    ∃ bs, Appends (m >>= fun _ => (pure () : IOM Unit)) () bs ∧ Yields rd bs v := by
  obtain ⟨r, bs, h1, h2⟩ := h
  have := appends_bind (f := fun _ => (pure () : IOM Unit)) h1 (appends_pure ())
  exact ⟨bs, by simpa using this, h2⟩

theorem yields_deserializeUpTo_map {deser : IOM β} {enc : α → Bytes} {f : α → β} (xs : List α)
    (h : ∀ x ∈ xs, Yields deser (enc x) (f x)) :
    Yields (deserializeUpTo deser xs.length) (xs.flatMap enc) (xs.map f) := by
  induction xs with
  | nil => exact yields_pure _
  | cons x xs ih =>
    intro pre post
    have h1 := h x (by simp) pre (xs.flatMap enc ++ post)
    have h2 := ih (fun y hy => h y (by simp [hy])) (pre ++ enc x) post
    simp only [List.append_assoc] at h1 h2
    simp only [List.length_cons, deserializeUpTo, List.flatMap_cons, List.append_assoc, h1, h2, List.map_cons]

/-- C15. Any record — any nesting of fields, pairs (hence sequences of fields of any length) and arrays — is read back
field by field with the matching methods, and the reading ends exactly where the writing ended, whatever follows. The
excluded contents (hex text in UInt and hash fields) are those of the defect proved in C12/C17. -/
theorem C15_records_partial (t : Ty) (v : t.Value) (hv : t.Valid v) :
    ∃ bs, Appends (t.write v) () bs ∧ Yields t.read bs (t.same v) := by
  induction t with
  | int k e =>
    obtain ⟨bs, _, h1, h2⟩ := C01_int_roundtrip k e (.int v) v rfl hv.1 hv.2
    exact roundtrip_unit ⟨_, bs, h1, h2⟩
  | varInt =>
    have key : ∀ z : Int, 0 ≤ z → z ≤ maxsize → RoundTrip (writeVarInt (.int z)) readVarInt z := by
      intro z h0 h1
      obtain ⟨n, rfl⟩ : ∃ n : Nat, z = n := ⟨z.toNat, by omega⟩
      exact C03_varint_roundtrip n (by simp only [maxsize] at h1; omega) maxsize h1
    exact roundtrip_unit (key v hv.1 hv.2)
  | varBytes => exact roundtrip_unit (C08_varbytes_roundtrip v maxsize hv hv)
  | varString =>
    obtain ⟨r, bs, h1, h2⟩ := (C09_varstring_bytes_roundtrip v maxsize hv hv).1
    exact ⟨bs, h1, h2⟩
  | bool =>
    obtain ⟨bs, _, h1, h2⟩ := C21_bool_roundtrip (.bool v)
    exact roundtrip_unit ⟨_, bs, h1, h2⟩
  | char => exact roundtrip_unit ⟨_, [v], (C21_char_roundtrip v).1, (C21_char_roundtrip v).2⟩
  | double e =>
    obtain ⟨bs, _, h1, h2⟩ := C21_double_roundtrip v e
    exact roundtrip_unit ⟨_, bs, h1, h2⟩
  | uint160 =>
    obtain ⟨h1, h2⟩ := (C12_uint_roundtrip_partial v hv.2).1 hv.1
    exact ⟨v, h1, h2⟩
  | uint256 =>
    obtain ⟨h1, h2⟩ := (C12_uint_roundtrip_partial v hv.2).2 hv.1
    exact ⟨v, h1, h2⟩
  | fixed8 =>
    obtain ⟨bs, _, h1, h2⟩ := C19_fixed8_roundtrip v hv.1 hv.2
    exact roundtrip_unit ⟨_, bs, h1, h2⟩
  | hashes =>
    obtain ⟨r, bs, h1, h2⟩ := C17_hashes_roundtrip_partial v hv.2.1 hv.2.2 hv.1
    exact ⟨bs, h1, h2⟩
  | unit => exact ⟨[], appends_pure (), yields_pure ()⟩
  | pair a b iha ihb =>
    obtain ⟨x, y⟩ := v
    obtain ⟨bs1, h1, h2⟩ := iha x hv.1
    obtain ⟨bs2, h3, h4⟩ := ihb y hv.2
    refine ⟨bs1 ++ bs2, appends_bind h1 h3, ?_⟩
    have h5 := yields_bind (f := fun y' => (pure (a.same x, y') : IOM (a.Result × b.Result))) h4 (yields_pure _)
    rw [List.append_nil] at h5
    exact yields_bind h2 h5
  | array a ih =>
    change List a.Value at v
    obtain ⟨hlen, hall⟩ : (List.length v : Int) ≤ maxsize ∧ ∀ x ∈ v, a.Valid x := hv
    have hl64 : List.length v < 2 ^ 64 := by simp only [maxsize] at hlen; omega
    classical
    let enc : a.Value → Bytes := fun x => if h : a.Valid x then (ih x h).choose else []
    have henc : ∀ x ∈ v, Appends (a.write x) () (enc x) ∧ Yields a.read (enc x) (a.same x) := by
      intro x hx
      have h := hall x hx
      simp only [enc, dif_pos h]
      exact (ih x h).choose_spec
    refine ⟨_, appends_array v hl64 (fun x hx => (henc x hx).1), ?_⟩
    have := yields_bind (f := fun len : Int => deserializeUpTo a.read len.toNat)
      (yields_readVarInt (List.length v) hl64 maxsize hlen)
      (by simpa using yields_deserializeUpTo_map v (fun x hx => (henc x hx).2))
    exact this

/-- C15 fails for records with a UInt160 whose 20 bytes are the ASCII text of a hexadecimal number: written without an error, the
record cannot be read back; with another such field behind it, the first field is read from the bytes of both. -/
theorem C15_hex_violated (d e : Bytes) (hd : d.length = 20 ∧ HexText d) (he : e.length = 20 ∧ HexText e) :
    (∃ bs, Appends (Ty.uint160.write d) () bs ∧ ∀ pre, (Ty.uint160.read ⟨pre ++ bs, pre.length⟩).1 = .error .exc) ∧
    ∃ bs, Appends ((Ty.pair .uint160 .uint160).write (d, e)) () bs ∧ bs.length = 20 ∧
      (Ty.uint160.read ⟨bs, 0⟩).1 = .ok bs ∧ ((Ty.pair .uint160 .uint160).read ⟨bs, 0⟩).1 = .error .exc := by
  obtain ⟨r, hr, h1, h2⟩ := C12_uint160_hex_violated d hd.1 hd.2
  obtain ⟨r', hr', h3, h4⟩ := C12_uint160_hex_violated e he.1 he.2
  refine ⟨⟨r, h1, h2⟩, r ++ r', appends_bind h1 h3, by simp [hr, hr'], ?_⟩
  have hl : (r ++ r').length = 20 := by simp [hr, hr']
  generalize r ++ r' = bs at hl
  have hy : Yields readUInt160 bs bs := yields_readUInt 20 bs hl (by decide)
  have hy := hy [] []
  simp only [List.nil_append, List.append_nil, List.length_nil] at hy
  refine ⟨congrArg Prod.fst hy, ?_⟩
  have h5 : (readUInt160 ⟨bs, bs.length⟩).1 = .error .exc := by
    unfold readUInt160 readBytes
    refine (congrArg Prod.fst (IOM.bind_ok (read_apply 20 _ (by decide)))).trans ?_
    simp [IOM.lift_apply, uintOfBytes]
  refine (congrArg Prod.fst (IOM.bind_ok hy)).trans ?_
  cases h6 : readUInt160 ⟨bs, bs.length⟩ with
  | mk a st =>
    rw [h6] at h5
    change a = _ at h5
    subst h5
    exact congrArg Prod.fst (IOM.bind_err h6)

example : ((List.replicate 20 (0x61 : UInt8)).length = 20 ∧ HexText (List.replicate 20 0x61)) := by
  refine ⟨by decide, by decide, ?_⟩
  intro c hc; rw [(List.mem_replicate.mp hc).2]; unfold IsHexDigit; decide

/-- A concrete record: a list of (Int16 big-endian, byte string) pairs followed by a hash. -/
example : (Ty.pair (.array (.pair (.int .i16 .big) .varBytes)) .uint256).Valid
    ([((-5 : Int), ([1, 2] : Bytes)), ((300 : Int), [])], List.replicate 32 7) := by
  refine ⟨⟨by decide, ?_⟩, by decide, ?_⟩
  · intro x hx
    rcases List.mem_cons.mp hx with rfl | hx
    · exact ⟨by show (-32768 : Int) ≤ -5 ∧ (-5 : Int) ≤ 32767; decide,
        by show (([1, 2] : Bytes).length : Int) ≤ maxsize; decide⟩
    rcases List.mem_cons.mp hx with rfl | hx
    · exact ⟨by show (-32768 : Int) ≤ 300 ∧ (300 : Int) ≤ 32767; decide,
        by show (([] : Bytes).length : Int) ≤ maxsize; decide⟩
    · cases hx
  · rintro ⟨_, h⟩
    exact absurd (h 7 (by decide)) (by unfold IsHexDigit; decide)

end Neo.Props
