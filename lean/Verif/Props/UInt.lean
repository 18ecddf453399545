import Verif.Model.UInt
import Verif.Proofs.Hex
import Verif.Props.Strings

/-!
# C33–C36 (and the Serialize/Deserialize half of C12): UInt160 and UInt256
-/

namespace Spec

/-- Three-way comparison of numbers. -/
def cmp3 (a b : Nat) : Int := if a < b then -1 else if b < a then 1 else 0

end Spec

namespace Neo.Props
open Py Spec UInt

/-! ### C33 -/

private theorem drop2 (s : Str) : (if s.take 2 = ['0', 'x'] then s.drop 2 else s) = s ∨
    s = ['0', 'x'] ++ (if s.take 2 = ['0', 'x'] then s.drop 2 else s) := by
  by_cases h : s.take 2 = ['0', 'x']
  · right; rw [if_pos h, ← h, List.take_append_drop]
  · left; rw [if_neg h]

private theorem strip_plain (t : Str) (h : AllHex t) : (if t.take 2 = ['0', 'x'] then t.drop 2 else t) = t := by
  rw [if_neg]
  intro hx
  have : 'x' ∈ t := List.mem_of_mem_take (i := 2) (by rw [hx]; simp)
  exact absurd (h 'x' this) (by decide)

private theorem strip_0x (t : Str) : (if (['0', 'x'] ++ t).take 2 = ['0', 'x'] then (['0', 'x'] ++ t).drop 2
    else ['0', 'x'] ++ t) = t := by simp

/-- C33. `ParseString` succeeds exactly on `2·n` hex digits of either case, optionally preceded by `0x`, and the result is
then the `n`-byte little-endian form of the number the digits denote (n = 20 for UInt160, 32 for UInt256). -/
theorem C33_parse_iff (n : Nat) (s : Str) (d : Bytes) :
    parseString n s = .ok d ↔
      ∃ t, (s = t ∨ s = ['0', 'x'] ++ t) ∧ t.length = 2 * n ∧ AllHex t ∧ d.length = n ∧ leNumber d = hexNumber t := by
  constructor
  · intro h
    have hd2 := drop2 s
    unfold parseString at h
    simp only at h
    generalize (if s.take 2 = ['0', 'x'] then s.drop 2 else s) = v at h hd2
    by_cases hlen : v.length = 2 * n
    · rw [if_neg (by simp [hlen])] at h
      cases hdata : fromHex v with
      | error e => rw [hdata] at h; simp at h
      | ok data =>
        rw [hdata] at h
        simp only [construct] at h
        by_cases hl : data.reverse.length ≠ n
        · rw [if_pos hl] at h; simp at h
        · rw [if_neg hl] at h
          simp only [Except.ok.injEq] at h
          subst h
          have hl' : data.length = n := by simpa using hl
          obtain ⟨ha, hn⟩ := fromHex_tight hdata (by rw [hlen, hl'])
          refine ⟨v, ?_, hlen, ha, by simpa using hl', by rw [leNumber_eq, hn]⟩
          rcases hd2 with h' | h'
          · exact .inl h'.symm
          · exact .inr h'
    · rw [if_pos hlen] at h; simp at h
  · rintro ⟨t, hs, hl, ha, hdl, hn⟩
    have hstrip : (if s.take 2 = ['0', 'x'] then s.drop 2 else s) = t := by
      rcases hs with rfl | rfl
      · exact strip_plain _ ha
      · exact strip_0x t
    obtain ⟨data, hd, hdlen⟩ := fromHex_of_allHex n hl ha
    have hval := (fromHex_tight hd (by rw [hl, hdlen])).2
    have hdd : data.reverse = d := by
      apply leNumber_inj (by simp [hdlen, hdl])
      rw [leNumber_eq, hval, hn]
    unfold parseString
    simp only [hstrip]
    rw [if_neg (by simp [hl]), hd]
    simp only [construct, hdd]
    rw [if_neg (by simp [hdl])]

/-- C33. Everything else raises. -/
theorem C33_parse_rejects (n : Nat) (s : Str)
    (h : ¬ ∃ t, (s = t ∨ s = ['0', 'x'] ++ t) ∧ t.length = 2 * n ∧ AllHex t) : ∃ e, parseString n s = .error e := by
  cases hp : parseString n s with
  | error e => exact ⟨e, rfl⟩
  | ok d =>
    obtain ⟨t, h1, h2, h3, _⟩ := (C33_parse_iff n s d).mp hp
    exact absurd ⟨t, h1, h2, h3⟩ h

example : ∃ d, parseString 2 ['0', 'x', 'A', 'b', '0', '1'] = .ok d ∧ d = [1, 0xab] := ⟨_, by decide +kernel, rfl⟩
example : ∃ e, parseString 2 ['a', 'b', ' ', ' '] = .error e := ⟨.exc, by decide +kernel⟩

/-- C33. Parsing the text of a value, with or without `0x`, gives the value back. -/
theorem C33_parse_toString (n : Nat) (d : Bytes) (hd : d.length = n) :
    parseString n (toStr d) = .ok d ∧ parseString n (to0xStr d) = .ok d := by
  have key : ∀ s, (s = toStr d ∨ s = ['0', 'x'] ++ toStr d) → parseString n s = .ok d := by
    intro s hs
    refine (C33_parse_iff n s d).mpr ⟨toStr d, hs, ?_, hexStr_allHex _, hd, ?_⟩
    · rw [toStr, hexStr_length, List.length_reverse, hd]
    · rw [toStr, hexStr_number, List.reverse_reverse, leNumber_eq]
  exact ⟨key _ (.inl rfl), key _ (.inr rfl)⟩

example : ∃ d : Bytes, d.length = 20 := ⟨List.replicate 20 3, rfl⟩

/-- C33. The text of a parsed value is its digits in lower case. -/
theorem C33_toString_parse (n : Nat) (t : Str) (d : Bytes) (ht : AllHex t)
    (h : parseString n t = .ok d ∨ parseString n (['0', 'x'] ++ t) = .ok d) : toStr d = lowerHex t := by
  have hstrip : ∀ s, (s = t ∨ s = ['0', 'x'] ++ t) → (if s.take 2 = ['0', 'x'] then s.drop 2 else s) = t := by
    rintro s (rfl | rfl)
    · exact strip_plain _ ht
    · exact strip_0x t
  have key : ∀ s, (s = t ∨ s = ['0', 'x'] ++ t) → parseString n s = .ok d → toStr d = lowerHex t := by
    intro s hs hp
    unfold parseString at hp
    simp only [hstrip s hs] at hp
    split at hp
    · simp at hp
    · rename_i hlen
      split at hp
      · simp at hp
      · rename_i data hdata
        simp only [construct] at hp
        split at hp
        · simp at hp
        · rename_i hl
          simp only [Except.ok.injEq] at hp
          subst hp
          have hl' : data.length = n := by simpa using hl
          rw [toStr, List.reverse_reverse]
          exact hexStr_of_fromHex hdata (by rw [hl']; simpa using hlen)
  rcases h with h | h
  · exact key _ (.inl rfl) h
  · exact key _ (.inr rfl) h

/-- C33. The text determines the value. -/
theorem C33_toString_injective (a b : Bytes) (h : toStr a = toStr b) : a = b := by
  have := hexStr_inj h
  simpa using congrArg List.reverse this

/-! ### C35 -/

private theorem take_succ_number (x : Bytes) (i : Nat) (h : i + 1 < x.length) :
    leToNat (x.take (i + 2)) = leToNat (x.take (i + 1)) + 256 ^ (i + 1) * (x.getD (i + 1) 0).toNat := by
  rw [List.take_add_one, leToNat_append]
  have hl : (x.take (i + 1)).length = i + 1 := by rw [List.length_take]; omega
  rw [hl]
  rw [List.getElem?_eq_getElem h, List.getD_eq_getElem?_getD, List.getElem?_eq_getElem h]
  simp [leToNat]

private theorem compareFrom_spec (x y : Bytes) (hl : x.length = y.length) (i : Nat) (hi : i < x.length) :
    compareFrom x y i = cmp3 (leToNat (x.take (i + 1)) / 256) (leToNat (y.take (i + 1)) / 256) := by
  induction i with
  | zero =>
    have h1 : ∀ z : Bytes, leToNat (z.take 1) < 256 := by
      intro z
      have h := leToNat_lt (z.take 1)
      have hp : 256 ^ (z.take 1).length ≤ 256 ^ 1 := Nat.pow_le_pow_right (by decide) (by rw [List.length_take]; omega)
      omega
    rw [Nat.div_eq_of_lt (h1 x), Nat.div_eq_of_lt (h1 y)]
    rfl
  | succ i ih =>
    have ih := ih (by omega)
    rw [take_succ_number x i hi, take_succ_number y i (by omega)]
    have hA : ∀ z : Bytes, leToNat (z.take (i + 1)) / 256 < 256 ^ i := by
      intro z
      have h := leToNat_lt (z.take (i + 1))
      have hp : 256 ^ (z.take (i + 1)).length ≤ 256 ^ (i + 1) :=
        Nat.pow_le_pow_right (by decide) (by rw [List.length_take]; omega)
      rw [Nat.pow_succ] at hp
      omega
    have hdiv : ∀ A c : Nat, (A + 256 ^ (i + 1) * c) / 256 = A / 256 + 256 ^ i * c := by
      intro A c
      rw [Nat.pow_succ, Nat.mul_comm (256 ^ i) 256, Nat.mul_assoc, Nat.add_mul_div_left _ _ (by decide)]
    rw [hdiv, hdiv]
    simp only [compareFrom]
    have ax := hA x
    have ay := hA y
    generalize leToNat (x.take (i + 1)) / 256 = A at *
    generalize leToNat (y.take (i + 1)) / 256 = B at *
    generalize hp : 256 ^ i = P at *
    generalize hx : x.getD (i + 1) 0 = u
    generalize hy : y.getD (i + 1) 0 = v
    by_cases h1 : u > v
    · have h1' : v.toNat < u.toNat := h1
      rw [if_pos h1]
      have : P * (v.toNat + 1) ≤ P * u.toNat := Nat.mul_le_mul_left _ h1'
      rw [Nat.mul_add] at this
      unfold cmp3
      rw [if_neg (by omega), if_pos (by omega)]
    · rw [if_neg h1]
      by_cases h2 : u < v
      · have h2' : u.toNat < v.toNat := h2
        rw [if_pos h2]
        have : P * (u.toNat + 1) ≤ P * v.toNat := Nat.mul_le_mul_left _ h2'
        rw [Nat.mul_add] at this
        unfold cmp3
        rw [if_pos (by omega)]
      · rw [if_neg h2, ih]
        have huv : u = v := by
          apply UInt8.toNat_inj.mp
          have a1 : ¬ v.toNat < u.toNat := h1
          have a2 : ¬ u.toNat < v.toNat := h2
          omega
        subst huv
        unfold cmp3
        simp only [Nat.add_lt_add_iff_right]

/-- C35, what the code really does: `CompareTo` compares the numbers *without their lowest byte*. -/
theorem C35_compare_exact_partial (x y : Bytes) (k : UKind) (hl : x.length = y.length) :
    compareTo x (.uint k y) = .ok (cmp3 (leNumber x / 256) (leNumber y / 256)) := by
  rw [leNumber_eq, leNumber_eq]
  unfold compareTo
  simp only
  rw [if_neg (by simp [hl])]
  by_cases h0 : x.length = 0
  · have hx : x = [] := List.length_eq_zero_iff.mp h0
    have hy : y = [] := List.length_eq_zero_iff.mp (by omega)
    subst hx; subst hy
    rfl
  · rw [compareFrom_spec x y hl _ (by omega)]
    rw [List.take_of_length_le (l := x) (by omega), List.take_of_length_le (l := y) (by omega)]

/-- C35 holds whenever the values differ above their lowest byte. -/
theorem C35_compare_partial (x y : Bytes) (k : UKind) (hl : x.length = y.length)
    (hhigh : leNumber x / 256 ≠ leNumber y / 256 ∨ leNumber x = leNumber y) :
    compareTo x (.uint k y) = .ok (cmp3 (leNumber x) (leNumber y)) := by
  rw [C35_compare_exact_partial x y k hl]
  unfold cmp3
  congr 1
  rcases hhigh with h | h
  · by_cases h1 : leNumber x < leNumber y
    · rw [if_pos h1, if_pos (by omega)]
    · rw [if_neg h1, if_neg (by omega)]
      rw [if_pos (by omega), if_pos (by omega)]
  · rw [h]
    simp

example : leNumber [1, 2] / 256 ≠ leNumber [9, 1] / 256 := by decide

/-- C35 fails for all values that differ only in the lowest byte: they compare as equal although they are different. -/
theorem C35_low_byte_violated (a b : UInt8) (rest : Bytes) (k : UKind) (hab : a ≠ b) :
    compareTo (a :: rest) (.uint k (b :: rest)) = .ok 0 ∧ eq (a :: rest) (.uint k (b :: rest)) = false ∧
      leNumber (a :: rest) ≠ leNumber (b :: rest) := by
  have hne : leNumber (a :: rest) ≠ leNumber (b :: rest) := by
    intro h
    have := leNumber_inj (by simp) h
    simp at this
    exact hab this
  refine ⟨?_, ?_, hne⟩
  · rw [C35_compare_exact_partial _ _ _ (by simp)]
    have ha := a.toNat_lt
    have hb := b.toNat_lt
    have h1 : leNumber (a :: rest) / 256 = leNumber (b :: rest) / 256 := by
      rw [leNumber_eq, leNumber_eq]
      simp only [leToNat]
      omega
    rw [h1]
    simp [cmp3]
  · simp [eq, hab]

/-- C88. The comparison operators follow `CompareTo`, which is a total preorder: antisymmetric in sign, transitive, and 0
on equal values. -/
theorem C88_operators (x y z : Bytes) (k : UKind) (hxy : x.length = y.length) (hyz : y.length = z.length) :
    (∃ c, compareTo x (.uint k y) = .ok c ∧ compareTo y (.uint k x) = .ok (-c) ∧
      lt x (.uint k y) = .ok (decide (c < 0)) ∧ gt x (.uint k y) = .ok (decide (0 < c)) ∧
      le x (.uint k y) = .ok (decide (c ≤ 0)) ∧ ge x (.uint k y) = .ok (decide (0 ≤ c))) ∧
    compareTo x (.uint k x) = .ok 0 ∧
    (le x (.uint k y) = .ok true → le y (.uint k z) = .ok true → le x (.uint k z) = .ok true) := by
  have hc : ∀ a b : Bytes, a.length = b.length →
      compareTo a (.uint k b) = .ok (cmp3 (leNumber a / 256) (leNumber b / 256)) :=
    fun a b h => C35_compare_exact_partial a b k h
  refine ⟨⟨_, hc x y hxy, ?_, ?_, ?_, ?_, ?_⟩, ?_, ?_⟩
  · rw [hc y x hxy.symm]
    congr 1
    unfold cmp3
    by_cases h1 : leNumber x / 256 < leNumber y / 256
    · rw [if_pos h1, if_neg (by omega), if_pos h1]; rfl
    · rw [if_neg h1]
      by_cases h2 : leNumber y / 256 < leNumber x / 256
      · rw [if_pos h2, if_neg h1, if_pos h2]
      · rw [if_neg h2, if_neg h2, if_neg h1]; rfl
  · simp [lt, hc x y hxy, Except.map]
  · simp [gt, hc x y hxy, Except.map]
  · simp [le, hc x y hxy, Except.map]
  · simp [ge, hc x y hxy, Except.map]
  · rw [hc x x rfl]; simp [cmp3]
  · simp only [le, hc x y hxy, hc y z hyz, hc x z (hxy.trans hyz), Except.map, Except.ok.injEq, decide_eq_true_eq]
    unfold cmp3
    intro h1 h2
    split at h1
    · split at h2
      · rw [if_pos (by omega)]; omega
      · split at h2
        · omega
        · rw [if_pos (by omega)]; omega
    · split at h1
      · omega
      · split at h2
        · rw [if_pos (by omega)]; omega
        · split at h2
          · omega
          · rw [if_neg (by omega), if_neg (by omega)]

/-- C88. Different sizes or classes are not comparable: it raises. -/
theorem C88_compare_rejects (x : Bytes) (v : Val) (h : ∀ k y, v = .uint k y → x.length ≠ y.length) :
    compareTo x v = .error .exc := by
  unfold compareTo
  split
  · rename_i k y
    rw [if_pos (h k y rfl)]
  · rfl

/-! ### C34 -/

/-- C87. Equality is equality of contents, and nothing but a UInt object is ever equal. -/
theorem C87_eq_iff (x : Bytes) (v : Val) : eq x v = true ↔ ∃ k, v = .uint k x := by
  unfold eq
  split
  · rename_i k d
    simp only [beq_iff_eq, Val.uint.injEq]
    exact ⟨fun h => ⟨k, rfl, h.symm⟩, fun ⟨_, _, h⟩ => h.symm⟩
  · rename_i h
    simp only [Bool.false_eq_true, false_iff]
    rintro ⟨k, rfl⟩
    exact h _ _ rfl

/-- No step of the history changes a byte array that some object uses as its `Data`. -/
def NoAliasedMutation : Heap → List Op → Prop
  | _, [] => True
  | h, op :: ops =>
    (∀ a b, op = .mutate a b → ∀ o ∈ h.objs, o.data ≠ a) ∧ NoAliasedMutation (h.step op) ops

/-- Every Deserialize of the history has enough bytes for the object's class. -/
def FullDeserialize : Heap → List Op → Prop
  | _, [] => True
  | h, op :: ops =>
    (∀ i rest o, op = .deserialize i rest → h.objs[i]? = some o → o.numBytes ≤ rest.length) ∧
      FullDeserialize (h.step op) ops

/-- References are in range and cached hashes are those of the contents. -/
def HashInv (h : Heap) : Prop := ∀ o ∈ h.objs, o.data < h.arrays.length ∧ o.hash = hashCode (h.dataOf o)

private theorem at_append_left (h : Heap) (b : Bytes) (objs : List Obj) (a : Nat) (ha : a < h.arrays.length) :
    Heap.at ⟨h.arrays ++ [b], objs⟩ a = h.at a := by
  simp [Heap.at, List.getD_eq_getElem?_getD, List.getElem?_append_left ha]

private theorem at_append_last (h : Heap) (b : Bytes) (objs : List Obj) :
    Heap.at ⟨h.arrays ++ [b], objs⟩ h.arrays.length = b := by
  simp [Heap.at, List.getD_eq_getElem?_getD]

private theorem hashInv_alloc {h : Heap} {b : Bytes} {objs : List Obj} (hi : HashInv h)
    (hobjs : ∀ o ∈ objs, o ∈ h.objs ∨ (o.data = h.arrays.length ∧ o.hash = hashCode b)) :
    HashInv ⟨h.arrays ++ [b], objs⟩ := by
  intro o ho
  rcases hobjs o ho with h1 | ⟨h1, h2⟩
  · obtain ⟨h3, h4⟩ := hi o h1
    refine ⟨by simp; omega, ?_⟩
    rw [h4]
    unfold Heap.dataOf
    rw [at_append_left h b objs _ h3]
  · refine ⟨by simp; omega, ?_⟩
    rw [h2]
    unfold Heap.dataOf
    rw [h1, at_append_last]

theorem hashInv_step {h : Heap} {op : Op} (hi : HashInv h)
    (hm : ∀ a b, op = .mutate a b → ∀ o ∈ h.objs, o.data ≠ a) : HashInv (h.step op) := by
  cases op with
  | newArray b => exact hashInv_alloc hi fun o ho => .inl ho
  | construct n a =>
    simp only [Heap.step]
    cases a with
    | none =>
      simp only [Heap.construct]
      refine hashInv_alloc hi fun o ho => ?_
      rcases List.mem_append.mp ho with h1 | h1
      · exact .inl h1
      · simp at h1; subst h1; exact .inr ⟨rfl, rfl⟩
    | bytes b =>
      simp only [Heap.construct]
      by_cases hb : b.length ≠ n
      · rw [if_pos hb]; exact hi
      · rw [if_neg hb]
        refine hashInv_alloc hi fun o ho => ?_
        rcases List.mem_append.mp ho with h1 | h1
        · exact .inl h1
        · simp at h1; subst h1; exact .inr ⟨rfl, rfl⟩
    | array a =>
      simp only [Heap.construct]
      cases hb : h.arrays[a]? with
      | none => exact hi
      | some b =>
        simp only
        by_cases hl : b.length ≠ n
        · rw [if_pos hl]; exact hi
        · rw [if_neg hl]
          intro o ho
          simp only at ho ⊢
          rcases List.mem_append.mp ho with h1 | h1
          · exact hi o h1
          · simp at h1; subst h1
            obtain ⟨hlt, _⟩ := List.getElem?_eq_some_iff.mp hb
            refine ⟨hlt, ?_⟩
            simp [Heap.dataOf, Heap.at, List.getD_eq_getElem?_getD, hb]
    | bad => exact hi
  | deserialize i rest =>
    simp only [Heap.step, Heap.deserialize]
    cases ho : h.objs[i]? with
    | none => exact hi
    | some o =>
      refine hashInv_alloc hi fun p hp => ?_
      rcases List.mem_or_eq_of_mem_set hp with h1 | h1
      · exact .inl h1
      · subst h1; exact .inr ⟨rfl, rfl⟩
  | mutate a b =>
    intro o ho
    obtain ⟨h1, h2⟩ := hi o ho
    refine ⟨by simpa [Heap.step] using h1, ?_⟩
    rw [h2]
    have := hm a b rfl o ho
    simp only [Heap.step, Heap.dataOf, Heap.at, List.getD_eq_getElem?_getD]
    rw [List.getElem?_set_ne (Ne.symm this)]

private theorem hashInv_run (ops : List Op) (h : Heap) (hi : HashInv h) (hq : NoAliasedMutation h ops) :
    HashInv (ops.foldl Heap.step h) := by
  induction ops generalizing h with
  | nil => exact hi
  | cons op ops ih => exact ih _ (hashInv_step hi hq.1) hq.2

/-- C34 holds through every history of constructions (from bytes, from shared bytearrays, without data), failed
constructions, Deserialize calls and mutations, as long as no array that an object refers to is mutated: equal objects have
equal hashes. -/
theorem C34_hash_partial (ops : List Op) (hq : NoAliasedMutation ⟨[], []⟩ ops) (o p : Obj)
    (ho : o ∈ (Heap.run ops).objs) (hp : p ∈ (Heap.run ops).objs) (heq : (Heap.run ops).objEq o p = true) :
    o.hash = p.hash := by
  have hi : HashInv (Heap.run ops) := hashInv_run ops _ (by intro o ho; simp at ho) hq
  rw [(hi o ho).2, (hi p hp).2]
  simp only [Heap.objEq, beq_iff_eq] at heq
  rw [heq]

example : ∃ ops : List Op, NoAliasedMutation ⟨[], []⟩ ops ∧ (Heap.run ops).objs.length = 3 :=
  ⟨[.newArray [1, 2], .construct 2 (.array 0), .newArray [3, 4], .mutate 1 [5, 6], .construct 2 (.bytes [5, 6]),
    .construct 2 (.array 1), .deserialize 0 [5, 6, 7]],
   by simp [NoAliasedMutation, Heap.step, Heap.construct], by decide⟩

/-- C87. `GetHashCode()` is the number of the first four bytes, little-endian. -/
theorem C87_hash_code (d : Bytes) : hashCode d = leNumber (d.take 4) := by
  rw [hashCode, leNumber_eq]
  split
  · rfl
  · rw [List.take_of_length_le (l := d) (i := 4) (by omega), List.take_length]

/-- C87. In every such history the hash of an object is that of its contents: it does not depend on how it was made. -/
theorem C87_hash_of_contents (ops : List Op) (hq : NoAliasedMutation ⟨[], []⟩ ops) (o : Obj) (ho : o ∈ (Heap.run ops).objs) :
    o.hash = leNumber (((Heap.run ops).dataOf o).take 4) := by
  have hi : HashInv (Heap.run ops) := hashInv_run ops _ (by intro o ho; simp at ho) hq
  rw [(hi o ho).2, C87_hash_code]

/-- C34 fails when a bytearray handed to a constructor is changed afterwards: for any contents with different hash codes
there is a history after which two objects are equal but have different hashes. -/
theorem C34_alias_violated (n : Nat) (b c : Bytes) (hb : b.length = n) (hc : c.length = n)
    (hne : hashCode b ≠ hashCode c) :
    ∃ o p, o ∈ (Heap.run [.newArray b, .construct n (.array 0), .mutate 0 c, .construct n (.bytes c)]).objs ∧
      p ∈ (Heap.run [.newArray b, .construct n (.array 0), .mutate 0 c, .construct n (.bytes c)]).objs ∧
      (Heap.run [.newArray b, .construct n (.array 0), .mutate 0 c, .construct n (.bytes c)]).objEq o p = true ∧
      o.hash ≠ p.hash := by
  refine ⟨⟨n, 0, hashCode b⟩, ⟨n, 1, hashCode c⟩, ?_, ?_, ?_, hne⟩ <;>
    simp [Heap.run, Heap.step, Heap.construct, hb, hc, Heap.objEq, Heap.dataOf, Heap.at]

example : hashCode (List.replicate 20 0) ≠ hashCode (1 :: List.replicate 19 0) := by decide

/-! ### C36 -/

/-- C89. Exactly what the constructor accepts: no data (giving zeros), or bytes of the right length. -/
theorem C89_construct_iff (n : Nat) (v : Val) (d : Bytes) :
    construct n v = .ok d ↔ (v = .none ∧ d = List.replicate n 0) ∨ (d.length = n ∧ (v = .bytes d ∨ v = .bytearray d)) := by
  cases v with
  | none => simp [construct, eq_comm]
  | bytes b =>
    by_cases h : b.length = n
    · simp only [construct, ne_eq, h, not_true, if_false, Except.ok.injEq]
      constructor
      · rintro rfl; exact .inr ⟨h, .inl rfl⟩
      · rintro (⟨h, -⟩ | ⟨-, h | h⟩) <;> cases h; rfl
    · simp only [construct, ne_eq, h, not_false_iff, if_true]
      constructor
      · intro h; cases h
      · rintro (⟨h, -⟩ | ⟨h', h'' | h''⟩) <;> cases ‹_ = _›; exact absurd h' h
  | bytearray b =>
    by_cases h : b.length = n
    · simp only [construct, ne_eq, h, not_true, if_false, Except.ok.injEq]
      constructor
      · rintro rfl; exact .inr ⟨h, .inr rfl⟩
      · rintro (⟨h, -⟩ | ⟨-, h | h⟩) <;> cases h; rfl
    · simp only [construct, ne_eq, h, not_false_iff, if_true]
      constructor
      · intro h; cases h
      · rintro (⟨h, -⟩ | ⟨h', h'' | h''⟩) <;> cases ‹_ = _›; exact absurd h' h
  | _ => simp [construct]

/-- C89. What the refusals raise: a plain Exception for bytes, bytearrays (of a wrong length) and texts, TypeError for all else. -/
theorem C89_construct_refusals (n : Nat) (v : Val) (e : Err) (h : construct n v = .error e) :
    (e = .exc ∧ ((∃ b, v = .bytes b ∧ b.length ≠ n) ∨ (∃ b, v = .bytearray b ∧ b.length ≠ n) ∨ ∃ s, v = .str s)) ∨
    (e = .typeError ∧ v ≠ .none ∧ (∀ b, v ≠ .bytes b) ∧ (∀ b, v ≠ .bytearray b) ∧ ∀ s, v ≠ .str s) := by
  cases v with
  | bytes b =>
    simp only [construct] at h
    by_cases hb : b.length ≠ n
    · rw [if_pos hb] at h; cases h; exact .inl ⟨rfl, .inl ⟨b, rfl, hb⟩⟩
    · rw [if_neg hb] at h; cases h
  | bytearray b =>
    simp only [construct] at h
    by_cases hb : b.length ≠ n
    · rw [if_pos hb] at h; cases h; exact .inl ⟨rfl, .inr (.inl ⟨b, rfl, hb⟩)⟩
    · rw [if_neg hb] at h; cases h
  | str s => cases h; exact .inl ⟨rfl, .inr (.inr ⟨s, rfl⟩)⟩
  | none => cases h
  | _ => cases h; exact .inr ⟨rfl, by simp, by simp, by simp, by simp⟩

example : construct 20 (.bytes [1]) = .error .exc ∧ construct 20 (.int 3) = .error .typeError := by decide

/-- C89. The constructor only ever makes objects of the right size. -/
theorem C89_construct_size (n : Nat) (v : Val) (d : Bytes) (h : construct n v = .ok d) : d.length = n := by
  unfold construct at h
  split at h
  · simp at h; subst h; simp
  · split at h
    · simp at h
    · rename_i hl; simp at h; subst h; simpa using hl
  · split at h
    · simp at h
    · rename_i hl; simp at h; subst h; simpa using hl
  · simp at h
  · simp at h

private def SizeInv (h : Heap) : Prop := ∀ o ∈ h.objs, o.data < h.arrays.length ∧ (h.dataOf o).length = o.numBytes

private theorem sizeInv_alloc {h : Heap} {b : Bytes} {objs : List Obj} (hi : SizeInv h)
    (hobjs : ∀ o ∈ objs, o ∈ h.objs ∨ (o.data = h.arrays.length ∧ b.length = o.numBytes)) :
    SizeInv ⟨h.arrays ++ [b], objs⟩ := by
  intro o ho
  rcases hobjs o ho with h1 | ⟨h1, h2⟩
  · obtain ⟨h3, h4⟩ := hi o h1
    refine ⟨by simp; omega, ?_⟩
    rw [← h4]
    unfold Heap.dataOf
    rw [at_append_left h b objs _ h3]
  · refine ⟨by simp; omega, ?_⟩
    rw [← h2]
    unfold Heap.dataOf
    rw [h1, at_append_last]

private theorem sizeInv_step {h : Heap} {op : Op} (hi : SizeInv h)
    (hm : ∀ a b, op = .mutate a b → ∀ o ∈ h.objs, o.data ≠ a)
    (hf : ∀ i rest o, op = .deserialize i rest → h.objs[i]? = some o → o.numBytes ≤ rest.length) :
    SizeInv (h.step op) := by
  cases op with
  | newArray b => exact sizeInv_alloc hi fun o ho => .inl ho
  | construct n a =>
    simp only [Heap.step]
    cases a with
    | none =>
      simp only [Heap.construct]
      refine sizeInv_alloc hi fun o ho => ?_
      rcases List.mem_append.mp ho with h1 | h1
      · exact .inl h1
      · simp at h1; subst h1; exact .inr ⟨rfl, by simp⟩
    | bytes b =>
      simp only [Heap.construct]
      by_cases hb : b.length ≠ n
      · rw [if_pos hb]; exact hi
      · rw [if_neg hb]
        refine sizeInv_alloc hi fun o ho => ?_
        rcases List.mem_append.mp ho with h1 | h1
        · exact .inl h1
        · simp at h1; subst h1; exact .inr ⟨rfl, by simpa using hb⟩
    | array a =>
      simp only [Heap.construct]
      cases hb : h.arrays[a]? with
      | none => exact hi
      | some b =>
        simp only
        by_cases hl : b.length ≠ n
        · rw [if_pos hl]; exact hi
        · rw [if_neg hl]
          intro o ho
          simp only at ho ⊢
          rcases List.mem_append.mp ho with h1 | h1
          · exact hi o h1
          · simp at h1; subst h1
            obtain ⟨hlt, _⟩ := List.getElem?_eq_some_iff.mp hb
            refine ⟨hlt, ?_⟩
            simp [Heap.dataOf, Heap.at, List.getD_eq_getElem?_getD, hb]
            simpa using hl
    | bad => exact hi
  | deserialize i rest =>
    simp only [Heap.step, Heap.deserialize]
    cases ho : h.objs[i]? with
    | none => exact hi
    | some o =>
      have hmem : o ∈ h.objs := List.mem_of_getElem? ho
      have hlen := hf i rest o rfl ho
      have hsz := (hi o hmem).2
      refine sizeInv_alloc hi fun p hp => ?_
      rcases List.mem_or_eq_of_mem_set hp with h1 | h1
      · exact .inl h1
      · subst h1
        exact .inr ⟨rfl, by simp only [List.length_take]; omega⟩
  | mutate a b =>
    intro o ho
    obtain ⟨h1, h2⟩ := hi o ho
    refine ⟨by simpa [Heap.step] using h1, ?_⟩
    rw [← h2]
    have := hm a b rfl o ho
    simp only [Heap.step, Heap.dataOf, Heap.at, List.getD_eq_getElem?_getD]
    rw [List.getElem?_set_ne (Ne.symm this)]

/-- C36 holds through every history in which no aliased array is mutated and every Deserialize has enough bytes: each
object has exactly the size of its class. -/
theorem C36_size_partial (ops : List Op) (hq : NoAliasedMutation ⟨[], []⟩ ops) (hf : FullDeserialize ⟨[], []⟩ ops)
    (o : Obj) (ho : o ∈ (Heap.run ops).objs) : ((Heap.run ops).dataOf o).length = o.numBytes := by
  have key : ∀ (ops : List Op) (h : Heap), SizeInv h → NoAliasedMutation h ops → FullDeserialize h ops →
      SizeInv (ops.foldl Heap.step h) := by
    intro ops
    induction ops with
    | nil => intro h hi _ _; exact hi
    | cons op ops ih => intro h hi hq hf; exact ih _ (sizeInv_step hi hq.1 hf.1) hq.2 hf.2
  exact ((key ops ⟨[], []⟩ (by intro o ho; simp at ho) hq hf) o ho).2

/-- C36 fails for every stream that is too short: Deserialize does not fail; the object silently shrinks to what was
there (and stays that size for all later Deserialize calls). -/
theorem C36_short_deserialize_violated (n : Nat) (pre rest : Bytes) (hn : (n : Int) ≤ maxsize) (hshort : rest.length < n) :
    deserialize n ⟨pre ++ rest, pre.length⟩ = (.ok rest, ⟨pre ++ rest, (pre ++ rest).length⟩) := by
  unfold deserialize Reader.readBytes
  rw [read_nat_apply _ _ hn]
  simp [List.take_of_length_le (Nat.le_of_lt hshort)]

example : ((20 : Nat) : Int) ≤ maxsize ∧ ([1, 2, 3] : Bytes).length < 20 := by decide

/-- C36, on the object level: after a short Deserialize the object no longer has the size of its class. -/
theorem C36_object_shrinks_violated (n : Nat) (b rest : Bytes) (hb : b.length = n) (hshort : rest.length < n) :
    ∃ o ∈ (Heap.run [.construct n (.bytes b), .deserialize 0 rest]).objs,
      ((Heap.run [.construct n (.bytes b), .deserialize 0 rest]).dataOf o).length ≠ o.numBytes := by
  refine ⟨⟨n, 1, hashCode (rest.take n)⟩, ?_, ?_⟩
  · simp [Heap.run, Heap.step, Heap.construct, Heap.deserialize, hb, Heap.dataOf, Heap.at]
  · simp [Heap.run, Heap.step, Heap.construct, Heap.deserialize, hb, Heap.dataOf, Heap.at]
    omega

/-! ### C12 (Serialize / Deserialize) -/

/-- C12 holds for Serialize/Deserialize on contents that are not hexadecimal text. -/
theorem C12_serialize_roundtrip_partial (d : Bytes) (hhex : ¬ HexText d) (hmem : (d.length : Int) ≤ maxsize) :
    Appends (Writer.uintSerialize d) () d ∧ Yields (deserialize d.length) d d :=
  ⟨appends_uintSerialize d hhex, yields_read d d.length rfl hmem⟩

/-- C12 fails for every nonempty content of ASCII hex digits: half the bytes are written and another object is read back. -/
theorem C12_serialize_hex_violated (d : Bytes) (hhex : HexText d) (hne : d ≠ []) (hmem : (d.length : Int) ≤ maxsize) :
    ∃ r, Appends (Writer.uintSerialize d) () r ∧ r.length < d.length ∧
      ∀ pre, (deserialize d.length ⟨pre ++ r, pre.length⟩).1 = .ok r ∧ r ≠ d := by
  obtain ⟨r, h1, h2⟩ := appends_uintSerialize_hex d hhex hne
  have hpos : 0 < d.length := List.length_pos_iff.mpr hne
  refine ⟨r, h2, by omega, fun pre => ⟨?_, by rintro rfl; omega⟩⟩
  rw [C36_short_deserialize_violated d.length pre r hmem (by omega)]

end Neo.Props
