import Verif.Model.FieldOps
import Verif.Spec.FieldOps
import Verif.Props.Field
import Verif.Props.Address

/-!
# C116–C120: the operators of field values with operands of all types
-/

namespace Neo.Props
open Py Spec Neo.EC Neo.EC.FF

private theorem integer_iff (x : Operand) (n : Int) : integer x = .ok n ↔ Stands x n := by
  cases x with
  | int m => rw [integer, Stands]; exact ⟨fun h => (Except.ok.inj h).symm, fun h => by rw [h]⟩
  | value v => rw [integer, Stands]; exact ⟨fun h => (Except.ok.inj h).symm, fun h => by rw [h]⟩
  | hex s =>
    rw [integer, Stands, fInteger]
    constructor
    · intro h
      cases hu : unhexlifyVal (.str s) with
      | error e => rw [hu] at h; cases h
      | ok b =>
        rw [hu] at h
        have hn := (Except.ok.inj h).symm
        obtain ⟨h1, h2⟩ := unhexStr hu
        obtain ⟨h3, h4⟩ := fromHex_tight h1 h2
        exact ⟨⟨_, h2⟩, h3, by rw [hn, h4]⟩
    · rintro ⟨⟨k, hk⟩, h2, rfl⟩
      obtain ⟨b, hb⟩ := unhexStr_of_hex k hk h2
      rw [hb]
      obtain ⟨h1, h2⟩ := unhexStr hb
      obtain ⟨h3, h4⟩ := fromHex_tight h1 h2
      simp only
      rw [h4]

private theorem wrap_ok {f : Field} {x : Operand} {n : Int} (h : Stands x n) : wrap f x = .ok ⟨f, n⟩ := by
  have hi := (integer_iff x n).2 h
  cases x with
  | value v =>
    rw [Stands] at h
    subst h
    rw [wrap]
    split_ifs with hv
    · rw [← hv]
    · rfl
  | int m => rw [wrap, hi]; rfl; simp
  | hex s => rw [wrap, hi]; rfl; simp

private theorem wrap_bad {f : Field} {x : Operand} (h : ¬ ∃ n, Stands x n) : ∃ e, wrap f x = .error e := by
  cases x with
  | value v => exact absurd ⟨_, rfl⟩ h
  | int m => exact absurd ⟨_, rfl⟩ h
  | hex s =>
    rw [wrap]
    · cases hi : integer (.hex s) with
      | error e => exact ⟨e, rfl⟩
      | ok n => exact absurd ⟨n, (integer_iff _ n).1 hi⟩ h
    · simp

private theorem pyMod_pos {p : Int} (hp : 0 < p) (x : Int) : pyMod x p = .ok (Int.fmod x p) := if_neg hp.ne'

private theorem residue {f : Field} (hp : 0 < f.p) (k : Int) :
    IsResidue ((pyMod k f.p).map fun n => .value ⟨f, n⟩) f k := by
  rw [pyMod_pos hp]
  exact ⟨_, rfl, (fmod_pos_range k hp).1, (fmod_pos_range k hp).2, fmod_modEq hp k⟩

private theorem apply_same (f : Field) (op : Op) (a b : Int) :
    f.apply op ⟨f, a⟩ ⟨f, b⟩ = (pyMod (match op with
      | .add => a + b
      | .sub => a - b
      | .mul => a * b
      | .div => a * modinv b f.p) f.p).map fun n => .value ⟨f, n⟩ := by
  unfold Field.apply
  rw [if_pos (by simp [samefield])]
  rfl

private theorem left_eq {v : Value} {x : Operand} {n : Int} (hx : Stands x n) (op : Op) :
    binary op (.value v) x = v.field.apply op ⟨v.field, v.value⟩ ⟨v.field, n⟩ := by
  have : binary op (.value v) x = left op v x := by cases x <;> rfl
  rw [this, left, wrap_ok hx]

/-! ## C116 -/

/-- C116. `v + x`, `v - x`, `v * x`: for every value v of a field with positive modulus and every int, hexadecimal text or value of
whatever field x, the result is a reduced value of the field of v, congruent to the integer result. -/
theorem C116_left (v : Value) (hp : 0 < v.field.p) (x : Operand) (n : Int) (hx : Stands x n) :
    IsResidue (binary .add (.value v) x) v.field (v.value + n) ∧
    IsResidue (binary .sub (.value v) x) v.field (v.value - n) ∧
    IsResidue (binary .mul (.value v) x) v.field (v.value * n) := by
  rw [left_eq hx, left_eq hx, left_eq hx, apply_same, apply_same, apply_same]
  exact ⟨residue hp _, residue hp _, residue hp _⟩

/-- C116. The same with an int or a hexadecimal text on the left. -/
theorem C116_right (v : Value) (hp : 0 < v.field.p) (x : Operand) (n : Int) (hx : Stands x n) (hv : ∀ w, x ≠ .value w) :
    IsResidue (binary .add x (.value v)) v.field (n + v.value) ∧
    IsResidue (binary .sub x (.value v)) v.field (n - v.value) ∧
    IsResidue (binary .mul x (.value v)) v.field (n * v.value) := by
  have key : ∀ op, op ≠ .div → binary op x (.value v) = v.field.apply op ⟨v.field, n⟩ ⟨v.field, v.value⟩ := by
    intro op hop
    have : binary op x (.value v) = right op x v := by
      cases x with
      | value w => exact absurd rfl (hv w)
      | int m => rfl
      | hex s => rfl
    rw [this]
    cases op with
    | div => exact absurd rfl hop
    | _ => rw [right, wrap_ok hx]; simp
  rw [key _ (by decide), key _ (by decide), key _ (by decide), apply_same, apply_same, apply_same]
  exact ⟨residue hp _, residue hp _, residue hp _⟩

/-- C116. `v ** x` for every non-negative exponent and `x ** v` for every value v with a non-negative integer. -/
theorem C116_pow (v : Value) (hp : 0 < v.field.p) (x : Operand) (n : Int) (hx : Stands x n) :
    (0 ≤ n → ∃ m, power (.value v) x = .ok ⟨v.field, m⟩ ∧ 0 ≤ m ∧ m < v.field.p ∧ m ≡ v.value ^ n.toNat [ZMOD v.field.p]) ∧
    (n < 0 → power (.value v) x = .error .valueError) ∧
    (0 ≤ v.value → (∀ w, x ≠ .value w) →
      ∃ m, power x (.value v) = .ok ⟨v.field, m⟩ ∧ 0 ≤ m ∧ m < v.field.p ∧ m ≡ n ^ v.value.toNat [ZMOD v.field.p]) := by
  have hpow : ∀ x, power (.value v) x = v.field.pow v x := by intro x; cases x <;> rfl
  have hi := (integer_iff x n).2 hx
  refine ⟨?_, ?_, ?_⟩
  · intro hn
    refine ⟨_, ?_, (fmod_pos_range (v.value ^ n.toNat) hp).1, (fmod_pos_range _ hp).2, fmod_modEq hp _⟩
    rw [hpow, Field.pow, hi]
    simp only
    rw [if_neg (by omega)]
  · intro hn
    rw [hpow, Field.pow, hi]
    simp only
    rw [if_pos (.inl hn)]
  · intro hv hx'
    refine ⟨_, ?_, (fmod_pos_range (n ^ v.value.toNat) hp).1, (fmod_pos_range _ hp).2, fmod_modEq hp _⟩
    have : power x (.value v) = match wrap v.field x with
        | .error e => .error e
        | .ok l => v.field.pow l (.value v) := by
      cases x with
      | value w => exact absurd rfl (hx' w)
      | int m => rfl
      | hex s => rfl
    rw [this, wrap_ok hx]
    simp only [Field.pow, integer]
    rw [if_neg (by omega)]

/-- C116. A text that is not hexadecimal raises in all of them, on either side. -/
theorem C116_bad_text (v : Value) (s : Str) (h : ¬ ((∃ k, s.length = 2 * k) ∧ AllHex s)) (op : Op) :
    (∃ e, binary op (.value v) (.hex s) = .error e) ∧ (∃ e, binary op (.hex s) (.value v) = .error e) ∧
    (∃ e, power (.value v) (.hex s) = .error e) ∧ (∃ e, power (.hex s) (.value v) = .error e) ∧
    (∃ e, eq v (.hex s) = .error e) := by
  have hb : ¬ ∃ n, Stands (.hex s) n := by rintro ⟨n, h1, h2, _⟩; exact h ⟨h1, h2⟩
  obtain ⟨e, he⟩ := wrap_bad (f := v.field) hb
  have hi : ∃ e, integer (.hex s) = .error e := by
    cases hi : integer (.hex s) with
    | error e => exact ⟨e, rfl⟩
    | ok n => exact absurd ⟨n, (integer_iff _ n).1 hi⟩ hb
  obtain ⟨e', he'⟩ := hi
  refine ⟨⟨e, ?_⟩, ?_, ⟨e', ?_⟩, ⟨e, ?_⟩, ⟨e, ?_⟩⟩
  · show left op v (.hex s) = _
    rw [left, he]
  · show ∃ e, right op (.hex s) v = _
    cases op with
    | div => exact ⟨_, rfl⟩
    | _ => refine ⟨e, ?_⟩; rw [right, he]; simp
  · show v.field.pow v (.hex s) = _
    rw [Field.pow, he']
  · rw [power, he]; simp
  · rw [eq, he]

/-- C116. The field's own methods, given values of different field objects, compute nothing: they return False. -/
theorem C116_other_field (f : Field) (op : Op) (a b : Value) (h : a.field ≠ b.field) : f.apply op a b = .ok .false := by
  unfold Field.apply
  rw [if_neg (by simpa [samefield] using h)]

example : Stands (.hex "0a".toList) 10 := ⟨⟨1, rfl⟩, by unfold AllHex; decide, by decide +kernel⟩
example : binary .mul (.hex "0a".toList) (.value ⟨⟨1, 7⟩, 5⟩) = .ok (.value ⟨⟨1, 7⟩, 1⟩) := by decide +kernel
example : binary .add (.value ⟨⟨1, 7⟩, 5⟩) (.value ⟨⟨2, 11⟩, 9⟩) = .ok (.value ⟨⟨1, 7⟩, 0⟩) := by decide +kernel
example : ¬ AllHex "0x".toList := by unfold AllHex; decide

/-! ## C117 -/

/-- C117, a value on the left: `v / x` is the quotient for every positive divisor coprime to the modulus. -/
theorem C117_left_partial (v : Value) (hp : 0 < v.field.p) (x : Operand) (n : Int) (hx : Stands x n) (hn : 0 < n)
    (hc : IsCoprime n v.field.p) :
    ∃ m, binary .div (.value v) x = .ok (.value ⟨v.field, m⟩) ∧ 0 ≤ m ∧ m < v.field.p ∧ m * n ≡ v.value [ZMOD v.field.p] := by
  obtain ⟨h1, h2, h3⟩ := C61_division_partial v.field.p v.value n hp hn hc
  refine ⟨_, ?_, h2, h3, h1⟩
  rw [left_eq hx, apply_same, pyMod_pos hp]
  rfl

/-- C117 fails with a value on the right: an int (or text) divided by a value raises TypeError, always. -/
theorem C117_int_over_value_violated (n : Int) (s : Str) (v : Value) :
    binary .div (.int n) (.value v) = .error .typeError ∧ binary .div (.hex s) (.value v) = .error .typeError := ⟨rfl, rfl⟩

/-- C117. `v.inverse()` is an inverse for every positive representative coprime to the modulus. -/
theorem C117_inverse_partial (v : Value) (hp : 0 < v.field.p) (hv : 0 < v.value) (hc : IsCoprime v.value v.field.p) :
    IsResidue (binary .mul (.value v) (.int (FF.inverse v.field v))) v.field 1 := by
  obtain ⟨_, _, m, h1, h2, h3, h4⟩ := C116_left v hp (.int (FF.inverse v.field v)) _ rfl
  exact ⟨m, h1, h2, h3, h4.trans (C60_modinv_partial v.value v.field.p hv hc)⟩

example : IsCoprime (3 : Int) 7 := ⟨-2, 1, by norm_num⟩

/-! ## C118 -/

/-- C118, for reduced values: `iszero()` says whether the value equals 0. In particular for every result of an operator. -/
theorem C118_iszero_partial (v : Value) (h0 : 0 ≤ v.value) (h1 : v.value < v.field.p) : eq v (.int 0) = .ok (iszero v) := by
  rw [eq, wrap_ok (x := .int 0) (n := 0) rfl]
  simp only
  rw [pyMod_pos (by omega), sub_zero, Int.fmod_eq_of_lt h0 h1]
  rfl

/-- C118, exactly where it holds: for 0 itself and for every value that is no multiple of the modulus. -/
theorem C118_iff_partial (v : Value) (hp : 0 < v.field.p) :
    eq v (.int 0) = .ok (iszero v) ↔ v.value = 0 ∨ ¬ v.field.p ∣ v.value := by
  rw [eq, wrap_ok (x := .int 0) (n := 0) rfl]
  simp only
  rw [pyMod_pos hp, sub_zero, Int.fmod_eq_emod_of_nonneg _ hp.le, iszero, Except.map, Except.ok.injEq, decide_eq_decide, ← Int.dvd_iff_emod_eq_zero]
  constructor
  · intro h
    by_cases h0 : v.value = 0
    · exact .inl h0
    · exact .inr fun hd => h0 (h.1 hd)
  · rintro (h | h)
    · simp [h]
    · exact ⟨fun hd => absurd hd h, fun h0 => absurd (h0 ▸ dvd_zero _) h⟩

/-- 12 modulo 7 is unreduced and no multiple. -/
example : eq ⟨⟨0, 7⟩, 12⟩ (.int 0) = .ok (iszero ⟨⟨0, 7⟩, 12⟩) := (C118_iff_partial _ (by decide)).2 (.inr (by decide))

/-- C118 fails for the negation of zero and for values built from multiples of the modulus: they equal 0, but `iszero()` is false. -/
theorem C118_unreduced_violated (f : Field) (hp : 0 < f.p) :
    (eq (FF.neg f.zero) (.int 0) = .ok true ∧ iszero (FF.neg f.zero) = false) ∧
    (∀ k, k ≠ 0 → eq ⟨f, k * f.p⟩ (.int 0) = .ok true ∧ iszero ⟨f, k * f.p⟩ = false) := by
  have key : ∀ k, k ≠ 0 → eq ⟨f, k * f.p⟩ (.int 0) = .ok true ∧ iszero ⟨f, k * f.p⟩ = false := by
    intro k hk
    constructor
    · rw [eq, wrap_ok (x := .int 0) (n := 0) rfl]
      simp only
      rw [pyMod_pos hp, sub_zero, Int.fmod_eq_emod_of_nonneg _ hp.le, Int.mul_emod_left]
      rfl
    · rw [iszero, decide_eq_false_iff_not]
      exact mul_ne_zero hk hp.ne'
  refine ⟨?_, key⟩
  have := key 1 one_ne_zero
  rw [one_mul] at this
  simpa [FF.neg, Field.zero] using this

/-! ## C119 -/

/-- C119, for 0 to 9: `str(v)` is 0x and the hexadecimal digit. -/
theorem C119_digits_partial (v : Value) (h0 : 0 ≤ v.value) (h9 : v.value ≤ 9) :
    ∃ t, FF.str v = ['0', 'x'] ++ t ∧ t ≠ [] ∧ AllHex t ∧ (hexNumber t : Int) = v.value := by
  refine ⟨_, rfl, ?_⟩
  generalize v.value = n at h0 h9
  unfold AllHex
  interval_cases n <;> exact ⟨by decide +kernel, by decide +kernel, by decide +kernel⟩

private theorem hexNumber_snoc (s : Str) (c : Char) : hexNumber (s ++ [c]) = 16 * hexNumber s + (digit c).getD 0 := by
  rw [hexNumber, List.reverse_append]
  simp only [List.reverse_cons, List.reverse_nil, List.nil_append, List.cons_append, List.map_cons, Nat.ofDigits_cons, hexNumber]
  simp
  omega

private theorem digit_dec : ∀ d < 10, digit (Char.ofNat (48 + d)) = some d := by decide

private theorem decText_hex (n : Nat) : AllHex (decText n) ∧ n ≤ hexNumber (decText n) ∧ (10 ≤ n → n < hexNumber (decText n)) := by
  induction n using Nat.strong_induction_on with
  | _ n ih =>
    rw [decText]
    by_cases h : n = 0
    · subst h
      simp [AllHex]
    · rw [dif_neg h]
      obtain ⟨h1, h2, _⟩ := ih (n / 10) (by omega)
      rw [hexNumber_snoc, digit_dec _ (Nat.mod_lt _ (by decide)), Option.getD_some]
      refine ⟨?_, by omega, by omega⟩
      intro c hc
      rcases List.mem_append.1 hc with hc | hc
      · exact h1 c hc
      · rw [List.mem_singleton.1 hc, digit_dec _ (Nat.mod_lt _ (by decide))]; rfl

/-- C119 fails for every value from 10 on: the hexadecimal numeral `str(v)` writes denotes another, larger number. -/
theorem C119_decimal_violated (v : Value) (h : 10 ≤ v.value) :
    ∃ t, FF.str v = ['0', 'x'] ++ t ∧ AllHex t ∧ v.value < hexNumber t := by
  refine ⟨intStr v.value, rfl, ?_⟩
  obtain ⟨n, hn⟩ : ∃ n : Nat, v.value = n := ⟨v.value.toNat, by omega⟩
  rw [hn] at h ⊢
  have h' : 10 ≤ n := by exact_mod_cast h
  have e : intStr (n : Int) = decText n := by
    rw [intStr, if_neg (by omega), if_neg (by omega), Int.natAbs_natCast]
  obtain ⟨h1, _, h3⟩ := decText_hex n
  rw [e]
  exact ⟨h1, by exact_mod_cast h3 h'⟩

example : FF.str ⟨⟨1, 97⟩, 16⟩ = "0x16".toList := by decide +kernel

/-! ## C120, C121 -/

/-- C120. `v == x` for ints, texts and values is congruence modulo the modulus of v, and `!=` its negation. -/
theorem C120_eq (v : Value) (hp : 0 < v.field.p) (x : Operand) (n : Int) (hx : Stands x n) :
    (eq v x = .ok true ↔ v.value ≡ n [ZMOD v.field.p]) ∧ (eq v x = .ok false ↔ ¬ v.value ≡ n [ZMOD v.field.p]) ∧
    (ne v x = .ok true ↔ ¬ v.value ≡ n [ZMOD v.field.p]) ∧ (ne v x = .ok false ↔ v.value ≡ n [ZMOD v.field.p]) := by
  have h1 : eq v x = .ok (fEq v.field.p v.value n) := by
    rw [eq, wrap_ok hx]
    simp only
    rw [pyMod_pos hp]
    rfl
  have h2 := (C96_ring_ops v.field.p v.value n hp).2.2.2.2.2
  rw [ne, h1]
  cases hb : fEq v.field.p v.value n
  · rw [hb] at h2
    have : ¬ v.value ≡ n [ZMOD v.field.p] := fun h => by have := h2.2 h; cases this
    simp [this, Except.map]
  · rw [hb] at h2
    have := h2.1 rfl
    simp [this, Except.map]

/-- Comparing with a text that is not hexadecimal raises. -/
theorem eq_raises (v : Value) {x : Operand} (h : ¬ ∃ n, Stands x n) : ∃ e, eq v x = .error e := by
  obtain ⟨e, he⟩ := wrap_bad (f := v.field) h
  exact ⟨e, by rw [eq, he]⟩

/-- C121, for fields with the same modulus, the same object or not: `==` of values is reflexive, symmetric and transitive. -/
theorem C121_equivalence_partial (a b c : Value) (hp : 0 < a.field.p) (hb : b.field.p = a.field.p) :
    eq a (.value a) = .ok true ∧ (eq a (.value b) = eq b (.value a)) ∧
    (eq a (.value b) = .ok true → eq b (.value c) = .ok true → eq a (.value c) = .ok true) := by
  have ha := fun x n h => C120_eq a hp x n h
  have hb' := fun x n h => C120_eq b (hb ▸ hp) x n h
  refine ⟨((ha (.value a) _ rfl).1).2 rfl, ?_, ?_⟩
  · by_cases h : a.value ≡ b.value [ZMOD a.field.p]
    · rw [((ha (.value b) _ rfl).1).2 h, ((hb' (.value a) _ rfl).1).2 (hb ▸ h.symm)]
    · rw [((ha (.value b) _ rfl).2.1).2 h, ((hb' (.value a) _ rfl).2.1).2 (hb ▸ fun h' => h h'.symm)]
  · intro h1 h2
    have h1 := ((ha (.value b) _ rfl).1).1 h1
    have h2 := ((hb' (.value c) _ rfl).1).1 h2
    rw [hb] at h2
    exact ((ha (.value c) _ rfl).1).2 (h1.trans h2)

/-- C121 fails across moduli: values of the fields mod 5 and mod 7 with a == b and not b == a. -/
theorem C121_symmetry_violated : ∃ a b : Value, a.field.p = 5 ∧ b.field.p = 7 ∧
    eq a (.value b) = .ok true ∧ eq b (.value a) = .ok false :=
  ⟨⟨⟨0, 5⟩, 1⟩, ⟨⟨1, 7⟩, 6⟩, rfl, rfl, by decide +kernel, by decide +kernel⟩

/-! ## C174 -/

/-- C174. `-v` is the additive inverse, an involution on the integers held, and the field's zero and one are identities on both sides. -/
theorem C174_identities (v : Value) (hp : 0 < v.field.p) :
    (FF.neg v).field = v.field ∧ binary .add (.value v) (.value (FF.neg v)) = .ok (.value v.field.zero) ∧
    binary .add (.value (FF.neg v)) (.value v) = .ok (.value v.field.zero) ∧
    iszero v.field.zero = true ∧ FF.neg (FF.neg v) = v ∧
    (∀ w : Value, w.field = v.field → binary .sub (.value v) (.value w) = binary .add (.value v) (.value (FF.neg w))) ∧
    (∀ e ∈ [binary .add (.value v) (.value v.field.zero), binary .add (.value v.field.zero) (.value v),
        binary .mul (.value v) (.value v.field.one), binary .mul (.value v.field.one) (.value v)],
      IsResidue e v.field v.value) := by
  have hn := C116_left v hp (.value (FF.neg v)) _ rfl
  have hn' := C116_left (FF.neg v) hp (.value v) _ rfl
  have zero : ∀ {r : Except Err Result} {k : Int}, IsResidue r v.field k → k ≡ 0 [ZMOD v.field.p] → r = .ok (.value v.field.zero) := by
    rintro r k ⟨m, h1, h2, h3, h4⟩ hk
    have : m % v.field.p = 0 := by
      have h := h4.trans hk
      rwa [Int.ModEq, Int.zero_emod] at h
    rw [Int.emod_eq_of_lt h2 h3] at this
    rw [h1, this]; rfl
  refine ⟨rfl, zero hn.1 ?_, zero hn'.1 ?_, rfl, ?_, ?_, ?_⟩
  · show v.value + (v.field.p - v.value) ≡ 0 [ZMOD _]
    rw [show v.value + (v.field.p - v.value) = v.field.p by ring]
    simp [Int.ModEq]
  · show (v.field.p - v.value) + v.value ≡ 0 [ZMOD _]
    rw [show (v.field.p - v.value) + v.value = v.field.p by ring]
    simp [Int.ModEq]
  · show (⟨v.field, v.field.p - (v.field.p - v.value)⟩ : Value) = v
    rw [sub_sub_cancel]
  · intro w hw
    obtain ⟨m, h1, h2, h3, h4⟩ := (C116_left v hp (.value w) _ rfl).2.1
    obtain ⟨m', h1', h2', h3', h4'⟩ := (C116_left v hp (.value (FF.neg w)) (v.field.p - w.value) (by rw [Stands, FF.neg, hw])).1
    rw [h1, h1']
    have h5 : v.value + (v.field.p - w.value) ≡ v.value - w.value [ZMOD v.field.p] := by
      rw [show v.value + (v.field.p - w.value) = v.value - w.value + v.field.p by ring]
      simp [Int.ModEq]
    have : m ≡ m' [ZMOD v.field.p] := h4.trans (h5.symm.trans h4'.symm)
    rw [Int.ModEq, Int.emod_eq_of_lt h2 h3, Int.emod_eq_of_lt h2' h3'] at this
    rw [this]
  · have z1 := (C116_left v hp (.value v.field.zero) _ rfl).1
    have z2 := (C116_left v.field.zero hp (.value v) _ rfl).1
    have o1 := (C116_left v hp (.value v.field.one) _ rfl).2.2
    have o2 := (C116_left v.field.one hp (.value v) _ rfl).2.2
    simp only [Field.zero, Field.one, add_zero, zero_add, mul_one, one_mul] at z1 z2 o1 o2
    intro e he
    simp only [List.mem_cons, List.not_mem_nil, or_false] at he
    rcases he with rfl | rfl | rfl | rfl
    · exact z1
    · exact z2
    · exact o1
    · exact o2

example : FF.neg ⟨⟨1, 7⟩, 3⟩ = ⟨⟨1, 7⟩, 4⟩ ∧ FF.neg (Field.zero ⟨1, 7⟩) = ⟨⟨1, 7⟩, 7⟩ := by decide

/-! ## C178: the methods of a value -/

/-- C178 for `sqrt` and `inverse`: the method and the function of the field agree. -/
theorem C178_methods_partial (v : Value) (flag : Int) :
    sqrt v flag = (fSqrt v.field.p v.value flag).map (fun r => ⟨v.field, r⟩) ∧ methodInverse v = .ok (modinv v.value v.field.p) := by
  constructor
  · rw [sqrt, if_pos (by decide)]
  · rw [methodInverse, if_pos (by decide)]
    rfl

/-- C178 fails for `sqrtCQ`: the method raises AttributeError on every value, for every modulus, also where the function returns a root. -/
theorem C178_sqrtCQ_violated :
    (∀ (v : Value) (q : Nat), methodSqrtCQ v q = .error .attributeError) ∧
    ∀ (p : Nat), p.Prime → p % 4 = 3 → ∀ f : Field, f.p = p → ∀ w : Int,
      ∃ v : Value, v.field = f ∧ v.value ≡ w * w [ZMOD p] ∧ (∃ r, sqrtCQ v.value p = some r) ∧ methodSqrtCQ v p = .error .attributeError := by
  have hall : ∀ (v : Value) (q : Nat), methodSqrtCQ v q = .error .attributeError := by
    intro v q
    rw [methodSqrtCQ, if_neg (by decide)]
  refine ⟨hall, fun p hp h3 f hf w => ?_⟩
  have hpos : (0 : Int) < p := by exact_mod_cast hp.pos
  refine ⟨⟨f, (w * w) % p⟩, rfl, Int.mod_modEq _ _, ?_, hall _ _⟩
  exact C65_complete_partial p hp (Or.inr h3) _ (Int.emod_nonneg _ (by omega)) (Int.emod_lt_of_pos _ hpos)
    ⟨w, (Int.mod_modEq _ _).symm⟩

/-- 3 is a root of 2 mod 7. -/
example : sqrtCQ 2 7 = some 4 ∧ methodSqrtCQ ⟨⟨0, 7⟩, 2⟩ 7 = .error .attributeError :=
  ⟨by decide +kernel, C178_sqrtCQ_violated.1 _ _⟩

end Neo.Props
