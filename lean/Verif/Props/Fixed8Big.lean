import Verif.Model.Fixed8Big
import Verif.Props.Fixed8Text
import Verif.Props.Operators

/-!
# C180: amounts made from a BigInteger
-/

namespace Neo.Props
open Py Spec Neo.Operators Neo.Fixed8

/-- Both calls raise the same exception, or both return amounts of the same number. -/
def SameAmount (x y : Except Err Operand) : Prop :=
  match x, y with
  | .error e, .error e' => e = e'
  | .ok a, .ok b => a.value = b.value
  | _, _ => False

private theorem same_binary (op : Op) (hop : op = .add ∨ op = .sub ∨ op = .mul ∨ op = .floordiv ∨ op = .mod) (a b : Operand) :
    (∃ e, binary op a b = .error e ∧ intOp op a.value b.value = .error e) ∨
    ∃ n, (binary op a b = .ok (.int n) ∨ binary op a b = .ok (.big n)) ∧ intOp op a.value b.value = .ok (.int n) := by
  have hi : b.val.index? = some b.value := by cases b <;> rfl
  have key : (∃ e, intOp op a.value b.value = .error e) ∨ ∃ n, intOp op a.value b.value = .ok (.int n) := by
    rcases hop with h | h | h | h | h <;> subst h <;> simp only [intOp]
    · exact .inr ⟨_, rfl⟩
    · exact .inr ⟨_, rfl⟩
    · exact .inr ⟨_, rfl⟩
    · by_cases h0 : b.value = 0
      · exact .inl ⟨_, if_pos h0⟩
      · exact .inr ⟨_, if_neg h0⟩
    · by_cases h0 : b.value = 0
      · exact .inl ⟨_, if_pos h0⟩
      · exact .inr ⟨_, if_neg h0⟩
  cases a with
  | int n => rcases key with ⟨e, he⟩ | ⟨m, hm⟩
             · exact .inl ⟨e, he, he⟩
             · exact .inr ⟨m, .inl hm, hm⟩
  | bool n => rcases key with ⟨e, he⟩ | ⟨m, hm⟩
              · exact .inl ⟨e, he, he⟩
              · exact .inr ⟨m, .inl hm, hm⟩
  | big n =>
    rcases hop with h | h | h | h | h <;> subst h
    · exact .inr ⟨n + b.value, .inr (by simp only [binary, bigOp, BigInt.add, BigInt.binop, hi, ofVal]), rfl⟩
    · exact .inr ⟨n - b.value, .inr (by simp only [binary, bigOp, BigInt.sub, BigInt.binop, hi, ofVal]), rfl⟩
    · exact .inr ⟨n * b.value, .inr (by simp only [binary, bigOp, BigInt.mul, BigInt.binop, hi, ofVal]), rfl⟩
    · by_cases h0 : b.value = 0
      · exact .inl ⟨.zeroDivision, by simp only [binary, bigOp, BigInt.floordiv, BigInt.binop, hi, if_pos h0], by simp only [intOp, if_pos h0]⟩
      · exact .inr ⟨n.fdiv b.value, .inr (by simp only [binary, bigOp, BigInt.floordiv, BigInt.binop, hi, if_neg h0, ofVal]), by
          simp only [intOp, if_neg h0]; rfl⟩
    · by_cases h0 : b.value = 0
      · exact .inl ⟨.zeroDivision, by simp only [binary, bigOp, BigInt.mod, BigInt.binop, hi, if_pos h0], by simp only [intOp, if_pos h0]⟩
      · exact .inr ⟨n.fmod b.value, .inr (by simp only [binary, bigOp, BigInt.mod, BigInt.binop, hi, if_neg h0, ofVal]), by
          simp only [intOp, if_neg h0]; rfl⟩

private theorem same_arith (op : Op) (hop : op = .add ∨ op = .sub ∨ op = .mul ∨ op = .floordiv) (a b a' b' : Operand)
    (ha : a.value = a'.value) (hb : b.value = b'.value) : SameAmount (Any.arith op a b) (Any.arith op a' b') := by
  have h1 := same_binary op (by tauto) a b
  have h2 := same_binary op (by tauto) a' b'
  rw [ha, hb] at h1
  unfold Any.arith
  rcases h1 with ⟨e, x, y⟩ | ⟨n, x, y⟩ <;> rcases h2 with ⟨e', x', y'⟩ | ⟨n', x', y'⟩ <;> rw [y] at y' <;> cases y'
  · rw [x, x']; rfl
  · rcases x with x | x <;> rcases x' with x' | x' <;> rw [x, x'] <;> rfl

/-- C180, what holds: sums, differences, products, floor quotients, remainders and negations do not depend on whether the values are ints or
BigIntegers (nor do comparisons, which compare the integers). -/
theorem C180_arithmetic_partial (a b a' b' : Any.Amount) (ha : a.value = a'.value) (hb : b.value = b'.value) :
    SameAmount (Any.add a b) (Any.add a' b') ∧ SameAmount (Any.sub a b) (Any.sub a' b') ∧ SameAmount (Any.mul a b) (Any.mul a' b') ∧
    SameAmount (Any.floordiv a b) (Any.floordiv a' b') ∧ SameAmount (Any.mod a b) (Any.mod a' b') ∧ SameAmount (Any.neg a) (Any.neg a') := by
  refine ⟨same_arith _ (by tauto) _ _ _ _ ha hb, same_arith _ (by tauto) _ _ _ _ ha hb, same_arith _ (by tauto) _ _ _ _ ha hb,
    same_arith _ (by tauto) _ _ _ _ ha hb, ?_, same_arith _ (by tauto) _ _ _ _ rfl ha⟩
  have h1 := same_binary .mod (by tauto) a b
  have h2 := same_binary .mod (by tauto) a' b'
  rw [ha, hb] at h1
  unfold Any.mod Any.arithInt
  rcases h1 with ⟨e, x, y⟩ | ⟨n, x, y⟩ <;> rcases h2 with ⟨e', x', y'⟩ | ⟨n', x', y'⟩ <;> rw [y] at y' <;> cases y'
  · rw [x, x']; rfl
  · rcases x with x | x <;> rcases x' with x' | x' <;> rw [x, x'] <;> rfl

/-- The plain int case is the model of `Model/Fixed8`. -/
theorem C180_int_partial (R : Dtoa) (v w : Int) :
    Any.ceil (.int v) = Fixed8.ceil v ∧ Any.floor (.int v) = Fixed8.floor v ∧ Any.toInt (.int v) = Fixed8.toInt v ∧
    Any.toStr R (.int v) = Fixed8.toStr R v ∧ Any.truediv (.int v) (.int w) = (Fixed8.truediv v w).map .int ∧
    Any.add (.int v) (.int w) = .ok (.int (v + w)) ∧ Any.sub (.int v) (.int w) = .ok (.int (v - w)) ∧
    Any.mul (.int v) (.int w) = .ok (.int (v * w)) ∧ Any.neg (.int v) = .ok (.int (-v)) ∧
    Any.floordiv (.int v) (.int w) = (if w = 0 then .error .zeroDivision else .ok (.int (v.fdiv w))) ∧
    Any.mod (.int v) (.int w) = (if w = 0 then .error .zeroDivision else .ok (.int (v.fmod w))) := by
  have he : ∀ w e, intTrueDiv v w = .error e → binary .truediv (.int v) (.int w) = .error e := by
    intro w e h
    simp only [binary, intOp, Operand.value, h]
  have ho : ∀ w x, intTrueDiv v w = .ok x → binary .truediv (.int v) (.int w) = .ok (.float x) := by
    intro w x h
    simp only [binary, intOp, Operand.value, h]
  refine ⟨?_, ?_, ?_, ?_, ?_, rfl, rfl, rfl, ?_, ?_, ?_⟩
  · unfold Any.ceil Any.rounded Fixed8.ceil
    cases h : intTrueDiv v D with
    | error e => rw [he _ _ h]; rfl
    | ok x => rw [ho _ _ h]; simp only; cases x.ceil <;> rfl
  · unfold Any.floor Any.rounded Fixed8.floor
    cases h : intTrueDiv v D with
    | error e => rw [he _ _ h]; rfl
    | ok x => rw [ho _ _ h]; simp only; cases x.floor <;> rfl
  · unfold Any.toInt Any.rounded Fixed8.toInt
    cases h : intTrueDiv v D with
    | error e => rw [he _ _ h]
    | ok x => rw [ho _ _ h]
  · unfold Any.toStr Fixed8.toStr
    cases h : intTrueDiv v D with
    | error e => rw [he _ _ h]
    | ok x => rw [ho _ _ h]
  · unfold Any.truediv Any.arithInt Fixed8.truediv
    cases h : intTrueDiv v w with
    | error e => rw [he _ _ h]; rfl
    | ok x => rw [ho _ _ h]; simp only [Any.intOfRes]; cases x.toInt <;> rfl
  · simp [Any.neg, Any.arith, Any.ofRes, binary, intOp, Operand.value]
  · by_cases h : w = 0 <;> simp [Any.floordiv, Any.arith, Any.ofRes, binary, intOp, Operand.value, h]
  · by_cases h : w = 0 <;> simp [Any.mod, Any.arithInt, Any.intOfRes, binary, intOp, Operand.value, h]

private theorem big_div (v : Int) : binary .truediv (.big v) (.int D) = .ok (.big (v.fdiv D)) := rfl

private theorem unsigned_decText (n : ℕ) (h : 0 < n) : unsigned? (decText n) = some (n : ℚ) := by
  refine unsigned_plain (mantissa_whole (n := n) ?_ ?_)
  · rw [digits_eq, digitsFrom_decText]; simp
  · intro h0
    have := (decText_length n h).1
    rw [h0] at this
    simp at this

private theorem value_intStr (n : Int) : textValue? (EC.FF.intStr n) = some (n : ℚ) := by
  rw [EC.FF.intStr]
  by_cases h0 : n = 0
  · subst h0
    rw [if_pos rfl]
    decide +kernel
  · rw [if_neg h0]
    have hu := unsigned_decText n.natAbs (by omega)
    by_cases hneg : n < 0
    · rw [if_pos hneg, textValue?, hu]
      have : (n : ℚ) = -(n.natAbs : ℚ) := by
        have : n = -(n.natAbs : ℤ) := by omega
        exact_mod_cast this
      rw [this]
      rfl
    · rw [if_neg hneg]
      have hl := (decText_length n.natAbs (by omega)).1
      have hd := decText_isDig n.natAbs
      cases hs : decText n.natAbs with
      | nil => rw [hs] at hl; simp at hl
      | cons c t =>
        rw [hs] at hd hu
        rw [textValue_digit (hd c (by simp)), hu]
        have : (n : ℚ) = (n.natAbs : ℚ) := by
          have : n = (n.natAbs : ℤ) := by omega
          rw [← Int.cast_natCast, ← this]
        rw [this]

/-- C180 fails for the methods that divide, for every BigInteger amount that is not a whole number of units: Ceil returns an amount below it; the text
denotes only the whole units; for negative ones ToInt rounds away from zero. -/
theorem C180_rounding_violated (R : Dtoa) (v : Int) (hv : ¬ (100000000 ∣ v)) :
    (∃ c, Any.ceil (.big v) = .ok c ∧ c < v) ∧
    (∃ s q, Any.toStr R (.big v) = .ok s ∧ textValue? s = some q ∧ q < (v : ℚ) / 100000000) ∧
    (v < 0 → ∃ n, Any.toInt (.big v) = .ok n ∧ n = v.tdiv 100000000 - 1) := by
  have hD : D = 100000000 := rfl
  have hf : v.fdiv D = v / 100000000 := by rw [hD]; exact Int.fdiv_eq_ediv_of_nonneg v (by norm_num)
  have hlt : v / 100000000 * 100000000 < v := by omega
  refine ⟨⟨_, by rw [Any.ceil, Any.rounded, big_div]; rfl, ?_⟩, ⟨_, _, by rw [Any.toStr, big_div], value_intStr _, ?_⟩, fun hn => ?_⟩
  · change v.fdiv D * D < v
    rw [hf, hD]
    exact hlt
  · rw [hf, lt_div_iff₀ (by norm_num)]
    exact_mod_cast hlt
  · refine ⟨_, by rw [Any.toInt, Any.rounded, big_div]; rfl, ?_⟩
    rw [hf]
    have h1 : v.tdiv 100000000 = -((-v) / 100000000) := by
      rw [← Int.tdiv_eq_ediv_of_nonneg (by omega), Int.neg_tdiv, neg_neg]
    omega

/-- C180, Floor of a BigInteger amount is exact at every size (that of an int amount is not, C28), and the quotient by any amount is the floor quotient. -/
theorem C180_floor_partial (v : Int) :
    (∃ f, Any.floor (.big v) = .ok f ∧ 100000000 ∣ f ∧ f ≤ v ∧ v < f + 100000000) ∧
    (∀ b : Any.Amount, SameAmount (Any.truediv (.big v) b) (Any.floordiv (.big v) b)) := by
  have hD : D = 100000000 := rfl
  refine ⟨⟨_, by rw [Any.floor, Any.rounded, big_div]; rfl, ?_, ?_, ?_⟩, fun b => ?_⟩
  · exact ⟨v.fdiv D, by change v.fdiv D * D = _; rw [hD]; ring⟩
  · change v.fdiv D * D ≤ v
    rw [hD, Int.fdiv_eq_ediv_of_nonneg v (by norm_num)]
    omega
  · change v < v.fdiv D * D + 100000000
    rw [hD, Int.fdiv_eq_ediv_of_nonneg v (by norm_num)]
    omega
  · have hi : b.val.index? = some b.value := by cases b <;> rfl
    by_cases h0 : b.value = 0
    · simp only [Any.truediv, Any.floordiv, Any.arith, Any.arithInt, binary, bigOp, BigInt.truediv, BigInt.floordiv, BigInt.binop, hi, if_pos h0, SameAmount]
    · simp only [Any.truediv, Any.floordiv, Any.arith, Any.arithInt, binary, bigOp, BigInt.truediv, BigInt.floordiv, BigInt.binop, hi, if_neg h0,
        ofVal, Any.intOfRes, Any.ofRes, SameAmount]
      rfl

/-- 1.5 units: `Fixed8(BigInteger(150000000))` prints as `1`, and its Ceil is one unit. -/
example (R : Dtoa) : Any.toStr R (.big 150000000) = .ok ['1'] ∧ Any.ceil (.big 150000000) = .ok 100000000 ∧ ¬ ((100000000 : Int) ∣ 150000000) := by
  refine ⟨?_, rfl, by norm_num⟩
  rw [Any.toStr, big_div]
  change Except.ok (EC.FF.intStr _) = _
  exact congrArg _ (by decide +kernel)

end Neo.Props
