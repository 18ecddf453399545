import Verif.Model.ValueEq
import Verif.Props.FieldOps
import Verif.Props.Operators

/-!
# C221: values of a finite field beside objects of other classes
-/

namespace Neo.Props
open Py Spec Neo.EC Neo.Operators

/-- The number an object stands for beside a field value: an int (also bool and BigInteger) for itself, a text for the hexadecimal number it spells
in an even number of digits. -/
def StandsFor : Obj → Int → Prop
  | .val (.bool b), n => n = if b then 1 else 0
  | .val (.int m), n => n = m
  | .val (.bigInteger m), n => n = m
  | .val (.str s), n => (∃ k, s.length = 2 * k) ∧ AllHex s ∧ n = hexNumber s
  | _, _ => False

private theorem operand_stands (y : Obj) (n : Int) : StandsFor y n ↔ ∃ o, operand y = some o ∧ Stands o n := by
  rcases y with v | a | P
  · cases v <;> simp [StandsFor, operand, Val.index?, Stands]
  · simp [StandsFor, operand]
  · simp [StandsFor, operand]

/-- C221, the answers: with the modulus positive, an object that stands for the number `n` is equal to the value on either side exactly if `n` is
congruent to it, and `!=` is the opposite. -/
theorem C221_numbers_partial (c : Curve) (v : FF.Value) (hp : 0 < v.field.p) (y : Obj) (n : Int) (hy : StandsFor y n) :
    eqAny c (.value v) (.obj y) = .ok (decide (v.value ≡ n [ZMOD v.field.p])) ∧
    eqAny c (.obj y) (.value v) = .ok (decide (v.value ≡ n [ZMOD v.field.p])) ∧
    neAny c (.value v) (.obj y) = .ok (decide (¬ v.value ≡ n [ZMOD v.field.p])) := by
  obtain ⟨o, ho, hs⟩ := (operand_stands y n).1 hy
  have h := C120_eq v hp o n hs
  have h1 : valueEq v y = .ok (decide (v.value ≡ n [ZMOD v.field.p])) := by
    rw [valueEq, ho]
    by_cases hc : v.value ≡ n [ZMOD v.field.p]
    · rw [decide_eq_true hc]; exact h.1.2 hc
    · rw [decide_eq_false hc]; exact h.2.1.2 hc
  have h2 : eqAny c (.obj y) (.value v) = valueEq v y := by
    rcases y with w | a | P
    · cases w <;> first | rfl | simp [StandsFor] at hy
    · simp [StandsFor] at hy
    · simp [StandsFor] at hy
  refine ⟨h1, h2.trans h1, ?_⟩
  show (valueEq v y).map (!·) = _
  rw [h1]
  simp [Except.map]

/-- C221, exactly: a value beside `==` raises if and only if the other object stands for no number; on the other side amounts and UInts answer
all the same, and everything else that stands for no number raises. -/
theorem C221_raises_iff_partial (c : Curve) (v : FF.Value) (hp : 0 < v.field.p) (y : Obj) :
    ((∃ e, eqAny c (.value v) (.obj y) = .error e) ↔ ¬ ∃ n, StandsFor y n) ∧
    ((∃ e, eqAny c (.obj y) (.value v) = .error e) ↔ (¬ ∃ n, StandsFor y n) ∧ eqClass y ≠ .fixed8 ∧ eqClass y ≠ .uint) ∧
    (∀ a, eqAny c (.obj (.fixed8 a)) (.value v) = .ok (decide (a = v.value))) ∧
    (∀ k d, eqAny c (.obj (.val (.uint k d))) (.value v) = .ok false) := by
  have h1 : (∃ e, valueEq v y = .error e) ↔ ¬ ∃ n, StandsFor y n := by
    constructor
    · rintro ⟨e, he⟩ ⟨n, hn⟩
      have := (C221_numbers_partial c v hp y n hn).1
      rw [eqAny, he] at this
      cases this
    · intro h
      unfold valueEq
      cases ho : operand y with
      | none => exact ⟨_, rfl⟩
      | some o => exact eq_raises v fun ⟨n, hn⟩ => h ⟨n, (operand_stands y n).2 ⟨o, ho, hn⟩⟩
  refine ⟨h1, ?_, fun a => by simp [eqAny]; rfl, fun k d => rfl⟩
  rcases y with w | a | P
  · cases w with
    | uint k d => simp [eqAny, eqClass]
    | _ => simpa [eqAny, eqClass] using h1
  · simp [eqAny, eqClass]
  · simp [eqAny, eqClass, StandsFor]

/-- C221 fails: every comparison of a value with None, byte strings or texts that are not hexadecimal raises, on either side; an amount is "equal" to
the field value that holds its number of satoshis (but to no other representative), while the value compared with the amount raises; and no value can
be a member of a set or a key. -/
theorem C221_violated (c : Curve) (seed : HashSeed) (v : FF.Value) (b : Bytes) :
    eqAny c (.value v) (.obj (.val .none)) = .error .typeError ∧ eqAny c (.obj (.val .none)) (.value v) = .error .typeError ∧
    eqAny c (.value v) (.obj (.val (.bytes b))) = .error .typeError ∧ eqAny c (.obj (.val (.bytes b))) (.value v) = .error .typeError ∧
    (∃ e, eqAny c (.value v) (.obj (.val (.str ['G', 'A', 'S', '!']))) = .error e) ∧
    eqAny c (.obj (.fixed8 v.value)) (.value v) = .ok true ∧ eqAny c (.value v) (.obj (.fixed8 v.value)) = .error .typeError ∧
    (v.field.p ≠ 0 → eqAny c (.obj (.fixed8 (v.value + v.field.p))) (.value v) = .ok false) ∧
    hashAny seed (.value v) = .error .typeError := by
  refine ⟨rfl, rfl, rfl, rfl, ?_, by simp [eqAny], rfl, fun h => by simp [eqAny, h], rfl⟩
  show ∃ e, FF.eq v (.hex ['G', 'A', 'S', '!']) = .error e
  apply eq_raises
  rintro ⟨n, -, h, -⟩
  exact absurd (h 'G' (by simp)) (by decide)

/-- 10 and the text "0a" equal the value 3 of the field of 7 elements, from both sides; BigInteger(4) and "0b" do not. -/
example (c : Curve) : StandsFor (.val (.str ['0', 'a'])) 10 ∧ StandsFor (.val (.bool true)) 1 ∧
    eqAny c (.value ⟨⟨0, 7⟩, 3⟩) (.obj (.val (.int 10))) = .ok true ∧ eqAny c (.obj (.val (.str ['0', 'a']))) (.value ⟨⟨0, 7⟩, 3⟩) = .ok true ∧
    eqAny c (.obj (.val (.bigInteger 4))) (.value ⟨⟨0, 7⟩, 3⟩) = .ok false ∧ eqAny c (.value ⟨⟨0, 7⟩, 3⟩) (.obj (.val (.str ['0', 'b']))) = .ok false := by
  refine ⟨⟨⟨1, rfl⟩, by unfold AllHex; decide, by decide⟩, rfl, ?_, ?_, ?_, ?_⟩ <;> (simp only [eqAny, valueEq, operand]; decide +kernel)

end Neo.Props
