import Verif.Model.Operators
import Verif.Props.BigInteger

/-!
# C149–C151: operators between neocore's classes and others
-/

namespace Neo.Props
open Py Neo.Operators

/-- The integer of a result. -/
def resInt : Res → Option Int
  | .int n => some n
  | .big n => some n
  | _ => none

private theorem index_val (r : Operand) : r.val.index? = some r.value := by
  cases r <;> rfl

/-- C149, what holds of the values: every operator but `/`, with BigIntegers on either side or both, gives exactly the integer that
it gives on the plain ints, or the same exception. -/
theorem C149_values_partial (op : Op) (h : op ≠ .truediv) (l r : Operand) :
    (∀ e, binary op l r = .error e ↔ intOp op l.value r.value = .error e) ∧
    (∀ x, binary op l r = .ok x → ∃ y, intOp op l.value r.value = .ok y ∧ resInt x = resInt y) := by
  have key : binary op l r = intOp op l.value r.value ∨
      ∃ n, intOp op l.value r.value = .ok (.int n) ∧ binary op l r = .ok (.big n) := by
    cases l with
    | int n => exact .inl rfl
    | bool b => exact .inl rfl
    | big a =>
      have hi := index_val r
      cases op with
      | truediv => exact absurd rfl h
      | pow => exact .inl rfl
      | and => exact .inl rfl
      | or => exact .inl rfl
      | xor => exact .inl rfl
      | add => exact .inr ⟨_, rfl, by simp only [binary, bigOp, BigInt.add, BigInt.binop, hi, ofVal]; rfl⟩
      | sub => exact .inr ⟨_, rfl, by simp only [binary, bigOp, BigInt.sub, BigInt.binop, hi, ofVal]; rfl⟩
      | mul => exact .inr ⟨_, rfl, by simp only [binary, bigOp, BigInt.mul, BigInt.binop, hi, ofVal]; rfl⟩
      | floordiv =>
        by_cases h0 : r.value = 0
        · exact .inl (by simp only [binary, bigOp, BigInt.floordiv, BigInt.binop, hi, intOp, if_pos h0])
        · exact .inr ⟨a.fdiv r.value, by simp only [intOp, if_neg h0]; rfl,
            by simp only [binary, bigOp, BigInt.floordiv, BigInt.binop, hi, if_neg h0, ofVal]⟩
      | mod =>
        by_cases h0 : r.value = 0
        · exact .inl (by simp only [binary, bigOp, BigInt.mod, BigInt.binop, hi, intOp, if_pos h0])
        · exact .inr ⟨a.fmod r.value, by simp only [intOp, if_neg h0]; rfl,
            by simp only [binary, bigOp, BigInt.mod, BigInt.binop, hi, if_neg h0, ofVal]⟩
      | lshift =>
        by_cases h0 : r.value < 0
        · exact .inl (by simp only [binary, bigOp, BigInt.lshift, BigInt.binop, hi, intOp, if_pos h0])
        · exact .inr ⟨a * 2 ^ r.value.toNat, by simp only [intOp, if_neg h0]; rfl,
            by simp only [binary, bigOp, BigInt.lshift, BigInt.binop, hi, if_neg h0, ofVal]⟩
      | rshift =>
        by_cases h0 : r.value < 0
        · exact .inl (by simp only [binary, bigOp, BigInt.rshift, BigInt.binop, hi, intOp, if_pos h0])
        · exact .inr ⟨a >>> r.value.toNat, by simp only [intOp, if_neg h0]; rfl,
            by simp only [binary, bigOp, BigInt.rshift, BigInt.binop, hi, if_neg h0, ofVal]⟩
  rcases key with h1 | ⟨n, h1, h2⟩
  · exact ⟨fun e => by rw [h1], fun x hx => ⟨x, by rw [← h1]; exact hx, rfl⟩⟩
  · refine ⟨fun e => by rw [h1, h2]; simp, fun x hx => ⟨_, h1, ?_⟩⟩
    rw [h2] at hx
    cases hx
    rfl

private theorem floor_fdiv (a b : Int) : a.fdiv b = ⌊(a : ℚ) / b⌋ := by
  by_cases hb : b = 0
  · subst hb; simp
  · have := C26_floor a b (.int b) rfl hb
    rw [BigInt.truediv, BigInt.binop] at this
    simp only [Val.index?, if_neg hb] at this
    exact Val.bigInteger.inj (Except.ok.inj this)

/-- C149, the values in mathematical terms: sum, difference, product, floor of the quotient, remainder with the sign of the
divisor, multiplication by and floor of division by a power of two, power, and the bits of `&`, `|`, `^` in two's complement. -/
theorem C149_meaning_partial (l r : Operand) :
    (∀ x, binary .add l r = .ok x → resInt x = some (l.value + r.value)) ∧
    (∀ x, binary .sub l r = .ok x → resInt x = some (l.value - r.value)) ∧
    (∀ x, binary .mul l r = .ok x → resInt x = some (l.value * r.value)) ∧
    (∀ x, binary .floordiv l r = .ok x → resInt x = some ⌊(l.value : ℚ) / r.value⌋) ∧
    (∀ x, binary .mod l r = .ok x → resInt x = some (l.value - r.value * ⌊(l.value : ℚ) / r.value⌋)) ∧
    (∀ x, binary .lshift l r = .ok x → 0 ≤ r.value ∧ resInt x = some (l.value * 2 ^ r.value.toNat)) ∧
    (∀ x, binary .rshift l r = .ok x → 0 ≤ r.value ∧ resInt x = some ⌊(l.value : ℚ) / 2 ^ r.value.toNat⌋) ∧
    (∀ x, binary .pow l r = .ok x → 0 ≤ r.value → resInt x = some (l.value ^ r.value.toNat)) ∧
    (∀ x, binary .and l r = .ok x → ∃ n, resInt x = some n ∧ ∀ i, n.testBit i = (l.value.testBit i && r.value.testBit i)) ∧
    (∀ x, binary .or l r = .ok x → ∃ n, resInt x = some n ∧ ∀ i, n.testBit i = (l.value.testBit i || r.value.testBit i)) ∧
    (∀ x, binary .xor l r = .ok x → ∃ n, resInt x = some n ∧ ∀ i, n.testBit i = xor (l.value.testBit i) (r.value.testBit i)) := by
  have fl := floor_fdiv
  have val : ∀ op x, op ≠ .truediv → binary op l r = .ok x → ∃ y, intOp op l.value r.value = .ok y ∧ resInt x = resInt y :=
    fun op x hop hx => (C149_values_partial op hop l r).2 x hx
  refine ⟨?_, ?_, ?_, ?_, ?_, ?_, ?_, ?_, ?_, ?_, ?_⟩
  · intro x hx
    obtain ⟨y, hy, e⟩ := val .add x (by decide) hx
    cases hy; exact e
  · intro x hx
    obtain ⟨y, hy, e⟩ := val .sub x (by decide) hx
    cases hy; exact e
  · intro x hx
    obtain ⟨y, hy, e⟩ := val .mul x (by decide) hx
    cases hy; exact e
  · intro x hx
    obtain ⟨y, hy, e⟩ := val .floordiv x (by decide) hx
    simp only [intOp] at hy
    by_cases h0 : r.value = 0
    · rw [if_pos h0] at hy; cases hy
    · rw [if_neg h0] at hy; cases hy
      rw [e, ← fl]; rfl
  · intro x hx
    obtain ⟨y, hy, e⟩ := val .mod x (by decide) hx
    simp only [intOp] at hy
    by_cases h0 : r.value = 0
    · rw [if_pos h0] at hy; cases hy
    · rw [if_neg h0] at hy; cases hy
      rw [e, ← fl]
      show some _ = some _
      rw [Int.fmod_def]
  · intro x hx
    obtain ⟨y, hy, e⟩ := val .lshift x (by decide) hx
    simp only [intOp] at hy
    by_cases h0 : r.value < 0
    · rw [if_pos h0] at hy; cases hy
    · rw [if_neg h0] at hy; cases hy
      exact ⟨by omega, e⟩
  · intro x hx
    obtain ⟨y, hy, e⟩ := val .rshift x (by decide) hx
    simp only [intOp] at hy
    by_cases h0 : r.value < 0
    · rw [if_pos h0] at hy; cases hy
    · rw [if_neg h0] at hy; cases hy
      refine ⟨by omega, e.trans ?_⟩
      show some _ = some _
      have := fl l.value (2 ^ r.value.toNat)
      push_cast at this
      rw [← this, Int.shiftRight_eq_div_pow, Int.fdiv_eq_ediv_of_nonneg _ (by positivity)]
      push_cast; rfl
  · intro x hx h0
    obtain ⟨y, hy, e⟩ := val .pow x (by decide) hx
    simp only [intOp, if_pos h0] at hy
    cases hy; exact e
  · intro x hx
    obtain ⟨y, hy, e⟩ := val .and x (by decide) hx
    cases hy
    exact ⟨_, e, fun i => Int.testBit_land _ _ i⟩
  · intro x hx
    obtain ⟨y, hy, e⟩ := val .or x (by decide) hx
    cases hy
    exact ⟨_, e, fun i => Int.testBit_lor _ _ i⟩
  · intro x hx
    obtain ⟨y, hy, e⟩ := val .xor x (by decide) hx
    cases hy
    exact ⟨_, e, fun i => Int.testBit_lxor _ _ i⟩

/-- C149, what holds of the types: with a BigInteger on the left, the eight operators of neocore/BigInteger.py give a BigInteger
whenever they do not raise. -/
theorem C149_left_partial (op : Op) (h : op ≠ .pow ∧ op ≠ .and ∧ op ≠ .or ∧ op ≠ .xor) (a : Int) (r : Operand) (x : Res)
    (hx : binary op (.big a) r = .ok x) : ∃ n, x = .big n := by
  have hi := index_val r
  obtain ⟨h1, h2, h3, h4⟩ := h
  have hb : ∀ g : Int → Int → Except Err Int, ∀ v, BigInt.binop g a r.val = .ok v → ∃ n, v = .bigInteger n := by
    intro g v hv
    simp only [BigInt.binop, hi] at hv
    cases hg : g a r.value with
    | error e => rw [hg] at hv; cases hv
    | ok n => rw [hg] at hv; cases hv; exact ⟨n, rfl⟩
  have fin : ∀ f : Int → Val → Except Err Val, bigOp op = some f → (∀ v, f a r.val = .ok v → ∃ n, v = .bigInteger n) →
      ∃ n, x = .big n := by
    intro f hf hv
    rw [binary] at hx
    simp only [hf] at hx
    cases he : f a r.val with
    | error e => rw [he] at hx; cases hx
    | ok v =>
      rw [he] at hx
      obtain ⟨n, rfl⟩ := hv v he
      cases hx
      exact ⟨n, rfl⟩
  cases op with
  | pow => exact absurd rfl h1
  | and => exact absurd rfl h2
  | or => exact absurd rfl h3
  | xor => exact absurd rfl h4
  | add => exact fin _ rfl (hb _)
  | sub => exact fin _ rfl (hb _)
  | mul => exact fin _ rfl (hb _)
  | floordiv => exact fin _ rfl (hb _)
  | truediv => exact fin _ rfl (hb _)
  | mod => exact fin _ rfl (hb _)
  | lshift => exact fin _ rfl (hb _)
  | rshift => exact fin _ rfl (hb _)

/-- C149 for unary operators and `divmod`: the values are right. -/
theorem C149_unary_partial (a : Int) (r : Operand) :
    (∃ x, unary .neg a = .ok x ∧ resInt x = some (-a)) ∧ (∃ x, unary .abs a = .ok x ∧ resInt x = some |a|) ∧
    (∃ x, unary .pos a = .ok x ∧ resInt x = some a) ∧
    (∃ x n, unary .invert a = .ok x ∧ resInt x = some n ∧ ∀ i, n.testBit i = !a.testBit i) ∧
    (r.value = 0 → divmod a r = .error .zeroDivision) ∧
    (r.value ≠ 0 → ∃ x y, divmod a r = .ok (x, y) ∧ ∃ q m, resInt x = some q ∧ resInt y = some m ∧ a = r.value * q + m ∧
      q = ⌊(a : ℚ) / r.value⌋) := by
  refine ⟨⟨_, rfl, rfl⟩, ⟨_, rfl, ?_⟩, ⟨_, rfl, rfl⟩, ⟨_, _, rfl, rfl, fun i => ?_⟩, ?_, ?_⟩
  · show some _ = _
    rw [Int.abs_eq_natAbs]
  · have : -a - 1 = Int.lnot a := by
      cases a with
      | ofNat n => rw [Int.lnot, Int.negSucc_eq, Int.ofNat_eq_natCast]; omega
      | negSucc n => rw [Int.lnot, Int.negSucc_eq]; omega
    rw [this, Int.testBit_lnot]
  · intro h
    rw [divmod, if_pos h]
  · intro h
    refine ⟨_, _, by rw [divmod, if_neg h], _, _, rfl, rfl, ?_, ?_⟩
    · exact (Int.mul_fdiv_add_fmod a r.value).symm
    · exact floor_fdiv a r.value

/-- C149 fails on the type of `+x`, `~x` and `divmod`: always plain ints. `-x` and `abs(x)` are BigIntegers. -/
theorem C149_unary_violated (a : Int) :
    unary .pos a = .ok (.int a) ∧ unary .invert a = .ok (.int (-a - 1)) ∧
    (∀ r x y, divmod a r = .ok (x, y) → ∀ n, x ≠ .big n ∧ y ≠ .big n) ∧
    unary .neg a = .ok (.big (-a)) ∧ unary .abs a = .ok (.big (a.natAbs : Int)) := by
  refine ⟨rfl, rfl, fun r x y h n => ?_, rfl, rfl⟩
  unfold divmod at h
  by_cases h0 : r.value = 0
  · rw [if_pos h0] at h; cases h
  · rw [if_neg h0] at h
    cases h
    exact ⟨(fun e => by cases e), (fun e => by cases e)⟩

example : unary .abs (-5) = .ok (.big 5) ∧ unary .invert 5 = .ok (.int (-6)) ∧
    divmod (-7) (.int 2) = .ok (.int (-4), .int 1) := by decide

/-- C149 fails on the type: with a plain int on the left no operator ever gives a BigInteger, and powers and bitwise operations
never do, even of two BigIntegers. -/
theorem C149_types_violated :
    (∀ op a r x, binary op (.int a) r = .ok x → ∀ n, x ≠ .big n) ∧
    (∀ op l r x, op = .pow ∨ op = .and ∨ op = .or ∨ op = .xor → binary op l r = .ok x → ∀ n, x ≠ .big n) := by
  have key : ∀ op a b x, intOp op a b = .ok x → ∀ n, x ≠ .big n := by
    intro op a b x hx n hn
    subst hn
    cases op <;> simp only [intOp] at hx
    · cases hx
    · cases hx
    · cases hx
    · split at hx <;> cases hx
    · split at hx <;> cases hx
    · split at hx <;> cases hx
    · split at hx <;> cases hx
    · split at hx <;> cases hx
    · by_cases h0 : 0 ≤ b
      · rw [if_pos h0] at hx; cases hx
      · rw [if_neg h0] at hx
        split at hx <;> cases hx
    · cases hx
    · cases hx
    · cases hx
  refine ⟨fun op a r x hx => key _ _ _ _ hx, ?_⟩
  intro op l r x hop hx
  cases l with
  | int n => exact key _ _ _ _ hx
  | bool b => exact key _ _ _ _ hx
  | big a =>
    rcases hop with rfl | rfl | rfl | rfl
    · exact key .pow a r.value x hx
    · exact key .and a r.value x hx
    · exact key .or a r.value x hx
    · exact key .xor a r.value x hx

/-- C149 fails for `/`: a BigInteger over an int is the floor of the quotient, an int over a BigInteger a float. 10 over
BigInteger(4) is 2.5, BigInteger(10) over 4 is BigInteger(2). -/
theorem C149_division_violated :
    (∀ (a : Int) (b : Int) x, binary .truediv (.int a) (.big b) = .ok x → ∃ f, x = .float f) ∧
    (∀ (a : Int) (r : Operand), r.value ≠ 0 → binary .truediv (.big a) r = .ok (.big ⌊(a : ℚ) / r.value⌋)) ∧
    binary .truediv (.int 10) (.big 4) = .ok (.float (.fin (5 / 2))) ∧
    binary .truediv (.big 10) (.int 4) = .ok (.big 2) := by
  refine ⟨?_, ?_, by decide +kernel, by decide +kernel⟩
  · intro a b x hx
    change (match intTrueDiv a b with | Except.error e => Except.error e | Except.ok x => Except.ok (Res.float x)) = _ at hx
    cases h : intTrueDiv a b with
    | error e => rw [h] at hx; cases hx
    | ok f => rw [h] at hx; cases hx; exact ⟨f, rfl⟩
  · intro a r h0
    have := C26_floor a r.value r.val (index_val r) h0
    simp only [binary, bigOp, this, ofVal]

/-- Both kinds of operands are met, and operators that raise and that do not. -/
example : binary .sub (.int 3) (.big 5) = .ok (.int (-2)) ∧ binary .sub (.big 3) (.int 5) = .ok (.big (-2)) ∧
    binary .and (.big 12) (.big 10) = .ok (.int 8) ∧ binary .mod (.big 1) (.bool false) = .error .zeroDivision := by decide +kernel

/-! ## C150 -/

/-- C150 for ints, bools and BigIntegers: `Equals` is equality of values. -/
theorem C150_ints_partial (a : Int) (v : Val) (n : Int) (h : v.index? = some n) : equalsHolds a v = true ↔ a = n := by
  simp [equalsHolds, BigInt.equals, h]

/-- C150 fails for everything else: `Equals` returns NotImplemented, which counts as true. -/
theorem C150_others_violated (a : Int) (v : Val) (h : v.index? = none) :
    BigInt.equals a v = none ∧ equalsHolds a v = true := by
  simp [equalsHolds, BigInt.equals, h]

example : (Val.bigInteger 5).index? = some 5 ∧ (Val.str ['5']).index? = none ∧ Val.none.index? = none := ⟨rfl, rfl, rfl⟩

/-! ## C151 -/

/-- The classes of objects for which `==` may raise with objects of another class. -/
inductive EqClass where
  | fixed8 | point | uint | plain
  deriving DecidableEq

/-- The class of an object. -/
def eqClass : Obj → EqClass
  | .fixed8 _ => .fixed8
  | .point _ => .point
  | .val (.uint _ _) => .uint
  | .val _ => .plain

private theorem eq_symm (c : EC.Curve) (x y : Obj) : ∀ b b', eqOp c x y = .ok b → eqOp c y x = .ok b' → b = b' := by
  intro b b' h h'
  rcases x with v | u | P <;> rcases y with w | u' | Q
  · cases v <;> cases w <;> simp [eqOp, UInt.eq, plainEq, Val.index?, eq_comm] at h h' <;> grind
  · cases v <;> simp [eqOp] at h h'
  · cases v <;> simp [eqOp] at h h'
  · cases w <;> simp [eqOp] at h h'
  · simp [eqOp, Fixed8.eq] at h h'
    grind
  · simp [eqOp] at h
  · cases w <;> simp [eqOp] at h h'
  · simp [eqOp] at h
  · simp only [eqOp, EC.ptEq, EC.fEq, Except.ok.injEq] at h h'
    have sym : ∀ a b : Int, (Int.fmod (a - b) c.p = 0) ↔ (Int.fmod (b - a) c.p = 0) := by
      intro a b
      rw [← Int.dvd_iff_fmod_eq_zero, ← Int.dvd_iff_fmod_eq_zero, ← Int.dvd_neg, Int.neg_sub]
    rw [← h, ← h', decide_eq_decide.2 (sym P.x Q.x), decide_eq_decide.2 (sym P.y Q.y)]

/-- What `==` compares. -/
inductive Content where
  | none
  | number (n : Int)
  | bytes (b : Bytes)
  | text (s : Str)
  | data (b : Bytes)
  | amount (n : Int)
  | point (x y : Int)   -- coordinates modulo the prime
  deriving DecidableEq

/-- The content of an object; `Val.other` stands for objects equal to nothing. -/
def content (c : EC.Curve) : Obj → Option Content
  | .val .none => some .none
  | .val (.bool b) => some (.number (if b then 1 else 0))
  | .val (.int n) => some (.number n)
  | .val (.bigInteger n) => some (.number n)
  | .val (.bytes b) => some (.bytes b)
  | .val (.bytearray b) => some (.bytes b)
  | .val (.str s) => some (.text s)
  | .val (.uint _ d) => some (.data d)
  | .val .other => .none
  | .fixed8 a => some (.amount a)
  | .point P => some (.point (P.x.fmod c.p) (P.y.fmod c.p))

/-- C151, the answers: where `x == y` answers, it is true exactly if both have the same content. -/
theorem C151_answers_partial (c : EC.Curve) (x y : Obj) (b : Bool) (h : eqOp c x y = .ok b) :
    b = true ↔ ∃ k, content c x = some k ∧ content c y = some k := by
  have e : ∀ o o' : Option Content, (∃ k, o = some k ∧ o' = some k) ↔ o = o' ∧ o ≠ .none := by
    intro o o'
    cases o <;> simp [eq_comm]
  rw [e]
  rcases x with v | a | P <;> rcases y with w | a' | Q
  · cases v <;> cases w <;> simp [eqOp, UInt.eq, plainEq, Val.index?, content] at h ⊢ <;> grind
  · cases v <;> simp [eqOp, content] at h ⊢ <;> grind
  · cases v <;> simp [eqOp, content] at h ⊢ <;> grind
  · cases w <;> simp [eqOp] at h
  · simp [eqOp, content, Fixed8.eq] at h ⊢
    grind
  · simp [eqOp] at h
  · cases w <;> simp [eqOp] at h
  · simp [eqOp] at h
  · simp only [eqOp, EC.ptEq, EC.fEq, Except.ok.injEq] at h
    simp only [content, ne_eq, reduceCtorEq, not_false_eq_true, and_true, Option.some.injEq, Content.point.injEq]
    have sym : ∀ a b : Int, (Int.fmod (a - b) c.p = 0) ↔ a.fmod c.p = b.fmod c.p := by
      intro a b
      rw [← Int.dvd_iff_fmod_eq_zero, Int.fmod_eq_emod_of_nonneg _ (Int.natCast_nonneg _), Int.fmod_eq_emod_of_nonneg _ (Int.natCast_nonneg _)]
      rw [Int.emod_eq_emod_iff_emod_sub_eq_zero, Int.dvd_iff_emod_eq_zero]
    rw [← h, ← sym, ← sym]
    simp

/-- C151, exactly: `x == y` raises (an AttributeError) if and only if the classes differ and `x` is an amount or a point, or `x` is
neither a UInt nor of these and `y` is an amount or a point. Otherwise it answers, the same for `y == x` wherever both answer. -/
theorem C151_raises_iff_partial (c : EC.Curve) (x y : Obj) :
    ((∃ e, eqOp c x y = .error e) ↔ eqClass x ≠ eqClass y ∧
      (eqClass x = .fixed8 ∨ eqClass x = .point ∨ (eqClass x = .plain ∧ (eqClass y = .fixed8 ∨ eqClass y = .point)))) ∧
    (∀ e, eqOp c x y = .error e → e = .attributeError) ∧
    (∀ b, eqOp c x y = .ok b → eqClass x ≠ eqClass y → b = false) ∧
    (∀ b b', eqOp c x y = .ok b → eqOp c y x = .ok b' → b = b') := by
  rw [← and_assoc, ← and_assoc]
  refine ⟨?_, ?_⟩
  rw [and_assoc]
  swap
  · exact eq_symm c x y
  rcases x with v | a | P <;> rcases y with w | b | Q
  · cases v <;> cases w <;> simp [eqOp, eqClass, UInt.eq]
  · cases v <;> simp [eqOp, eqClass]
  · cases v <;> simp [eqOp, eqClass]
  · cases w <;> simp [eqOp, eqClass]
  · simp [eqOp, eqClass]
  · simp [eqOp, eqClass]
  · cases w <;> simp [eqOp, eqClass]
  · simp [eqOp, eqClass]
  · simp [eqOp, eqClass]

/-- C151 fails: every amount and every point raises when compared with None, and None when compared with them. -/
theorem C151_none_violated (c : EC.Curve) (a : Int) (P : EC.Pt) :
    eqOp c (.fixed8 a) (.val .none) = .error .attributeError ∧ eqOp c (.val .none) (.fixed8 a) = .error .attributeError ∧
    eqOp c (.point P) (.val .none) = .error .attributeError ∧ eqOp c (.val .none) (.point P) = .error .attributeError ∧
    eqOp c (.fixed8 a) (.point P) = .error .attributeError := ⟨rfl, rfl, rfl, rfl, rfl⟩

example (c : EC.Curve) : eqOp c (.val (.uint .u160 [1])) (.fixed8 1) = .ok false ∧ eqOp c (.fixed8 1) (.val (.uint .u160 [1])) =
    .error .attributeError := ⟨rfl, rfl⟩

end Neo.Props
