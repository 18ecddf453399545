import Verif.Model.Fixed8Vars
import Verif.Proofs.FloatRange
import Mathlib.Data.Int.ModEq

/-! # C168, C169: Fixed8 objects are values; powers -/

namespace Neo.Props
open Py Neo.Fixed8

/-! ### The specification: variables that hold numbers -/

/-- The number an operator computes, `none` where it raises. What `/` does to the numbers is C29, C74 and C148. -/
def numBin : BinOp → Int → Int → Option Int
  | .add, a, b => some (a + b)
  | .sub, a, b => some (a - b)
  | .mul, a, b => some (a * b)
  | .truediv, a, b => (Fixed8.truediv a b).toOption
  | .floordiv, a, b => if b = 0 then none else some (a.fdiv b)
  | .mod, a, b => if b = 0 then none else some (a.fmod b)

/-- What Ceil and Floor do to the numbers is C28 and C147. -/
def numUn : UnOp → Int → Option Int
  | .neg, a => some (-a)
  | .ceil, a => (Fixed8.ceil a).toOption
  | .floor, a => (Fixed8.floor a).toOption

/-- Variables that hold numbers. -/
abbrev Numbers := Nat → Option Int

/-- Assign a number, if there is one. -/
def assign (e : Numbers) (x : Nat) (v : Option Int) : Numbers := fun z => if z = x ∧ v ≠ none then v else e z

/-- The number an assignment computes. -/
def numOf (e : Numbers) : Stmt → Option Int
  | .new _ n => some n
  | .copy _ y => e y
  | .bin _ op y z => (e y).bind fun a => (e z).bind fun b => numBin op a b
  | .inplace x op y => (e x).bind fun a => (e y).bind fun b => numBin op a b
  | .un _ op y => (e y).bind fun a => numUn op a

/-- The variable an assignment is to. -/
def target : Stmt → Nat
  | .new x _ | .copy x _ | .bin x _ _ _ | .inplace x _ _ | .un x _ _ => x

/-- The program on numbers: the variables at the end, and which assignments raise. -/
def numRun (e : Numbers) : List Stmt → Numbers × List Bool
  | [] => (e, [])
  | st :: rest =>
    ((numRun (assign e (target st) (numOf e st)) rest).1,
      (numOf e st).isNone :: (numRun (assign e (target st) (numOf e st)) rest).2)

/-- What the variables of a program with objects show: `x.value`. -/
def shown (s : Store) : Numbers := fun x => (s.vars x).map s.value

/-- The references are to objects that exist. -/
private def Live (s : Store) : Prop := ∀ x o, s.vars x = some o → o < s.objs.length

private theorem value_new (s : Store) (v : Int) {o : Nat} (h : o < s.objs.length) : (s.new v).1.value o = s.value o := by
  simp [Store.new, Store.value, List.getD_eq_getElem?_getD, List.getElem?_append_left h]

private theorem live_new {s : Store} (h : Live s) (x : Nat) (v : Int) : Live ((s.new v).1.bind x (s.new v).2) := by
  intro z o ho
  simp only [Store.bind, Store.new] at ho ⊢
  by_cases hz : z = x
  · rw [if_pos hz] at ho; cases ho; simp
  · rw [if_neg hz] at ho
    have := h z o ho
    simp only [List.length_append, List.length_singleton]
    omega

private theorem shown_new {s : Store} (h : Live s) (x : Nat) (v : Int) :
    shown ((s.new v).1.bind x (s.new v).2) = assign (shown s) x (some v) := by
  funext z
  unfold shown assign
  simp only [Store.bind]
  by_cases hz : z = x
  · rw [if_pos hz, if_pos ⟨hz, nofun⟩]
    simp [Store.new, Store.value, List.getD_eq_getElem?_getD]
  · rw [if_neg hz, if_neg (fun h => hz h.1)]
    cases ho : s.vars z with
    | none => simp [Store.new, ho]
    | some o =>
      have := value_new s v (h z o ho)
      simp only [Store.new, ho, Option.map_some] at this ⊢
      exact congrArg some this

/-- A statement that ends by making an object or raising. -/
private theorem finish_spec {s : Store} (h : Live s) (x : Nat) (r : Except Err (Store × Nat)) (v : Option Int)
    (hr : (∃ n, v = some n ∧ r = .ok (s.new n)) ∨ (v = none ∧ ∃ e, r = .error e)) :
    Live (s.finish x r).1 ∧ shown (s.finish x r).1 = assign (shown s) x v ∧ (s.finish x r).2.isSome = v.isNone := by
  rcases hr with ⟨n, rfl, rfl⟩ | ⟨rfl, e, rfl⟩
  · exact ⟨live_new h x n, shown_new h x n, rfl⟩
  · refine ⟨h, ?_, rfl⟩
    funext z
    exact (if_neg (fun h => h.2 rfl)).symm

private theorem ofExcept (s : Store) (r : Except Err Int) (g : Except Err (Store × Nat))
    (hg : g = match r with | .error e => .error e | .ok v => .ok (s.new v)) :
    (∃ n, r.toOption = some n ∧ g = .ok (s.new n)) ∨ (r.toOption = none ∧ ∃ e, g = .error e) := by
  cases r with
  | error e => exact .inr ⟨rfl, e, hg⟩
  | ok v => exact .inl ⟨v, rfl, hg⟩

private theorem method_spec (s : Store) (op : BinOp) (l r : Nat) :
    (∃ n, numBin op (s.value l) (s.value r) = some n ∧ s.method op l r = .ok (s.new n)) ∨
    (numBin op (s.value l) (s.value r) = none ∧ ∃ e, s.method op l r = .error e) := by
  cases op with
  | add => exact .inl ⟨_, rfl, rfl⟩
  | sub => exact .inl ⟨_, rfl, rfl⟩
  | mul => exact .inl ⟨_, rfl, rfl⟩
  | truediv => exact ofExcept s _ _ rfl
  | floordiv =>
    have := ofExcept s (floordiv (s.value l) (s.value r)) (s.method .floordiv l r) rfl
    have e : numBin .floordiv (s.value l) (s.value r) = if s.value r = 0 then none else some ((s.value l).fdiv (s.value r)) := rfl
    rw [e]
    unfold floordiv at this
    by_cases h0 : s.value r = 0
    · rw [if_pos h0] at this ⊢; exact this
    · rw [if_neg h0] at this ⊢; exact this
  | mod =>
    have := ofExcept s (mod (s.value l) (s.value r)) (s.method .mod l r) rfl
    have e : numBin .mod (s.value l) (s.value r) = if s.value r = 0 then none else some ((s.value l).fmod (s.value r)) := rfl
    rw [e]
    unfold mod at this
    by_cases h0 : s.value r = 0
    · rw [if_pos h0] at this ⊢; exact this
    · rw [if_neg h0] at this ⊢; exact this

private theorem unMethod_spec (s : Store) (op : UnOp) (l : Nat) :
    (∃ n, numUn op (s.value l) = some n ∧ s.unMethod op l = .ok (s.new n)) ∨
    (numUn op (s.value l) = none ∧ ∃ e, s.unMethod op l = .error e) := by
  cases op with
  | neg => exact .inl ⟨-(s.value l), rfl, by show Except.ok (s.new (-1 * s.value l)) = _; rw [neg_one_mul]⟩
  | ceil => exact ofExcept s _ _ rfl
  | floor => exact ofExcept s _ _ rfl

private theorem assign_none (e : Numbers) (x : Nat) : assign e x none = e := by
  funext z
  exact if_neg (fun h => h.2 rfl)

private theorem exec_spec {s : Store} (h : Live s) (st : Stmt) :
    Live (s.exec st).1 ∧ shown (s.exec st).1 = assign (shown s) (target st) (numOf (shown s) st) ∧
      (s.exec st).2.isSome = (numOf (shown s) st).isNone := by
  cases st with
  | new x n => exact finish_spec h x _ _ (.inl ⟨n, rfl, rfl⟩)
  | copy x y =>
    show Live (match s.vars y with | some o => (s.bind x o, none) | none => (s, some Err.exc)).1 ∧
      shown (match s.vars y with | some o => (s.bind x o, none) | none => (s, some Err.exc)).1 = assign (shown s) x (shown s y) ∧
      (match s.vars y with | some o => (s.bind x o, none) | none => (s, some Err.exc)).2.isSome = (shown s y).isNone
    have e1 : shown s y = (s.vars y).map s.value := rfl
    rw [e1]
    cases hy : s.vars y with
    | none => exact ⟨h, (assign_none _ x).symm, rfl⟩
    | some o =>
      refine ⟨fun z p hz => ?_, ?_, rfl⟩
      · simp only [Store.bind] at hz ⊢
        by_cases hzx : z = x
        · rw [if_pos hzx] at hz; cases hz; exact h y o hy
        · rw [if_neg hzx] at hz; exact h z p hz
      · funext z
        unfold assign shown
        simp only [Store.bind, Option.map_some]
        by_cases hzx : z = x
        · rw [if_pos hzx, if_pos ⟨hzx, nofun⟩]; rfl
        · rw [if_neg hzx, if_neg (fun h => hzx h.1)]; rfl
  | bin x op y z =>
    have e1 : shown s y = (s.vars y).map s.value := rfl
    have e2 : shown s z = (s.vars z).map s.value := rfl
    have e3 : numOf (shown s) (.bin x op y z) = (shown s y).bind fun a => (shown s z).bind fun b => numBin op a b := rfl
    rw [e3, e1, e2]
    cases hy : s.vars y with
    | none =>
      have : s.exec (.bin x op y z) = (s, some Err.exc) := by simp only [Store.exec, hy]
      rw [this]; exact ⟨h, (assign_none _ x).symm, rfl⟩
    | some l =>
      cases hz : s.vars z with
      | none =>
        have : s.exec (.bin x op y z) = (s, some Err.exc) := by simp only [Store.exec, hy, hz]
        rw [this]; exact ⟨h, (assign_none _ x).symm, rfl⟩
      | some r =>
        have : s.exec (.bin x op y z) = s.finish x (s.method op l r) := by simp only [Store.exec, hy, hz]
        rw [this]; exact finish_spec h x _ _ (method_spec s op l r)
  | inplace x op y =>
    have e1 : shown s x = (s.vars x).map s.value := rfl
    have e2 : shown s y = (s.vars y).map s.value := rfl
    have e3 : numOf (shown s) (.inplace x op y) = (shown s x).bind fun a => (shown s y).bind fun b => numBin op a b := rfl
    rw [e3, e1, e2]
    cases hx : s.vars x with
    | none =>
      have : s.exec (.inplace x op y) = (s, some Err.exc) := by simp only [Store.exec, hx]
      rw [this]; exact ⟨h, (assign_none _ x).symm, rfl⟩
    | some l =>
      cases hy : s.vars y with
      | none =>
        have : s.exec (.inplace x op y) = (s, some Err.exc) := by simp only [Store.exec, hx, hy]
        rw [this]; exact ⟨h, (assign_none _ x).symm, rfl⟩
      | some r =>
        have : s.exec (.inplace x op y) = s.finish x (s.inplaceMethod op l r) := by simp only [Store.exec, hx, hy]
        rw [this, show s.inplaceMethod op l r = s.method op l r by cases op <;> rfl]
        exact finish_spec h x _ _ (method_spec s op l r)
  | un x op y =>
    have e1 : shown s y = (s.vars y).map s.value := rfl
    have e3 : numOf (shown s) (.un x op y) = (shown s y).bind fun a => numUn op a := rfl
    rw [e3, e1]
    cases hy : s.vars y with
    | none =>
      have : s.exec (.un x op y) = (s, some Err.exc) := by simp only [Store.exec, hy]
      rw [this]; exact ⟨h, (assign_none _ x).symm, rfl⟩
    | some l =>
      have : s.exec (.un x op y) = s.finish x (s.unMethod op l) := by simp only [Store.exec, hy]
      rw [this]; exact finish_spec h x _ _ (unMethod_spec s op l)

private theorem run_spec {s : Store} (h : Live s) (prog : List Stmt) :
    shown (s.run prog).1 = (numRun (shown s) prog).1 ∧ (s.run prog).2.map Option.isSome = (numRun (shown s) prog).2 := by
  induction prog generalizing s with
  | nil => exact ⟨rfl, rfl⟩
  | cons st rest ih =>
    obtain ⟨h1, h2, h3⟩ := exec_spec h st
    obtain ⟨i1, i2⟩ := ih h1
    unfold Store.run numRun
    rw [← h2]
    exact ⟨i1, by rw [List.map_cons, i2, h3]⟩

/-- C168. Every program of assignments, however the variables share objects, leaves in every variable the amount that the same program
leaves if variables hold plain numbers; and the same assignments raise. -/
theorem C168_values (prog : List Stmt) :
    (∀ x, shown (Store.empty.run prog).1 x = (numRun (fun _ => none) prog).1 x) ∧
    (Store.empty.run prog).2.map Option.isSome = (numRun (fun _ => none) prog).2 := by
  obtain ⟨h1, h2⟩ := run_spec (s := Store.empty) (fun x o h => by cases h) prog
  exact ⟨fun x => congrFun h1 x, h2⟩

/-- C168. An assignment shows in no other variable, and one that raises shows in none. -/
theorem C168_others (prog : List Stmt) (st : Stmt) (x : Nat)
    (h : x ≠ target st ∨ ((Store.empty.run prog).1.exec st).2 ≠ none) :
    shown ((Store.empty.run prog).1.exec st).1 x = shown (Store.empty.run prog).1 x := by
  have live : ∀ (p : List Stmt) (s : Store), Live s → Live (s.run p).1 := by
    intro p
    induction p with
    | nil => exact fun s h => h
    | cons a p ih => exact fun s h => ih _ (exec_spec h a).1
  obtain ⟨-, h2, h3⟩ := exec_spec (live prog Store.empty (fun x o h => by cases h)) st
  rw [h2]
  refine if_neg ?_
  rintro ⟨e, hv⟩
  rcases h with h | h
  · exact h e
  · cases hn : numOf (shown (Store.empty.run prog).1) st with
    | none => exact hv hn
    | some v =>
      rw [hn] at h3
      cases hs : ((Store.empty.run prog).1.exec st).2 with
      | none => exact h hs
      | some e => rw [hs] at h3; cases h3

/-- A running total that starts as another variable: `a = Fixed8(5); t = a; t += a; t += a; a = t // z` with `z` zero. -/
example : let r := Store.empty.run [.new 0 5, .copy 1 0, .inplace 1 .add 0, .inplace 1 .add 0, .new 2 0, .bin 0 .floordiv 1 2]
    shown r.1 0 = some 5 ∧ shown r.1 1 = some 15 ∧ r.2.map Option.isSome = [false, false, false, false, false, true] := by
  decide

/-! ### C169 -/

/-- C169 where it holds. A power with a nonnegative exponent is the power of the raw numbers, with a modulus its remainder, on the side
of the modulus; a modulus of zero and a negative exponent with a modulus raise. -/
theorem C169_whole_partial (a n : Int) :
    (0 ≤ n → power a n none = .ok (.int (a ^ n.toNat))) ∧
    (∀ m, m ≠ 0 → 0 ≤ n → ∃ r, power a n (some m) = .ok (.int r) ∧ r ≡ a ^ n.toNat [ZMOD m] ∧ (|r| < |m|) ∧ 0 ≤ r * m) ∧
    (∀ m, m = 0 ∨ n < 0 → power a n (some m) = .error .valueError) := by
  refine ⟨fun h => if_pos h, fun m hm hn => ?_, fun m h => ?_⟩
  · refine ⟨(a ^ n.toNat).fmod m, by unfold power; simp only; rw [if_neg hm, if_neg (by omega)], ?_, ?_⟩
    · rw [Int.modEq_iff_dvd]
      exact ⟨(a ^ n.toNat).fdiv m, by have := Int.mul_fdiv_add_fmod (a ^ n.toNat) m; omega⟩
    · rcases lt_or_gt_of_ne hm with h | h
      · have h1 := Int.fmod_nonneg_of_pos (-(a ^ n.toNat)) (show 0 < -m by omega)
        have h2 := Int.fmod_lt_of_pos (-(a ^ n.toNat)) (show 0 < -m by omega)
        rw [Int.neg_fmod_neg] at h1 h2
        have h1 : (a ^ n.toNat).fmod m ≤ 0 := by omega
        refine ⟨?_, mul_nonneg_of_nonpos_of_nonpos h1 h.le⟩
        rw [abs_of_nonpos h1, abs_of_neg h]
        omega
      · have h1 := Int.fmod_nonneg_of_pos (a ^ n.toNat) h
        have h2 := Int.fmod_lt_of_pos (a ^ n.toNat) h
        refine ⟨?_, mul_nonneg h1 h.le⟩
        rw [abs_of_nonneg h1, abs_of_pos h]
        exact h2
  · unfold power
    simp only
    by_cases hm : m = 0
    · rw [if_pos hm]
    · rw [if_neg hm, if_pos (h.resolve_left hm)]

/-- C169 is false for negative exponents: when both numbers convert to a float (magnitude below 2^1024 - 2^970) the result is an object whose
value is a float, no number of satoshis (which WriteFixed8 then refuses, or which is rounded); ZeroDivisionError for 0, OverflowError for
numbers that do not convert. -/
theorem C169_negative_violated (a n : Int) (hn : n < 0) :
    (a ≠ 0 → |a| < 2 ^ 1024 - 2 ^ 970 → |n| < 2 ^ 1024 - 2 ^ 970 → power a n none = .ok .float) ∧
    (a = 0 → |n| < 2 ^ 1024 - 2 ^ 970 → power a n none = .error .zeroDivision) ∧
    (2 ^ 1024 - 2 ^ 970 ≤ |a| ∨ 2 ^ 1024 - 2 ^ 970 ≤ |n| → power a n none = .error .overflowError) := by
  have hf : ∀ k : Int, |(k : ℚ)| < floatLimit → ∃ x, floatOfInt k = .ok x := fun k hk =>
    ⟨_, by unfold floatOfInt; rw [(ofRat_fin_iff _).1 hk]⟩
  have hg : ∀ k : Int, ¬ |(k : ℚ)| < floatLimit → floatOfInt k = .error .overflowError := by
    intro k hk
    unfold floatOfInt
    rw [(ofRat_fin_iff (k : ℚ)).2 (not_lt.1 hk)]
  have hp : power a n none = if 0 ≤ n then .ok (.int (a ^ n.toNat))
    else match floatOfInt a, floatOfInt n with
      | .ok _, .ok _ => if a = 0 then .error .zeroDivision else .ok .float
      | .error e, _ => .error e
      | _, .error e => .error e := rfl
  rw [if_neg (by omega)] at hp
  rw [hp, ← not_lt, ← not_lt, ← abs_lt_limit, ← abs_lt_limit]
  refine ⟨fun h0 h1 h2 => ?_, fun h0 h2 => ?_, fun h => ?_⟩
  · obtain ⟨x, hx⟩ := hf a h1
    obtain ⟨y, hy⟩ := hf n h2
    rw [hx, hy]
    exact if_neg h0
  · obtain ⟨y, hy⟩ := hf n h2
    obtain ⟨x, hx⟩ := hf a (by rw [h0]; simpa using floatLimit_pos)
    rw [hx, hy]
    exact if_pos h0
  · by_cases h1 : |(a : ℚ)| < floatLimit
    · obtain ⟨x, hx⟩ := hf a h1
      rw [hx, hg n (h.resolve_left (not_not.2 h1))]
    · rw [hg a h1]

/-- 3 ** 4 == 81, 3 ** 4 with modulus -7 is -3, 3 ** -1 is no amount. -/
example : power 3 4 none = .ok (.int 81) ∧ power 3 4 (some (-7)) = .ok (.int (-3)) ∧ power 3 (-1) none = .ok .float :=
  ⟨by decide, by decide, (C169_negative_violated 3 (-1) (by decide)).1 (by decide) (by decide +kernel) (by decide +kernel)⟩

end Neo.Props
