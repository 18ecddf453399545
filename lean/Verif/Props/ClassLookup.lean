import Verif.Model.ClassLookup
import Verif.Props.Records

/-!
# C182: the class that `ReadSerializableArray` reads
-/

namespace Neo.Props
open Py Reader

/-- `name` is the class `k` of the module `m`: the part after the last point, and the (absolute) part before it. -/
def Names (name m k : Str) : Prop := name = m ++ '.' :: k ∧ '.' ∉ k ∧ m ≠ [] ∧ m.head? ≠ some '.'

private theorem split_ne (m : Str) : splitPoints m ≠ [] := by
  cases m with
  | nil => simp [splitPoints]
  | cons c cs =>
    rw [splitPoints]
    split
    · simp
    · split <;> simp

private theorem split_plain (k : Str) (hk : '.' ∉ k) : splitPoints k = [k] := by
  induction k with
  | nil => rfl
  | cons c cs ih =>
    simp only [List.mem_cons, not_or] at hk
    rw [splitPoints, if_neg (fun h => hk.1 h.symm), ih hk.2]

private theorem split_last (m k : Str) (hk : '.' ∉ k) : splitPoints (m ++ '.' :: k) = splitPoints m ++ [k] := by
  induction m with
  | nil =>
    have h : splitPoints ('.' :: k) = [] :: splitPoints k := by rw [splitPoints, if_pos rfl]
    rw [List.nil_append, h, split_plain k hk]; rfl
  | cons c cs ih =>
    rw [List.cons_append, splitPoints, splitPoints]
    by_cases h : c = '.'
    · rw [if_pos h, if_pos h, ih]; rfl
    · rw [if_neg h, if_neg h, ih]
      cases hs : splitPoints cs with
      | nil => exact absurd hs (split_ne cs)
      | cons w ws => rfl

private theorem join_split (m : Str) : joinPoints (splitPoints m) = m := by
  induction m with
  | nil => rfl
  | cons c cs ih =>
    rw [splitPoints]
    cases hs : splitPoints cs with
    | nil => exact absurd hs (split_ne cs)
    | cons w ws =>
      rw [hs] at ih
      by_cases h : c = '.'
      · rw [if_pos h, joinPoints, ih, h]
        · rfl
        · simp
      · rw [if_neg h]
        simp only
        cases ws with
        | nil => rw [joinPoints] at ih ⊢; rw [ih]
        | cons v vs =>
          rw [joinPoints] at ih ⊢
          · rw [← ih]; rfl
          · simp
          · simp

private theorem last_point (name : Str) : '.' ∉ name ∨ ∃ m k, name = m ++ '.' :: k ∧ '.' ∉ k := by
  induction name with
  | nil => simp
  | cons c cs ih =>
    rcases ih with h | ⟨m, k, rfl, hk⟩
    · by_cases hc : c = '.'
      · exact .inr ⟨[], cs, by rw [hc]; rfl, h⟩
      · exact .inl (by simp only [List.mem_cons, not_or]; exact ⟨fun e => hc e.symm, h⟩)
    · exact .inr ⟨c :: m, k, rfl, hk⟩

private theorem resolve_names (M : Modules α) {m k : Str} (hk : '.' ∉ k) : M.resolve (m ++ '.' :: k) =
    match M.importModule m with
    | .error e => .error e
    | .ok attrs => match attrs k with
      | none => .error .attributeError
      | some klass => .ok klass := by
  simp only [Modules.resolve, split_last m k hk, List.dropLast_concat, join_split]
  rw [show (splitPoints m ++ [k]).getLastD [] = k by simp [List.getLastD_eq_getLast?]]
  cases M.importModule m with
  | error e => rfl
  | ok attrs => cases attrs k <;> rfl

/-- C182: with the name `module.Class` the array is read with that class of that module. -/
theorem C182_class (M : Modules α) (name m k : Str) (attrs : Str → Option (IOM α)) (klass : IOM α) (hn : Names name m k)
    (hm : M.find m = some attrs) (hk : attrs k = some klass) (max : Int) (s : Stream) :
    readSerializableArrayOf M name max s = readSerializableArray klass max s := by
  obtain ⟨rfl, h1, h2, h3⟩ := hn
  have hr : M.resolve (m ++ '.' :: k) = .ok klass := by
    rw [resolve_names M h1, Modules.importModule, if_neg, if_neg, hm]
    · simp only [hk]
    · simpa using h2
    · cases m with
      | nil => exact absurd rfl h2
      | cons c cs => simpa using h3
  rw [readSerializableArrayOf, hr]
  rfl

/-- C182: every other name raises, and the stream is untouched: nothing has been read and the position is where it was. -/
theorem C182_unknown (M : Modules α) (name : Str)
    (h : ¬ ∃ m k attrs klass, Names name m k ∧ M.find m = some attrs ∧ attrs k = some klass) :
    ∃ e, ∀ max s, readSerializableArrayOf M name max s = (.error e, s) := by
  have key : ∃ e, M.resolve name = .error e := by
    rcases last_point name with hp | ⟨m, k, rfl, hk⟩
    · refine ⟨.valueError, ?_⟩
      simp only [Modules.resolve, split_plain name hp]
      rfl
    · rw [resolve_names M hk, Modules.importModule]
      by_cases h1 : m.take 1 = ['.']
      · exact ⟨_, by rw [if_pos h1]⟩
      · rw [if_neg h1]
        by_cases h2 : m.length = 0
        · exact ⟨_, by rw [if_pos h2]⟩
        · rw [if_neg h2]
          cases hm : M.find m with
          | none => exact ⟨_, rfl⟩
          | some attrs =>
            cases ha : attrs k with
            | none => exact ⟨.attributeError, by simp only [ha]⟩
            | some klass =>
              refine absurd ⟨m, k, attrs, klass, ⟨rfl, hk, ?_, ?_⟩, hm, ha⟩ h
              · simpa using h2
              · cases m with
                | nil => simp
                | cons c cs => simpa using h1
  obtain ⟨e, he⟩ := key
  refine ⟨e, fun max s => ?_⟩
  rw [readSerializableArrayOf, he]
  rfl

/-- The class `Block` of `neo.Core.Block`, and names that are not one. -/
example : Names "neo.Core.Block".toList "neo.Core".toList "Block".toList ∧ ¬ ∃ m k, Names "Block".toList m k := by
  refine ⟨⟨by decide, by decide, by decide, by decide⟩, ?_⟩
  rintro ⟨m, k, h, -⟩
  have : '.' ∈ "Block".toList := by rw [h]; simp
  revert this
  decide

end Neo.Props
