import Verif.Model.Hashing
import Verif.Proofs.Bytes

/-!
# C179: `hash` and `==`
-/

namespace Neo.Props
open Py Neo.Operators

/-- C179, what is hashed is hashed consistently: equal objects, of whatever classes, have equal hashes; a UInt's is the number `GetHashCode` returns,
and a BigInteger's that of the int. -/
theorem C179_consistent_partial (seed : HashSeed) (c : EC.Curve) :
    (∀ (x y : Obj) (a b : Int), eqOp c x y = .ok true → pyHash seed x = .ok a → pyHash seed y = .ok b → a = b) ∧
    (∀ n : Int, pyHash seed (.val (.bigInteger n)) = pyHash seed (.val (.int n)) ∧ ∃ h, pyHash seed (.val (.bigInteger n)) = .ok h) ∧
    (∀ k d, pyHash seed (.val (.uint k d)) = .ok (UInt.hashCode d)) := by
  have hu : ∀ d, intHash (UInt.hashCode d) = UInt.hashCode d := by
    intro d
    have h4 : UInt.hashCode d < 2 ^ 61 - 1 := by
      unfold UInt.hashCode
      refine lt_of_lt_of_le (leToNat_lt _) ?_
      refine (Nat.pow_le_pow_right (by norm_num) (show _ ≤ 4 from ?_)).trans (by norm_num)
      rw [List.length_take]
      split <;> omega
    unfold intHash
    rcases Nat.eq_zero_or_pos (UInt.hashCode d) with h0 | h0
    · rw [h0]; rfl
    · have hs : (UInt.hashCode d : Int).sign = 1 := Int.sign_eq_one_of_pos (by omega)
      rw [hs, Int.natAbs_natCast, Nat.mod_eq_of_lt h4, one_mul, if_neg (by omega)]
  refine ⟨?_, fun n => ⟨rfl, _, rfl⟩, fun k d => ?_⟩
  · intro x y a b h ha hb
    rcases x with v | v | P <;> rcases y with w | w | Q
    · cases v <;> cases w <;>
        simp [eqOp, plainEq, UInt.eq, Val.index?, pyHash, hashFrom, classOf, defines, base] at h ha hb <;> grind
    all_goals simp [pyHash, hashFrom, classOf, defines, base] at ha hb
  · change Except.ok (intHash (UInt.hashCode d)) = _
    rw [hu]

/-- C179 fails for amounts and points: none of them can be hashed, so `{amount}` and `{point: x}` raise TypeError, although they can be compared. -/
theorem C179_unhashable_violated (seed : HashSeed) (c : EC.Curve) :
    (∀ v : Int, pyHash seed (.fixed8 v) = .error .typeError ∧ eqOp c (.fixed8 v) (.fixed8 v) = .ok true) ∧
    (∀ P : EC.Pt, pyHash seed (.point P) = .error .typeError ∧ eqOp c (.point P) (.point P) = .ok true) := by
  refine ⟨fun v => ⟨rfl, ?_⟩, fun P => ⟨rfl, ?_⟩⟩
  · simp [eqOp, Fixed8.eq]
  · simp [eqOp, EC.ptEq, EC.fEq]

/-- `hash(BigInteger(-1)) == hash(-1) == -2`, `hash(True) == hash(BigInteger(1))`, and a UInt160 of ones. -/
example (seed : HashSeed) : pyHash seed (.val (.bigInteger (-1))) = .ok (-2) ∧
    pyHash seed (.val (.bool true)) = pyHash seed (.val (.bigInteger 1)) ∧
    pyHash seed (.val (.bigInteger (2 ^ 61))) = .ok 1 ∧
    pyHash seed (.val (.uint .u160 (List.replicate 20 1))) = .ok 16843009 := by
  refine ⟨?_, rfl, ?_, ?_⟩ <;> (simp only [pyHash, hashFrom, classOf, defines, base]; decide +kernel)

end Neo.Props
