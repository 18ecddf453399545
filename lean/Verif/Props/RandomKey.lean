import Verif.Props.Cli
import Verif.Model.RandomKey

/-! # C172: random_key does not lose the randomness it draws -/

namespace Neo.Props
open Py Spec

private theorem body_append (q : UInt8) (hq : q = 39 ∨ q = 34) (h : Bytes) (rest : List Char) :
    literalBody (Char.ofNat q.toNat) (h.flatMap (reprByte q) ++ rest) =
      (literalBody (Char.ofNat q.toNat) rest).map (h ++ ·) := by
  induction h with
  | nil => simp
  | cons b t ih =>
    rw [List.flatMap_cons, List.append_assoc, body_token (b := b) _ (by rcases hq with rfl | rfl <;> decide), ih]
    · cases literalBody (Char.ofNat q.toNat) rest <;> rfl
    · have := token_ok ⟨b.toNat, b.toNat_lt⟩ q (by rcases hq with rfl | rfl <;> simp)
      simpa using this

private theorem quote_last (q : Char) (hq : q = '\'' ∨ q = '"') (rest : List Char) :
    literalBody q (q :: rest) = if rest = [] then some [] else none := by
  rcases hq with rfl | rfl <;> simp [literalBody]

/-- A quoted text ends at its first quote that is not part of an escape. -/
private theorem quoted_unique (q : UInt8) (hq : q = 39 ∨ q = 34) (h h' : Bytes) (r r' : List Char)
    (he : h.flatMap (reprByte q) ++ Char.ofNat q.toNat :: r = h'.flatMap (reprByte q) ++ Char.ofNat q.toNat :: r') : h = h' ∧ r = r' := by
  have hq' : Char.ofNat q.toNat = '\'' ∨ Char.ofNat q.toNat = '"' := by rcases hq with rfl | rfl <;> decide
  have key : ∀ (h h' : Bytes) (r r' : List Char),
      h.flatMap (reprByte q) ++ Char.ofNat q.toNat :: r = h'.flatMap (reprByte q) ++ Char.ofNat q.toNat :: r' →
      (h.flatMap (reprByte q)).length ≤ (h'.flatMap (reprByte q)).length → h = h' ∧ r = r' := by
    intro h h' r r' he hle
    have htake := congrArg (List.take ((h'.flatMap (reprByte q)).length + 1)) he
    rw [List.take_append, List.take_append] at htake
    simp only [List.take_of_length_le (show (h'.flatMap (reprByte q)).length ≤ _ from Nat.le_succ _),
      List.take_of_length_le (show (h.flatMap (reprByte q)).length ≤ (h'.flatMap (reprByte q)).length + 1 by omega),
      Nat.add_sub_cancel_left, List.take_succ_cons, List.take_zero] at htake
    obtain ⟨d, hd⟩ : ∃ d, (h'.flatMap (reprByte q)).length + 1 - (h.flatMap (reprByte q)).length = d + 1 :=
      ⟨(h'.flatMap (reprByte q)).length - (h.flatMap (reprByte q)).length, by omega⟩
    rw [hd, List.take_succ_cons] at htake
    have h1 := congrArg (literalBody (Char.ofNat q.toNat)) htake
    rw [body_append q hq, body_append q hq, quote_last _ hq', quote_last _ hq', if_pos rfl] at h1
    by_cases hr : r.take d = []
    · rw [if_pos hr] at h1
      simp only [Option.map_some, List.append_nil, Option.some.injEq] at h1
      subst h1
      simpa using he
    · rw [if_neg hr] at h1
      cases h1
  rcases Nat.le_total (h.flatMap (reprByte q)).length (h'.flatMap (reprByte q)).length with hle | hle
  · exact key h h' r r' he hle
  · obtain ⟨a, b⟩ := key h' h r' r he.symm hle
    exact ⟨a.symm, b.symm⟩

private theorem repr_unique (h h' : Bytes) (r r' : List Char) (he : reprBytes h ++ r = reprBytes h' ++ r') : h = h' ∧ r = r' := by
  unfold reprBytes at he
  simp only [List.cons_append, List.nil_append, List.append_assoc, List.cons.injEq, true_and] at he
  obtain ⟨hq, he⟩ := he
  generalize hx : (if (39 : UInt8) ∈ h ∧ (34 : UInt8) ∉ h then (34 : UInt8) else 39) = q at hq he
  generalize hy : (if (39 : UInt8) ∈ h' ∧ (34 : UInt8) ∉ h' then (34 : UInt8) else 39) = q' at hq he
  have hq1 : q = 39 ∨ q = 34 := by rw [← hx]; split_ifs <;> simp
  have hq2 : q' = 39 ∨ q' = 34 := by rw [← hy]; split_ifs <;> simp
  have : q = q' := by rcases hq1 with rfl | rfl <;> rcases hq2 with rfl | rfl <;> first | rfl | exact absurd hq (by decide)
  subst this
  exact quoted_unique q hq1 h h' r r' he

private theorem toDigits_inj {m n : Nat} (h : Nat.toDigits 10 m = Nat.toDigits 10 n) : m = n := by
  have := congrArg (Nat.ofDigitChars 10 · 0) h
  simpa [Nat.ofDigitChars_ten_toDigits] using this

/-- C172. Two calls of `random_key` that drew different bytes from the operating system, or the same bytes and time and different
random numbers, or the same bytes and numbers at different times, return different keys, unless the two different strings they
hash have the same SHA-256 hash. -/
theorem C172_keys_differ (P : Prims) (os os' : Bytes) (number number' micros micros' : Nat)
    (hne : os ≠ os' ∨ (micros = micros' ∧ number ≠ number') ∨ (number = number' ∧ micros ≠ micros')) :
    utf8 (entropyText os number micros) ≠ utf8 (entropyText os' number' micros') ∧
    (randomKeyFrom P os number micros = randomKeyFrom P os' number' micros' ↔
      P.sha256 (utf8 (entropyText os number micros)) = P.sha256 (utf8 (entropyText os' number' micros'))) := by
  refine ⟨fun h => ?_, ⟨fun h => hexlify_inj h, fun h => congrArg hexlify h⟩⟩
  have h := utf8_inj h
  unfold entropyText at h
  rw [List.append_assoc, List.append_assoc] at h
  obtain ⟨h1, h2⟩ := repr_unique _ _ _ _ h
  rcases hne with hne | ⟨rfl, hne⟩ | ⟨rfl, hne⟩
  · exact hne h1
  · exact hne (toDigits_inj (List.append_cancel_right h2))
  · exact hne (toDigits_inj (List.append_cancel_left h2))

/-- Two draws: the text hashed, and two different keys. -/
example : entropyText [0x61, 0x27, 0x00] 5 70 = "b\"a'\\x00\"570".toList ∧
    (([0x61] : Bytes) ≠ [0x62] ∨ ((7 : Nat) = 7 ∧ (5 : Nat) ≠ 6) ∨ ((5 : Nat) = 6 ∧ (7 : Nat) ≠ 7)) := by
  constructor <;> decide +kernel

end Neo.Props
