import Verif.Proofs.Bitcoin
import Verif.Proofs.Base58
import Verif.Proofs.Hex

/-! The private keys the `bitcoin` package reads from its argument. -/

namespace Neo.Bitcoin
open Py Spec

theorem fromDigits_foldl (base : Int) (l : List Int) : ∀ a,
    l.foldl (fun r d => r * base + d) a = a * base ^ l.length + fromDigits base l := by
  induction l with
  | nil => intro a; simp [fromDigits]
  | cons d l ih =>
    intro a
    rw [fromDigits, List.foldl_cons, List.foldl_cons, ih, ih, List.length_cons, pow_succ]
    ring

theorem fromDigits_append (base : Int) (a b : List Int) :
    fromDigits base (a ++ b) = fromDigits base a * base ^ b.length + fromDigits base b := by
  conv_lhs => rw [fromDigits, List.foldl_append, fromDigits_foldl]
  rfl

theorem fromDigits_cons (base d : Int) (l : List Int) : fromDigits base (d :: l) = d * base ^ l.length + fromDigits base l := by
  rw [← List.singleton_append, fromDigits_append]
  simp [fromDigits]

theorem hexNumber_cons (c : Char) (t : List Char) : hexNumber (c :: t) = (digit c).getD 0 * 16 ^ t.length + hexNumber t := by
  unfold hexNumber
  rw [List.reverse_cons, List.map_append, Nat.ofDigits_append]
  simp
  ring

theorem hexDigits_digit {c : Char} {v : Nat} (h : digit c = some v) : hexDigits c = [(v : Int)] := by
  have hc : c ≠ 'İ' := by
    rintro rfl
    rw [show digit 'İ' = none from by decide] at h
    cases h
  rw [hexDigits, if_neg hc, hexValChar_eq_digit, h]

theorem hexDigits_bad {c : Char} (h : digit c = none) (hc : c ≠ 'İ') : hexDigits c = [-1] := by
  rw [hexDigits, if_neg hc, hexValChar_eq_digit, h]

/-- A hexadecimal numeral is read as its number. -/
theorem fromDigits_hex (t : Str) (h : AllHex t) :
    fromDigits 16 (t.flatMap hexDigits) = hexNumber t ∧ (t.flatMap hexDigits).length = t.length := by
  induction t with
  | nil => exact ⟨rfl, rfl⟩
  | cons c t ih =>
    obtain ⟨h1, h2⟩ := ih fun x hx => h x (by simp [hx])
    obtain ⟨v, hv⟩ := Option.isSome_iff_exists.1 (h c (by simp))
    rw [List.flatMap_cons, hexDigits_digit hv, hexNumber_cons, hv]
    refine ⟨?_, by simpa using h2⟩
    rw [List.singleton_append, fromDigits_cons, h1, h2]
    simp

/-- A Base58 text is read as its number. -/
theorem fromDigits_58 (s : Str) (h : ∀ c ∈ s, c ∈ Base58.alphabet) :
    fromDigits 58 (s.map digit58) = ((Nat.ofDigits 58 (s.reverse.map Base58.val) : Nat) : Int) := by
  induction s with
  | nil => rfl
  | cons c s ih =>
    have ih := ih fun x hx => h x (by simp [hx])
    rw [List.map_cons, fromDigits_cons, ih, digit58, Base58.idxOf?_eq, if_pos (h c (by simp))]
    simp only [List.reverse_cons, List.map_append, List.map_cons, List.map_nil, Nat.ofDigits_append, List.length_map,
      List.length_reverse, Nat.ofDigits_singleton, Base58.val]
    push_cast
    ring

/-- The bytes `b58check_to_bin` works on are those the Base58 text stands for. -/
theorem b58_data {data : Bytes} {s : Str} (h : Spec.Base58.TextOf data s) :
    List.replicate (s.takeWhile (· == '1')).length 0 ++ encode256 (fromDigits 58 (s.map digit58)) = data := by
  obtain ⟨h1, h2, h3⟩ := h
  have ha : ∀ c ∈ s, c ∈ Base58.alphabet := by
    intro c hc; rw [← Base58.alphabet_eq]; exact h1 c hc
  have hn : Nat.ofDigits 58 (s.reverse.map Base58.val) = beNumber data := by
    rw [← h3, Spec.Base58.number, Base58.alphabet_eq]
    rfl
  rw [fromDigits_58 s ha, hn, encode256, Int.toNat_natCast, h2, Base58.beNumber_eq,
    Base58.bytesOf_leToNat _ (Base58.head_dropWhile_ne data 0), Base58.takeWhile_length]
  exact (Base58.replicate_append_dropWhile data 0).symm

end Neo.Bitcoin

namespace Neo.Bitcoin
open Py Spec

theorem beNumber_rev (b : Bytes) : leToNat b.reverse = beNumber b := by rw [beNumber, leNumber_eq]

theorem decode_bytes32 {b : Bytes} (h : b.length = 32) : decodePrivkeyBytes b = .ok (beNumber b : Nat) := by
  rw [decodePrivkeyBytes, if_pos (.inl h), List.take_of_length_le h.le, beNumber_rev]

theorem decode_text64 {s : Str} (h : s.length = 64) : decodePrivkeyStr s = .ok (fromDigits 16 (s.flatMap hexDigits)) := by
  rw [decodePrivkeyStr, if_neg (by omega), if_pos (.inl h), List.take_of_length_le h.le]

theorem hexStr_isHex (d : Bytes) : AllHex (hexStr d) ∧ hexNumber (hexStr d) = beNumber d := by
  obtain ⟨h1, h2⟩ := fromHex_tight (fromHex_hexStr d) (by rw [hexStr_length])
  exact ⟨h1, by rw [← h2, beNumber_rev]⟩

end Neo.Bitcoin
