import Verif.Model.Base58
import Verif.Spec.Base58
import Verif.Proofs.Hex
import Mathlib.Data.Nat.Digits.Lemmas
import Mathlib.Tactic.Linarith
import Mathlib.Tactic.Ring

namespace Neo.Base58
open Py Spec

theorem alphabet_eq : Spec.Base58.digits = alphabet := by decide +kernel

theorem alphabet_length : alphabet.length = 58 := by decide

theorem getD_of_lt {α : Type} (l : List α) (n : Nat) (d : α) (h : n < l.length) : l.getD n d = l[n] := by simp [h]

theorem alphabet_nodup : alphabet.Nodup := by decide +kernel

theorem idxOf?_eq (c : Char) : alphabet.idxOf? c = if c ∈ alphabet then some (alphabet.idxOf c) else none := by
  split
  · rename_i h
    rw [List.idxOf?_eq_some_iff]
    have hlt := List.idxOf_lt_length_of_mem h
    refine ⟨hlt, by simp, ?_⟩
    intro j hj
    have := List.not_of_lt_findIdx (p := (· == c)) (xs := alphabet) hj
    simpa using this
  · rename_i h
    rwa [List.idxOf?_eq_none_iff]

/-- The digit value of a character. -/
def val (c : Char) : Nat := alphabet.idxOf c

/-- The character of a digit. -/
def chr (n : Nat) : Char := alphabet.getD n '1'

theorem val_lt {c : Char} (h : c ∈ alphabet) : val c < 58 := by
  rw [← alphabet_length]; exact List.idxOf_lt_length_of_mem h

theorem chr_mem {n : Nat} (h : n < 58) : chr n ∈ alphabet := by
  unfold chr
  rw [getD_of_lt _ _ _ (by rw [alphabet_length]; exact h)]
  exact List.getElem_mem _

theorem val_chr {n : Nat} (h : n < 58) : val (chr n) = n := by
  unfold chr val
  rw [getD_of_lt _ _ _ (by rw [alphabet_length]; exact h)]
  exact List.Nodup.idxOf_getElem alphabet_nodup _ _

theorem chr_val {c : Char} (h : c ∈ alphabet) : chr (val c) = c := by
  unfold chr val
  have hlt := List.idxOf_lt_length_of_mem h
  rw [getD_of_lt _ _ _ hlt]
  simp

theorem val_one : val '1' = 0 := by decide

theorem val_eq_zero {c : Char} (h : c ∈ alphabet) : val c = 0 ↔ c = '1' := by
  constructor
  · intro h0
    rw [← chr_val h, h0]; rfl
  · rintro rfl; exact val_one

theorem encodeInt_eq (n : Nat) : encodeInt n = (Nat.digits 58 n).reverse.map chr := by
  induction n using Nat.strong_induction_on with
  | _ n ih =>
    rw [encodeInt]
    split
    · rename_i h; subst h; simp
    · rename_i h
      rw [ih _ (by omega), Nat.digits_def' (by omega) (by omega : 0 < n)]
      simp [chr]

theorem bytesOf_eq (n : Nat) : bytesOf n = (Nat.digits 256 n).map UInt8.ofNat := by
  induction n using Nat.strong_induction_on with
  | _ n ih =>
    rw [bytesOf]
    split
    · rename_i h; subst h; simp
    · rename_i h
      rw [ih _ (by omega), Nat.digits_def' (by omega) (by omega : 0 < n)]
      simp

theorem decodeInt_ok (s : Str) : ∀ acc, (∀ c ∈ s, c ∈ alphabet) →
    decodeInt s acc = .ok (acc * 58 ^ s.length + Nat.ofDigits 58 (s.reverse.map val)) := by
  induction s with
  | nil => intro acc _; simp [decodeInt]
  | cons c s ih =>
    intro acc h
    rw [decodeInt, idxOf?_eq, if_pos (h c (by simp))]
    simp only
    rw [ih _ (fun x hx => h x (by simp [hx]))]
    simp only [List.reverse_cons, List.map_append, List.map_cons, List.map_nil, Nat.ofDigits_append, List.length_map,
      List.length_reverse, Nat.ofDigits_singleton, List.length_cons, val]
    congr 1
    ring

theorem decodeInt_error (s : Str) : ∀ acc, (∃ c ∈ s, c ∉ alphabet) → decodeInt s acc = .error .valueError := by
  induction s with
  | nil => intro acc h; simp at h
  | cons c s ih =>
    intro acc h
    rw [decodeInt, idxOf?_eq]
    by_cases hc : c ∈ alphabet
    · rw [if_pos hc]
      simp only
      apply ih
      obtain ⟨d, hd, hd'⟩ := h
      rcases List.mem_cons.mp hd with rfl | hd
      · exact absurd hc hd'
      · exact ⟨d, hd, hd'⟩
    · rw [if_neg hc]

/-! Both sides split into leading zeros and a number. -/

theorem replicate_append_dropWhile {α : Type} [BEq α] [LawfulBEq α] (l : List α) (z : α) :
    l = List.replicate (l.length - (l.dropWhile (· == z)).length) z ++ l.dropWhile (· == z) := by
  induction l with
  | nil => rfl
  | cons a l ih =>
    by_cases h : a = z
    · subst h
      simp only [List.dropWhile_cons, beq_self_eq_true, if_true, List.length_cons]
      have hle := (List.dropWhile_suffix (l := l) (· == a)).length_le
      rw [show l.length + 1 - (List.dropWhile (· == a) l).length =
        (l.length - (List.dropWhile (· == a) l).length) + 1 by omega, List.replicate_succ, List.cons_append, ← ih]
    · have : (a == z) = false := by simpa using h
      simp [this]

theorem takeWhile_length {α : Type} (p : α → Bool) (l : List α) :
    (l.takeWhile p).length = l.length - (l.dropWhile p).length := by
  have := congrArg List.length (List.takeWhile_append_dropWhile (p := p) (l := l))
  rw [List.length_append] at this
  omega

theorem dropWhile_replicate_append {α : Type} [BEq α] [LawfulBEq α] (k : Nat) (z : α) (w : List α)
    (hw : ∀ x ∈ w.head?, x ≠ z) : (List.replicate k z ++ w).dropWhile (· == z) = w := by
  induction k with
  | zero =>
    cases w with
    | nil => rfl
    | cons a w =>
      have : (a == z) = false := by simpa using hw a (by simp)
      simp [this]
  | succ k ih => simp [List.replicate_succ, ih]

theorem head_dropWhile_ne {α : Type} [BEq α] [LawfulBEq α] (l : List α) (z : α) :
    ∀ x ∈ (l.dropWhile (· == z)).head?, x ≠ z := by
  intro x hx
  induction l with
  | nil => simp at hx
  | cons a l ih =>
    by_cases h : a = z
    · subst h; simp only [List.dropWhile_cons, beq_self_eq_true, if_true] at hx; exact ih hx
    · have : (a == z) = false := by simpa using h
      simp only [List.dropWhile_cons, this] at hx
      simp at hx
      subst hx; exact h

theorem encodeInt_head (n : Nat) : ∀ x ∈ (encodeInt n).head?, x ≠ '1' := by
  intro x hx
  rw [encodeInt_eq] at hx
  simp only [List.head?_map, List.head?_reverse, Option.mem_def, Option.map_eq_some_iff] at hx
  obtain ⟨d, hd, rfl⟩ := hx
  have hlt : d < 58 := Nat.digits_lt_base (by omega) (List.mem_of_getLast? hd)
  have hne : d ≠ 0 := by
    intro h0
    have hnil : Nat.digits 58 n ≠ [] := by intro hh; rw [hh] at hd; simp at hd
    have := Nat.getLast_digit_ne_zero 58 (m := n) (by rintro rfl; simp at hnil)
    rw [List.getLast?_eq_some_getLast hnil] at hd
    simp at hd
    exact this (hd.trans h0)
  intro h
  have := congrArg val h
  rw [val_chr hlt, val_one] at this
  exact hne this

theorem bytesOf_head (n : Nat) : ∀ x ∈ (bytesOf n).reverse.head?, x ≠ 0 := by
  intro x hx
  rw [bytesOf_eq] at hx
  simp only [List.head?_reverse, List.getLast?_map, Option.mem_def, Option.map_eq_some_iff] at hx
  obtain ⟨d, hd, rfl⟩ := hx
  have hlt : d < 256 := Nat.digits_lt_base (by omega) (List.mem_of_getLast? hd)
  have hne : d ≠ 0 := by
    intro h0
    have hnil : Nat.digits 256 n ≠ [] := by intro hh; rw [hh] at hd; simp at hd
    have := Nat.getLast_digit_ne_zero 256 (m := n) (by rintro rfl; simp at hnil)
    rw [List.getLast?_eq_some_getLast hnil] at hd
    simp at hd
    exact this (hd.trans h0)
  intro h
  have := congrArg UInt8.toNat h
  simp at this
  omega

theorem bytesOf_leToNat (w : Bytes) (hw : ∀ x ∈ w.head?, x ≠ 0) : (bytesOf (leToNat w.reverse)).reverse = w := by
  rw [bytesOf_eq, ← leNumber_eq, leNumber, Nat.digits_ofDigits 256 (by omega)]
  · rw [List.map_map]
    have : (UInt8.ofNat ∘ UInt8.toNat) = id := by funext x; simp
    rw [this]; simp
  · intro l hl
    obtain ⟨b, _, rfl⟩ := List.mem_map.mp hl
    exact b.toNat_lt
  · intro h
    rw [List.getLast_map, List.getLast_reverse]
    have hne : w ≠ [] := by intro hh; subst hh; simp at h
    have := hw (w.head hne) (by simp [List.head?_eq_some_head hne])
    intro h0
    exact this (UInt8.toNat_inj.mp h0)

theorem leToNat_bytesOf (n : Nat) : leToNat (bytesOf n) = n := by
  rw [bytesOf_eq, ← leNumber_eq, leNumber, List.map_map]
  have : (Nat.digits 256 n).map (UInt8.toNat ∘ UInt8.ofNat) = Nat.digits 256 n := by
    conv_rhs => rw [← List.map_id (Nat.digits 256 n)]
    apply List.map_congr_left
    intro d hd
    have hlt : d < 256 := Nat.digits_lt_base (by omega) hd
    simp [hlt]
  rw [this, Nat.ofDigits_digits]

theorem encodeInt_mem (n : Nat) : ∀ c ∈ encodeInt n, c ∈ alphabet := by
  intro c hc
  rw [encodeInt_eq] at hc
  obtain ⟨d, hd, rfl⟩ := List.mem_map.mp hc
  exact chr_mem (Nat.digits_lt_base (by omega) (List.mem_reverse.mp hd))

theorem number_encodeInt (n : Nat) : Nat.ofDigits 58 ((encodeInt n).reverse.map val) = n := by
  rw [encodeInt_eq, ← List.map_reverse, List.reverse_reverse, List.map_map]
  have : (Nat.digits 58 n).map (val ∘ chr) = Nat.digits 58 n := by
    conv_rhs => rw [← List.map_id (Nat.digits 58 n)]
    apply List.map_congr_left
    intro d hd
    exact val_chr (Nat.digits_lt_base (by omega) hd)
  rw [this, Nat.ofDigits_digits]

theorem encodeInt_number (w : Str) (ha : ∀ c ∈ w, c ∈ alphabet) (hw : ∀ x ∈ w.head?, x ≠ '1') :
    encodeInt (Nat.ofDigits 58 (w.reverse.map val)) = w := by
  rw [encodeInt_eq, Nat.digits_ofDigits 58 (by omega)]
  · rw [← List.map_reverse, List.reverse_reverse, List.map_map]
    conv_rhs => rw [← List.map_id w]
    apply List.map_congr_left
    intro c hc
    exact chr_val (ha c hc)
  · intro l hl
    obtain ⟨c, hc, rfl⟩ := List.mem_map.mp hl
    exact val_lt (ha c (List.mem_reverse.mp hc))
  · intro h
    rw [List.getLast_map, List.getLast_reverse]
    have hne : w ≠ [] := by intro hh; subst hh; simp at h
    rw [Ne, val_eq_zero (ha _ (List.head_mem _))]
    exact hw (w.head hne) (by simp [List.head?_eq_some_head hne])

theorem decode_encode (b : Bytes) : decode (encode b) = .ok b := by
  unfold decode encode
  simp only
  rw [dropWhile_replicate_append _ _ _ (encodeInt_head _), decodeInt_ok _ _ (encodeInt_mem _), number_encodeInt]
  simp only [Nat.zero_mul, Nat.zero_add, List.length_append, List.length_replicate, Nat.add_sub_cancel]
  rw [bytesOf_leToNat _ (head_dropWhile_ne b 0), ← replicate_append_dropWhile]

theorem decode_ok_iff (s : Str) : (∃ b, decode s = .ok b) ↔ ∀ c ∈ s, c ∈ alphabet := by
  have hs := replicate_append_dropWhile s '1'
  constructor
  · rintro ⟨b, h⟩ c hc
    unfold decode at h
    simp only at h
    by_contra hca
    rw [hs] at hc
    rcases List.mem_append.mp hc with hc | hc
    · rw [List.eq_of_mem_replicate hc] at hca
      exact hca (by decide)
    · rw [decodeInt_error _ _ ⟨c, hc, hca⟩] at h
      simp at h
  · intro h
    unfold decode
    simp only
    rw [decodeInt_ok _ _ (fun c hc => h c (by rw [hs]; simp [hc]))]
    exact ⟨_, rfl⟩

theorem decode_error (s : Str) (e : Err) (h : decode s = .error e) : e = .valueError := by
  by_cases ha : ∀ c ∈ s, c ∈ alphabet
  · obtain ⟨b, hb⟩ := (decode_ok_iff s).mpr ha
    rw [hb] at h; simp at h
  · unfold decode at h
    simp only at h
    by_cases hw : ∀ c ∈ s.dropWhile (· == '1'), c ∈ alphabet
    · rw [decodeInt_ok _ _ hw] at h; simp at h
    · rw [decodeInt_error _ _ (by push Not at hw; exact hw)] at h
      simp at h; exact h.symm

theorem encode_decode {s : Str} {b : Bytes} (h : decode s = .ok b) : encode b = s := by
  have ha := (decode_ok_iff s).mp ⟨b, h⟩
  have hs := replicate_append_dropWhile s '1'
  unfold decode at h
  simp only at h
  have hw : ∀ c ∈ s.dropWhile (· == '1'), c ∈ alphabet := fun c hc => ha c (by rw [hs]; simp [hc])
  rw [decodeInt_ok _ _ hw] at h
  simp only [Nat.zero_mul, Nat.zero_add, Except.ok.injEq] at h
  subst h
  unfold encode
  simp only
  rw [dropWhile_replicate_append _ _ _ (bytesOf_head _), List.reverse_reverse, leToNat_bytesOf,
    encodeInt_number _ hw (head_dropWhile_ne s '1')]
  simp only [List.length_append, List.length_replicate, Nat.add_sub_cancel]
  exact hs.symm

end Neo.Base58

namespace Neo.Base58
open Py Spec

theorem number_strip (k : Nat) (w : Str) :
    Nat.ofDigits 58 ((List.replicate k '1' ++ w).reverse.map val) = Nat.ofDigits 58 (w.reverse.map val) := by
  rw [List.reverse_append, List.map_append, Nat.ofDigits_append]
  have : Nat.ofDigits 58 ((List.replicate k '1').reverse.map val) = 0 := by
    rw [List.reverse_replicate, List.map_replicate, val_one]
    induction k with
    | zero => rfl
    | succ k ih => rw [List.replicate_succ, Nat.ofDigits_cons, ih]
  rw [this]
  simp

theorem leToNat_strip (k : Nat) (w : Bytes) : leToNat (List.replicate k 0 ++ w).reverse = leToNat w.reverse := by
  rw [List.reverse_append, leToNat_append, List.reverse_replicate, leToNat_replicate_zero]
  simp

theorem number_eq (s : Str) : Spec.Base58.number s = Nat.ofDigits 58 ((s.dropWhile (· == '1')).reverse.map val) := by
  unfold Spec.Base58.number
  rw [alphabet_eq]
  conv_lhs => rw [replicate_append_dropWhile s '1']
  exact number_strip _ _

theorem beNumber_eq (b : Bytes) : beNumber b = leToNat (b.dropWhile (· == 0)).reverse := by
  unfold beNumber
  rw [leNumber_eq]
  conv_lhs => rw [replicate_append_dropWhile b 0]
  exact leToNat_strip _ _

theorem textOf_iff (b : Bytes) (s : Str) : Spec.Base58.TextOf b s ↔ decode s = .ok b := by
  have hs := replicate_append_dropWhile s '1'
  constructor
  · rintro ⟨h1, h2, h3⟩
    have ha : ∀ c ∈ s, c ∈ alphabet := by
      intro c hc; rw [← alphabet_eq]; exact h1 c hc
    have hw : ∀ c ∈ s.dropWhile (· == '1'), c ∈ alphabet := fun c hc => ha c (by rw [hs]; simp [hc])
    rw [number_eq, beNumber_eq] at h3
    rw [takeWhile_length, takeWhile_length] at h2
    unfold decode
    simp only
    rw [decodeInt_ok _ _ hw, h3]
    simp only [Nat.zero_mul, Nat.zero_add, Except.ok.injEq]
    rw [bytesOf_leToNat _ (head_dropWhile_ne b 0), h2, ← replicate_append_dropWhile]
  · intro h
    have ha := (decode_ok_iff s).mp ⟨b, h⟩
    have hw : ∀ c ∈ s.dropWhile (· == '1'), c ∈ alphabet := fun c hc => ha c (by rw [hs]; simp [hc])
    have he := encode_decode h
    refine ⟨by intro c hc; rw [alphabet_eq]; exact ha c hc, ?_, ?_⟩
    · rw [takeWhile_length, takeWhile_length, ← he]
      unfold encode
      simp only
      rw [dropWhile_replicate_append _ _ _ (encodeInt_head _)]
      simp
    · rw [number_eq, beNumber_eq, ← he]
      unfold encode
      simp only
      rw [dropWhile_replicate_append _ _ _ (encodeInt_head _), number_encodeInt]

theorem encode_inj {a b : Bytes} (h : encode a = encode b) : a = b := by
  have h1 := decode_encode a
  rw [h, decode_encode] at h1
  simpa using h1.symm

theorem decode_eq_iff (s : Str) (b : Bytes) : decode s = .ok b ↔ s = encode b :=
  ⟨fun h => (encode_decode h).symm, fun h => by rw [h, decode_encode]⟩

/-! Lengths and first characters. -/

theorem encodeInt_length {n k : Nat} (h1 : 58 ^ k ≤ n) (h2 : n < 58 ^ (k + 1)) : (encodeInt n).length = k + 1 := by
  rw [encodeInt_eq, List.length_map, List.length_reverse]
  apply le_antisymm
  · exact Nat.digits_length_le_iff (by omega) n |>.mpr h2
  · exact Nat.lt_digits_length_iff (by omega) n |>.mpr h1

theorem encodeInt_head? (n k : Nat) (h1 : 58 ^ k ≤ n) (h2 : n < 58 ^ (k + 1)) :
    (encodeInt n).head? = some (chr (n / 58 ^ k)) := by
  induction k generalizing n with
  | zero =>
    rw [encodeInt]
    have hn : n ≠ 0 := by intro h; subst h; simp at h1
    rw [dif_neg hn, show n / 58 = 0 by omega, encodeInt]
    simp only [dif_pos, List.nil_append, List.head?_cons, pow_zero, Nat.div_one]
    rw [Nat.mod_eq_of_lt (by simpa using h2)]
    rfl
  | succ k ih =>
    rw [encodeInt]
    have hpos : 0 < 58 ^ (k + 1) := by positivity
    have hn : n ≠ 0 := by omega
    rw [dif_neg hn]
    have h3 : 58 ^ k ≤ n / 58 := by
      rw [Nat.le_div_iff_mul_le (by omega), ← pow_succ]; exact h1
    have h4 : n / 58 < 58 ^ (k + 1) := by
      rw [Nat.div_lt_iff_lt_mul (by omega), ← pow_succ]; exact h2
    rw [List.head?_append, ih _ h3 h4, Nat.div_div_eq_div_mul, pow_succ, Nat.mul_comm (58 ^ k) 58]
    rfl

/-- Number denoted by a byte string with known first byte. -/
theorem leToNat_cons_bounds (v : UInt8) (w : Bytes) :
    v.toNat * 256 ^ w.length ≤ leToNat (v :: w).reverse ∧ leToNat (v :: w).reverse < (v.toNat + 1) * 256 ^ w.length := by
  rw [List.reverse_cons, leToNat_append]
  have := leToNat_lt w.reverse
  rw [List.length_reverse] at this ⊢
  simp only [leToNat]
  constructor
  · nlinarith
  · nlinarith

theorem encode_cons (v : UInt8) (w : Bytes) (hv : v ≠ 0) : encode (v :: w) = encodeInt (leToNat (v :: w).reverse) := by
  unfold encode
  have : (v == 0) = false := by simpa using hv
  simp [this]

end Neo.Base58
