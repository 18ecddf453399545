import Verif.Model.Fixed8Text
import Verif.Proofs.DecimalText

/-! # C32: the text of a Fixed8 amount -/

namespace Neo.Props
open Py Spec

/-! ### Shortest decimals -/

/-- Every positive float has a shortest decimal. -/
theorem shortestDecimal_exists (x : ℚ) (hx : 0 < x) (hr : roundQ x = x) : ∃ p : ℕ × ℤ, ShortestDecimal x p.1 p.2 := by
  have hex : ∃ l, ∃ p : ℕ × ℤ, 0 < p.1 ∧ roundQ (p.1 * 10 ^ p.2) = x ∧ (decText p.1).length = l := by
    obtain ⟨m, e, -, -, hxe⟩ := hr ▸ roundQ_representable x
    have hm : 0 < m := by
      by_contra hm
      have h1 : (m : ℚ) ≤ 0 := by exact_mod_cast not_lt.1 hm
      have := mul_nonpos_of_nonpos_of_nonneg h1 (two_zpow_pos e).le
      rw [← hxe] at this
      linarith
    obtain ⟨n, rfl⟩ : ∃ n : ℕ, m = n := ⟨m.toNat, by omega⟩
    have hn : 0 < n := by exact_mod_cast hm
    rw [Int.cast_natCast] at hxe
    rcases le_total 0 e with he | he
    · obtain ⟨k, rfl⟩ : ∃ k : ℕ, e = k := ⟨e.toNat, by omega⟩
      refine ⟨_, (n * 2 ^ k, 0), by positivity, ?_, rfl⟩
      rw [zpow_natCast] at hxe
      show roundQ (((n * 2 ^ k : ℕ) : ℚ) * 10 ^ (0 : ℤ)) = x
      rw [zpow_zero, mul_one, Nat.cast_mul, Nat.cast_pow, Nat.cast_ofNat, ← hxe, hr]
    · obtain ⟨k, rfl⟩ : ∃ k : ℕ, e = -k := ⟨(-e).toNat, by omega⟩
      refine ⟨_, (n * 5 ^ k, -k), by positivity, ?_, rfl⟩
      show roundQ (((n * 5 ^ k : ℕ) : ℚ) * 10 ^ (-k : ℤ)) = x
      have : (((n * 5 ^ k : ℕ) : ℚ) * 10 ^ (-k : ℤ)) = x := by
        rw [hxe, zpow_neg, zpow_natCast, zpow_neg, zpow_natCast, Nat.cast_mul, Nat.cast_pow, show (10 : ℚ) = 5 * 2 by norm_num, mul_pow]
        push_cast
        field_simp
      rw [this, hr]
  classical
  obtain ⟨p, h0, h1, h2⟩ := Nat.find_spec hex
  have hmin : ∀ (d' : Nat) (e' : Int), 0 < d' → roundQ (d' * 10 ^ e') = x → (decText p.1).length ≤ (decText d').length := by
    intro d' e' hd' he'
    rw [h2]
    exact Nat.find_min' hex ⟨(d', e'), hd', he', rfl⟩
  refine ⟨p, h0, ?_, h1, hmin⟩
  intro hm
  have hpos : 0 < p.1 / 10 := by omega
  have := hmin (p.1 / 10) (p.2 + 1) hpos (by
    rw [zpow_add₀ (by norm_num), zpow_one, mul_comm ((10 : ℚ) ^ p.2), ← mul_assoc]
    have h10 : ((p.1 / 10 : ℕ) : ℚ) * 10 = p.1 := by exact_mod_cast Nat.div_mul_cancel (Nat.dvd_of_mod_eq_zero hm)
    rw [h10, h1])
  rw [show decText p.1 = decText (p.1 / 10) ++ [Char.ofNat (48 + p.1 % 10)] by rw [decText, dif_neg (by omega)],
    List.length_append, List.length_singleton] at this
  omega

/-- The contract of `repr(float)` used below can be met. -/
theorem dtoa_exists : Nonempty Dtoa := by
  classical
  refine ⟨⟨fun x => if h : 0 < x ∧ roundQ x = x then (shortestDecimal_exists x h.1 h.2).choose.1 else 0,
    fun x => if h : 0 < x ∧ roundQ x = x then (shortestDecimal_exists x h.1 h.2).choose.2 else 0, fun x h1 h2 => ?_⟩⟩
  rw [dif_pos ⟨h1, h2⟩, dif_pos ⟨h1, h2⟩]
  exact (shortestDecimal_exists x h1 h2).choose_spec

/-- A multiple of 10^-8 below 2^26 is the only decimal at most as long that its float can be printed as. -/
theorem shortest_exact (n d : ℕ) (e : ℤ) (hn : 0 < n) (hlt : n < 2 ^ 26 * 10 ^ 8) (h : ShortestDecimal (roundQ ((n : ℚ) / 10 ^ 8)) d e) :
    (d : ℚ) * 10 ^ e = (n : ℚ) / 10 ^ 8 := by
  obtain ⟨hd, -, hround, hmin⟩ := h
  have hVeq : ((n : ℚ) * 10 ^ (-8 : ℤ)) = (n : ℚ) / 10 ^ 8 := by
    rw [zpow_neg, div_eq_mul_inv]; norm_cast
  have hlen := hmin n (-8) hn (by rw [hVeq])
  obtain ⟨V, hV⟩ : ∃ V : ℚ, V = (n : ℚ) / 10 ^ 8 := ⟨_, rfl⟩
  rw [← hV] at hround hmin ⊢
  have hnq : (1 : ℚ) ≤ n := by exact_mod_cast hn
  have hnq2 : (n : ℚ) ≤ 2 ^ 26 * 10 ^ 8 - 1 := by
    have : n + 1 ≤ 2 ^ 26 * 10 ^ 8 := hlt
    have h' : ((n + 1 : ℕ) : ℚ) ≤ ((2 ^ 26 * 10 ^ 8 : ℕ) : ℚ) := Nat.cast_le.2 this
    push_cast at h'
    linarith
  have hV0 : 1 / 10 ^ 8 ≤ V := by rw [hV]; gcongr
  have hV1 : V ≤ 2 ^ 26 - 1 / 10 ^ 8 := by rw [hV, div_le_iff₀ (by norm_num)]; linarith
  have hVe : |roundQ V - V| ≤ 2 ^ (26 - 54 : ℤ) := roundQ_error (by rw [abs_of_nonneg (by linarith)]; norm_num; linarith) (by norm_num)
  have h228 : (2 : ℚ) ^ (26 - 54 : ℤ) = 1 / 2 ^ 28 := by norm_num
  rw [h228, abs_le] at hVe
  have hx : roundQ V < 2 ^ 26 := by
    have := hVe.2
    have h' : (1 : ℚ) / 2 ^ 28 < 1 / 10 ^ 8 := by norm_num
    linarith
  have hD0 : (0 : ℚ) < d * 10 ^ e := mul_pos (by exact_mod_cast hd) (zpow_pos (by norm_num) e)
  obtain ⟨D, hD⟩ : ∃ D : ℚ, D = (d : ℚ) * 10 ^ e := ⟨_, rfl⟩
  rw [← hD] at hround hD0 ⊢
  have hD1 : D < 2 ^ 26 := by
    by_contra hc
    have := le_roundQ (x := 2 ^ 26) (q := D) (by
      have := representable_int (n := 2 ^ 26) (by norm_num)
      exact_mod_cast this) (not_lt.1 hc)
    rw [hround] at this
    linarith
  have hDe : |roundQ D - D| ≤ 2 ^ (26 - 54 : ℤ) := roundQ_error (by rw [abs_of_nonneg hD0.le]; norm_num; linarith) (by norm_num)
  rw [h228, abs_le, hround] at hDe
  rcases le_or_gt (-8) e with he | he
  · obtain ⟨k, hk⟩ : ∃ k : ℕ, e = k - 8 := ⟨(e + 8).toNat, by omega⟩
    have hDk : D = ((d * 10 ^ k : ℕ) : ℚ) / 10 ^ 8 := by
      rw [hD, hk, zpow_sub₀ (by norm_num), zpow_natCast]
      push_cast
      rw [mul_div_assoc]
      norm_cast
    rw [hDk, hV]
    congr 1
    have hdiff : |((d * 10 ^ k : ℕ) : ℚ) - (n : ℚ)| < 1 := by
      have e1 : ((d * 10 ^ k : ℕ) : ℚ) = D * 10 ^ 8 := by rw [hDk]; field_simp
      have e2 : (n : ℚ) = V * 10 ^ 8 := by rw [hV]; field_simp
      rw [e1, e2, ← sub_mul, abs_lt]
      obtain ⟨a1, a2⟩ := hDe
      obtain ⟨b1, b2⟩ := hVe
      norm_num at a1 a2 b1 b2 ⊢
      constructor <;> linarith
    have hz : |((d * 10 ^ k : ℕ) : ℤ) - (n : ℤ)| < 1 := by exact_mod_cast hdiff
    have := Int.abs_lt_one_iff.1 hz
    have h3 : d * 10 ^ k = n := by omega
    rw [h3]
  · exfalso
    obtain ⟨hl, -, hdlt⟩ := decText_length d hd
    obtain ⟨hL, hnge, -⟩ := decText_length n hn
    obtain ⟨l, hldef⟩ : ∃ l, l = (decText d).length := ⟨_, rfl⟩
    obtain ⟨L, hLdef⟩ : ∃ L, L = (decText n).length := ⟨_, rfl⟩
    rw [← hldef] at hl hdlt hlen hmin
    rw [← hLdef] at hL hnge hlen
    -- M = 10^(L-1) / 10^8
    obtain ⟨M, hM⟩ : ∃ M : ℚ, M = 10 ^ ((L : ℤ) - 9) := ⟨_, rfl⟩
    have hMV : M ≤ V := by
      have : ((10 ^ (L - 1) : ℕ) : ℚ) ≤ n := Nat.cast_le.2 hnge
      rw [hM, hV, show (L : ℤ) - 9 = ((L - 1 : ℕ) : ℤ) - 8 by omega, zpow_sub₀ (by norm_num), zpow_natCast]
      push_cast at this
      have h8 : (10 : ℚ) ^ (8 : ℤ) = 10 ^ 8 := by norm_cast
      rw [h8]
      gcongr
    have hDlt : D < 10 ^ ((l : ℤ) + e) := by
      rw [hD, zpow_add₀ (by norm_num), zpow_natCast]
      have : (d : ℚ) < ((10 ^ l : ℕ) : ℚ) := Nat.cast_lt.2 hdlt
      push_cast at this
      exact mul_lt_mul_of_pos_right this (zpow_pos (by norm_num) e)
    have hle : (10 : ℚ) ^ ((l : ℤ) + e) ≤ M := by
      rw [hM, zpow_le_zpow_iff_right₀ (by norm_num)]
      omega
    have hMx : roundQ M = roundQ V := by
      refine le_antisymm (roundQ_mono hMV) ?_
      rw [← hround]
      exact roundQ_mono (hDlt.le.trans hle)
    have hl1 : l = 1 := by
      have := hmin 1 ((L : ℤ) - 9) one_pos (by rw [Nat.cast_one, one_mul, ← hM, hMx])
      have h1 : (decText 1).length = 1 := by decide +kernel
      omega
    subst hl1
    have hd9 : (d : ℚ) ≤ 9 := by
      have : d ≤ 9 := by omega
      exact_mod_cast this
    have hM10 : (10 : ℚ) * 10 ^ e ≤ M := by
      rw [show (10 : ℚ) * 10 ^ e = 10 ^ (((1 : ℕ) : ℤ) + e) by rw [zpow_add₀ (by norm_num)]; simp]
      exact hle
    have he0 : (0 : ℚ) < 10 ^ e := zpow_pos (by norm_num) e
    have hDM : 10 * D ≤ 9 * M := by
      rw [hD]
      nlinarith
    have hM8 : 1 / 10 ^ 8 ≤ M := by
      have : (10 : ℚ) ^ (-8 : ℤ) ≤ M := by rw [hM, zpow_le_zpow_iff_right₀ (by norm_num)]; omega
      have h8 : (10 : ℚ) ^ (-8 : ℤ) = 1 / 10 ^ 8 := by norm_num
      rwa [h8] at this
    have r1 := roundQ_rel M
    have r2 := roundQ_rel D
    rw [hMx] at r1
    rw [hround] at r2
    have hsmall : (1 : ℚ) / 2 ^ 1000 ≤ 1 / 2 ^ 53 / 10 ^ 8 := by
      rw [div_div]
      refine div_le_div_of_nonneg_left (by norm_num) (by positivity) ?_
      calc (2 : ℚ) ^ 53 * 10 ^ 8 ≤ 2 ^ 53 * 2 ^ 30 := by norm_num
        _ = 2 ^ 83 := by norm_num
        _ ≤ 2 ^ 1000 := pow_le_pow_right₀ (by norm_num) (by norm_num)
    have b1 : max (|M| / 2 ^ 53) (1 / 2 ^ 1000) ≤ M / 2 ^ 53 := by
      rw [abs_of_nonneg (by linarith)]
      refine max_le le_rfl (hsmall.trans ?_)
      rw [div_right_comm]
      gcongr
    have b2 : max (|D| / 2 ^ 53) (1 / 2 ^ 1000) ≤ M / 2 ^ 53 := by
      rw [abs_of_nonneg hD0.le]
      refine max_le ?_ (hsmall.trans ?_)
      · gcongr
        linarith
      · rw [div_right_comm]
        gcongr
    have c1 := abs_le.1 (r1.trans b1)
    have c2 := abs_le.1 (r2.trans b2)
    have hM0 : 0 < M := lt_of_lt_of_le (by norm_num) hM8
    obtain ⟨-, c12⟩ := c1
    obtain ⟨c11, -⟩ := abs_le.1 (r1.trans b1)
    obtain ⟨-, c22⟩ := c2
    norm_num at c11 c22
    linarith

theorem roundQ_pos_of (n : ℕ) (hn : 0 < n) : 0 < roundQ ((n : ℚ) / 10 ^ 8) := by
  have h1 : (1 : ℚ) ≤ n := by exact_mod_cast hn
  have hr : Representable ((2 : ℚ) ^ (-27 : ℤ)) := ⟨1, -27, by norm_num, by norm_num, by norm_num⟩
  have := le_roundQ (q := (n : ℚ) / 10 ^ 8) hr (by
    rw [le_div_iff₀ (by norm_num)]
    refine le_trans ?_ h1
    norm_num)
  exact lt_of_lt_of_le (two_zpow_pos _) this

/-! ### Text of a finite float -/

theorem textValue_reprFin (R : Dtoa) (q : ℚ) (hr : roundQ q = q) :
    textValue? (reprFin R q) = some (if q = 0 then 0 else if q < 0 then -((R.digits (-q) : ℚ) * 10 ^ R.exponent (-q))
      else (R.digits q : ℚ) * 10 ^ R.exponent q) := by
  unfold reprFin
  by_cases h0 : q = 0
  · rw [if_pos h0, if_pos h0]
    decide +kernel
  · rw [if_neg h0, if_neg h0]
    by_cases hneg : q < 0
    · rw [if_pos hneg, if_pos hneg]
      have := R.shortest (-q) (by linarith) (by rw [roundQ_neg, hr])
      obtain ⟨hv, -⟩ := formatShort_value _ (R.exponent (-q)) this.1
      rw [textValue?, hv]
      rfl
    · rw [if_neg hneg, if_neg hneg]
      have hpos : 0 < q := lt_of_le_of_ne (not_lt.1 hneg) (Ne.symm h0)
      have := R.shortest q hpos hr
      obtain ⟨hv, c, s, hc, hd⟩ := formatShort_value _ (R.exponent q) this.1
      rw [hc, textValue_digit hd, ← hc, hv]

theorem toStr_eq (R : Dtoa) (v : Int) (h : |v| < 2 ^ 64) : Fixed8.toStr R v = .ok (reprFin R (roundQ ((v : ℚ) / 10 ^ 8))) := by
  unfold Fixed8.toStr intTrueDiv
  rw [if_neg (by decide), ofRat_fin]
  · have : ((Fixed8.D : ℤ) : ℚ) = 10 ^ 8 := by norm_num [Fixed8.D]
    rw [this]
    rfl
  · have hq : |(v : ℚ)| < 2 ^ 64 := by rw [← Int.cast_abs]; exact_mod_cast h
    have : ((Fixed8.D : ℤ) : ℚ) = 10 ^ 8 := by norm_num [Fixed8.D]
    rw [this, abs_div, abs_of_pos (by norm_num : (0 : ℚ) < 10 ^ 8)]
    have h2 : (2 : ℚ) ^ 64 ≤ 2 ^ 1000 := pow_le_pow_right₀ (by norm_num) (by norm_num)
    have h3 : |(v : ℚ)| / 10 ^ 8 ≤ |(v : ℚ)| := div_le_self (abs_nonneg _) (by norm_num)
    exact (h3.trans hq.le).trans h2

/-! ### Dropping a final ".0" -/

theorem digitsFrom_no_point (s : List Char) (a b : Nat) (h : digitsFrom a s = some b) : '.' ∉ s := fun hc =>
  (isDig_ne (isDig_of_digitsFrom s a b h _ hc)).1 rfl

theorem split_at (c : Char) (t : List Char) : (c ∉ t) ∨ ∃ a b, t = a ++ c :: b ∧ c ∉ a := by
  induction t with
  | nil => left; simp
  | cons x t ih =>
    by_cases hx : x = c
    · right; exact ⟨[], t, by simp [hx], by simp⟩
    · rcases ih with h | ⟨a, b, h1, h2⟩
      · left
        simp only [List.mem_cons, not_or]
        exact ⟨fun h => hx h.symm, h⟩
      · right
        refine ⟨x :: a, b, by simp [h1], ?_⟩
        simp only [List.mem_cons, not_or]
        exact ⟨fun h => hx h.symm, h2⟩

theorem takeWhile_at {c : Char} {a b : List Char} (h : c ∉ a) :
    (a ++ c :: b).takeWhile (· != c) = a ∧ (a ++ c :: b).dropWhile (· != c) = c :: b :=
  takeWhile_split (fun x hx => by simp only [bne_iff_ne]; rintro rfl; exact h hx) (by simp)

theorem mantissa_drop (t : List Char) (q : ℚ) (h : mantissa? (t ++ ['.', '0']) = some q) : mantissa? t = some q := by
  unfold mantissa? at h
  rcases split_at '.' t with hp | ⟨a, b, rfl, ha⟩
  · rw [(takeWhile_at hp).1, (takeWhile_at hp).2] at h
    simp only at h
    by_cases ht : t = [] ∨ ['0'] = []
    · rw [if_pos ht] at h; cases h
    · rw [if_neg ht] at h
      rw [digits_eq, digitsFrom_append] at h
      cases hd : digitsFrom 0 t with
      | none => rw [hd] at h; cases h
      | some n =>
        rw [hd] at h
        rw [mantissa_whole (n := n) hd (fun h0 => ht (Or.inl h0)), ← h]
        simp only [Option.bind_some]
        rw [digitsFrom_cons n '0' [] 0 (by decide), digitsFrom, List.foldl_nil]
        show some (n : ℚ) = some (((10 * n + 0 : ℕ) : ℚ) / 10 ^ 1)
        congr 1
        push_cast
        ring
  · exfalso
    rw [List.append_assoc, List.cons_append, (takeWhile_at ha).1, (takeWhile_at ha).2] at h
    simp only at h
    split at h
    · cases h
    · cases hd : digits? (a ++ (b ++ ['.', '0'])) with
      | none => rw [hd] at h; cases h
      | some n => exact digitsFrom_no_point _ 0 n hd (by simp)

theorem unsigned_drop (t : List Char) (q : ℚ) (h : unsigned? (t ++ ['.', '0']) = some q) : unsigned? t = some q := by
  unfold unsigned? at h
  rcases split_at 'e' t with hp | ⟨a, b, rfl, ha⟩
  · have hall : ∀ x ∈ t ++ ['.', '0'], (x != 'e') = true := by
      intro x hx
      simp only [bne_iff_ne]
      rintro rfl
      rcases List.mem_append.1 hx with hx | hx
      · exact hp hx
      · revert hx; decide
    obtain ⟨h1, h2⟩ := takeWhile_all hall
    rw [h1, h2] at h
    simp only [exponent?] at h
    cases hm : mantissa? (t ++ ['.', '0']) with
    | none => rw [hm] at h; cases h
    | some m =>
      rw [hm] at h
      simp only [zpow_zero, mul_one] at h
      rw [unsigned_plain (mantissa_drop t m hm), ← h]
  · exfalso
    rw [List.append_assoc, List.cons_append, (takeWhile_at ha).1, (takeWhile_at ha).2] at h
    have he : exponent? ('e' :: (b ++ ['.', '0'])) = none := by
      unfold exponent?
      split
      · rename_i h; cases h
      · rename_i s h
        split
        · rfl
        · cases hd : digits? s with
          | none => rfl
          | some n =>
            exfalso
            refine digitsFrom_no_point _ 0 n hd ?_
            have h' := (List.cons.inj h).2
            cases b with
            | nil => exact absurd (List.cons.inj h').1 (by decide)
            | cons x b => rw [← (List.cons.inj h').2]; simp
      · rename_i s h
        split
        · rfl
        · cases hd : digits? s with
          | none => rfl
          | some n =>
            exfalso
            refine digitsFrom_no_point _ 0 n hd ?_
            have h' := (List.cons.inj h).2
            cases b with
            | nil => exact absurd (List.cons.inj h').1 (by decide)
            | cons x b => rw [← (List.cons.inj h').2]; simp
      · rfl
    rw [he] at h
    split at h
    · rename_i h' ; cases h'
    · cases h

theorem textValue_drop (t : List Char) (q : ℚ) (h : textValue? (t ++ ['.', '0']) = some q) : textValue? t = some q := by
  cases t with
  | nil =>
    rw [show textValue? ([] ++ ['.', '0']) = none by decide] at h
    cases h
  | cons c t =>
    by_cases hc : c = '-'
    · subst hc
      rw [List.cons_append, textValue?] at h
      rw [textValue?]
      cases hu : unsigned? (t ++ ['.', '0']) with
      | none => rw [hu] at h; cases h
      | some m =>
        rw [hu] at h
        rw [unsigned_drop t m hu, ← h]
    · have hh : ∀ s, textValue? (c :: s) = unsigned? (c :: s) := by
        intro s
        rw [textValue?]
        rintro u hu
        exact hc (List.cons.inj hu).1
      rw [List.cons_append, hh] at h
      rw [hh]
      exact unsigned_drop (c :: t) q h

/-- `ToNeoJsonString` succeeds when `ToString` does, and its text denotes the same number. -/
theorem toNeoJsonStr_value (R : Dtoa) (v : Int) (s : Str) (q : ℚ) (h : Fixed8.toStr R v = .ok s) (hq : textValue? s = some q) :
    ∃ t, Fixed8.toNeoJsonStr R v = .ok t ∧ textValue? t = some q := by
  unfold Fixed8.toNeoJsonStr
  rw [h]
  simp only
  by_cases hc : s.drop (s.length - 2) = ['.', '0']
  · rw [if_pos hc]
    refine ⟨_, rfl, textValue_drop _ _ ?_⟩
    rw [← hc, List.take_append_drop]
    exact hq
  · rw [if_neg hc]
    exact ⟨s, rfl, hq⟩

/-! ### C32 -/

/-- C32 for amounts below 2^26 units (67 108 864): both texts denote the amount exactly. -/
theorem C32_exact_partial (R : Dtoa) (v : Int) (h : |v| < 2 ^ 26 * 10 ^ 8) :
    (∃ s, Fixed8.toStr R v = .ok s ∧ textValue? s = some ((v : ℚ) / 10 ^ 8)) ∧
      ∃ s, Fixed8.toNeoJsonStr R v = .ok s ∧ textValue? s = some ((v : ℚ) / 10 ^ 8) := by
  have key : textValue? (reprFin R (roundQ ((v : ℚ) / 10 ^ 8))) = some ((v : ℚ) / 10 ^ 8) := by
    rw [textValue_reprFin R _ (roundQ_exact (roundQ_representable _))]
    congr 1
    have habs : |v| = (v.natAbs : ℤ) := Int.abs_eq_natAbs v
    have hlt : v.natAbs < 2 ^ 26 * 10 ^ 8 := by
      rw [habs] at h
      exact_mod_cast h
    rcases lt_trichotomy v 0 with hv | hv | hv
    · have hn : (v : ℚ) = -(v.natAbs : ℚ) := by
        have : v = -(v.natAbs : ℤ) := by omega
        exact_mod_cast this
      have hpos : 0 < roundQ ((v.natAbs : ℚ) / 10 ^ 8) := by
        have := roundQ_pos_of v.natAbs (by omega)
        exact this
      rw [hn, neg_div, roundQ_neg, if_neg (by linarith), if_pos (by linarith), neg_neg,
        shortest_exact v.natAbs _ _ (by omega) hlt (R.shortest _ hpos (roundQ_exact (roundQ_representable _)))]
    · subst hv
      rw [Int.cast_zero, zero_div, roundQ_zero, if_pos rfl]
    · have hn : (v : ℚ) = (v.natAbs : ℚ) := by
        have : v = (v.natAbs : ℤ) := by omega
        rw [← Int.cast_natCast, ← this]
      have hpos : 0 < roundQ ((v.natAbs : ℚ) / 10 ^ 8) := by
        have := roundQ_pos_of v.natAbs (by omega)
        exact this
      rw [hn, if_neg (by linarith), if_neg (by linarith),
        shortest_exact v.natAbs _ _ (by omega) hlt (R.shortest _ hpos (roundQ_exact (roundQ_representable _)))]
  have hstr := toStr_eq R v (h.trans (by norm_num))
  exact ⟨⟨_, hstr, key⟩, toNeoJsonStr_value R v _ _ hstr key⟩

/-- Two different numbers of at most 15 digits never round to the same float (normal range). -/
theorem fifteen_digits {a b : ℕ} {e f : ℤ} (ha : 0 < a) (hb : 0 < b) (ha15 : a < 10 ^ 15) (hb15 : b < 10 ^ 15)
    (hlow : (1 : ℚ) / 2 ^ 40 ≤ a * 10 ^ e) (hlt : (a : ℚ) * 10 ^ e < b * 10 ^ f) : roundQ (a * 10 ^ e) ≠ roundQ (b * 10 ^ f) := by
  intro heq
  have h10 : (0 : ℚ) < 10 := by norm_num
  have hne : (10 : ℚ) ≠ 0 := by norm_num
  have hlen : ∀ n : ℕ, 0 < n → n < 10 ^ 15 → (decText n).length ≤ 15 := by
    intro n hn h15
    obtain ⟨h0, h1, -⟩ := decText_length n hn
    by_contra hc
    have : 10 ^ 15 ≤ 10 ^ ((decText n).length - 1) := Nat.pow_le_pow_right (by norm_num) (by omega)
    omega
  obtain ⟨la0, la1, la2⟩ := decText_length a ha
  obtain ⟨lb0, lb1, lb2⟩ := decText_length b hb
  have hla := hlen a ha ha15
  have hlb := hlen b hb hb15
  obtain ⟨La, hLa⟩ : ∃ L, L = (decText a).length := ⟨_, rfl⟩
  obtain ⟨Lb, hLb⟩ : ∃ L, L = (decText b).length := ⟨_, rfl⟩
  rw [← hLa] at la0 la1 la2 hla
  rw [← hLb] at lb0 lb1 lb2 hlb
  have hts : La + e ≤ Lb + f := by
    have h1 : (10 : ℚ) ^ ((La : ℤ) - 1 + e) ≤ a * 10 ^ e := by
      rw [zpow_add₀ hne]
      refine mul_le_mul_of_nonneg_right ?_ (zpow_pos h10 e).le
      have : ((La : ℤ) - 1) = ((La - 1 : ℕ) : ℤ) := by omega
      rw [this, zpow_natCast]
      exact_mod_cast la1
    have h2 : (b : ℚ) * 10 ^ f ≤ 10 ^ ((Lb : ℤ) + f) := by
      rw [zpow_add₀ hne, zpow_natCast]
      refine mul_le_mul_of_nonneg_right ?_ (zpow_pos h10 f).le
      exact_mod_cast lb2.le
    have h3 : (10 : ℚ) ^ ((La : ℤ) - 1 + e) < 10 ^ ((Lb : ℤ) + f) := lt_of_le_of_lt h1 (lt_of_lt_of_le hlt h2)
    rw [zpow_lt_zpow_iff_right₀ (by norm_num)] at h3
    omega
  obtain ⟨g, hg⟩ : ∃ g : ℚ, g = 10 ^ ((La : ℤ) + e - 15) := ⟨_, rfl⟩
  have hgpos : 0 < g := by rw [hg]; exact zpow_pos h10 _
  have hgrid : ∀ (n : ℕ) (x : ℤ), (La : ℤ) + e - 15 ≤ x → ∃ i : ℤ, (n : ℚ) * 10 ^ x = i * g := by
    intro n x hx
    obtain ⟨k, hk⟩ : ∃ k : ℕ, x = k + ((La : ℤ) + e - 15) := ⟨(x - ((La : ℤ) + e - 15)).toNat, by omega⟩
    refine ⟨n * 10 ^ k, ?_⟩
    rw [hk, zpow_add₀ hne, zpow_natCast, hg]
    push_cast
    ring
  obtain ⟨i, hi⟩ := hgrid a e (by omega)
  obtain ⟨j, hj⟩ := hgrid b f (by omega)
  have hA : (a : ℚ) * 10 ^ e < 10 ^ 15 * g := by
    have : (10 : ℚ) ^ 15 * g = 10 ^ La * 10 ^ e := by
      rw [hg, ← zpow_natCast, ← zpow_natCast, ← zpow_add₀ hne, ← zpow_add₀ hne]
      congr 1
      push_cast
      ring
    rw [this]
    refine mul_lt_mul_of_pos_right ?_ (zpow_pos h10 e)
    exact_mod_cast la2
  have hgap : (a : ℚ) * 10 ^ e + g ≤ b * 10 ^ f := by
    rw [hi, hj] at hlt ⊢
    have h1 : (i : ℚ) < j := lt_of_mul_lt_mul_right hlt hgpos.le
    have h2 : i + 1 ≤ j := by exact_mod_cast h1
    have h3 : (i : ℚ) + 1 ≤ j := by exact_mod_cast h2
    have := mul_le_mul_of_nonneg_right h3 hgpos.le
    linarith
  obtain ⟨A, hAe⟩ : ∃ A : ℚ, A = (a : ℚ) * 10 ^ e := ⟨_, rfl⟩
  obtain ⟨B, hBe⟩ : ∃ B : ℚ, B = (b : ℚ) * 10 ^ f := ⟨_, rfl⟩
  rw [← hAe] at hlow hlt heq hA hgap
  rw [← hBe] at hlt heq hgap
  have hrel : ∀ q : ℚ, 1 / 2 ^ 40 ≤ q → |roundQ q - q| ≤ q / 2 ^ 53 := by
    intro q hq
    have hq0 : 0 < q := lt_of_lt_of_le (by norm_num) hq
    refine (roundQ_rel q).trans (max_le (by rw [abs_of_pos hq0]) ?_)
    calc (1 : ℚ) / 2 ^ 1000 ≤ 1 / 2 ^ 93 :=
          div_le_div_of_nonneg_left (by norm_num) (by norm_num) (pow_le_pow_right₀ (by norm_num) (by norm_num))
      _ = 1 / 2 ^ 40 / 2 ^ 53 := by norm_num
      _ ≤ q / 2 ^ 53 := by gcongr
  have ra := hrel A hlow
  have rb := hrel B (by linarith)
  rw [heq] at ra
  obtain ⟨a1, a2⟩ := abs_le.1 ra
  obtain ⟨b1, b2⟩ := abs_le.1 rb
  clear ra rb hrel hg hgrid hi hj
  norm_num at a1 a2 b1 b2 hA
  linarith

/-- An amount of at most 15 significant digits is the number printed. -/
theorem shortest_exact15 (n m k d : ℕ) (e : ℤ) (hm : 0 < m) (hm15 : m < 10 ^ 15) (hn : n = m * 10 ^ k)
    (h : ShortestDecimal (roundQ ((n : ℚ) / 10 ^ 8)) d e) : (d : ℚ) * 10 ^ e = (n : ℚ) / 10 ^ 8 := by
  obtain ⟨hd, -, hround, hmin⟩ := h
  have hV : (n : ℚ) / 10 ^ 8 = (m : ℚ) * 10 ^ ((k : ℤ) - 8) := by
    rw [hn, zpow_sub₀ (by norm_num), zpow_natCast]
    push_cast
    rw [mul_div_assoc]
    norm_cast
  have hlen := hmin m ((k : ℤ) - 8) hm (by rw [hV])
  have hd15 : d < 10 ^ 15 := by
    obtain ⟨l0, l1, -⟩ := decText_length m hm
    have h2 := (decText_length d hd).2.2
    have h15 : (decText m).length ≤ 15 := by
      by_contra hc
      have : 10 ^ 15 ≤ 10 ^ ((decText m).length - 1) := Nat.pow_le_pow_right (by norm_num) (by omega)
      omega
    exact lt_of_lt_of_le h2 (Nat.pow_le_pow_right (by norm_num) (by omega))
  have hn1 : (1 : ℚ) ≤ n := by
    have : 1 ≤ n := by rw [hn]; exact Nat.mul_pos hm (by positivity)
    exact_mod_cast this
  have hVlow : (1 : ℚ) / 10 ^ 8 ≤ (n : ℚ) / 10 ^ 8 := by gcongr
  rcases lt_trichotomy ((d : ℚ) * 10 ^ e) ((n : ℚ) / 10 ^ 8) with hlt | heq | hlt
  · exfalso
    by_cases hlow : (1 : ℚ) / 2 ^ 40 ≤ d * 10 ^ e
    · refine fifteen_digits hd hm hd15 hm15 hlow (by rwa [hV] at hlt) ?_
      rw [hround, hV]
    · have r40 : Representable (1 / 2 ^ 40) := ⟨1, -40, by norm_num, by norm_num, by norm_num⟩
      have r27 : Representable (1 / 2 ^ 27) := ⟨1, -27, by norm_num, by norm_num, by norm_num⟩
      have h1 := roundQ_le r40 (not_le.1 hlow).le
      have h2 := le_roundQ r27 (q := (n : ℚ) / 10 ^ 8) (le_trans (by norm_num) hVlow)
      rw [hround] at h1
      have := h2.trans h1
      norm_num at this
  · exact heq
  · exfalso
    refine fifteen_digits hm hd hm15 hd15 ?_ (by rwa [hV] at hlt) ?_
    · rw [← hV]
      exact le_trans (by norm_num) hVlow
    · rw [hround, hV]

/-- C32 for 64-bit amounts of at most 15 significant digits (m satoshis followed by k zeros), also above 2^26 units: both texts denote exactly
the amount. -/
theorem C32_digits_partial (R : Dtoa) (v m : Int) (k : ℕ) (hv : v = m * 10 ^ k) (hm : |m| < 10 ^ 15) (h : |v| < 2 ^ 64) :
    (∃ s, Fixed8.toStr R v = .ok s ∧ textValue? s = some ((v : ℚ) / 10 ^ 8)) ∧
      ∃ s, Fixed8.toNeoJsonStr R v = .ok s ∧ textValue? s = some ((v : ℚ) / 10 ^ 8) := by
  have hnat : v.natAbs = m.natAbs * 10 ^ k := by rw [hv, Int.natAbs_mul, Int.natAbs_pow]; rfl
  have hm15 : m.natAbs < 10 ^ 15 := by
    rw [Int.abs_eq_natAbs] at hm
    exact_mod_cast hm
  have key : textValue? (reprFin R (roundQ ((v : ℚ) / 10 ^ 8))) = some ((v : ℚ) / 10 ^ 8) := by
    rw [textValue_reprFin R _ (roundQ_exact (roundQ_representable _))]
    congr 1
    have hpos : v ≠ 0 → 0 < v.natAbs ∧ 0 < m.natAbs := by
      intro h0
      have h1 : 0 < v.natAbs := by omega
      refine ⟨h1, ?_⟩
      rw [hnat] at h1
      exact Nat.pos_of_mul_pos_right h1
    rcases lt_trichotomy v 0 with hv | hv | hv
    · have hn : (v : ℚ) = -(v.natAbs : ℚ) := by
        have : v = -(v.natAbs : ℤ) := by omega
        exact_mod_cast this
      have hx := roundQ_pos_of v.natAbs (hpos (by omega)).1
      rw [hn, neg_div, roundQ_neg, if_neg (by linarith), if_pos (by linarith), neg_neg,
        shortest_exact15 v.natAbs m.natAbs k _ _ (hpos (by omega)).2 hm15 hnat (R.shortest _ hx (roundQ_exact (roundQ_representable _)))]
    · subst hv
      rw [Int.cast_zero, zero_div, roundQ_zero, if_pos rfl]
    · have hn : (v : ℚ) = (v.natAbs : ℚ) := by
        have : v = (v.natAbs : ℤ) := by omega
        rw [← Int.cast_natCast, ← this]
      have hx := roundQ_pos_of v.natAbs (hpos (by omega)).1
      rw [hn, if_neg (by linarith), if_neg (by linarith),
        shortest_exact15 v.natAbs m.natAbs k _ _ (hpos (by omega)).2 hm15 hnat (R.shortest _ hx (roundQ_exact (roundQ_representable _)))]
  have hstr := toStr_eq R v h
  exact ⟨⟨_, hstr, key⟩, toNeoJsonStr_value R v _ _ hstr key⟩

/-- The whole supply of 100,000,000 GAS less one millionth. -/
example (R : Dtoa) : ∃ s, Fixed8.toStr R 9999999999999900 = .ok s ∧ textValue? s = some (((9999999999999900 : Int) : ℚ) / 10 ^ 8) :=
  (C32_digits_partial R 9999999999999900 99999999999999 2 (by norm_num) (by norm_num) (by norm_num)).1

/-- C32 for every 64-bit amount: both texts denote one and the same number, and it differs from the amount by less than one
part in 2^51. -/
theorem C32_close_partial (R : Dtoa) (v : Int) (h : |v| < 2 ^ 64) :
    ∃ s t q, Fixed8.toStr R v = .ok s ∧ Fixed8.toNeoJsonStr R v = .ok t ∧ textValue? s = some q ∧ textValue? t = some q ∧
      |q - (v : ℚ) / 10 ^ 8| ≤ |(v : ℚ) / 10 ^ 8| / 2 ^ 51 := by
  have hstr := toStr_eq R v h
  have hval := textValue_reprFin R (roundQ ((v : ℚ) / 10 ^ 8)) (roundQ_exact (roundQ_representable _))
  obtain ⟨t, ht, hq⟩ := toNeoJsonStr_value R v _ _ hstr hval
  refine ⟨_, t, _, hstr, ht, hval, hq, ?_⟩
  have hpos : ∀ n : ℕ, 0 < n → 0 < roundQ ((n : ℚ) / 10 ^ 8) ∧
      |(R.digits (roundQ ((n : ℚ) / 10 ^ 8)) : ℚ) * 10 ^ R.exponent (roundQ ((n : ℚ) / 10 ^ 8)) - (n : ℚ) / 10 ^ 8| ≤ |(n : ℚ) / 10 ^ 8| / 2 ^ 51 := by
    intro n hn
    have hx := roundQ_pos_of n hn
    refine ⟨hx, ?_⟩
    obtain ⟨hd, -, hr, -⟩ := R.shortest _ hx (roundQ_exact (roundQ_representable _))
    have hD0 : (0 : ℚ) < R.digits (roundQ ((n : ℚ) / 10 ^ 8)) * 10 ^ R.exponent (roundQ ((n : ℚ) / 10 ^ 8)) :=
      mul_pos (by exact_mod_cast hd) (zpow_pos (by norm_num) _)
    have hn1 : (1 : ℚ) ≤ n := by exact_mod_cast hn
    obtain ⟨V, hV⟩ : ∃ V : ℚ, V = (n : ℚ) / 10 ^ 8 := ⟨_, rfl⟩
    rw [← hV] at hr hx hD0 ⊢
    obtain ⟨D, hD⟩ : ∃ D : ℚ, D = R.digits (roundQ V) * 10 ^ R.exponent (roundQ V) := ⟨_, rfl⟩
    rw [← hD] at hr hD0 ⊢
    have hV0 : 1 / 10 ^ 8 ≤ V := by rw [hV]; gcongr
    have hsmall : (1 : ℚ) / 2 ^ 1000 ≤ 1 / 2 ^ 53 / 10 ^ 8 := by
      rw [div_div]
      refine div_le_div_of_nonneg_left (by norm_num) (by positivity) ?_
      calc (2 : ℚ) ^ 53 * 10 ^ 8 ≤ 2 ^ 53 * 2 ^ 30 := by norm_num
        _ = 2 ^ 83 := by norm_num
        _ ≤ 2 ^ 1000 := pow_le_pow_right₀ (by norm_num) (by norm_num)
    have hVp : 0 < V := lt_of_lt_of_le (by norm_num) hV0
    have hV53 : (1 : ℚ) / 2 ^ 1000 ≤ V / 2 ^ 53 := by
      refine hsmall.trans ?_
      rw [div_right_comm]
      gcongr
    have r1 := (roundQ_rel V).trans (max_le (by rw [abs_of_pos hVp]) hV53)
    have r2 := (roundQ_rel D).trans (max_le (b := 1 / 2 ^ 1000) (c := D / 2 ^ 53 + V / 2 ^ 53) (by
      rw [abs_of_pos hD0]
      have := div_pos hVp (show (0 : ℚ) < 2 ^ 53 by norm_num)
      linarith) (by
      have := div_pos hD0 (show (0 : ℚ) < 2 ^ 53 by norm_num)
      linarith))
    rw [hr] at r2
    rw [abs_of_pos hVp, abs_le]
    obtain ⟨a1, a2⟩ := abs_le.1 r1
    obtain ⟨b1, b2⟩ := abs_le.1 r2
    clear hV53 hsmall
    norm_num at a1 a2 b1 b2 ⊢
    constructor <;> linarith
  rcases lt_trichotomy v 0 with hv | hv | hv
  · have hn : (v : ℚ) = -(v.natAbs : ℚ) := by
      have : v = -(v.natAbs : ℤ) := by omega
      exact_mod_cast this
    obtain ⟨hx, hb⟩ := hpos v.natAbs (by omega)
    rw [hn, neg_div, roundQ_neg, if_neg (by linarith), if_pos (by linarith), neg_neg, abs_neg, ← neg_sub', abs_neg]
    exact hb
  · subst hv
    rw [Int.cast_zero, zero_div, roundQ_zero, if_pos rfl]
    norm_num
  · have hn : (v : ℚ) = (v.natAbs : ℚ) := by
      have : v = (v.natAbs : ℤ) := by omega
      rw [← Int.cast_natCast, ← this]
    obtain ⟨hx, hb⟩ := hpos v.natAbs (by omega)
    rw [hn, if_neg (by linarith), if_neg (by linarith)]
    exact hb

/-- C32 fails from there on: 2^26 units and 1 satoshi prints like 2^26 units and 2 satoshi, so one of the two texts is wrong. -/
theorem C32_large_violated (R : Dtoa) :
    Fixed8.toStr R (2 ^ 26 * 10 ^ 8 + 1) = Fixed8.toStr R (2 ^ 26 * 10 ^ 8 + 2) ∧
      ¬ ∀ v, (v = 2 ^ 26 * 10 ^ 8 + 1 ∨ v = 2 ^ 26 * 10 ^ 8 + 2) →
        ∃ s, Fixed8.toStr R v = .ok s ∧ textValue? s = some ((v : ℚ) / 10 ^ 8) := by
  have hr : roundQ (((2 ^ 26 * 10 ^ 8 + 1 : ℤ) : ℚ) / 10 ^ 8) = roundQ (((2 ^ 26 * 10 ^ 8 + 2 : ℤ) : ℚ) / 10 ^ 8) := by
    decide +kernel
  have heq : Fixed8.toStr R (2 ^ 26 * 10 ^ 8 + 1) = Fixed8.toStr R (2 ^ 26 * 10 ^ 8 + 2) := by
    rw [toStr_eq R _ (by norm_num), toStr_eq R _ (by norm_num), hr]
  refine ⟨heq, fun h => ?_⟩
  obtain ⟨s, h1, h2⟩ := h _ (Or.inl rfl)
  obtain ⟨t, h3, h4⟩ := h _ (Or.inr rfl)
  rw [heq, h3] at h1
  rw [Except.ok.inj h1, h2] at h4
  norm_num at h4

/-- An amount C32_exact_partial speaks about, of the shape a user sees: 12.50000001 NEO. -/
example (R : Dtoa) : ∃ s, Fixed8.toStr R 1250000001 = .ok s ∧ textValue? s = some (((1250000001 : Int) : ℚ) / 10 ^ 8) :=
  (C32_exact_partial R 1250000001 (by norm_num)).1

/-- What the text looks like for given digits: positional, and in exponent notation below 10^-4. -/
example : formatShort 1250000001 (-8) = "12.50000001".toList ∧ formatShort 1 (-8) = "1e-08".toList ∧
    formatShort 5 0 = "5.0".toList ∧ formatShort 15 (-5) = "0.00015".toList := by decide +kernel

end Neo.Props
