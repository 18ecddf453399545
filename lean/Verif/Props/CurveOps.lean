import Verif.Model.CurveOps
import Verif.Props.Ecdsa
import Verif.Props.Curve
import Verif.Props.PublicKey
import Verif.Proofs.ECMulAll
import Verif.Proofs.DecimalText

/-!
# Division of points, recovery of public keys from signatures, text of points

Properties C126-C128.
-/

namespace Neo.Props
open Py Neo.EC Spec.EC

/-! ## C126 -/

/-- C126 fails in the documented use, a divisor that is a value of a finite field: every such division raises TypeError. -/
theorem C126_field_value_violated (c : Curve) (P : Pt) (v : FF.Value) (s : Str) :
    EC.div c P (.value v) = .error .typeError ∧ EC.div c P (.hex s) = .error .typeError := ⟨rfl, rfl⟩

set_option linter.constructorNameAsVariable false in
/-- C126 fails for ints: on every curve `P / 1` is the multiple 2^1075 - 1 of P, and for the base point of secp256r1 that is not P. -/
theorem C126_int_violated :
    (∀ (c : Curve) (hp : c.p.Prime) (_ : Proper c) (P : Pt), letI := Fact.mk hp
      ∀ A : (weierstrass c).Point, Denotes c P A → ∃ R, EC.div c P (.int 1) = .ok R ∧ Denotes c R ((2 ^ (1074 + 1) - 1 : Nat) • A)) ∧
    ∃ R, EC.div secp256r1Curve secp256r1.G (.int 1) = .ok R ∧ ¬ Same secp256r1Curve R secp256r1.G := by
  have main : ∀ (c : Curve) (hp : c.p.Prime) (_ : Proper c) (P : Pt), letI := Fact.mk hp
      ∀ A : (weierstrass c).Point, Denotes c P A → ∃ R, EC.div c P (.int 1) = .ok R ∧ Denotes c R ((2 ^ (1074 + 1) - 1 : Nat) • A) := by
    intro c hp h P
    have := Fact.mk hp
    intro A hA
    have h1 : intTrueDiv 1 1 = .ok (.fin 1) := by
      rw [intTrueDiv, if_neg (by decide), show (((1 : Int) : ℚ) / ((1 : Int) : ℚ)) = 1 by norm_num, ofRat_fin (by
        rw [abs_one]; exact one_le_pow₀ (by norm_num)), roundQ_exact ⟨1, 0, by norm_num, by norm_num, by norm_num⟩]
    refine ⟨mulFloat c P 1, ?_, ?_⟩
    · rw [EC.div]
      simp only [h1]
    · have h2 := denotes_mulLoop h ⌊(1 : ℚ) * 2 ^ 1074⌋ _ _ _ _ (denotes_zero (c := c)) hA
      rw [zero_add] at h2
      have h3 : ⌊(1 : ℚ) * 2 ^ 1074⌋ = 2 ^ 1074 * 1 := by
        rw [one_mul, mul_one, show (2 : ℚ) ^ 1074 = ((2 ^ 1074 : Int) : ℚ) by rw [Int.cast_pow, Int.cast_ofNat], Int.floor_intCast]
      have h4 : loopCoeff (2 ^ 1074 * 1) = 2 ^ (1074 + 1) - 1 :=
        loopCoeff_shift 1 rfl (T := 1) (loopCoeff_steps 54 1 (by norm_num) ⟨0, le_refl _, by norm_num⟩) 1074 (le_refl _)
      rw [h3] at h2
      rw [mulFloat, h3]
      generalize (2 ^ (1074 + 1) - 1 : Nat) = M at h4 ⊢
      rw [h4] at h2
      exact h2
  refine ⟨main, ?_⟩
  have := Fact.mk p256_prime
  obtain ⟨G, hG, ho⟩ := p256_order
  obtain ⟨R, h1, h2⟩ := main _ p256_prime p256_proper _ G hG
  refine ⟨R, h1, fun hs => ?_⟩
  have hne : ¬ ((2 ^ (1074 + 1) - 1 : Nat) % p256Order = 1 % p256Order) := by decide +kernel
  generalize (2 ^ (1074 + 1) - 1 : Nat) = M at h2 hne
  have he := (denotes_same p256_proper h2 hG).1 hs
  have he : M • G = 1 • G := by rw [he, one_nsmul]
  have hm := nsmul_eq_nsmul_iff_modEq.1 he
  rw [ho] at hm
  exact hne hm

/-- C126, what remains: division by 0 raises ZeroDivisionError. -/
theorem C126_zero_partial (c : Curve) (P : Pt) : EC.div c P (.int 0) = .error .zeroDivision := rfl

/-! ## C127 -/

/-- C127 for `findpk2`: it raises, whatever the arguments. -/
theorem C127_findpk2_violated (E : ECDSA) (order : FF.Field) (r1 s1 r2 s2 flag1 flag2 : Int) :
    ∃ e, E.findpk2 order r1 s1 r2 s2 flag1 flag2 = .error e := by
  rw [ECDSA.findpk2]
  cases decompress E.ec r1 flag1 with
  | error e => exact ⟨e, rfl⟩
  | ok R1 =>
    cases decompress E.ec r2 flag2 with
    | error e => exact ⟨e, rfl⟩
    | ok R2 =>
      cases h1 : mul E.ec R1 s1 with
      | error e => exact ⟨e, by simp only [bind, Except.bind, h1]⟩
      | ok A =>
        cases h2 : mul E.ec R2 s2 with
        | error e => exact ⟨e, by simp only [bind, Except.bind, h1, h2]⟩
        | ok B => exact ⟨.typeError, by simp only [bind, Except.bind, h1, h2]; rfl⟩

/-- C127 for `findpk` on the library's own secp256r1: it raises, whatever the arguments and whatever scalar multiplication. -/
theorem C127_secp256r1_violated (smul : Pt → Int → Except Err Pt) (m r s flag : Int) :
    ∃ e, secp256r1.findpk smul m r s flag = .error e := by
  rw [ECDSA.findpk]
  cases decompress secp256r1.ec r flag with
  | error e => exact ⟨e, rfl⟩
  | ok R => exact ⟨.typeError, rfl⟩

/-- C127 for `findpk`, with the order as an integer and a correct scalar multiplication: from every signature (r, s) that `sign`
returns for a message not divisible by n, `findpk` with the parity of the signature's point recovers the public key G * x. -/
theorem C127_findpk_partial (E : ECDSA) (hp : E.ec.p.Prime) (hc : Proper E.ec) (h52 : E.ec.p < 2 ^ 52)
    (h8 : E.ec.p % 8 = 3 ∨ E.ec.p % 8 = 5 ∨ E.ec.p % 8 = 7) (n : Nat) (hn : n.Prime)
    (hE : E.n = some (n : Int)) (smul : Pt → Int → Except Err Pt) :
    letI := Fact.mk hp
    ∀ A : (weierstrass E.ec).Point, Denotes E.ec E.G A → addOrderOf A = n → CorrectSmul E.ec smul →
    ∀ m x k r s : Int, 0 < k → ¬ (n : Int) ∣ k → ¬ (n : Int) ∣ m → E.signWith smul m x k = .ok (r, s) → 0 < r → ¬ (n : Int) ∣ r →
    ∀ a b h, k • A = .some a b h → b ≠ 0 →
    ∃ Y, E.findpk smul m r s (b.val % 2 : Nat) = .ok Y ∧ Denotes E.ec Y (x • A) := by
  have := Fact.mk hp
  have := Fact.mk hn
  have := NeZero.mk hn.ne_zero
  have := NeZero.mk hp.ne_zero
  intro A hG hord hsm m x k r s hk hkn hmn hsig hr hrn a b h hkA hb
  obtain ⟨⟨R, hR, hRx⟩, hs, hs1, hs2⟩ := sign_eq hE hk hkn hsig
  obtain ⟨R', hR', hRd⟩ := hsm E.G A k hk.le hG
  rw [hR] at hR'
  cases hR'
  rw [hkA] at hRd
  obtain ⟨hRa, hRb⟩ := hRd
  rw [hRx] at hRa
  have heq := (EC.equation_iff' a b).1 h.1
  have hbv : ((b.val : Int) : ZMod E.ec.p) = b := by rw [Int.cast_natCast, ZMod.natCast_zmod_val]
  obtain ⟨D, hD, hDx, hDo, hDpar, hD0, hD1⟩ := C79_decompress_partial E.ec hp h52 h8 r b.val (b.val % 2 : Nat) (by omega) (by
      rw [← ZMod.intCast_zmod_eq_zero_iff_dvd, hbv]; exact hb) (by
      rw [← ZMod.intCast_zmod_eq_zero_iff_dvd]
      push_cast
      rw [ZMod.natCast_zmod_val, hRa, heq]
      ring)
  have hDd : Denotes E.ec D (.some a b h) := by
    refine ⟨by rw [hDx, hRa], ?_⟩
    have hDz : D ≠ ⟨0, 0⟩ := by
      intro hz
      rw [hz] at hD0
      exact absurd hD0 (lt_irrefl _)
    have hDe := hDo.resolve_left hDz
    rw [← ZMod.intCast_zmod_eq_zero_iff_dvd] at hDe
    push_cast at hDe
    rw [hDx, hRa, ← heq, sub_eq_zero, sq_eq_sq_iff_eq_or_eq_neg] at hDe
    refine hDe.resolve_right fun hneg => ?_
    have hd : (E.ec.p : Int) ∣ D.y + b.val := by
      rw [← ZMod.intCast_zmod_eq_zero_iff_dvd]
      push_cast
      rw [ZMod.natCast_zmod_val, hneg, neg_add_cancel]
    have hb1 := ZMod.val_lt b
    have hb0 : b.val ≠ 0 := by rwa [ne_eq, ZMod.val_eq_zero]
    have hodd : E.ec.p % 2 = 1 := by omega
    clear hD hDx hDo hDz hRb hRa hkA heq hbv hDe hneg
    generalize b.val = v at hd hb1 hb0 hDpar
    generalize E.ec.p = p at hd hb1 hD1 hodd
    obtain ⟨q, hq⟩ := hd
    have hq1 : q = 1 := by
      have h1 : 0 < q := by
        by_contra hc
        have : (p : Int) * q ≤ 0 := mul_nonpos_of_nonneg_of_nonpos (by omega) (by omega)
        omega
      by_contra hc
      have : (p : Int) * 2 ≤ p * q := mul_le_mul_of_nonneg_left (by omega) (by omega)
      omega
    subst hq1
    omega
  have hr0 : (r : ZMod n) ≠ 0 := by rw [ne_eq, cast_eq_zero]; exact hrn
  rw [← hkA] at hDd
  obtain ⟨U, hU, hUd⟩ := hsm D (k • A) (fDiv n s r) (fmod_range (p := n) _).1 hDd
  obtain ⟨V, hV, hVd⟩ := hsm E.G A (fDiv n m r) (fmod_range (p := n) _).1 hG
  have hV0 : V ≠ zero := by
    intro hz
    have h0 : fDiv n m r • A = 0 := (denotes_same hc hVd (B := 0) hz).1 ⟨by simp, by simp⟩
    have hd := addOrderOf_dvd_iff_zsmul_eq_zero.2 h0
    rw [hord, ← cast_eq_zero, cast_fDiv _ hr hr0, div_eq_zero_iff] at hd
    rcases hd with hd | hd
    · exact hmn ((cast_eq_zero m).1 hd)
    · exact hr0 hd
  obtain ⟨hsub, -⟩ := C105_finite E.ec hp hc U V (denotes_onCurve hUd) (denotes_onCurve hVd) hV0
  refine ⟨EC.sub E.ec U V, ?_, ?_⟩
  · rw [ECDSA.findpk]
    simp only [ECDSA.modN, hE, bind, Except.bind, hD, hU, hV]
    rfl
  · have := (hsub _ _ hUd hVd).2
    have hmult : fDiv n s r • k • A - fDiv n m r • A = x • A := by
      have hmod : (n : Int) ∣ (fDiv n s r * k - fDiv n m r) - x := by
        rw [← cast_eq_zero]
        push_cast
        rw [cast_fDiv _ hr hr0, cast_fDiv _ hr hr0]
        field_simp
        linear_combination hs
      have hnA : n • A = 0 := by rw [← hord]; exact addOrderOf_nsmul_eq_zero A
      obtain ⟨q, hq⟩ := hmod
      rw [← mul_zsmul', ← sub_eq_zero, sub_eq_add_neg, sub_eq_add_neg, ← sub_zsmul, ← sub_zsmul, mul_comm k, hq, mul_comm, mul_zsmul, natCast_zsmul, hnA, zsmul_zero]
    rwa [hmult] at this

/-- The hypotheses are met by the curve y^2 = x^3 + x + 1 mod 23 with the base point (17, 3) of order 7, and repeated addition. -/
example : ∃ hp : Nat.Prime 23, letI : Fact (Nat.Prime (Curve.p ⟨23, 1, 1⟩)) := Fact.mk hp
    Proper ⟨23, 1, 1⟩ ∧ CorrectSmul ⟨23, 1, 1⟩ (naiveMul ⟨23, 1, 1⟩) ∧
    ∃ A : (weierstrass ⟨23, 1, 1⟩).Point, Denotes ⟨23, 1, 1⟩ ⟨17, 3⟩ A ∧ addOrderOf A = 7 := by
  have hp : Nat.Prime 23 := by norm_num
  refine ⟨hp, ?_⟩
  have := Fact.mk hp
  have hc : Proper ⟨23, 1, 1⟩ := proper_of_int (by decide) (by decide) (by decide)
  let _ : Fact (Nat.Prime (Curve.p ⟨23, 1, 1⟩)) := Fact.mk hp
  exact ⟨hc, naiveMul_correct _ hc, order_of_ladder hc (Or.inr (by decide)) (by decide) (by norm_num) (by decide +kernel) (by decide +kernel)⟩

/-! ## C128 -/

private theorem decText_inj {m n : Nat} (h : decText m = decText n) : m = n := by
  have h1 := digitsFrom_decText 0 m
  have h2 := digitsFrom_decText 0 n
  rw [zero_mul, zero_add] at h1 h2
  rw [h, h2] at h1
  exact (Option.some.inj h1).symm

private theorem digit_ne {n : Nat} {c : Char} (hc : c ∈ decText n) : c ≠ '-' ∧ c ≠ ',' := by
  have := decText_isDig n c hc
  constructor <;> (rintro rfl; obtain ⟨d, hd⟩ := this; cases hd)

private theorem decText_ne_nil {n : Nat} (h : n ≠ 0) : decText n ≠ [] := by
  intro hn
  have := (decText_length n (by omega)).1
  rw [hn] at this
  exact absurd this (by simp)

private theorem intStr_comma (n : Int) : ',' ∉ FF.intStr n := by
  rw [FF.intStr]
  split_ifs
  · decide
  · intro h
    rcases List.mem_cons.1 h with h | h
    · exact absurd h (by decide)
    · exact (digit_ne h).2 rfl
  · exact fun h => (digit_ne h).2 rfl

private theorem decText_zero_text {n : Nat} (h : n ≠ 0) : decText n ≠ ['0'] := by
  intro hn
  have h1 := digitsFrom_decText 0 n
  rw [hn, zero_mul, zero_add] at h1
  have : digitsFrom 0 ['0'] = some 0 := by decide
  rw [this] at h1
  exact h (Option.some.inj h1).symm

private theorem intStr_inj {m n : Int} (h : FF.intStr m = FF.intStr n) : m = n := by
  rw [FF.intStr, FF.intStr] at h
  split_ifs at h with h1 h2 h3 h4 h5 h6 h7 h8
  · omega
  · exact absurd (List.cons.inj h).1 (by decide)
  · exact absurd h.symm (decText_zero_text (by omega))
  · exact absurd (List.cons.inj h).1 (by decide)
  · have := decText_inj (List.cons.inj h).2
    omega
  · exact absurd rfl (digit_ne (n := n.natAbs) (h ▸ List.mem_cons_self ..)).1
  · exact absurd h (decText_zero_text (by omega))
  · exact absurd rfl (digit_ne (n := m.natAbs) (h.symm ▸ List.mem_cons_self ..)).1
  · have := decText_inj h
    omega

private theorem split_comma : ∀ {x y u v : List Char}, ',' ∉ x → ',' ∉ y → x ++ ',' :: u = y ++ ',' :: v → x = y ∧ u = v
  | [], [], _, _, _, _, h => ⟨rfl, (List.cons.inj h).2⟩
  | [], b :: y, _, _, _, hy, h => absurd (List.mem_cons.2 (Or.inl (List.cons.inj h).1)) hy
  | a :: x, [], _, _, hx, _, h => absurd (List.mem_cons.2 (Or.inl (List.cons.inj h).1.symm)) hx
  | a :: x, b :: y, _, _, hx, hy, h => by
    obtain ⟨h1, h2⟩ := List.cons.inj h
    obtain ⟨h3, h4⟩ := split_comma (fun hm => hx (List.mem_cons_of_mem _ hm)) (fun hm => hy (List.mem_cons_of_mem _ hm)) h2
    exact ⟨by rw [h1, h3], h4⟩

/-- C128. Two points have the same text exactly if their coordinates are the same integers, whatever the fields. -/
theorem C128_text (f g : FF.Field) (P Q : Pt) : ptStr f P = ptStr g Q ↔ P = Q := by
  constructor
  · intro h
    simp only [ptStr, FF.str, List.cons_append, List.nil_append, List.append_assoc] at h
    have h := (List.cons.inj (List.cons.inj (List.cons.inj h).2).2).2
    obtain ⟨hx, hy⟩ := split_comma (intStr_comma _) (intStr_comma _) h
    have hy := (List.cons.inj (List.cons.inj hy).2).2
    have hy := List.append_cancel_right hy
    cases P; cases Q
    rw [Pt.mk.injEq]
    exact ⟨intStr_inj hx, intStr_inj hy⟩
  · rintro rfl
    rfl

example : ptStr ⟨0, 23⟩ ⟨3, -10⟩ = "(0x3,0x-10)".toList := by decide +kernel

end Neo.Props
