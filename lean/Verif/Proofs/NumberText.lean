import Verif.Py.NumberText
import Verif.Spec.NumberText

/-! # `float(text)` and `int(text)` against the grammar -/

namespace Py
open Spec

/-! ## Digits -/

theorem digit?_eq (c : Char) : digit? c = if isDigit c = true then some (c.toNat - 48) else none := by
  simp only [digit?, isDigit, Bool.and_eq_true, decide_eq_true_eq]; rfl

theorem digit?_isSome (c : Char) : (digit? c).isSome = isDigit c := by
  rw [digit?_eq]; by_cases h : isDigit c = true <;> simp [h]

private theorem fold_none (s : Str) : s.foldl (fun acc c => match acc, digit? c with | some a, some d => some (10 * a + d) | _, _ => none) none = (none : Option Nat) := by
  induction s with
  | nil => rfl
  | cons c s ih => simpa using ih

private theorem fold_digits (s : Str) : ∀ k : Nat, s.foldl (fun acc c => match acc, digit? c with | some a, some d => some (10 * a + d) | _, _ => none) (some k) =
    if s.all isDigit = true then some (s.foldl (fun a c => 10 * a + (c.toNat - 48)) k) else none := by
  induction s with
  | nil => intro k; rfl
  | cons c s ih =>
    intro k
    rw [List.foldl_cons, List.all_cons, List.foldl_cons, digit?_eq]
    by_cases h : isDigit c = true
    · simp only [h, if_true, Bool.true_and]; exact ih _
    · simp only [h, Bool.false_and]
      simp [fold_none]

theorem digits?_eq (s : Str) : digits? s = if s.all isDigit = true then some (digitsVal s) else none := fold_digits s 0

theorem digits?_iff (s : Str) (n : Nat) : digits? s = some n ↔ s.all isDigit = true ∧ n = digitsVal s := by
  rw [digits?_eq]
  by_cases h : s.all isDigit = true <;> simp [h, eq_comm]

/-! ## Signs -/

theorem takeSign_spec (t : Str) : ∃ g, SignText g (takeSign t).1 ∧ t = g ++ (takeSign t).2 := by
  unfold takeSign
  split
  · exact ⟨['-'], .inr (.inr ⟨rfl, rfl⟩), rfl⟩
  · exact ⟨['+'], .inr (.inl ⟨rfl, rfl⟩), rfl⟩
  · exact ⟨[], .inl ⟨rfl, rfl⟩, rfl⟩

theorem takeSign_append {g b : Str} {neg : Bool} (h : SignText g neg) (hb : ∀ c r, b = c :: r → c ≠ '-' ∧ c ≠ '+') :
    takeSign (g ++ b) = (neg, b) := by
  rcases h with ⟨rfl, rfl⟩ | ⟨rfl, rfl⟩ | ⟨rfl, rfl⟩
  · cases b with
    | nil => rfl
    | cons c r =>
      obtain ⟨h1, h2⟩ := hb c r rfl
      rw [List.nil_append]
      unfold takeSign
      split
      · rename_i h; cases h; exact absurd rfl h1
      · rename_i h; cases h; exact absurd rfl h2
      · rfl
  · rfl
  · rfl

/-! ## Exponents -/

theorem all_cons_ne {d : Str} (h : d.all isDigit = true) : ∀ c r, d = c :: r → c ≠ '-' ∧ c ≠ '+' := by
  rintro c r rfl
  rw [List.all_cons, Bool.and_eq_true] at h
  constructor <;> (rintro rfl; exact absurd h.1 (by decide))

theorem scanExponent_iff (e : Str) (x : Int) : scanExponent e = some x ↔ ExponentText e x := by
  cases e with
  | nil =>
    constructor
    · intro h; exact .inl ⟨rfl, (Option.some.inj h).symm⟩
    · rintro (⟨-, rfl⟩ | ⟨m, g, d, neg, n, h, -⟩)
      · rfl
      · simp at h
  | cons m r =>
    rw [scanExponent]
    by_cases hm : m = 'e' ∨ m = 'E'
    · rw [if_pos hm]
      simp only
      constructor
      · intro h
        by_cases hd : (takeSign r).2 ≠ [] ∧ (takeSign r).2.all isDigit = true
        · rw [if_pos hd] at h
          obtain ⟨g, hg, hr⟩ := takeSign_spec r
          refine .inr ⟨m, g, (takeSign r).2, (takeSign r).1, digitsVal (takeSign r).2, ?_, hm, hg, hd.1, (digits?_iff _ _).2 ⟨hd.2, rfl⟩, ?_⟩
          · rw [List.append_assoc, ← hr]; rfl
          · rw [← Option.some.inj h]; rfl
        · rw [if_neg hd] at h; cases h
      · rintro (⟨h, -⟩ | ⟨m', g, d, neg, n, h, -, hg, hd, hn, rfl⟩)
        · cases h
        · rw [digits?_iff] at hn
          rw [List.append_assoc, List.singleton_append] at h
          obtain ⟨-, rfl⟩ := List.cons.inj h
          rw [takeSign_append hg (all_cons_ne hn.1), if_pos ⟨hd, hn.1⟩, hn.2]
          rfl
    · rw [if_neg hm]
      constructor
      · intro h; cases h
      · rintro (⟨h, -⟩ | ⟨m', g, d, neg, n, h, hm', -⟩)
        · cases h
        · rw [List.append_assoc, List.singleton_append] at h
          obtain ⟨rfl, -⟩ := List.cons.inj h
          exact absurd hm' hm

theorem exponent_head {e : Str} {x : Int} (h : ExponentText e x) : ∀ c r, e = c :: r → isDigit c = false ∧ c ≠ '.' ∧ c ≠ '-' ∧ c ≠ '+' := by
  rintro c r rfl
  rcases h with ⟨h, -⟩ | ⟨m, g, d, neg, n, h, hm, -⟩
  · cases h
  · rw [List.append_assoc, List.singleton_append] at h
    obtain ⟨rfl, -⟩ := List.cons.inj h
    rcases hm with rfl | rfl <;> decide

/-! ## Numbers -/

private theorem takeWhile_app {w r : Str} (hw : w.all isDigit = true) (hr : ∀ c s, r = c :: s → isDigit c = false) :
    (w ++ r).takeWhile isDigit = w ∧ (w ++ r).dropWhile isDigit = r := by
  induction w with
  | nil =>
    cases r with
    | nil => exact ⟨rfl, rfl⟩
    | cons c s =>
      have := hr c s rfl
      simp [this]
  | cons c w ih =>
    rw [List.all_cons, Bool.and_eq_true] at hw
    obtain ⟨h1, h2⟩ := ih hw.2
    simp [hw.1, h1, h2]

private theorem takeWhile_all (s : Str) : (s.takeWhile isDigit).all isDigit = true := by
  induction s with
  | nil => rfl
  | cons c s ih =>
    by_cases h : isDigit c = true
    · simp only [List.takeWhile, h, List.all_cons, Bool.true_and]; exact ih
    · simp [List.takeWhile, h]

private theorem scanFraction_spec (r : Str) : ∃ p, (p = [] ∧ (scanFraction r).1 = [] ∨ p = ['.']) ∧ (scanFraction r).1.all isDigit = true ∧
    r = p ++ (scanFraction r).1 ++ (scanFraction r).2 := by
  unfold scanFraction
  split
  · refine ⟨['.'], .inr rfl, takeWhile_all _, ?_⟩
    simp
  · exact ⟨[], .inl ⟨rfl, rfl⟩, rfl, rfl⟩

theorem scanNumber_iff (b : Str) (q : ℚ) : scanNumber b = some q ↔ DecimalNumeral b q := by
  rw [scanNumber]
  constructor
  · intro h
    by_cases h0 : b.takeWhile isDigit ++ (scanFraction (b.dropWhile isDigit)).1 = []
    · rw [if_pos h0] at h; cases h
    rw [if_neg h0] at h
    obtain ⟨p, hp, hf, hr⟩ := scanFraction_spec (b.dropWhile isDigit)
    cases hx : scanExponent (scanFraction (b.dropWhile isDigit)).2 with
    | none => rw [hx] at h; cases h
    | some x =>
      rw [hx] at h
      refine ⟨b.takeWhile isDigit, p, _, _, _, x, ?_, hp, h0, (digits?_iff _ _).2 ⟨?_, rfl⟩, (scanExponent_iff _ _).1 hx, (Option.some.inj h).symm⟩
      · rw [List.append_assoc, List.append_assoc, ← List.append_assoc p, ← hr, List.takeWhile_append_dropWhile]
      · rw [List.all_append, takeWhile_all, hf]; rfl
  · rintro ⟨w, p, f, e, n, x, rfl, hp, h0, hn, he, rfl⟩
    rw [digits?_iff, List.all_append, Bool.and_eq_true] at hn
    obtain ⟨⟨hw, hf⟩, rfl⟩ := hn
    have hhead := exponent_head he
    have hd : (w ++ p ++ f ++ e).takeWhile isDigit = w ∧ (w ++ p ++ f ++ e).dropWhile isDigit = p ++ f ++ e := by
      have hass : w ++ p ++ f ++ e = w ++ (p ++ f ++ e) := by simp
      rw [hass]
      apply takeWhile_app hw
      intro c s hs
      rcases hp with ⟨rfl, rfl⟩ | rfl
      · exact (hhead c s hs).1
      · cases hs; decide
    have hfr : scanFraction (p ++ f ++ e) = (f, e) := by
      rcases hp with ⟨rfl, rfl⟩ | rfl
      · cases e with
        | nil => rfl
        | cons c r =>
          show scanFraction (c :: r) = _
          unfold scanFraction
          split
          · rename_i h; cases h; exact absurd rfl (hhead _ _ rfl).2.1
          · rfl
      · have := takeWhile_app hf (fun c s h => (hhead c s h).1)
        show ((f ++ e).takeWhile isDigit, (f ++ e).dropWhile isDigit) = _
        rw [this.1, this.2]
    rw [hd.1, hd.2, hfr, if_neg h0, (scanExponent_iff _ _).2 he]

/-- What a numeral starts with and consists of. -/
theorem numeral_head {b : Str} {q : ℚ} (h : DecimalNumeral b q) : b ≠ [] ∧ ∀ c r, b = c :: r → c ≠ '-' ∧ c ≠ '+' := by
  obtain ⟨w, p, f, e, n, x, rfl, hp, h0, hn, he, rfl⟩ := h
  rw [digits?_iff, List.all_append, Bool.and_eq_true] at hn
  constructor
  · intro h
    simp at h
    exact h0 (by rw [h.1, h.2.2.1]; rfl)
  · intro c r h
    cases w with
    | cons c' w =>
      cases h
      exact all_cons_ne hn.1.1 _ _ rfl
    | nil =>
      rcases hp with ⟨rfl, rfl⟩ | rfl
      · exact absurd rfl h0
      · cases h; decide

private theorem sign_mem {g : Str} {neg : Bool} (h : SignText g neg) : ∀ c ∈ g, c = '+' ∨ c = '-' := by
  rcases h with ⟨rfl, -⟩ | ⟨rfl, -⟩ | ⟨rfl, -⟩ <;> simp

theorem numeral_mem {b : Str} {q : ℚ} (h : DecimalNumeral b q) : ∀ c ∈ b, isDigit c = true ∨ c ∈ ['.', 'e', 'E', '+', '-'] := by
  obtain ⟨w, p, f, e, n, x, rfl, hp, h0, hn, he, rfl⟩ := h
  rw [digits?_iff, List.all_append, Bool.and_eq_true, List.all_eq_true, List.all_eq_true] at hn
  intro c hc
  simp only [List.mem_append] at hc
  rcases hc with ((hc | hc) | hc) | hc
  · exact .inl (hn.1.1 c hc)
  · right
    rcases hp with ⟨rfl, -⟩ | rfl
    · cases hc
    · simp at hc; simp [hc]
  · exact .inl (hn.1.2 c hc)
  · rcases he with ⟨rfl, -⟩ | ⟨m, g, d, neg, k, rfl, hm, hg, -, hd, -⟩
    · cases hc
    · rw [digits?_iff, List.all_eq_true] at hd
      simp only [List.mem_append, List.mem_singleton] at hc
      rcases hc with (rfl | hc) | hc
      · right; rcases hm with rfl | rfl <;> simp
      · right; rcases sign_mem hg c hc with rfl | rfl <;> simp
      · exact .inl (hd.1 c hc)

/-! ## Underscores -/

private def GroupedAfter (prev : Char) (s t : Str) : Prop :=
  t = s.filter (· != '_') ∧ (prev = '_' → ∃ c b, s = c :: b ∧ isDigit c = true) ∧
  ∀ a b, s = a ++ '_' :: b → isDigit (a.getLastD prev) = true ∧ ∃ c b', b = c :: b' ∧ isDigit c = true

private theorem ungroup_iff (s : Str) : ∀ prev t, ungroup prev s = some t ↔ GroupedAfter prev s t := by
  induction s with
  | nil =>
    intro prev t
    rw [ungroup]
    by_cases h : prev = '_'
    · rw [if_pos h]
      constructor
      · intro h; cases h
      · rintro ⟨-, h2, -⟩
        obtain ⟨c, b, hb, -⟩ := h2 h
        cases hb
    · rw [if_neg h]
      constructor
      · intro ht
        refine ⟨(Option.some.inj ht).symm, fun h' => absurd h' h, fun a b hab => ?_⟩
        simp at hab
      · rintro ⟨rfl, -, -⟩; rfl
  | cons c s ih =>
    intro prev t
    rw [ungroup]
    by_cases hc : c = '_'
    · subst hc
      rw [if_pos rfl]
      by_cases hp : isDigit prev = true
      · rw [if_pos hp, ih]
        have hpu : prev ≠ '_' := by rintro rfl; exact absurd hp (by decide)
        constructor
        · rintro ⟨h1, h2, h3⟩
          refine ⟨by rw [h1]; rfl, fun h => absurd h hpu, fun a b hab => ?_⟩
          cases a with
          | nil =>
            obtain ⟨-, rfl⟩ := List.cons.inj hab
            exact ⟨hp, h2 rfl⟩
          | cons x a =>
            obtain ⟨rfl, hab'⟩ := List.cons.inj hab
            have := h3 a b hab'
            refine ⟨?_, this.2⟩
            rw [List.getLastD_cons]
            exact this.1
        · rintro ⟨h1, -, h3⟩
          refine ⟨by rw [h1]; rfl, fun _ => (h3 [] s rfl).2, fun a b hab => ?_⟩
          have := h3 ('_' :: a) b (by rw [hab]; rfl)
          rw [List.getLastD_cons] at this
          exact this
      · rw [if_neg hp]
        constructor
        · intro h; cases h
        · rintro ⟨-, -, h3⟩
          exact absurd (h3 [] s rfl).1 hp
    · rw [if_neg hc]
      by_cases hp : prev = '_' ∧ isDigit c = false
      · rw [if_pos hp]
        constructor
        · intro h; cases h
        · rintro ⟨-, h2, -⟩
          obtain ⟨c', b, hb, hd⟩ := h2 hp.1
          obtain ⟨rfl, -⟩ := List.cons.inj hb
          rw [hp.2] at hd; cases hd
      · rw [if_neg hp, Option.map_eq_some_iff]
        have hfil : (c :: s).filter (· != '_') = c :: s.filter (· != '_') := by simp [hc]
        constructor
        · rintro ⟨t', ht', rfl⟩
          obtain ⟨h1, -, h3⟩ := (ih c t').1 ht'
          refine ⟨by rw [hfil, h1], fun h => ⟨c, s, rfl, ?_⟩, fun a b hab => ?_⟩
          · by_contra hd
            exact hp ⟨h, by simpa using hd⟩
          · cases a with
            | nil => exact absurd (List.cons.inj hab).1 hc
            | cons x a =>
              obtain ⟨rfl, hab'⟩ := List.cons.inj hab
              rw [List.getLastD_cons]
              exact h3 a b hab'
        · rintro ⟨h1, -, h3⟩
          refine ⟨s.filter (· != '_'), (ih c _).2 ⟨rfl, fun h => absurd h hc, fun a b hab => ?_⟩, by rw [h1, hfil]⟩
          have := h3 (c :: a) b (by rw [hab]; rfl)
          rw [List.getLastD_cons] at this
          exact this

private theorem last_snoc (a : Str) (c d : Char) : (a ++ [c]).getLastD d = c := by
  induction a generalizing d with
  | nil => rfl
  | cons x a ih => rw [List.cons_append, List.getLastD_cons]; exact ih x

private theorem grouped_iff (s t : Str) : ungroup '\x00' s = some t ↔ Grouped true s t := by
  rw [ungroup_iff]
  constructor
  · rintro ⟨h1, -, h3⟩
    refine ⟨h1, fun a b hab => ?_⟩
    obtain ⟨h4, c, b', hb, hd⟩ := h3 a b hab
    refine ⟨rfl, ?_, c, b', hb, by rw [digit?_isSome]; exact hd⟩
    rcases List.eq_nil_or_concat a with rfl | ⟨a', c', rfl⟩
    · exact absurd h4 (by decide)
    · refine ⟨a', c', List.concat_eq_append, ?_⟩
      rw [digit?_isSome]
      rw [List.concat_eq_append, last_snoc] at h4
      exact h4
  · rintro ⟨h1, h3⟩
    refine ⟨h1, fun h => absurd h (by decide), fun a b hab => ?_⟩
    obtain ⟨-, ⟨a', c', rfl, h4⟩, c, b', hb, hd⟩ := h3 a b hab
    rw [digit?_isSome] at h4 hd
    refine ⟨?_, c, b', hb, hd⟩
    rw [last_snoc]
    exact h4

/-- `ungroupIf` against the specification, for texts `t` without underscores. -/
theorem ungroupIf_iff (u : Bool) (s t : Str) (ht : '_' ∉ t) : ungroupIf u s = some t ↔ Grouped u s t := by
  cases u with
  | true => exact grouped_iff s t
  | false =>
    rw [ungroupIf, if_neg (by decide), Option.some.injEq]
    constructor
    · rintro rfl
      refine ⟨?_, fun a b h => absurd (by rw [h]; simp) ht⟩
      symm
      rw [List.filter_eq_self]
      intro c hc
      simp only [bne_iff_ne]
      rintro rfl; exact ht hc
    · rintro ⟨rfl, h⟩
      symm
      rw [List.filter_eq_self]
      intro c hc
      simp only [bne_iff_ne]
      rintro rfl
      obtain ⟨a, b, hab⟩ := List.append_of_mem hc
      exact absurd (h a b hab).1 (by decide)

/-! ## White space -/

theorem isSpace_iff (c : Char) : isSpace c = true ↔ c ∈ [' ', '\t', '\n', '\x0b', '\x0c', '\r'] := by
  simp [isSpace, or_assoc]

private theorem dropWhile_spec (s : Str) : ∃ a, (∀ c ∈ a, isSpace c = true) ∧ s = a ++ s.dropWhile isSpace := by
  refine ⟨s.takeWhile isSpace, ?_, (List.takeWhile_append_dropWhile).symm⟩
  induction s with
  | nil => intro c hc; cases hc
  | cons x s ih =>
    intro c hc
    by_cases h : isSpace x = true
    · rw [List.takeWhile_cons_of_pos h] at hc
      rcases List.mem_cons.1 hc with rfl | hc
      · exact h
      · exact ih c hc
    · rw [List.takeWhile_cons_of_neg h] at hc; cases hc

theorem stripSpace_spec (s : Str) : ∃ a z, SpaceText a ∧ SpaceText z ∧ s = a ++ stripSpace s ++ z := by
  obtain ⟨a, ha, hs⟩ := dropWhile_spec s
  obtain ⟨z, hz, hr⟩ := dropWhile_spec (s.dropWhile isSpace).reverse
  refine ⟨a, z.reverse, fun c hc => (isSpace_iff c).1 (ha c hc), fun c hc => (isSpace_iff c).1 (hz c (List.mem_reverse.1 hc)), ?_⟩
  rw [stripSpace, List.append_assoc, ← List.reverse_append, ← hr, List.reverse_reverse]
  exact hs

private theorem dropWhile_app {a t : Str} (ha : ∀ c ∈ a, isSpace c = true) (ht : ∀ c r, t = c :: r → isSpace c = false) :
    (a ++ t).dropWhile isSpace = t := by
  induction a with
  | nil =>
    cases t with
    | nil => rfl
    | cons c r => have := ht c r rfl; simp [this]
  | cons c a ih =>
    rw [List.cons_append, List.dropWhile_cons_of_pos (ha c (by simp))]
    exact ih fun c hc => ha c (by simp [hc])

theorem stripSpace_of {a t z : Str} (ha : SpaceText a) (hz : SpaceText z) (ht : ∀ c ∈ t, isSpace c = false) (h0 : t ≠ []) :
    stripSpace (a ++ t ++ z) = t := by
  have ha' : ∀ c ∈ a, isSpace c = true := fun c hc => (isSpace_iff c).2 (ha c hc)
  have hz' : ∀ c ∈ z.reverse, isSpace c = true := fun c hc => (isSpace_iff c).2 (hz c (List.mem_reverse.1 hc))
  rw [stripSpace, List.append_assoc, dropWhile_app ha', List.reverse_append, dropWhile_app hz', List.reverse_reverse]
  · intro c r h
    exact ht c (List.mem_reverse.1 (by rw [h]; simp))
  · intro c r h
    cases t with
    | nil => exact absurd rfl h0
    | cons x t =>
      obtain ⟨rfl, -⟩ := List.cons.inj h
      exact ht _ (by simp)

/-! ## The whole text -/

/-- The words. -/
private def Word (b : Str) : Prop :=
  b.map Char.toLower = "inf".toList ∨ b.map Char.toLower = "infinity".toList ∨ b.map Char.toLower = "nan".toList

private theorem word_mem {b : Str} (h : Word b) : b ≠ [] ∧ ∀ c ∈ b, c.toLower ∈ ['i', 'n', 'f', 't', 'y', 'a'] := by
  constructor
  · rintro rfl
    rcases h with h | h | h <;> exact absurd h (by decide)
  · intro c hc
    have : c.toLower ∈ b.map Char.toLower := List.mem_map_of_mem hc
    rcases h with h | h | h <;> (rw [h] at this; revert this; simp; tauto)

private theorem not_both {b : Str} {q : ℚ} (h : DecimalNumeral b q) : ¬ Word b := by
  intro hw
  obtain ⟨h0, hm⟩ := word_mem hw
  cases b with
  | nil => exact h0 rfl
  | cons c b =>
    have h1 := hm c (by simp)
    have h2 := numeral_mem h c (by simp)
    rcases h2 with h2 | h2
    · rw [isDigit, Bool.and_eq_true, decide_eq_true_eq, decide_eq_true_eq] at h2
      have h3 : 48 ≤ c.toNat ∧ c.toNat ≤ 57 := ⟨h2.1, h2.2⟩
      have : c = Char.ofNat c.toNat := (Char.ofNat_toNat c).symm
      have key : ∀ n < 58, 48 ≤ n → (Char.ofNat n).toLower ∉ ['i', 'n', 'f', 't', 'y', 'a'] := by decide
      rw [this] at h1
      exact key _ (by omega) h3.1 h1
    · simp only [List.mem_cons, List.not_mem_nil, or_false] at h2
      rcases h2 with rfl | rfl | rfl | rfl | rfl <;> exact absurd h1 (by decide)

/-- What follows the sign. -/
private def Body (neg : Bool) (b : Str) (v : PyFloat) : Prop :=
  (∃ q, DecimalNumeral b q ∧ v = .ofRat (signed neg q)) ∨
  ((b.map Char.toLower = "inf".toList ∨ b.map Char.toLower = "infinity".toList) ∧ v = .inf neg) ∨
  (b.map Char.toLower = "nan".toList ∧ v = .nan)

private theorem body_cases {neg : Bool} {b : Str} {v : PyFloat} (h : Body neg b v) : (∃ q, DecimalNumeral b q) ∨ Word b := by
  rcases h with ⟨q, h, -⟩ | ⟨h | h, -⟩ | ⟨h, -⟩
  · exact .inl ⟨q, h⟩
  · exact .inr (.inl h)
  · exact .inr (.inr (.inl h))
  · exact .inr (.inr (.inr h))

private theorem body_mem {neg : Bool} {b : Str} {v : PyFloat} (h : Body neg b v) :
    b ≠ [] ∧ (∀ c r, b = c :: r → c ≠ '-' ∧ c ≠ '+') ∧ ∀ c ∈ b, isSpace c = false ∧ c ≠ '_' := by
  rcases body_cases h with ⟨q, hq⟩ | hw
  · refine ⟨(numeral_head hq).1, (numeral_head hq).2, fun c hc => ?_⟩
    rcases numeral_mem hq c hc with h2 | h2
    · constructor
      · rw [← Bool.not_eq_true, isSpace_iff]
        intro hs
        simp only [List.mem_cons, List.not_mem_nil, or_false] at hs
        rcases hs with rfl | rfl | rfl | rfl | rfl | rfl <;> exact absurd h2 (by decide)
      · rintro rfl; exact absurd h2 (by decide)
    · simp only [List.mem_cons, List.not_mem_nil, or_false] at h2
      rcases h2 with rfl | rfl | rfl | rfl | rfl <;> decide
  · obtain ⟨h0, hm⟩ := word_mem hw
    refine ⟨h0, ?_, fun c hc => ?_⟩
    · rintro c r rfl
      have := hm c (by simp)
      constructor <;> (rintro rfl; exact absurd this (by decide))
    · have := hm c hc
      constructor
      · rw [← Bool.not_eq_true, isSpace_iff]
        intro hs
        simp only [List.mem_cons, List.not_mem_nil, or_false] at hs
        rcases hs with rfl | rfl | rfl | rfl | rfl | rfl <;> exact absurd this (by decide)
      · rintro rfl; exact absurd this (by decide)

private theorem body_iff (neg : Bool) (b : Str) (v : PyFloat) :
    (match scanNumber b with
      | some q => some (PyFloat.ofRat (if neg then -q else q))
      | none => scanInfNan neg b) = some v ↔ Body neg b v := by
  cases h : scanNumber b with
  | some q =>
    have hq := (scanNumber_iff b q).1 h
    constructor
    · intro h'; exact .inl ⟨q, hq, (Option.some.inj h').symm⟩
    · rintro (⟨q', hq', rfl⟩ | ⟨h1 | h1, -⟩ | ⟨h1, -⟩)
      · have := (scanNumber_iff b q').2 hq'
        rw [h] at this
        cases this; rfl
      · exact absurd (.inl h1) (not_both hq)
      · exact absurd (.inr (.inl h1)) (not_both hq)
      · exact absurd (.inr (.inr h1)) (not_both hq)
  | none =>
    have hn : ∀ q, ¬ DecimalNumeral b q := fun q hq => by rw [(scanNumber_iff b q).2 hq] at h; cases h
    simp only [scanInfNan]
    have e1 : ['i', 'n', 'f'] = "inf".toList := rfl
    have e2 : ['i', 'n', 'f', 'i', 'n', 'i', 't', 'y'] = "infinity".toList := rfl
    have e3 : ['n', 'a', 'n'] = "nan".toList := rfl
    rw [e1, e2, e3]
    by_cases h1 : b.map Char.toLower = "inf".toList ∨ b.map Char.toLower = "infinity".toList
    · rw [if_pos h1]
      constructor
      · intro hv; exact .inr (.inl ⟨h1, (Option.some.inj hv).symm⟩)
      · rintro (⟨q, hq, -⟩ | ⟨-, rfl⟩ | ⟨h2, -⟩)
        · exact absurd hq (hn q)
        · rfl
        · rw [h2] at h1; exact absurd h1 (by decide)
    · rw [if_neg h1]
      by_cases h2 : b.map Char.toLower = "nan".toList
      · rw [if_pos h2]
        constructor
        · intro hv; exact .inr (.inr ⟨h2, (Option.some.inj hv).symm⟩)
        · rintro (⟨q, hq, -⟩ | ⟨h3, -⟩ | ⟨-, rfl⟩)
          · exact absurd hq (hn q)
          · exact absurd h3 h1
          · rfl
      · rw [if_neg h2]
        constructor
        · intro hv; cases hv
        · rintro (⟨q, hq, -⟩ | ⟨h3, -⟩ | ⟨h3, -⟩)
          · exact absurd hq (hn q)
          · exact absurd h3 h1
          · exact absurd h3 h2

private theorem floatOfText_eq (u : Bool) (f : Char → Char) (s : Str) :
    floatOfText u f s = match (ungroupIf u (stripSpace (s.map f))).bind fun t =>
      (match scanNumber (takeSign t).2 with
        | some q => some (PyFloat.ofRat (if (takeSign t).1 then -q else q))
        | none => scanInfNan (takeSign t).1 (takeSign t).2) with
      | some v => .ok v
      | none => .error .valueError := by
  rw [floatOfText]
  cases ungroupIf u (stripSpace (s.map f)) with
  | none => rfl
  | some t =>
    simp only [Option.bind_some]
    cases scanNumber (takeSign t).2 with
    | some q => rfl
    | none => cases scanInfNan (takeSign t).1 (takeSign t).2 <;> rfl

/-- A text is split into white space, sign, body and white space in one way only, if the body is of a kind `B` without white space, underscores and
signs at the front. -/
private theorem split_iff (u : Bool) (s : Str) (B : Bool → Str → Prop)
    (hB : ∀ neg b, B neg b → b ≠ [] ∧ (∀ c r, b = c :: r → c ≠ '-' ∧ c ≠ '+') ∧ ∀ c ∈ b, isSpace c = false ∧ c ≠ '_') :
    (∃ t, ungroupIf u (stripSpace s) = some t ∧ B (takeSign t).1 (takeSign t).2) ↔
      ∃ a t g b z neg, s = a ++ t ++ z ∧ SpaceText a ∧ SpaceText z ∧ Grouped u t (g ++ b) ∧ SignText g neg ∧ B neg b := by
  constructor
  · rintro ⟨t, hu, hb⟩
    obtain ⟨a, z, ha, hz, hs⟩ := stripSpace_spec s
    obtain ⟨g, hg, ht⟩ := takeSign_spec t
    have hnu : '_' ∉ t := by
      rw [ht, List.mem_append]
      rintro (h1 | h1)
      · rcases sign_mem hg _ h1 with h2 | h2 <;> exact absurd h2 (by decide)
      · exact ((hB _ _ hb).2.2 _ h1).2 rfl
    refine ⟨a, stripSpace s, g, (takeSign t).2, z, (takeSign t).1, hs, ha, hz, ?_, hg, hb⟩
    rw [← ht]
    exact (ungroupIf_iff u _ t hnu).1 hu
  · rintro ⟨a, t, g, b, z, neg, rfl, ha, hz, hgr, hg, hb⟩
    obtain ⟨hb0, hbs, hbm⟩ := hB _ _ hb
    have hnu : '_' ∉ g ++ b := by
      rw [List.mem_append]
      rintro (h1 | h1)
      · rcases sign_mem hg _ h1 with h2 | h2 <;> exact absurd h2 (by decide)
      · exact (hbm _ h1).2 rfl
    have htm : ∀ c ∈ t, isSpace c = false := by
      intro c hc
      by_cases hcu : c = '_'
      · subst hcu; decide
      have : c ∈ g ++ b := by rw [hgr.1]; simp [hc, hcu]
      rw [List.mem_append] at this
      rcases this with h1 | h1
      · rcases sign_mem hg _ h1 with rfl | rfl <;> decide
      · exact (hbm c h1).1
    have ht0 : t ≠ [] := by
      rintro rfl
      have := hgr.1
      simp at this
      exact hb0 this.2
    refine ⟨g ++ b, ?_, ?_⟩
    · rw [stripSpace_of ha hz htm ht0, (ungroupIf_iff u t _ hnu).2 hgr]
    · rw [takeSign_append hg hbs]; exact hb

/-- `float(text)` returns `v` exactly when the text stands for `v` by the grammar; otherwise it raises ValueError. -/
theorem floatOfText_iff (u : Bool) (f : Char → Char) (s : Str) (v : PyFloat) :
    floatOfText u f s = .ok v ↔ FloatText u (s.map f) v := by
  rw [floatOfText_eq]
  generalize s.map f = s
  refine Iff.trans ?_ (split_iff u s (fun neg b => Body neg b v) (fun _ _ h => body_mem h))
  cases hu : ungroupIf u (stripSpace s) with
  | none => simp
  | some t =>
    rw [Option.bind_some]
    simp only [Option.some.injEq, exists_eq_left']
    rw [← body_iff]
    generalize (match scanNumber (takeSign t).2 with
      | some q => some (PyFloat.ofRat (if (takeSign t).1 then -q else q))
      | none => scanInfNan (takeSign t).1 (takeSign t).2) = o
    cases o with
    | none => simp
    | some v' => simp

/-- The number is determined by the text. -/
theorem numberText_unique {u : Bool} {s : Str} {q q' : ℚ} (h : NumberText u s q) (h' : NumberText u s q') : q = q' := by
  have hB : ∀ q : ℚ, ∀ neg b, (∃ r, DecimalNumeral b r ∧ q = signed neg r) → b ≠ [] ∧ (∀ c r, b = c :: r → c ≠ '-' ∧ c ≠ '+') ∧
      ∀ c ∈ b, isSpace c = false ∧ c ≠ '_' := fun q neg b ⟨r, hr, _⟩ => body_mem (neg := neg) (v := .ofRat (signed neg r)) (.inl ⟨r, hr, rfl⟩)
  obtain ⟨t, ht, r, hr, rfl⟩ := (split_iff u s _ (hB q)).2 h
  obtain ⟨t', ht', r', hr', rfl⟩ := (split_iff u s _ (hB q')).2 h'
  rw [ht] at ht'
  cases ht'
  have h1 := (scanNumber_iff _ _).2 hr
  rw [(scanNumber_iff _ _).2 hr'] at h1
  rw [Option.some.inj h1]

/-- A text that stands for a number is read as the float nearest to it. -/
theorem numberText_float {u : Bool} {s : Str} {q : ℚ} (h : NumberText u s q) : FloatText u s (.ofRat q) := by
  obtain ⟨a, t, g, b, z, neg, h1, h2, h3, h4, h5, r, hr, rfl⟩ := h
  exact ⟨a, t, g, b, z, neg, h1, h2, h3, h4, h5, .inl ⟨r, hr, rfl⟩⟩

private theorem digits_numeral {d : Str} (h0 : d ≠ []) (hd : d.all isDigit = true) : DecimalNumeral d (digitsVal d) :=
  ⟨d, [], [], [], digitsVal d, 0, by simp, .inl ⟨rfl, rfl⟩, by simpa using h0, by rw [List.append_nil]; exact (digits?_iff _ _).2 ⟨hd, rfl⟩,
    .inl ⟨rfl, rfl⟩, by simp⟩

private theorem ungroup_sign (u : Bool) (t d : Str) (h : ungroupIf u (takeSign t).2 = some d) (hd : d.all isDigit = true) :
    ∃ t', ungroupIf u t = some t' ∧ takeSign t' = ((takeSign t).1, d) := by
  obtain ⟨g, hg, ht⟩ := takeSign_spec t
  have hnud : '_' ∉ d := by
    intro hm
    rw [List.all_eq_true] at hd
    exact absurd (hd _ hm) (by decide)
  have hnu : '_' ∉ g ++ d := by
    rw [List.mem_append]
    rintro (h1 | h1)
    · rcases sign_mem hg _ h1 with h2 | h2 <;> exact absurd h2 (by decide)
    · exact hnud h1
  refine ⟨g ++ d, (ungroupIf_iff u t _ hnu).2 ?_, takeSign_append hg (all_cons_ne hd)⟩
  obtain ⟨h1, h2⟩ := (ungroupIf_iff u _ d hnud).1 h
  have hgf : g.filter (· != '_') = g := by
    rw [List.filter_eq_self]
    intro c hc
    rcases sign_mem hg c hc with rfl | rfl <;> decide
  have hfil : t.filter (· != '_') = g ++ d := by
    conv_lhs => rw [ht]
    rw [List.filter_append, hgf, ← h1]
  refine ⟨hfil.symm, fun a b hab => ?_⟩
  rw [ht] at hab
  rcases List.append_eq_append_iff.1 hab with ⟨a', rfl, hb⟩ | ⟨c', hgc, hb⟩
  · obtain ⟨k1, ⟨x, c, rfl, hc⟩, k3⟩ := h2 a' b hb
    exact ⟨k1, ⟨g ++ x, c, by simp, hc⟩, k3⟩
  · cases c' with
    | nil =>
      rw [List.nil_append] at hb
      obtain ⟨-, ⟨x, c, hx, -⟩, -⟩ := h2 [] b hb.symm
      simp at hx
    | cons y c' =>
      rw [List.cons_append] at hb
      obtain ⟨rfl, -⟩ := List.cons.inj hb
      rcases sign_mem hg '_' (by rw [hgc]; simp) with h3 | h3 <;> exact absurd h3 (by decide)

/-- What `int(text)` accepts stands for a number by the grammar, and that number it returns. -/
theorem intOfText_number {u : Bool} {f : Char → Char} {s : Str} {n : Int} (h : intOfText u f s = .ok n) : NumberText u (s.map f) n := by
  rw [intOfText] at h
  revert h
  generalize s.map f = s
  intro h
  cases hu : ungroupIf u (takeSign (stripSpace s)).2 with
  | none => rw [hu] at h; cases h
  | some d =>
    rw [hu] at h
    simp only at h
    by_cases hd : d ≠ [] ∧ d.all isDigit = true
    · rw [if_pos hd] at h
      obtain ⟨t', ht', hs'⟩ := ungroup_sign u _ d hu hd.2
      refine (split_iff u s (fun neg b => ∃ r, DecimalNumeral b r ∧ ((n : Int) : ℚ) = signed neg r) (fun neg b ⟨r, hr, _⟩ =>
        body_mem (neg := neg) (v := .ofRat (signed neg r)) (.inl ⟨r, hr, rfl⟩))).1 ⟨t', ht', digitsVal d, ?_, ?_⟩
      · rw [hs']; exact digits_numeral hd.1 hd.2
      · rw [hs', ← Except.ok.inj h]
        cases (takeSign (stripSpace s)).1 <;> simp [signed]
    · rw [if_neg hd] at h; cases h

theorem floatOfText_error {u : Bool} {f : Char → Char} {s : Str} {e : Err} (h : floatOfText u f s = .error e) : e = .valueError := by
  rw [floatOfText_eq] at h
  revert h
  generalize Option.bind _ _ = o
  cases o with
  | none => intro h; cases h; rfl
  | some v => intro h; cases h

end Py
