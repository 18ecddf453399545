import Verif.Props.Merkle
import Verif.Spec.MerkleFill

/-!
# C55: which lists have the same Merkle root
-/

namespace Neo.Props
open Py Neo.Merkle Spec.Merkle

private theorem clog_half {n : Nat} (h : 2 ≤ n) : Nat.clog 2 n = Nat.clog 2 ((n + 1) / 2) + 1 := by
  rw [Nat.clog_of_two_le (by norm_num) h, show n + 2 - 1 = n + 1 by omega]

private theorem inputs_step (H : Bytes → Bytes) (l : List Bytes) (h : 2 ≤ l.length) :
    inputs H l = inputs.level l ++ inputs H (pairUp H l) := by
  match l, h with
  | x :: y :: rest, _ => rw [inputs]

private theorem pairUp_append (H : Bytes → Bytes) (xs ys : List Bytes) (h : xs.length % 2 = 0) :
    pairUp H (xs ++ ys) = pairUp H xs ++ pairUp H ys := by
  fun_induction pairUp H xs with
  | case1 => rfl
  | case2 x => simp at h
  | case3 x y rest ih =>
    simp only [List.cons_append, pairUp]
    rw [ih (by simp at h; omega)]

private theorem level_eq (l : List Bytes) : inputs.level l = pairUp id l := by
  fun_induction pairUp id l with
  | case1 => rfl
  | case2 x => rfl
  | case3 x y rest ih => rw [inputs.level, ih]; rfl

private theorem pairUp_map (H : Bytes → Bytes) (l : List Bytes) : pairUp H l = (pairUp id l).map H := by
  fun_induction pairUp H l with
  | case1 => rfl
  | case2 x => rfl
  | case3 x y rest ih => rw [ih]; rfl

private theorem pairUp_width {H : Bytes → Bytes} {w : Nat} (hH : ∀ x, (H x).length = w) (l : List Bytes) :
    ∀ y ∈ pairUp H l, y.length = w := by
  intro y hy
  rw [pairUp_map, List.mem_map] at hy
  obtain ⟨x, _, rfl⟩ := hy
  exact hH x

private theorem fill_length {α : Type} (d : Nat) : ∀ l : List α, l ≠ [] → l.length ≤ 2 ^ d → (fill d l).length = 2 ^ d := by
  induction d with
  | zero =>
    intro l h0 h1
    have : 0 < l.length := List.length_pos_iff.2 h0
    rw [fill, pow_zero] at *
    omega
  | succ d ih =>
    intro l h0 h1
    rw [fill]
    by_cases h : l.length ≤ 2 ^ d
    · rw [if_pos h, List.length_append, ih l h0 h, pow_succ]; omega
    · rw [if_neg h, List.length_append, List.length_take, ih]
      · rw [pow_succ]; omega
      · intro e
        have := congrArg List.length e
        rw [List.length_drop, List.length_nil] at this
        omega
      · rw [List.length_drop]; rw [pow_succ] at h1; omega

private theorem fill_mem {α : Type} (d : Nat) : ∀ (l : List α) (x : α), x ∈ fill d l → x ∈ l := by
  induction d with
  | zero => intro l x hx; exact hx
  | succ d ih =>
    intro l x hx
    rw [fill] at hx
    split at hx
    · rcases List.mem_append.1 hx with hx | hx <;> exact ih _ _ hx
    · rcases List.mem_append.1 hx with hx | hx
      · exact List.mem_of_mem_take hx
      · exact List.mem_of_mem_drop (ih _ _ hx)

/-- Filling commutes with going up one level. -/
private theorem pairUp_fill (H : Bytes → Bytes) (d : Nat) : ∀ l : List Bytes, l ≠ [] → l.length ≤ 2 ^ (d + 1) →
    pairUp H (fill (d + 1) l) = fill d (pairUp H l) := by
  induction d with
  | zero =>
    intro l h0 h1
    match l, h0, h1 with
    | [x], _, _ => simp [fill, pairUp]
    | [x, y], _, _ => rfl
    | _ :: _ :: _ :: _, _, h1 => simp at h1
  | succ d ih =>
    intro l h0 h1
    have hp : 0 < 2 ^ d := by positivity
    have e1 : fill (d + 1 + 1) l = if l.length ≤ 2 ^ (d + 1) then fill (d + 1) l ++ fill (d + 1) l
        else l.take (2 ^ (d + 1)) ++ fill (d + 1) (l.drop (2 ^ (d + 1))) := rfl
    have e2 : fill (d + 1) (pairUp H l) = if (pairUp H l).length ≤ 2 ^ d then fill d (pairUp H l) ++ fill d (pairUp H l)
        else (pairUp H l).take (2 ^ d) ++ fill d ((pairUp H l).drop (2 ^ d)) := rfl
    rw [e1, e2, pairUp_length]
    by_cases h : l.length ≤ 2 ^ (d + 1)
    · rw [if_pos h, if_pos (by rw [pow_succ] at h; omega), pairUp_append, ih l h0 h]
      rw [fill_length _ l h0 h, pow_succ]; omega
    · have ht : (l.take (2 ^ (d + 1))).length = 2 ^ (d + 1) := by rw [List.length_take]; omega
      have he : (l.take (2 ^ (d + 1))).length % 2 = 0 := by rw [ht, pow_succ]; omega
      have hd : l.drop (2 ^ (d + 1)) ≠ [] := by
        intro e
        have := congrArg List.length e
        rw [List.length_drop, List.length_nil] at this
        omega
      rw [if_neg h, if_neg (by rw [pow_succ] at h; omega), pairUp_append _ _ _ he, ih _ hd (by rw [List.length_drop]; rw [pow_succ] at h1; omega)]
      have hu : pairUp H l = pairUp H (l.take (2 ^ (d + 1))) ++ pairUp H (l.drop (2 ^ (d + 1))) := by
        rw [← pairUp_append _ _ _ he, List.take_append_drop]
      have hl : (pairUp H (l.take (2 ^ (d + 1)))).length = 2 ^ d := by rw [pairUp_length, ht, pow_succ]; omega
      rw [hu, List.take_left' hl, List.drop_left' hl]

private theorem height_bounds {l : List Bytes} {d : Nat} (h : height l = d + 1) : 2 ≤ l.length ∧ l.length ≤ 2 ^ (d + 1) := by
  constructor
  · by_contra hc
    rw [height, Nat.clog_of_right_le_one (by omega)] at h
    omega
  · rw [← h, height]
    exact Nat.le_pow_clog (by norm_num) _

private theorem height_pairUp (H : Bytes → Bytes) {l : List Bytes} {d : Nat} (h : height l = d + 1) : height (pairUp H l) = d := by
  have h2 := (height_bounds h).1
  rw [height, clog_half h2] at h
  rw [height, pairUp_length]
  omega

private theorem height_zero {l : List Bytes} (h0 : l ≠ []) (h : height l = 0) : ∃ x, l = [x] := by
  match l, h0, h with
  | [x], _, _ => exact ⟨x, rfl⟩
  | a :: b :: r, _, h => rw [height, clog_half (by simp)] at h; omega

private theorem pairUp_ne {H : Bytes → Bytes} {l : List Bytes} (h : l ≠ []) : pairUp H l ≠ [] := by
  intro e
  have := congrArg List.length e
  rw [pairUp_length] at this
  have : 0 < l.length := List.length_pos_iff.2 h
  simp only [List.length_nil] at *
  omega

/-- Filling does not change the root. -/
private theorem root_complete (H : Bytes → Bytes) (d : Nat) : ∀ l : List Bytes, l ≠ [] → height l = d → root H (fill d l) = root H l := by
  induction d with
  | zero => intro l _ _; rfl
  | succ d ih =>
    intro l h0 h
    have hb := height_bounds h
    rw [root_step H l hb.1, root_step H (fill (d + 1) l), pairUp_fill H d l h0 hb.2, ih _ (pairUp_ne h0) (height_pairUp H h)]
    rw [fill_length _ l h0 hb.2, pow_succ]
    have : 0 < 2 ^ d := by positivity
    omega

private theorem level_root (H : Bytes → Bytes) (k : Nat) : ∀ l : List Bytes, l ≠ [] → k ≤ height l →
    root H (levelAbove H k l) = root H l ∧ levelAbove H k l ≠ [] ∧ height (levelAbove H k l) = height l - k ∧
      (∀ x ∈ inputs H (levelAbove H k l), x ∈ inputs H l) := by
  induction k with
  | zero => intro l h0 _; exact ⟨rfl, h0, rfl, fun _ h => h⟩
  | succ k ih =>
    intro l h0 h
    obtain ⟨d, hd⟩ : ∃ d, height l = d + 1 := ⟨height l - 1, by omega⟩
    have hb := height_bounds hd
    obtain ⟨h1, h2, h3, h4⟩ := ih (pairUp H l) (pairUp_ne h0) (by rw [height_pairUp H hd]; omega)
    rw [levelAbove]
    refine ⟨by rw [h1, ← root_step H l hb.1], h2, by rw [h3, height_pairUp H hd]; omega, fun x hx => ?_⟩
    rw [inputs_step H l hb.1]
    exact List.mem_append_right _ (h4 x hx)

private theorem level_width {H : Bytes → Bytes} {w : Nat} (hH : ∀ x, (H x).length = w) (k : Nat) : ∀ l : List Bytes,
    (∀ x ∈ l, x.length = w) → ∀ x ∈ levelAbove H k l, x.length = w := by
  induction k with
  | zero => intro l h; exact h
  | succ k ih => intro l _; exact ih _ (pairUp_width hH l)

private theorem map_inj {H : Bytes → Bytes} : ∀ (a b : List Bytes), (∀ x ∈ a, ∀ y ∈ b, H x = H y → x = y) → a.map H = b.map H → a = b := by
  intro a
  induction a with
  | nil => intro b _ e; cases b with
    | nil => rfl
    | cons => simp at e
  | cons x a ih =>
    intro b h e
    cases b with
    | nil => simp at e
    | cons y b =>
      simp only [List.map_cons, List.cons.injEq] at e
      rw [h x (by simp) y (by simp) e.1, ih b (fun x hx y hy => h x (by simp [hx]) y (by simp [hy])) e.2]

private theorem level_inj {w : Nat} : ∀ (a b : List Bytes), a.length = b.length → (∀ x ∈ a, x.length = w) → (∀ x ∈ b, x.length = w) →
    pairUp id a = pairUp id b → a = b
  | [], [], _, _, _, _ => rfl
  | [x], [y], _, ha, hb, e => by
    simp only [pairUp, id, List.cons.injEq, and_true] at e
    rw [(List.append_inj e ((ha x (by simp)).trans (hb y (by simp)).symm)).1]
  | x :: x' :: a, y :: y' :: b, hl, ha, hb, e => by
    simp only [pairUp, id, List.cons.injEq] at e
    obtain ⟨h1, h2⟩ := List.append_inj e.1 ((ha x (by simp)).trans (hb y (by simp)).symm)
    rw [h1, h2, level_inj a b (by simpa using hl) (fun x hx => ha x (by simp [hx])) (fun x hx => hb x (by simp [hx])) e.2]
  | [], _ :: _, hl, _, _, _ => by simp at hl
  | _ :: _, [], hl, _, _, _ => by simp at hl
  | [_], _ :: _ :: _, hl, _, _, _ => by simp at hl
  | _ :: _ :: _, [_], hl, _, _, _ => by simp at hl

private theorem same_height {H : Bytes → Bytes} {w : Nat} (hH : ∀ x, (H x).length = w) (d : Nat) : ∀ l₁ l₂ : List Bytes, l₁ ≠ [] → l₂ ≠ [] →
    height l₁ = d → height l₂ = d → (∀ x ∈ l₁, x.length = w) → (∀ x ∈ l₂, x.length = w) →
    (∀ x ∈ inputs H l₁, ∀ y ∈ inputs H l₂, H x = H y → x = y) → root H l₁ = root H l₂ → fill d l₁ = fill d l₂ := by
  induction d with
  | zero =>
    intro l₁ l₂ h1 h2 e1 e2 _ _ _ hr
    obtain ⟨x, rfl⟩ := height_zero h1 e1
    obtain ⟨y, rfl⟩ := height_zero h2 e2
    simpa [root, fill] using hr
  | succ d ih =>
    intro l₁ l₂ h1 h2 e1 e2 w1 w2 hc hr
    have b1 := height_bounds e1
    have b2 := height_bounds e2
    rw [inputs_step H l₁ b1.1, inputs_step H l₂ b2.1] at hc
    have key := ih (pairUp H l₁) (pairUp H l₂) (pairUp_ne h1) (pairUp_ne h2) (height_pairUp H e1) (height_pairUp H e2) (pairUp_width hH l₁)
      (pairUp_width hH l₂) (fun x hx y hy => hc x (List.mem_append_right _ hx) y (List.mem_append_right _ hy))
      (by rw [← root_step H l₁ b1.1, ← root_step H l₂ b2.1, hr])
    rw [← pairUp_fill H d l₁ h1 b1.2, ← pairUp_fill H d l₂ h2 b2.2, pairUp_map, pairUp_map H (fill (d + 1) l₂)] at key
    have mem : ∀ l : List Bytes, l ≠ [] → l.length ≤ 2 ^ (d + 1) → ∀ x ∈ pairUp id (fill (d + 1) l), x ∈ inputs.level l := by
      intro l h0 hl x hx
      rw [pairUp_fill id d l h0 hl] at hx
      rw [level_eq]
      exact fill_mem d _ _ hx
    have := map_inj _ _ (fun x hx y hy => hc x (List.mem_append_left _ (mem l₁ h1 b1.2 x hx)) y (List.mem_append_left _ (mem l₂ h2 b2.2 y hy))) key
    exact level_inj (w := w) _ _ (by rw [fill_length _ _ h1 b1.2, fill_length _ _ h2 b2.2]) (fun x hx => w1 x (fill_mem _ _ _ hx))
      (fun x hx => w2 x (fill_mem _ _ _ hx)) this

/-- C55, exactly: lists whose trees agree have the same root, whatever the hash function; and if two lists of hashes have the same root, then
their trees agree (the complete form of one list is that of a level of the tree of the other), or two different strings hashed in the
process have the same hash.  Missing (and false, `C55_root_binds_violated`, `C55_inner_level_violated`): that the lists are then equal. -/
theorem C55_same_root_partial (H : Bytes → Bytes) (l₁ l₂ : List Bytes) (h₁ : l₁ ≠ []) (h₂ : l₂ ≠ []) :
    (SameTree H l₁ l₂ → computeRoot H l₁ = computeRoot H l₂) ∧
    (∀ w, (∀ x, (H x).length = w) → (∀ x ∈ l₁, x.length = w) → (∀ x ∈ l₂, x.length = w) → computeRoot H l₁ = computeRoot H l₂ →
      SameTree H l₁ l₂ ∨ ∃ x ∈ inputs H l₁, ∃ y ∈ inputs H l₂, x ≠ y ∧ H x = H y) := by
  constructor
  · intro h
    have : root H l₁ = root H l₂ := by
      rcases h with ⟨k, hk, e⟩ | ⟨k, hk, e⟩
      · obtain ⟨r, hne, _, _⟩ := level_root H k l₂ h₂ hk
        rw [← root_complete H _ l₁ h₁ rfl, ← r, ← root_complete H _ _ hne rfl]
        exact congrArg (root H) e
      · obtain ⟨r, hne, _, _⟩ := level_root H k l₁ h₁ hk
        rw [← root_complete H _ l₂ h₂ rfl, ← r, ← root_complete H _ _ hne rfl]
        exact congrArg (root H) e
    rw [C54_root, C54_root, this]
  · intro w hH w₁ w₂ hr
    have hr' : root H l₁ = root H l₂ := by
      rw [C54_root, C54_root] at hr
      cases e1 : root H l₁ <;> cases e2 : root H l₂ <;> rw [e1, e2] at hr <;> simp_all
    by_cases hc : ∀ x ∈ inputs H l₁, ∀ y ∈ inputs H l₂, H x = H y → x = y
    · left
      rcases Nat.le_total (height l₁) (height l₂) with hd | hd
      · left
        obtain ⟨r, hne, hh, hi⟩ := level_root H (height l₂ - height l₁) l₂ h₂ (by omega)
        have hh' : height (levelAbove H (height l₂ - height l₁) l₂) = height l₁ := by omega
        refine ⟨height l₂ - height l₁, by omega, ?_⟩
        rw [complete, complete, hh']
        exact same_height hH _ _ _ h₁ hne rfl hh' w₁ (level_width hH _ _ w₂) (fun x hx y hy => hc x hx y (hi y hy)) (by rw [hr', r])
      · right
        obtain ⟨r, hne, hh, hi⟩ := level_root H (height l₁ - height l₂) l₁ h₁ (by omega)
        have hh' : height (levelAbove H (height l₁ - height l₂) l₁) = height l₂ := by omega
        refine ⟨height l₁ - height l₂, by omega, ?_⟩
        rw [complete, complete, hh']
        exact same_height hH _ _ _ hne h₂ hh' rfl (level_width hH _ _ w₁) w₂ (fun x hx y hy => hc x (hi x hx) y hy) (by rw [← hr', r])
    · right
      push Not at hc
      obtain ⟨x, hx, y, hy, e, hne⟩ := hc
      exact ⟨x, hx, y, hy, hne, e⟩

example : complete [1, 2, 3, 4, 5, 6] = [1, 2, 3, 4, 5, 6, 5, 6] ∧ complete [1, 2, 3] = [1, 2, 3, 3] ∧ complete [1, 2, 3, 4, 5] = [1, 2, 3, 4, 5, 5, 5, 5] := by
  decide +kernel
-- five leaves and six, the last repeated
example : SameTree id [[1], [2], [3], [4], [5]] [[1], [2], [3], [4], [5], [5]] := by
  left
  exact ⟨0, by decide, by decide +kernel⟩
example : computeRoot id [[1], [2], [3], [4], [5]] = computeRoot id [[1], [2], [3], [4], [5], [5]] :=
  (C55_same_root_partial id _ _ (by simp) (by simp)).1 (.inl ⟨0, by decide, by decide +kernel⟩)
-- the inner level of a tree of four leaves
example : computeRoot id [[1, 2], [3, 4]] = computeRoot id [[1], [2], [3], [4]] :=
  (C55_same_root_partial id _ _ (by simp) (by simp)).1 (.inl ⟨1, by decide, by decide +kernel⟩)

end Neo.Props
