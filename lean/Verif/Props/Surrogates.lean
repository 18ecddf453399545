import Verif.Model.Surrogates
import Verif.Props.Strings

/-!
# C185: texts that have no UTF-8 form
-/

namespace Neo.Props
open Py Writer

/-- The text with the same code points. -/
def SameText (t : Text) (s : Str) : Prop := t.map (fun c => c.val) = s.map Char.toNat

private theorem encode_surrogate (t : Text) (h : ∃ c ∈ t, 0xD800 ≤ c.val ∧ c.val ≤ 0xDFFF) : encodeUtf8 t = .error .valueError := by
  induction t with
  | nil => simp at h
  | cons c cs ih =>
    rw [encodeUtf8]
    by_cases hc : isSurrogate c = true
    · rw [if_pos hc]
    · rw [if_neg hc]
      have hc' : ¬ (0xD800 ≤ c.val ∧ c.val ≤ 0xDFFF) := by simpa [isSurrogate] using hc
      rw [ih]
      obtain ⟨x, hx, h2⟩ := h
      rcases List.mem_cons.1 hx with rfl | hx
      · exact absurd h2 hc'
      · exact ⟨x, hx, h2⟩

private theorem encode_plain (t : Text) (h : ∀ c ∈ t, c.val < 0xD800 ∨ 0xDFFF < c.val) : ∃ s : Str, SameText t s ∧ encodeUtf8 t = .ok (utf8 s) := by
  induction t with
  | nil => exact ⟨[], rfl, rfl⟩
  | cons c cs ih =>
    obtain ⟨s, h1, h2⟩ := ih (fun x hx => h x (List.mem_cons_of_mem _ hx))
    have hc := h c (List.mem_cons_self ..)
    have hv : c.val.isValidChar := by
      rcases hc with hc | hc
      · exact .inl hc
      · exact .inr ⟨hc, c.isLt⟩
    refine ⟨Char.ofNat c.val :: s, ?_, ?_⟩
    · unfold SameText at h1 ⊢
      rw [List.map_cons, List.map_cons, h1, show (Char.ofNat c.val).toNat = c.val by simp [Char.ofNat, hv, Char.toNat, Char.ofNatAux]]
    · rw [encodeUtf8, if_neg, h2]
      · rfl
      · simp only [isSurrogate, decide_eq_true_eq]
        omega

/-- C185: `WriteByte`, `WriteVarString` and `WriteFixedString` of a text with a surrogate raise `UnicodeEncodeError` and the stream stays as it is. -/
theorem C185_refused (t : Text) (h : ∃ c ∈ t, 0xD800 ≤ c.val ∧ c.val ≤ 0xDFFF) (length : Int) (s : Stream) :
    writeByteText t s = (.error .valueError, s) ∧ writeVarStringText t s = (.error .valueError, s) ∧
    writeFixedStringText t length s = (.error .valueError, s) := by
  have he := encode_surrogate t h
  refine ⟨?_, ?_, ?_⟩
  · rw [writeByteText, he]; rfl
  · rw [writeVarStringText, he]; rfl
  · rw [writeFixedStringText, he]; rfl

/-- C185: every other text is one of the texts of the other theorems, and is written in that way. -/
theorem C185_others (t : Text) (h : ∀ c ∈ t, c.val < 0xD800 ∨ 0xDFFF < c.val) :
    ∃ u : Str, SameText t u ∧ writeByteText t = writeByte (.str u) ∧ writeVarStringText t = writeVarString (.str u) ∧
      ∀ length, writeFixedStringText t length = writeFixedString u length := by
  obtain ⟨u, h1, h2⟩ := encode_plain t h
  refine ⟨u, h1, ?_, ?_, ?_⟩
  · rw [writeByteText, h2, writeByte]; rfl
  · rw [writeVarStringText, h2, writeVarString]
    generalize utf8 u = b
    generalize writeVarStringBytes = w
    rfl
  · intro length
    rw [writeFixedStringText, h2, writeFixedString]
    generalize utf8 u = b
    rfl

/-- A text with a lone surrogate, and one without. -/
example : (∃ c ∈ ([⟨0x61, by norm_num⟩, ⟨0xD83D, by norm_num⟩] : Text), 0xD800 ≤ c.val ∧ c.val ≤ 0xDFFF) ∧
    ∀ c ∈ ([⟨0x61, by norm_num⟩, ⟨0x1F600, by norm_num⟩] : Text), c.val < 0xD800 ∨ 0xDFFF < c.val := by
  refine ⟨⟨_, List.mem_cons_of_mem _ (List.mem_cons_self ..), by norm_num, by norm_num⟩, fun c hc => ?_⟩
  rcases List.mem_cons.1 hc with rfl | hc
  · exact .inl (by norm_num)
  · rw [List.mem_singleton.1 hc]
    exact .inr (by norm_num)

end Neo.Props
