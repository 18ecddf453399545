import Verif.Py.Core

/-! UTF-8 encoding of text is injective. -/

namespace Py

theorem utf8_inj {s t : Str} (h : utf8 s = utf8 t) : s = t := by
  have hs : ∀ u : Str, u.utf8Encode = (utf8 u).toByteArray := fun u => rfl
  have h1 : (String.ofList s).toByteArray = (String.ofList t).toByteArray := by
    rw [String.toByteArray_ofList, String.toByteArray_ofList, hs, hs, h]
  have h2 : String.ofList s = String.ofList t := String.toByteArray_inj.mp h1
  exact String.ofList_injective h2

theorem utf8_append (s t : Str) : utf8 (s ++ t) = utf8 s ++ utf8 t := by simp [utf8]

theorem utf8_nil_iff (s : Str) : utf8 s = [] ↔ s = [] := by
  constructor
  · intro h; exact utf8_inj (h.trans rfl)
  · rintro rfl; rfl

end Py
