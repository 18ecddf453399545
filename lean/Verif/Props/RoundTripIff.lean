import Verif.Props.Strings

/-!
# C10, C12, C17: exactly which values survive being written and read back
-/

namespace Neo.Props
open Py Spec Writer Reader

/-- A reader that yields the value after exactly the bytes `bs` has moved past `bs.length` bytes. -/
private theorem yields_pos {rd : IOM α} {bs : Bytes} {v : α} (h : Yields rd bs v) (k : Nat) :
    (rd ⟨bs ++ List.replicate k 0, 0⟩).2.pos = bs.length := by
  have := h [] (List.replicate k 0)
  simp only [List.nil_append, List.length_nil] at this
  rw [this]

private theorem rstripZero_last (b : Bytes) : (rstripZero b).getLast? ≠ some 0 := by
  unfold rstripZero
  rw [List.getLast?_reverse]
  intro h
  have := List.head?_dropWhile_not (fun x : UInt8 => x == 0) b.reverse
  rw [h] at this
  simp at this

private theorem readFixed_pos (n : Nat) (hn : (n : Int) ≤ maxsize) (s : Stream) :
    (readFixedString n s).2.pos = s.pos + min n (s.buf.drop s.pos).length := by
  unfold readFixedString
  rw [IOM.bind_ok (C20_read n hn s)]
  rfl

/-- C10, exactly: a string that fits survives a fixed-width field if and only if its UTF-8 form is not (nonempty) hexadecimal
text of even length and does not end in a NUL. -/
theorem C10_roundtrip_iff_partial (s : Str) (n : Nat) (hlen : (utf8 s).length ≤ n) (hmem : (n : Int) ≤ maxsize) :
    RoundTrip (writeFixedString s n) (readFixedString n) (utf8 s) ↔
      (s = [] ∨ ¬ HexText (utf8 s)) ∧ (utf8 s).getLast? ≠ some 0 := by
  constructor
  · rintro ⟨r, bs, hw, hy⟩
    constructor
    · by_contra hcon
      rw [not_or, not_not] at hcon
      obtain ⟨bs', h1, h2, h3⟩ := C10_fixedString_hex_violated s n hlen hcon.2 hcon.1
      have hb := (hw.unique h3).2
      subst hb
      have hp := yields_pos hy n
      rw [readFixed_pos n hmem] at hp
      simp at hp
      omega
    · have h0 := hy [] []
      unfold readFixedString at h0
      rw [IOM.bind_ok (C20_read n hmem _)] at h0
      simp only [IOM.pure_apply, Prod.mk.injEq, Except.ok.injEq] at h0
      rw [← h0.1]
      exact rstripZero_last _
  · rintro ⟨h1, h2⟩
    by_cases hhex : HexText (utf8 s)
    · have hs : s = [] := h1.resolve_right (fun h => h hhex)
      subst hs
      refine ⟨(), List.replicate n 0, ?_, ?_⟩
      · unfold writeFixedString
        rw [if_neg (show ¬ (((utf8 []).length : Int) > n) by simp [utf8])]
        have h := appends_bind (f := fun _ => writeZeros ((n : Int) - (utf8 []).length).toNat)
          (appends_writeBytes_hexText (b := []) (r := []) rfl) (appends_writeZeros _)
        simpa [utf8] using h
      · have := yields_bind (f := fun bs => (pure (rstripZero bs) : IOM Bytes))
          (yields_read (List.replicate n 0) n (by simp) hmem) (yields_pure _)
        have hz := rstripZero_replicate [] n (by simp)
        rw [List.nil_append] at hz
        rw [hz] at this
        simpa [readFixedString, readBytes, utf8] using this
    · obtain ⟨bs, _, ha, hy⟩ := C10_fixedString_partial s n hlen hmem hhex
      exact ⟨(), bs, ha, hy h2⟩

/-- Strings of both kinds exist. -/
example : HexText (utf8 ['a', 'b']) ∧ ¬ HexText (utf8 ['a', 'b', 'c']) := by
  constructor
  · refine ⟨by decide, ?_⟩
    intro c hc
    have : c ∈ ([0x61, 0x62] : Bytes) := hc
    simp at this; rcases this with rfl | rfl <;> unfold IsHexDigit <;> decide
  · rintro ⟨h, _⟩; exact absurd h (by decide)

/-- C12, exactly: a UInt160 (UInt256) survives being written and read back if and only if its 20 (32) bytes are not all ASCII
hexadecimal digits. -/
theorem C12_roundtrip_iff_partial (d : Bytes) :
    (d.length = 20 → (RoundTrip (writeUInt160 (.uint .u160 d)) readUInt160 d ↔ ∃ c ∈ d, ¬ IsHexDigit c)) ∧
    (d.length = 32 → (RoundTrip (writeUInt256 (.uint .u256 d)) readUInt256 d ↔ ∃ c ∈ d, ¬ IsHexDigit c)) := by
  have hx : ∀ k, d.length = 2 * k → ((∃ c ∈ d, ¬ IsHexDigit c) ↔ ¬ HexText d) := by
    intro k hk
    unfold HexText
    constructor
    · rintro ⟨c, hc, hn⟩ ⟨_, h⟩; exact hn (h c hc)
    · intro h
      by_contra hcon
      push Not at hcon
      exact h ⟨by omega, hcon⟩
  constructor
  · intro hl
    rw [hx 10 hl]
    constructor
    · rintro ⟨r, bs, hw, hy⟩ hhex
      obtain ⟨r', _, h2, h3⟩ := C12_uint160_hex_violated d hl hhex
      have hb := (hw.unique h2).2
      subst hb
      have h0 := hy [] []
      have h1 := h3 []
      simp only [List.nil_append, List.append_nil] at h0 h1
      rw [h0] at h1
      cases h1
    · intro h
      obtain ⟨h1, h2⟩ := (C12_uint_roundtrip_partial d h).1 hl
      exact ⟨(), d, h1, h2⟩
  · intro hl
    rw [hx 16 hl]
    constructor
    · rintro ⟨r, bs, hw, hy⟩ hhex
      obtain ⟨r', _, h2, h3⟩ := C12_uint256_hex_violated d hl hhex
      have hb := (hw.unique h2).2
      subst hb
      have h0 := hy [] []
      have h1 := h3 []
      simp only [List.nil_append, List.append_nil] at h0 h1
      rw [h0] at h1
      cases h1
    · intro h
      obtain ⟨h1, h2⟩ := (C12_uint_roundtrip_partial d h).2 hl
      exact ⟨(), d, h1, h2⟩

/-- What a list of hashes writes: 32 bytes for each, but 16 for those made of hexadecimal digits. -/
private theorem reversedHex_len (ds : List Bytes) (hl : ∀ d ∈ ds, d.length = 32) :
    ∃ bs, Appends (writeReversedHex (ds.map fun d => .str (hexStr d))) () bs ∧ bs.length ≤ 32 * ds.length ∧
      ((∃ d ∈ ds, HexText d) → bs.length < 32 * ds.length) := by
  induction ds with
  | nil => exact ⟨[], appends_pure (), by simp, by simp⟩
  | cons d ds ih =>
    obtain ⟨bs, h2, h1, h3⟩ := ih (fun x hx => hl x (by simp [hx]))
    have hd := hl d (by simp)
    have hlift : Appends (IOM.lift (unhexlifyVal (.str (hexStr d)))) d [] := by
      intro pre; simp only [IOM.lift_apply, hexStr, unhexlifyVal_hexStr, List.append_nil]
    obtain ⟨r, hr, hr', hw⟩ : ∃ r : Bytes, r.length ≤ 32 ∧ (HexText d → r.length < 32) ∧
        Appends (writeBytes (.bytearray d.reverse)) r.length r := by
      by_cases hx : HexText d.reverse
      · obtain ⟨r, a1, a2, _, a4⟩ := C11_writeBytes_hex_violated d.reverse hx
          (by intro h; rw [List.reverse_eq_nil_iff] at h; subst h; simp at hd)
        exact ⟨r, by simp at a2; omega, fun _ => by simp at a2; omega, a4⟩
      · exact ⟨d.reverse, by simp [hd], fun h => absurd ((hexText_reverse d).2 h) hx, (C11_writeBytes_exact_partial _ hx).2⟩
    refine ⟨r ++ bs, ?_, by simp; omega, ?_⟩
    · have := appends_bind hlift (f := fun raw => do let _ ← writeBytes (.bytearray raw.reverse)
                                                     writeReversedHex (ds.map fun d => .str (hexStr d)))
        (appends_bind hw h2)
      simpa [writeReversedHex] using this
    · rintro ⟨x, hx, hxx⟩
      rw [List.mem_cons] at hx
      simp only [List.length_append, List.length_cons]
      rcases hx with rfl | hx
      · have := hr' hxx; omega
      · have := h3 ⟨x, hx, hxx⟩; omega

private theorem readHashItems_pos (k : Nat) (s : Stream) (h : 32 * k ≤ (s.buf.drop s.pos).length) :
    (readHashItems k s).2.pos = s.pos + 32 * k := by
  induction k generalizing s with
  | zero => rfl
  | succ k ih =>
    have hr := C20_read 32 (by decide) s
    have hs : readHashItems (k + 1) s = (readHashItems k >>= fun rest => (pure (hexStr
        ((s.buf.drop s.pos).take 32).reverse :: rest) : IOM (List Str)))
        { s with pos := s.pos + min 32 (s.buf.drop s.pos).length } := by
      show (readBytes 32 >>= fun ba => (readHashItems k >>= fun rest => pure (hexStr ba.reverse :: rest))) s = _
      exact IOM.bind_ok hr
    rw [hs, show min 32 (s.buf.drop s.pos).length = 32 by omega]
    have := ih { s with pos := s.pos + 32 } (by simp only [List.length_drop] at h ⊢; omega)
    cases hq : readHashItems k { s with pos := s.pos + 32 } with
    | mk q s2 =>
      rw [hq] at this
      cases q with
      | error e => rw [IOM.bind_err hq]; simp only at this ⊢; omega
      | ok rest => rw [IOM.bind_ok hq]; simp only [IOM.pure_apply] at this ⊢; omega

/-- C17, exactly: a list of 32-byte hashes survives WriteHashes and ReadHashes if and only if none of the hashes consists of
ASCII hexadecimal digits only. -/
theorem C17_roundtrip_iff_partial (ds : List Bytes) (hl : ∀ d ∈ ds, d.length = 32) (hmem : (ds.length : Int) ≤ maxsize) :
    RoundTrip (writeHashes (ds.map fun d => .str (hexStr d))) readHashes (ds.map hexStr) ↔
      ∀ d ∈ ds, ∃ c ∈ d, ¬ IsHexDigit c := by
  have hx : (∀ d ∈ ds, ∃ c ∈ d, ¬ IsHexDigit c) ↔ ∀ d ∈ ds, ¬ HexText d := by
    refine forall₂_congr fun d hd => ?_
    unfold HexText
    constructor
    · rintro ⟨c, hc, hn⟩ ⟨_, h⟩; exact hn (h c hc)
    · intro h
      by_contra hcon
      push Not at hcon
      exact h ⟨by rw [hl d hd], hcon⟩
  rw [hx]
  refine ⟨?_, fun h => C17_hashes_roundtrip_partial ds hl h hmem⟩
  rintro ⟨r, bs, hw, hy⟩ d hd hhex
  have h64 : ds.length < 2 ^ 64 := by simp only [maxsize] at hmem; omega
  obtain ⟨t, h1, _, h3⟩ := reversedHex_len ds hl
  have h3 := h3 ⟨d, hd, hhex⟩
  have hw' := appends_bind (appends_writeVarInt .little ds.length h64)
    (f := fun _ => writeReversedHex (ds.map fun d => .str (hexStr d))) h1
  have hw'' : Appends (writeHashes (ds.map fun d => .str (hexStr d))) () (varIntBytes .little ds.length ++ t) := by
    simpa [writeHashes] using hw'
  have hb := (hw.unique hw'').2
  subst hb
  have hp := yields_pos hy (32 * ds.length)
  have hv := yields_readVarInt ds.length h64 maxsize hmem [] (t ++ List.replicate (32 * ds.length) 0)
  simp only [List.nil_append, List.length_nil] at hv
  unfold readHashes at hp
  rw [List.append_assoc, IOM.bind_ok hv] at hp
  simp only [Int.toNat_natCast] at hp
  rw [readHashItems_pos _ _ (by simp)] at hp
  simp only [List.length_append] at hp
  omega

/-- A list of two hashes meets the hypotheses, and one of the two is of the kind that is lost. -/
example : ∃ ds : List Bytes, ds.length = 2 ∧ (∀ d ∈ ds, d.length = 32) ∧ ∃ d ∈ ds, ∀ c ∈ d, IsHexDigit c := by
  refine ⟨[List.replicate 32 1, List.replicate 32 0x61], rfl, by simp, List.replicate 32 0x61, by simp, ?_⟩
  intro c hc; rw [(List.mem_replicate.mp hc).2]; unfold IsHexDigit; decide

end Neo.Props
