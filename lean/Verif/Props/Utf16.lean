import Verif.Model.Utf16
import Verif.Spec.Utf16
import Mathlib.Data.Nat.Bitwise
import Mathlib.Tactic.IntervalCases
/-!
# Property theorems C58: text to UTF-16
-/
namespace Nanvm

theorem char_valid (c : Char) : c.toNat < 0xD800 ∨ (0xDFFF < c.toNat ∧ c.toNat < 0x110000) := by
  rcases c.valid with h | ⟨h1, h2⟩
  · left; exact h
  · right; exact ⟨h1, h2⟩

theorem toNat_ofNat {n : Nat} (h : n.isValidChar) : (Char.ofNat n).toNat = n := by
  unfold Char.ofNat
  rw [dif_pos h]
  rfl

theorem or_hi {x : Nat} (h : x < 2 ^ 10) : 0xD800 ||| x = 0xD800 + x := by
  have := Nat.two_pow_add_eq_or_of_lt (i := 10) h 54
  simpa using this.symm

theorem or_lo {x : Nat} (h : x < 2 ^ 10) : 0xDC00 ||| x = 0xDC00 + x := by
  have := Nat.two_pow_add_eq_or_of_lt (i := 10) h 55
  simpa using this.symm

theorem encodeChar_eq (c : Char) : encodeChar c =
    if c.toNat < 0x10000 then [c.toNat]
    else [0xD800 + (c.toNat - 0x10000) / 1024, 0xDC00 + (c.toNat - 0x10000) % 1024] := by
  unfold encodeChar
  have hv := char_valid c
  split
  · rfl
  · have e1 : (c.toNat - 0x10000) >>> 10 = (c.toNat - 0x10000) / 1024 := by
      rw [Nat.shiftRight_eq_div_pow]
    have e2 : (c.toNat - 0x10000) &&& 0x3FF = (c.toNat - 0x10000) % 1024 :=
      Nat.and_two_pow_sub_one_eq_mod (c.toNat - 0x10000) 10
    rw [e1, e2, or_hi (by omega), or_lo (by omega)]

theorem decode_single (u : Nat) (us : List Nat) (h : isHighSurrogate u = false) :
    decodeUtf16 (u :: us) = if isLowSurrogate u || 0x10000 ≤ u then none
      else (decodeUtf16 us).map (Char.ofNat u :: ·) := by
  rw [decodeUtf16.eq_def]; simp [h]

theorem decode_pair (u v : Nat) (us : List Nat) (h : isHighSurrogate u = true) :
    decodeUtf16 (u :: v :: us) = if isLowSurrogate v then
      (decodeUtf16 us).map (Char.ofNat (0x10000 + (u - 0xD800) * 0x400 + (v - 0xDC00)) :: ·)
      else none := by
  rw [decodeUtf16.eq_def]; simp [h]

/-- decoding starts with the character -/
theorem decode_encodeChar (c : Char) (us : List Nat) :
    decodeUtf16 (encodeChar c ++ us) = (decodeUtf16 us).map (c :: ·) := by
  have hv := char_valid c
  rw [encodeChar_eq]
  split
  · rename_i h
    simp only [List.cons_append, List.nil_append]
    have h1 : isHighSurrogate c.toNat = false := by
      simp only [isHighSurrogate, Bool.and_eq_false_iff, decide_eq_false_iff_not]; omega
    have h2 : isLowSurrogate c.toNat = false := by
      simp only [isLowSurrogate, Bool.and_eq_false_iff, decide_eq_false_iff_not]; omega
    have h3 : ¬ 0x10000 ≤ c.toNat := by omega
    rw [decode_single _ _ h1, h2]
    simp [h3, Char.ofNat_toNat]
  · rename_i h
    simp only [List.cons_append, List.nil_append]
    have h1 : isHighSurrogate (0xD800 + (c.toNat - 0x10000) / 1024) = true := by
      simp only [isHighSurrogate, Bool.and_eq_true, decide_eq_true_eq]; omega
    have h2 : isLowSurrogate (0xDC00 + (c.toNat - 0x10000) % 1024) = true := by
      simp only [isLowSurrogate, Bool.and_eq_true, decide_eq_true_eq]; omega
    rw [decode_pair _ _ _ h1, h2, if_pos rfl]
    have e : 0x10000 + (0xD800 + (c.toNat - 0x10000) / 1024 - 0xD800) * 0x400 +
        (0xDC00 + (c.toNat - 0x10000) % 1024 - 0xDC00) = c.toNat := by omega
    rw [e, Char.ofNat_toNat]

/-- Decoding the JS string of a text gives the text. -/
theorem C58_lossless (s : Text) : decodeUtf16 (toJsString s) = some s := by
  induction s with
  | nil => rfl
  | cons c cs ih =>
    have : toJsString (c :: cs) = encodeChar c ++ toJsString cs := rfl
    rw [this, decode_encodeChar, ih]
    rfl

/-- Distinct texts become distinct JS strings; equality of keys is kept. -/
theorem C58_injective (s t : Text) : toJsString s = toJsString t ↔ s = t := by
  constructor
  · intro h
    have h1 := C58_lossless s
    rw [h, C58_lossless t] at h1
    exact (Option.some.inj h1).symm
  · rintro rfl; rfl

/-- All code units are 16-bit numbers. -/
theorem C58_units (s : Text) : ∀ u ∈ toJsString s, u < 2 ^ 16 := by
  intro u hu
  obtain ⟨c, -, hc⟩ := List.mem_flatMap.1 hu
  have hv := char_valid c
  rw [encodeChar_eq] at hc
  split at hc
  · simp only [List.mem_singleton] at hc; omega
  · simp only [List.mem_cons, List.not_mem_nil, or_false] at hc; omega

/-- Conversely every well-formed UTF-16 string of 16-bit units is the JS string of the text it
decodes to: the conversion reaches all of them. -/
theorem C58_onto (us : JsStr) (s : Text) (h : decodeUtf16 us = some s) : toJsString s = us := by
  induction us using decodeUtf16.induct generalizing s with
  | case1 => simp [decodeUtf16] at h; subst h; rfl
  | case2 u hu v vs hv ih =>
    rw [decode_pair _ _ _ hu, if_pos hv] at h
    obtain ⟨r, hr, rfl⟩ := Option.map_eq_some_iff.1 h
    have := ih r hr
    simp only [isHighSurrogate, isLowSurrogate, Bool.and_eq_true, decide_eq_true_eq] at hu hv
    show encodeChar _ ++ toJsString r = _
    have hval : (0x10000 + (u - 0xD800) * 0x400 + (v - 0xDC00)).isValidChar := by
      unfold Nat.isValidChar; omega
    rw [this, encodeChar_eq, toNat_ofNat hval, if_neg (by omega)]
    simp only [List.cons_append, List.nil_append, List.cons.injEq, and_true]
    constructor <;> omega
  | case3 u hu v vs hv =>
    rw [decode_pair _ _ _ hu, if_neg hv] at h
    cases h
  | case4 u hu => rw [decodeUtf16.eq_def] at h; simp [hu] at h
  | case5 u us hu hl => rw [decode_single _ _ (by simpa using hu), if_pos hl] at h; cases h
  | case6 u us hu hl ih =>
    rw [decode_single _ _ (by simpa using hu), if_neg hl] at h
    obtain ⟨r, hr, rfl⟩ := Option.map_eq_some_iff.1 h
    have := ih r hr
    simp only [isHighSurrogate, isLowSurrogate, Bool.and_eq_true, decide_eq_true_eq,
      Bool.or_eq_true] at hu hl
    show encodeChar _ ++ toJsString r = _
    have hval : u.isValidChar := by unfold Nat.isValidChar; omega
    rw [this, encodeChar_eq, toNat_ofNat hval, if_pos (by omega)]
    rfl

/-- a text outside the basic plane: two units -/
example : toJsString ['a', '😀'] = [97, 0xD83D, 0xDE00] := by decide
/-- a lone surrogate is no text -/
example : decodeUtf16 [0xD83D] = none := by decide
example : decodeUtf16 [0xD83D, 0xDE00] = some ['😀'] := by decide

end Nanvm
