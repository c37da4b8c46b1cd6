import Verif.Model.Serializer
import Verif.Props.TokenizerString
/-!
# Property theorems C50, C52: writing strings
-/
namespace Nanvm
open Tok Ser

variable {conv : BigFloat → Res Nat}

/-! ## Specification -/

/-- code units are 16-bit numbers -/
def Units (s : JsStr) : Prop := ∀ u ∈ s, u < 2 ^ 16

/-- half of a surrogate pair -/
def SurrogateUnit (u : Nat) : Prop := 0xD800 ≤ u ∧ u < 0xE000

/-- C50: the text written for a string is read as that string -/
def StringsReadBack (conv : BigFloat → Res Nat) : Prop :=
  ∀ s, Units s → ∃ t c, writeJsString s = .ok t ∧ tokenize conv t = .ok [.string c] ∧
    toJsString c = s

/-! ## Lemmas -/

theorem hex_digit : ∀ v < 16, ∃ c, idx hexDigits v = .ok c ∧ hexVal c = some v ∧
    0x20 ≤ c.toNat ∧ c.toNat ≤ 0x7F := by
  intro v hv
  interval_cases v <;> exact ⟨_, rfl, by decide, by decide, by decide⟩

theorem u4_hex (v : Nat) : ∃ c, writeU4Hex v = .ok c ∧ hexVal c = some (v % 16) ∧
    0x20 ≤ c.toNat ∧ c.toNat ≤ 0x7F := by
  have e : v &&& 0xF = v % 16 := Nat.and_two_pow_sub_one_eq_mod v 4
  obtain ⟨c, h1, h2, h3, h4⟩ := hex_digit (v % 16) (Nat.mod_lt _ (by decide))
  exact ⟨c, by rw [writeU4Hex, e, h1], h2, h3, h4⟩

/-- the piece written for a code unit -/
structure PieceFor (u : Nat) (p : Piece) : Prop where
  valid : p.Valid
  units : p.units = [u]
  ascii : ∀ c ∈ p.text, 0x20 ≤ c.toNat ∧ c.toNat ≤ 0x7F
  surrogate : p.Surrogate ↔ SurrogateUnit u

theorem escape_piece (u : Nat) (h : u < 2 ^ 16) : ∃ p, writeJsEscape u = .ok p.text ∧ PieceFor u p := by
  obtain ⟨a, ha, ha', ra⟩ := u4_hex (u >>> 12)
  obtain ⟨b, hb, hb', rb⟩ := u4_hex (u >>> 8)
  obtain ⟨c, hc, hc', rc⟩ := u4_hex (u >>> 4)
  obtain ⟨d, hd, hd', rd⟩ := u4_hex u
  have e : Piece.hex4 a b c d = u := by
    rw [Nat.shiftRight_eq_div_pow] at ha' hb' hc'
    simp only [Piece.hex4, ha', hb', hc', hd', Option.getD_some]
    omega
  refine ⟨.uni a b c d, ?_, ?_, ?_, ?_, ?_⟩
  · rw [writeJsEscape, ha, hb, hc, hd]; rfl
  · simp [Piece.Valid, ha', hb', hc', hd']
  · simp [Piece.units, e]
  · intro x hx
    simp only [Piece.text, List.mem_cons, List.not_mem_nil, or_false] at hx
    rcases hx with rfl | rfl | rfl | rfl | rfl | rfl
    · decide
    · decide
    all_goals assumption
  · simp [Piece.Surrogate, SurrogateUnit, e]

theorem short_piece (u : Nat) (c : Char) (hv : (Piece.esc c).Valid) (hu : (Piece.esc c).units = [u])
    (hc : 0x20 ≤ c.toNat ∧ c.toNat ≤ 0x7F) (hs : ¬ SurrogateUnit u) : PieceFor u (.esc c) :=
  ⟨hv, hu, by simpa [Piece.text] using hc, by simp [Piece.Surrogate, hs]⟩

theorem unit_piece (u : Nat) (h : u < 2 ^ 16) : ∃ p, writeUnit u = .ok p.text ∧ PieceFor u p := by
  unfold writeUnit
  have hsm : u < 0x80 → ¬ SurrogateUnit u := by unfold SurrogateUnit; omega
  split
  case isFalse => exact escape_piece u h
  rename_i h1
  have hs := hsm h1
  split
  · subst u; exact ⟨.esc '\\', rfl, short_piece _ _ (by decide) (by decide) (by decide) hs⟩
  split
  · subst u; exact ⟨.esc '"', rfl, short_piece _ _ (by decide) (by decide) (by decide) hs⟩
  split
  · subst u; exact ⟨.esc 'b', rfl, short_piece _ _ (by decide) (by decide) (by decide) hs⟩
  split
  · subst u; exact ⟨.esc 'f', rfl, short_piece _ _ (by decide) (by decide) (by decide) hs⟩
  split
  · subst u; exact ⟨.esc 'n', rfl, short_piece _ _ (by decide) (by decide) (by decide) hs⟩
  split
  · subst u; exact ⟨.esc 'r', rfl, short_piece _ _ (by decide) (by decide) (by decide) hs⟩
  split
  · subst u; exact ⟨.esc 't', rfl, short_piece _ _ (by decide) (by decide) (by decide) hs⟩
  split
  · exact escape_piece u h
  rename_i h2 h3 _ _ _ _ _ h4
  have hn : (Char.ofNat u).toNat = u := toNat_ofNat (by unfold Nat.isValidChar; omega)
  refine ⟨.raw (Char.ofNat u), rfl, ?_, ?_, ?_, ?_⟩
  · constructor
    · intro e; exact h3 (by rw [← hn, e]; rfl)
    · intro e; exact h2 (by rw [← hn, e]; rfl)
  · simp only [Piece.units, Piece.unitsOf, hn]
    rw [if_pos (by omega)]
  · intro c hc
    simp only [Piece.text, List.mem_singleton] at hc
    subst hc
    omega
  · simp [Piece.Surrogate, hs]

/-- the pieces written for a string -/
theorem units_pieces (s : JsStr) (h : Units s) :
    ∃ ps, writeUnits s = .ok (ps.flatMap Piece.text) ∧ List.Forall₂ PieceFor s ps := by
  induction s with
  | nil => exact ⟨[], rfl, .nil⟩
  | cons u s ih =>
    obtain ⟨p, hp, hp'⟩ := unit_piece u (h u (by simp))
    obtain ⟨ps, hps, hps'⟩ := ih fun x hx => h x (by simp [hx])
    refine ⟨p :: ps, ?_, .cons hp' hps'⟩
    rw [writeUnits, hp, hps]; rfl

theorem PieceFor.each {s : JsStr} {ps : List Piece} (h : List.Forall₂ PieceFor s ps) :
    ∀ p ∈ ps, ∃ u ∈ s, PieceFor u p := by
  induction h with
  | nil => simp
  | cons h1 h2 ih =>
    intro p hp
    rcases List.mem_cons.1 hp with rfl | hp
    · exact ⟨_, by simp, h1⟩
    · obtain ⟨u, hu, h⟩ := ih p hp
      exact ⟨u, by simp [hu], h⟩

theorem PieceFor.flat {s : JsStr} {ps : List Piece} (h : List.Forall₂ PieceFor s ps) :
    ps.flatMap Piece.units = s := by
  induction h with
  | nil => rfl
  | cons h1 h2 ih => rw [List.flatMap_cons, h1.units, ih]; rfl

/-! ## C52 -/

/-- **C52**: the text written for a string is a quote, pieces and a quote, where a piece is a
character other than quote and backslash or an escape of JSON; all characters are in
`0x20 ..= 0x7F`.  Writing never panics. -/
theorem C52_ascii (s : JsStr) (h : Units s) :
    ∃ t ps, writeJsString s = .ok t ∧ t = literal ps ∧ (∀ p ∈ ps, p.Valid) ∧
      ∀ c ∈ t, 0x20 ≤ c.toNat ∧ c.toNat ≤ 0x7F := by
  obtain ⟨ps, h1, h2⟩ := units_pieces s h
  refine ⟨literal ps, ps, by rw [writeJsString, h1]; rfl, rfl, fun p hp => ?_, fun c hc => ?_⟩
  · obtain ⟨u, -, h⟩ := PieceFor.each h2 p hp
    exact h.valid
  · simp only [literal, List.mem_cons, List.mem_append, List.mem_flatMap, List.not_mem_nil,
      or_false] at hc
    rcases hc with rfl | ⟨p, hp, hc⟩ | rfl
    · decide
    · obtain ⟨u, -, h⟩ := PieceFor.each h2 p hp
      exact h.ascii c hc
    · decide

/-- **C52**: by the meaning of JSON literals (`Spec/StringLit.lean`) the text denotes exactly the
code units of the string, for all strings, also with lone surrogates. -/
theorem C52_denotes (s : JsStr) (h : Units s) :
    ∃ ps, writeJsString s = .ok (literal ps) ∧ (∀ p ∈ ps, p.Valid) ∧
      ps.flatMap Piece.units = s := by
  obtain ⟨ps, h1, h2⟩ := units_pieces s h
  refine ⟨ps, by rw [writeJsString, h1]; rfl, fun p hp => ?_, PieceFor.flat h2⟩
  obtain ⟨u, -, h⟩ := PieceFor.each h2 p hp
  exact h.valid

/-- the string `a"\n😀` and half a pair -/
example : Units [97, 34, 10, 0xD83D, 0xDE00, 0xDC00] ∧
    writeJsString [97, 34, 10, 0xD83D, 0xDE00, 0xDC00] =
      .ok "\"a\\\"\\n\\uD83D\\uDE00\\uDC00\"".toList := by
  constructor
  · unfold Units; decide
  · decide +kernel

/-! ## C50 -/

/-- **C50**, proved part: strings without surrogates, of any length and before any text.
Missing: strings with surrogates, which are not read back (`C50_surrogates_rejected`). -/
theorem C50_read_back_partial (s : JsStr) (h : Units s) (hs : ∀ u ∈ s, ¬ SurrogateUnit u) :
    ∃ t c, writeJsString s = .ok t ∧ tokenize conv t = .ok [.string c] ∧ toJsString c = s ∧
      run conv .initial t = .ok ([.string c], .initial) := by
  obtain ⟨ps, h1, h2⟩ := units_pieces s h
  have hv : ∀ p ∈ ps, p.Valid := fun p hp => by
    obtain ⟨u, -, h⟩ := PieceFor.each h2 p hp
    exact h.valid
  have hn : ∀ p ∈ ps, ¬ p.Surrogate := fun p hp hq => by
    obtain ⟨u, hu, h⟩ := PieceFor.each h2 p hp
    exact hs u hu (h.surrogate.1 hq)
  obtain ⟨c, hc⟩ := C33_content_exists ps hv hn
  obtain ⟨h3, h4⟩ := C33_literal_partial (conv := conv) ps c hv hn hc
  refine ⟨literal ps, c, by rw [writeJsString, h1]; rfl, h3, ?_, h4⟩
  rw [content, PieceFor.flat h2] at hc
  exact C58_onto s c hc

example : Units [97, 0, 0xE9, 0xFFFF] ∧ ∀ u ∈ [97, 0, 0xE9, 0xFFFF], ¬ SurrogateUnit u := by
  unfold Units SurrogateUnit; decide

/-- **C50**: a string with a surrogate, in particular every string with a character outside the
basic plane, is written as a text that the tokenizer rejects. -/
theorem C50_surrogates_rejected (s : JsStr) (h : Units s) (hs : ∃ u ∈ s, SurrogateUnit u) :
    ∃ t, writeJsString s = .ok t ∧
      ∀ r, tokenize conv t = .ok r → ∃ r', r = .error .invalidHex :: r' := by
  obtain ⟨ps, h1, h2⟩ := units_pieces s h
  refine ⟨literal ps, by rw [writeJsString, h1]; rfl, ?_⟩
  -- the first surrogate
  have key : ∃ a p b, ps = a ++ p :: b ∧ (∀ q ∈ a, q.Valid) ∧ (∀ q ∈ a, ¬ q.Surrogate) ∧
      p.Valid ∧ p.Surrogate := by
    clear h1 h
    induction h2 with
    | nil => simp at hs
    | @cons u p s ps hp _ ih =>
      by_cases hu : SurrogateUnit u
      · exact ⟨[], p, ps, rfl, by simp, by simp, hp.valid, hp.surrogate.2 hu⟩
      · obtain ⟨x, hx, hx'⟩ := hs
        rcases List.mem_cons.1 hx with rfl | hx
        · exact absurd hx' hu
        · obtain ⟨a, q, b, rfl, h1, h2, h3, h4⟩ := ih ⟨x, hx, hx'⟩
          refine ⟨p :: a, q, b, rfl, ?_, ?_, h3, h4⟩
          · intro y hy
            rcases List.mem_cons.1 hy with rfl | hy
            · exact hp.valid
            · exact h1 y hy
          · intro y hy
            rcases List.mem_cons.1 hy with rfl | hy
            · exact fun hy' => hu (hp.surrogate.1 hy')
            · exact h2 y hy
  obtain ⟨a, p, b, rfl, k1, k2, k3, k4⟩ := key
  intro r hr
  exact C33_surrogate_rejected (conv := conv) a p (b.flatMap Piece.text ++ ['"']) r k1 k2 k3 k4
    (by rw [← hr]; simp [literal])

/-- **C50** does not hold: `😀` is written as `"😀"`, which is not accepted. -/
theorem C50_violated : ¬ StringsReadBack conv := by
  intro h
  obtain ⟨t, c, h1, h2, -⟩ := h [0xD83D, 0xDE00] (by unfold Units; decide)
  obtain ⟨t', h3, h4⟩ := C50_surrogates_rejected (conv := conv) [0xD83D, 0xDE00]
    (by unfold Units; decide) ⟨0xD83D, by simp, by unfold SurrogateUnit; decide⟩
  rw [h1] at h3
  cases h3
  obtain ⟨r, hr⟩ := h4 _ h2
  cases hr

end Nanvm
