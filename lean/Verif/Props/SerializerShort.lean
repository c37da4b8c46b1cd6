import Verif.Props.SerializerString
/-!
# Property theorem C82: strings are written as short as ASCII allows
-/
namespace Nanvm
open Tok Ser

/-- a text of printable ASCII characters (and `0x7F`, which the code writes as it is) -/
def Plain (t : Text) : Prop := ∀ c ∈ t, 0x20 ≤ c.toNat ∧ c.toNat ≤ 0x7F

/-- the piece written for a unit is no longer than any other ASCII piece that denotes the unit -/
theorem unit_short (p : Piece) (hv : p.Valid) (hp : Plain p.text) :
    ∃ u t, p.units = [u] ∧ writeUnit u = .ok t ∧ t.length ≤ p.text.length := by
  cases p with
  | raw c =>
    have h := hp c (by simp [Piece.text])
    refine ⟨c.toNat, [Char.ofNat c.toNat], ?_, ?_, by simp [Piece.text]⟩
    · simp only [Piece.units, Piece.unitsOf]
      rw [if_pos (by omega)]
    · unfold writeUnit
      have h1 : c.toNat ≠ 0x5C := fun e => hv.2 (by rw [← Char.ofNat_toNat c, e])
      have h2 : c.toNat ≠ 0x22 := fun e => hv.1 (by rw [← Char.ofNat_toNat c, e])
      rw [if_pos (by omega), if_neg h1, if_neg h2, if_neg (by omega), if_neg (by omega),
        if_neg (by omega), if_neg (by omega), if_neg (by omega), if_neg (by omega)]
  | esc c =>
    have : c ∈ ['"', '\\', '/', 'b', 'f', 'n', 'r', 't'] := by
      simp only [Piece.Valid, Piece.escaped] at hv
      split at hv <;> simp_all
    simp only [List.mem_cons, List.not_mem_nil, or_false] at this
    rcases this with rfl | rfl | rfl | rfl | rfl | rfl | rfl | rfl <;>
      exact ⟨_, _, rfl, rfl, by decide⟩
  | uni a b c d =>
    refine ⟨Piece.hex4 a b c d, ?_⟩
    have hlt : Piece.hex4 a b c d < 2 ^ 16 := hex4_lt hv
    obtain ⟨q, hq, hq'⟩ := unit_piece _ hlt
    refine ⟨q.text, by simp [Piece.units], hq, ?_⟩
    cases q <;> simp [Piece.text]

/-- **C82**: among all string literals of JSON that consist of ASCII characters without control
characters and denote a string, the written one is as short as possible.  (`literal ps` is a quote, the
pieces and a quote; `Piece.units` are the code units that a piece denotes.) -/
theorem C82_shortest (s : JsStr) (h : Units s) :
    ∃ t, writeJsString s = .ok t ∧
      ∀ ps : List Piece, (∀ p ∈ ps, p.Valid) → Plain (literal ps) → ps.flatMap Piece.units = s →
        t.length ≤ (literal ps).length := by
  obtain ⟨qs, h1, -⟩ := units_pieces s h
  refine ⟨literal qs, by rw [writeJsString, h1]; rfl, ?_⟩
  intro ps hv hp e
  have key : ∀ (ps : List Piece) (s : JsStr), (∀ p ∈ ps, p.Valid ∧ Plain p.text) →
      ps.flatMap Piece.units = s → ∃ t, writeUnits s = .ok t ∧ t.length ≤ (ps.flatMap Piece.text).length := by
    intro ps
    induction ps with
    | nil => rintro s - rfl; exact ⟨[], rfl, by simp⟩
    | cons p ps ih =>
      intro s hps e
      obtain ⟨u, t, hu, ht, hl⟩ := unit_short p (hps p (by simp)).1 (hps p (by simp)).2
      obtain ⟨t', ht', hl'⟩ := ih _ (fun q hq => hps q (by simp [hq])) rfl
      subst e
      rw [List.flatMap_cons, hu]
      refine ⟨t ++ t', ?_, ?_⟩
      · rw [List.singleton_append, writeUnits, ht, ht']; rfl
      · rw [List.flatMap_cons, List.length_append, List.length_append]; omega
  obtain ⟨t, ht, hl⟩ := key ps s (fun p hp' => ⟨hv p hp', fun c hc => hp c (by
    simp only [literal, List.mem_cons, List.mem_append, List.mem_flatMap, List.not_mem_nil, or_false]
    exact .inr (.inl ⟨p, hp', hc⟩))⟩) e
  rw [h1] at ht
  cases ht
  simp only [literal, List.length_cons, List.length_append, List.length_nil]
  omega

/-- a slash, a quote, a bell and a letter outside ASCII: `"/\"\u0007é"`; a longer way to write it -/
example : writeJsString [0x2F, 0x22, 7, 0xE9] = .ok "\"/\\\"\\u0007\\u00E9\"".toList ∧
    (∀ p ∈ [Piece.esc '/', .uni '0' '0' '2' '2', .uni '0' '0' '0' '7', .uni '0' '0' 'e' '9'], p.Valid) ∧
    [Piece.esc '/', .uni '0' '0' '2' '2', .uni '0' '0' '0' '7', .uni '0' '0' 'e' '9'].flatMap Piece.units =
      [0x2F, 0x22, 7, 0xE9] := by
  refine ⟨by decide +kernel, ?_, by decide +kernel⟩
  simp only [List.forall_mem_cons, List.not_mem_nil, false_imp_iff, implies_true, and_true, Piece.Valid]
  decide +kernel

end Nanvm
