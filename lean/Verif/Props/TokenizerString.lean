import Verif.Props.TokenizerRun
import Verif.Props.Utf16
import Verif.Spec.StringLit
/-!
# Property theorems C33: string literals
-/
namespace Nanvm
open Tok

variable {conv : BigFloat → Res Nat}

/-- the full claim: valid literals with a content become one token with that content -/
def StringLiteralsDecode (conv : BigFloat → Res Nat) : Prop :=
  ∀ (ps : List Piece) (s : Text), (∀ p ∈ ps, p.Valid) → content ps = some s →
    tokenize conv (literal ps) = .ok [.string s]

/-- The code rejects the literal `"\uD83D\uDE00"`. -/
theorem C33_surrogate_pair_violated : ¬ StringLiteralsDecode conv := by
  intro h
  have h1 := h [.uni 'D' '8' '3' 'D', .uni 'D' 'E' '0' '0'] ['😀'] (by decide) (by decide)
  have h2 : ∃ q, tokenize conv (literal [.uni 'D' '8' '3' 'D', .uni 'D' 'E' '0' '0']) =
      (q : Res (List Token)).bind fun q => .ok ([.error .invalidHex] ++ q) := by
    have hr : run conv .initial "\"\\uD83D".toList = .ok ([.error .invalidHex], .initial) := by rfl
    refine ⟨finish conv .initial "\\uDE00\"".toList, ?_⟩
    rw [tokenize_eq, ← finish_append hr]
    rfl
  obtain ⟨q, h2⟩ := h2
  rw [h1] at h2
  obtain ⟨a, -, h3⟩ := bind_ok h2.symm
  cases h3

/-! ## Lemmas -/

/-- the character a piece denotes (unless it is a surrogate) -/
def Piece.char : Piece → Char
  | .raw c => c
  | .esc c => (Piece.escaped c).getD c
  | .uni a b c d => Char.ofNat (Piece.hex4 a b c d)

theorem hexVal_lt {c : Char} {v : Nat} (h : hexVal c = some v) : v < 16 := by
  unfold hexVal at h
  split at h
  · rename_i h1; have := digit_le h1; cases h; omega
  split at h
  · rename_i h1; have := low_hex_le h1; cases h; omega
  split at h
  · rename_i h1; have := up_hex_le h1; cases h; omega
  · cases h

theorem or_shift {x v m : Nat} (hv : v < 16) (hx : x % 2 ^ (m + 4) = 0) :
    x ||| (v <<< m) = x + v * 2 ^ m := by
  obtain ⟨a, rfl⟩ := Nat.dvd_of_mod_eq_zero hx
  have h : v <<< m < 2 ^ (m + 4) := by
    rw [Nat.shiftLeft_eq, Nat.pow_add, Nat.mul_comm]
    exact Nat.mul_lt_mul_of_pos_left (by simpa using hv) (by positivity)
  rw [← Nat.two_pow_add_eq_or_of_lt h a, Nat.shiftLeft_eq]

theorem charFromU32_eq {n : Nat} (h : n < 0x10000) :
    charFromU32 n = if 0xD800 ≤ n ∧ n < 0xE000 then none else some (Char.ofNat n) := by
  unfold charFromU32
  by_cases hs : 0xD800 ≤ n ∧ n < 0xE000
  · rw [if_pos hs, if_neg (by unfold Nat.isValidChar; omega)]
  · rw [if_neg hs, if_pos (by unfold Nat.isValidChar; omega)]

/-- one hexadecimal digit of `\uXXXX` -/
theorem step_unicode {s : Text} {u k : Nat} {c : Char} {v : Nat} (hv : hexVal c = some v)
    (hk : k ≤ 2) (hu : u % 16 ^ (4 - k) = 0) :
    step conv (.parseUnicodeChar ⟨s, u, k⟩) c =
      .ok ([], .parseUnicodeChar ⟨s, u + v * 16 ^ (3 - k), k + 1⟩) := by
  have h16 : ∀ n, (16 : Nat) ^ n = 2 ^ (n * 4) := fun n => by
    rw [Nat.mul_comm, Nat.pow_mul]
  have e : u ||| (v <<< ((3 - k) * 4)) = u + v * 16 ^ (3 - k) := by
    rw [h16]
    apply or_shift (hexVal_lt hv)
    rw [← hu, h16]
    congr 2; omega
  simp only [step, hv, UnicodeState.push, subU, if_pos (show k ≤ 3 by omega), bind, Except.bind]
  rw [if_neg (by omega), if_pos hk, e]
  rfl

theorem step_unicode_last {s : Text} {u : Nat} {c : Char} {v : Nat} (hv : hexVal c = some v)
    (hu : u % 16 = 0) (hlt : u < 0x10000) :
    step conv (.parseUnicodeChar ⟨s, u, 3⟩) c =
      .ok (if 0xD800 ≤ u + v ∧ u + v < 0xE000 then ([.error .invalidHex], .initial)
        else ([], .parseString (s ++ [Char.ofNat (u + v)]))) := by
  have hv16 := hexVal_lt hv
  have e : u ||| (v <<< ((3 - 3) * 4)) = u + v := by
    have := or_shift (m := 0) hv16 (by simpa using hu)
    simpa using this
  simp only [step, hv, UnicodeState.push, subU, if_pos (Nat.le_refl 3), bind, Except.bind]
  rw [if_pos trivial, e, charFromU32_eq (by omega)]
  split
  · rename_i h
    split at h
    · cases h
    · rename_i h'; rw [if_neg h']; cases h; rfl
  · rename_i h
    split at h
    · rename_i h'; rw [if_pos h']; rfl
    · cases h

theorem run_uni {s : Text} {a b c d : Char} (h : (Piece.uni a b c d).Valid) :
    run conv (.parseString s) (Piece.uni a b c d).text =
      .ok (if (Piece.uni a b c d).Surrogate then ([.error .invalidHex], .initial)
        else ([], .parseString (s ++ [(Piece.uni a b c d).char]))) := by
  obtain ⟨ha, hb, hc, hd⟩ := h
  obtain ⟨va, ha⟩ := Option.isSome_iff_exists.1 ha
  obtain ⟨vb, hb⟩ := Option.isSome_iff_exists.1 hb
  obtain ⟨vc, hc⟩ := Option.isSome_iff_exists.1 hc
  obtain ⟨vd, hd⟩ := Option.isSome_iff_exists.1 hd
  have la := hexVal_lt ha; have lb := hexVal_lt hb; have lc := hexVal_lt hc
  have ld := hexVal_lt hd
  have s1 : step conv (.parseString s) '\\' = .ok ([], .parseEscapeChar s) := rfl
  have s2 : step conv (.parseEscapeChar s) 'u' = .ok ([], .parseUnicodeChar ⟨s, 0, 0⟩) := rfl
  have s3 := step_unicode (conv := conv) (s := s) (u := 0) (k := 0) ha (by omega) (by simp)
  have s4 := step_unicode (conv := conv) (s := s) (u := 0 + va * 16 ^ (3 - 0)) (k := 0 + 1) hb
    (by omega) (by omega)
  have s5 := step_unicode (conv := conv) (s := s)
    (u := 0 + va * 16 ^ (3 - 0) + vb * 16 ^ (3 - (0 + 1))) (k := 0 + 1 + 1) hc
    (by omega) (by omega)
  have s6 := step_unicode_last (conv := conv) (s := s)
    (u := 0 + va * 16 ^ (3 - 0) + vb * 16 ^ (3 - (0 + 1)) + vc * 16 ^ (3 - (0 + 1 + 1))) hd
    (by omega) (by omega)
  have e : 0 + va * 16 ^ (3 - 0) + vb * 16 ^ (3 - (0 + 1)) + vc * 16 ^ (3 - (0 + 1 + 1)) + vd =
      Piece.hex4 a b c d := by
    simp only [Piece.hex4, ha, hb, hc, hd, Option.getD_some]; omega
  rw [e] at s6
  rw [Piece.text, run_cons_ok s1, run_cons_ok s2, run_cons_ok s3, run_cons_ok s4, run_cons_ok s5,
    run_one]
  simp only [Nat.zero_add, Nat.reduceAdd] at s6 ⊢
  rw [s6]
  rfl

theorem run_piece {s : Text} {p : Piece} (h : p.Valid) (hs : ¬ p.Surrogate) :
    run conv (.parseString s) p.text = .ok ([], .parseString (s ++ [p.char])) := by
  cases p with
  | raw c =>
    obtain ⟨h1, h2⟩ := h
    rw [Piece.text, run_one]
    simp [step, stepString, h1, h2, Piece.char]
  | esc c =>
    have s1 : step conv (.parseString s) '\\' = .ok ([], .parseEscapeChar s) := rfl
    rw [Piece.text, run_cons_ok s1, run_one]
    obtain ⟨e, he⟩ := Option.isSome_iff_exists.1 h
    have : c = '"' ∨ c = '\\' ∨ c = '/' ∨ c = 'b' ∨ c = 'f' ∨ c = 'n' ∨ c = 'r' ∨ c = 't' := by
      unfold Piece.escaped at he
      split at he <;> simp_all
    rcases this with rfl | rfl | rfl | rfl | rfl | rfl | rfl | rfl <;> rfl
  | uni a b c d => rw [run_uni h, if_neg hs]

theorem run_pieces {s : Text} {ps : List Piece} (h : ∀ p ∈ ps, p.Valid)
    (hs : ∀ p ∈ ps, ¬ p.Surrogate) :
    run conv (.parseString s) (ps.flatMap Piece.text) =
      .ok ([], .parseString (s ++ ps.map Piece.char)) := by
  induction ps generalizing s with
  | nil => simp [run]
  | cons p ps ih =>
    rw [List.flatMap_cons, run_append_ok (run_piece (h p (by simp)) (hs p (by simp))),
      ih (fun q hq => h q (by simp [hq])) (fun q hq => hs q (by simp [hq]))]
    simp [Except.bind]

theorem unitsOf_eq (c : Char) : Piece.unitsOf c = encodeChar c := (encodeChar_eq c).symm

theorem hex4_lt {a b c d : Char} (h : (Piece.uni a b c d).Valid) : Piece.hex4 a b c d < 0x10000 := by
  obtain ⟨ha, hb, hc, hd⟩ := h
  obtain ⟨va, ha⟩ := Option.isSome_iff_exists.1 ha
  obtain ⟨vb, hb⟩ := Option.isSome_iff_exists.1 hb
  obtain ⟨vc, hc⟩ := Option.isSome_iff_exists.1 hc
  obtain ⟨vd, hd⟩ := Option.isSome_iff_exists.1 hd
  have la := hexVal_lt ha; have lb := hexVal_lt hb; have lc := hexVal_lt hc
  have ld := hexVal_lt hd
  simp only [Piece.hex4, ha, hb, hc, hd, Option.getD_some]; omega

theorem piece_units {p : Piece} (h : p.Valid) (hs : ¬ p.Surrogate) :
    p.units = encodeChar p.char := by
  cases p with
  | raw c => exact unitsOf_eq c
  | esc c => exact unitsOf_eq _
  | uni a b c d =>
    have hlt := hex4_lt h
    simp only [Piece.Surrogate] at hs
    have hv : (Piece.hex4 a b c d).isValidChar := by unfold Nat.isValidChar; omega
    rw [Piece.units, Piece.char, encodeChar_eq, toNat_ofNat hv, if_pos hlt]

theorem content_eq {ps : List Piece} (h : ∀ p ∈ ps, p.Valid) (hs : ∀ p ∈ ps, ¬ p.Surrogate) :
    content ps = some (ps.map Piece.char) := by
  have : ps.flatMap Piece.units = toJsString (ps.map Piece.char) := by
    induction ps with
    | nil => rfl
    | cons p ps ih =>
      have e : toJsString ((p :: ps).map Piece.char) =
        encodeChar p.char ++ toJsString (ps.map Piece.char) := rfl
      rw [e, List.flatMap_cons, piece_units (h p (by simp)) (hs p (by simp)),
        ih (fun q hq => h q (by simp [hq])) (fun q hq => hs q (by simp [hq]))]
  rw [content, this, C58_lossless]

/-! ## C33 -/

/-- Proved part: literals without `\u` escapes of surrogates, of any length, before any text.
Missing: characters outside the basic plane written as two `\u` escapes
(`C33_surrogate_rejected`). -/
theorem C33_literal_partial (ps : List Piece) (s : Text) (hv : ∀ p ∈ ps, p.Valid)
    (hs : ∀ p ∈ ps, ¬ p.Surrogate) (hc : content ps = some s) :
    tokenize conv (literal ps) = .ok [.string s] ∧
    run conv .initial (literal ps) = .ok ([.string s], .initial) := by
  rw [content_eq hv hs] at hc
  cases hc
  have s1 : step conv .initial '"' = .ok ([], .parseString []) := rfl
  have hrun : run conv .initial (literal ps) = .ok ([.string (ps.map Piece.char)], .initial) := by
    rw [literal, run_cons_ok s1, run_append_ok (run_pieces hv hs), run_one]
    rfl
  refine ⟨?_, hrun⟩
  rw [tokenize_eq, finish, hrun]
  rfl

/-- The content of such a literal exists. -/
theorem C33_content_exists (ps : List Piece) (hv : ∀ p ∈ ps, p.Valid)
    (hs : ∀ p ∈ ps, ¬ p.Surrogate) : ∃ s, content ps = some s := ⟨_, content_eq hv hs⟩

example : let ps : List Piece := [.raw 'a', .raw '😀', .esc 'n', .uni '0' '0' 'e' 'A']
    (∀ p ∈ ps, p.Valid) ∧ (∀ p ∈ ps, ¬ p.Surrogate) ∧ content ps = some ['a', '😀', '\n', 'ê'] := by
  decide

/-- A `\u` escape of a surrogate makes the first token an error. -/
theorem C33_surrogate_rejected (ps : List Piece) (p : Piece) (rest : Text) (r : List Token)
    (hv : ∀ q ∈ ps, q.Valid) (hs : ∀ q ∈ ps, ¬ q.Surrogate) (hp : p.Valid) (hps : p.Surrogate)
    (hr : tokenize conv ('"' :: (ps.flatMap Piece.text ++ (p.text ++ rest))) = .ok r) :
    ∃ r', r = .error .invalidHex :: r' := by
  have s1 : step conv .initial '"' = .ok ([], .parseString []) := rfl
  rw [tokenize_eq, finish_cons s1, finish_append (run_pieces hv hs)] at hr
  have hrun : run conv (.parseString ([] ++ ps.map Piece.char)) p.text =
      .ok ([.error .invalidHex], .initial) := by
    cases p with
    | raw c => exact hps.elim
    | esc c => exact hps.elim
    | uni a b c d => rw [run_uni hp, if_pos hps]
  rw [finish_append hrun] at hr
  obtain ⟨q, h1, hr⟩ := bind_ok hr
  obtain ⟨q', h2, h1⟩ := bind_ok h1
  obtain ⟨q'', h3, h2⟩ := bind_ok h2
  cases h2; cases h1; cases hr
  exact ⟨q'', rfl⟩

example : (Piece.uni 'd' '8' '3' 'D').Valid ∧ (Piece.uni 'd' '8' '3' 'D').Surrogate := by decide

theorem finish_cons_ok {st st' : State} {c : Char} {ts r : List Token} {b : Text}
    (h : step conv st c = .ok (ts, st')) (hr : finish conv st (c :: b) = .ok r) :
    ∃ q, finish conv st' b = .ok q ∧ r = ts ++ q := by
  rw [finish_cons h] at hr
  obtain ⟨q, h1, hr⟩ := bind_ok hr
  cases hr
  exact ⟨q, h1, rfl⟩

/-- the first token is an error -/
def ErrorFirst (ts : List Token) : Prop := ∃ e r, ts = .error e :: r

/-- the outcome of the tokens `ts` of a literal whose content up to now is `s`, rest `t` -/
def LiteralOutcome (conv : BigFloat → Res Nat) (s t : Text) (ts : List Token) : Prop :=
  ErrorFirst ts ∨ ∃ (ps : List Piece) (rem : Text) (rest : List Token), t = ps.flatMap Piece.text ++ '"' :: rem ∧
    (∀ p ∈ ps, p.Valid) ∧ (∀ p ∈ ps, ¬ p.Surrogate) ∧
    ts = .string (s ++ ps.map Piece.char) :: rest ∧ finish conv .initial rem = .ok rest

theorem LiteralOutcome.cons {s t t' : Text} {ts : List Token} {p : Piece}
    (h : LiteralOutcome conv (s ++ [p.char]) t' ts) (ht : t = p.text ++ t') (hv : p.Valid)
    (hs : ¬ p.Surrogate) : LiteralOutcome conv s t ts := by
  rcases h with h | ⟨ps, rem, rest, h1, h2, h3, h4, h5⟩
  · exact Or.inl h
  · refine Or.inr ⟨p :: ps, rem, rest, ?_, ?_, ?_, ?_, h5⟩
    · rw [ht, h1]; simp
    · intro q hq; rcases List.mem_cons.1 hq with rfl | hq
      · exact hv
      · exact h2 q hq
    · intro q hq; rcases List.mem_cons.1 hq with rfl | hq
      · exact hs
      · exact h3 q hq
    · rw [h4]; simp

/-- reading a `\u` escape: an error, or a hexadecimal digit and on -/
theorem unicode_digit {u : UnicodeState} {t : Text} {ts : List Token}
    (h : finish conv (.parseUnicodeChar u) t = .ok ts) :
    ErrorFirst ts ∨ ∃ c v t', t = c :: t' ∧ hexVal c = some v := by
  cases t with
  | nil => rw [finish_nil] at h; cases h; exact Or.inl ⟨_, _, rfl⟩
  | cons c t =>
    cases hv : hexVal c with
    | some v => exact Or.inr ⟨c, v, t, rfl, hv⟩
    | none =>
      left
      have hs : step conv (.parseUnicodeChar u) c =
          .ok (.error .invalidHex :: (stepString u.s c).1, (stepString u.s c).2) := by
        simp only [step, hv]
      obtain ⟨q, -, rfl⟩ := finish_cons_ok hs h
      exact ⟨_, _, rfl⟩

theorem string_outcome (n : Nat) (s t : Text) (ts : List Token) (hn : t.length ≤ n)
    (h : finish conv (.parseString s) t = .ok ts) : LiteralOutcome conv s t ts := by
  induction n generalizing s t ts with
  | zero =>
    have : t = [] := List.length_eq_zero_iff.1 (by omega)
    subst this
    rw [finish_nil] at h; cases h
    exact Or.inl ⟨_, _, rfl⟩
  | succ n ih =>
    cases t with
    | nil => rw [finish_nil] at h; cases h; exact Or.inl ⟨_, _, rfl⟩
    | cons c t =>
      simp only [List.length_cons] at hn
      by_cases hq : c = '"'
      · subst hq
        have s1 : step conv (.parseString s) '"' = .ok ([.string s], .initial) := rfl
        obtain ⟨q, hq, rfl⟩ := finish_cons_ok s1 h
        exact Or.inr ⟨[], t, q, rfl, by simp, by simp, by simp, hq⟩
      by_cases hb : c = '\\'
      · subst hb
        have s1 : step conv (.parseString s) '\\' = .ok ([], .parseEscapeChar s) := rfl
        obtain ⟨q, hq, rfl⟩ := finish_cons_ok s1 h
        cases t with
        | nil => rw [finish_nil] at hq; cases hq; exact Or.inl ⟨_, _, rfl⟩
        | cons c t =>
          simp only [List.length_cons] at hn
          by_cases hu : c = 'u'
          · subst hu
            have s2 : step conv (.parseEscapeChar s) 'u' = .ok ([], .parseUnicodeChar ⟨s, 0, 0⟩) :=
              rfl
            obtain ⟨q, hq, rfl⟩ := finish_cons_ok s2 hq
            rcases unicode_digit hq with he | ⟨a, va, t1, rfl, ha⟩
            · exact Or.inl he
            have la := hexVal_lt ha
            have s3 := step_unicode (conv := conv) (s := s) (u := 0) (k := 0) ha (by omega) (by simp)
            obtain ⟨q, hq, rfl⟩ := finish_cons_ok s3 hq
            rcases unicode_digit hq with he | ⟨b, vb, t2, rfl, hb⟩
            · exact Or.inl he
            have lb := hexVal_lt hb
            have s4 := step_unicode (conv := conv) (s := s) (u := 0 + va * 16 ^ (3 - 0))
              (k := 0 + 1) hb (by omega) (by omega)
            obtain ⟨q, hq, rfl⟩ := finish_cons_ok s4 hq
            rcases unicode_digit hq with he | ⟨c, vc, t3, rfl, hc⟩
            · exact Or.inl he
            have lc := hexVal_lt hc
            have s5 := step_unicode (conv := conv) (s := s)
              (u := 0 + va * 16 ^ (3 - 0) + vb * 16 ^ (3 - (0 + 1))) (k := 0 + 1 + 1) hc
              (by omega) (by omega)
            obtain ⟨q, hq, rfl⟩ := finish_cons_ok s5 hq
            rcases unicode_digit hq with he | ⟨d, vd, t4, rfl, hd⟩
            · exact Or.inl he
            have ld := hexVal_lt hd
            have s6 := step_unicode_last (conv := conv) (s := s)
              (u := 0 + va * 16 ^ (3 - 0) + vb * 16 ^ (3 - (0 + 1)) + vc * 16 ^ (3 - (0 + 1 + 1)))
              hd (by omega) (by omega)
            have e : 0 + va * 16 ^ (3 - 0) + vb * 16 ^ (3 - (0 + 1)) + vc * 16 ^ (3 - (0 + 1 + 1))
                + vd = Piece.hex4 a b c d := by
              simp only [Piece.hex4, ha, hb, hc, hd, Option.getD_some]; omega
            rw [e] at s6
            have hv : (Piece.uni a b c d).Valid := by simp [Piece.Valid, ha, hb, hc, hd]
            by_cases hsur : (Piece.uni a b c d).Surrogate
            · rw [if_pos (by exact hsur)] at s6
              obtain ⟨q, -, rfl⟩ := finish_cons_ok s6 hq
              exact Or.inl ⟨_, _, rfl⟩
            · rw [if_neg (by exact hsur)] at s6
              obtain ⟨q, hq, rfl⟩ := finish_cons_ok s6 hq
              have := ih _ t4 _ (by simp only [List.length_cons] at hn; omega) hq
              exact this.cons (p := .uni a b c d) rfl hv hsur
          cases he : Piece.escaped c with
          | some e =>
            have s2 : step conv (.parseEscapeChar s) c = .ok ([], .parseString (s ++ [e])) := by
              unfold Piece.escaped at he
              split at he <;> first | (cases he; rfl) | cases he
            obtain ⟨q, hq, rfl⟩ := finish_cons_ok s2 hq
            have := ih _ t _ (by omega) hq
            refine LiteralOutcome.cons (p := .esc c) ?_ rfl (by simp [Piece.Valid, he])
              (by simp [Piece.Surrogate])
            simpa [Piece.char, he] using this
          | none =>
            left
            have s2 : step conv (.parseEscapeChar s) c =
                .ok (.error .unexpectedCharacter :: (stepString s c).1, (stepString s c).2) := by
              have hne : c ≠ '"' ∧ c ≠ '\\' ∧ c ≠ '/' ∧ c ≠ 'b' ∧ c ≠ 'f' ∧ c ≠ 'n' ∧ c ≠ 'r' ∧
                  c ≠ 't' := by
                refine ⟨?_, ?_, ?_, ?_, ?_, ?_, ?_, ?_⟩ <;> rintro rfl <;> cases he
              obtain ⟨n1, n2, n3, n4, n5, n6, n7, n8⟩ := hne
              simp [step, stepEscape, n1, n2, n3, n4, n5, n6, n7, n8, hu]
            obtain ⟨q, -, rfl⟩ := finish_cons_ok s2 hq
            exact ⟨_, _, rfl⟩
      · have s1 : step conv (.parseString s) c = .ok ([], .parseString (s ++ [c])) := by
          simp [step, stepString, hq, hb]
        obtain ⟨q, hq', rfl⟩ := finish_cons_ok s1 h
        exact (ih _ t _ (by omega) hq').cons (p := .raw c) rfl ⟨hq, hb⟩ (by simp [Piece.Surrogate])

/-- Nothing is accepted silently: after an opening quote the first token is an error token, or
the text begins with a valid literal, the token holds its content and tokenizing goes on after
the closing quote. -/
theorem C33_no_silent_acceptance (t : Text) (ts : List Token)
    (h : tokenize conv ('"' :: t) = .ok ts) :
    (∃ e r, ts = .error e :: r) ∨
    ∃ ps rem s rest, '"' :: t = literal ps ++ rem ∧ (∀ p ∈ ps, p.Valid) ∧ content ps = some s ∧
      ts = .string s :: rest ∧ tokenize conv rem = .ok rest := by
  rw [tokenize_eq] at h
  have s1 : step conv .initial '"' = .ok ([], .parseString []) := rfl
  obtain ⟨q, hq, rfl⟩ := finish_cons_ok s1 h
  rcases string_outcome _ _ t _ (Nat.le_refl _) hq with h | ⟨ps, rem, rest, h1, h2, h3, h4, h5⟩
  · exact Or.inl h
  · refine Or.inr ⟨ps, rem, _, rest, ?_, h2, content_eq h2 h3, h4, ?_⟩
    · rw [h1]; simp [literal]
    · rw [tokenize_eq, h5]

/-- Unterminated literals and malformed escapes have no such beginning, so they give an error. -/
theorem C33_malformed_rejected (t : Text) (ts : List Token)
    (h : tokenize conv ('"' :: t) = .ok ts)
    (hbad : ∀ ps rem, (∀ p ∈ ps, p.Valid) → '"' :: t ≠ literal ps ++ rem) :
    ∃ e r, ts = .error e :: r := by
  rcases C33_no_silent_acceptance t ts h with h | ⟨ps, rem, _, _, h1, h2, _⟩
  · exact h
  · exact absurd h1 (hbad ps rem h2)

/-- reading a literal never panics -/
example : tokenize conv "\"\\x\"".toList = .ok [.error .unexpectedCharacter, .string ['x']] := rfl
example : tokenize conv "\"ab".toList = .ok [.error .missingQuotes] := rfl

end Nanvm
