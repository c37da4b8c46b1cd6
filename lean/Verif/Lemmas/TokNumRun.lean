import Verif.Lemmas.TokNum
/-!
# Reading whole number literals
-/
namespace Nanvm
namespace Tok
open NumLit

variable {conv : BigFloat → Res Nat}

/-- the end of the text or a character that ends a number -/
def NumEnd (rem : Text) : Prop := ∀ c r, rem = c :: r → isTerminal c = true

/-- `st` turns into the token `tok` as soon as a number may end -/
def Accepts (conv : BigFloat → Res Nat) (st : State) (tok : Token) : Prop :=
  (∀ c, isTerminal c = true → step conv st c = .ok (andInitial [tok] c)) ∧
  endTokens conv st = .ok [tok]

theorem finish_andInitial {st : State} {tok : Token} {c : Char}
    (h : step conv st c = .ok (andInitial [tok] c)) (r : Text) :
    finish conv st (c :: r) = (tokenize conv (c :: r)).bind fun q => .ok (tok :: q) := by
  rw [tokenize_eq, finish_cons (st := .initial) (ts := (stepInitial c).1) (st' := (stepInitial c).2) rfl,
    finish_cons (ts := [tok] ++ (stepInitial c).1) (st' := (stepInitial c).2) (by rw [h]; rfl)]
  cases finish conv (stepInitial c).2 r <;> simp [Except.bind]

theorem Accepts.finish {st : State} {tok : Token} (h : Accepts conv st tok) {rem : Text}
    (hr : NumEnd rem) : finish conv st rem = (tokenize conv rem).bind fun q => .ok (tok :: q) := by
  cases rem with
  | nil =>
    rw [finish_nil, h.2]
    rfl
  | cons c r => exact finish_andInitial (h.1 c (hr c r rfl)) r

theorem terminal_facts {c : Char} (h : isTerminal c = true) :
    isDigit c = false ∧ isDigit19 c = false ∧ c ≠ '.' ∧ isExp c = false ∧ c ≠ 'n' ∧ c ≠ '0' ∧
    c ≠ '+' ∧ c ≠ '-' := by
  simp only [isTerminal, isWhite, isBlank, isPunct, Bool.or_eq_true, decide_eq_true_eq] at h
  rcases h with (((((h | h) | h) | h) | (((((((((h | h) | h) | h) | h) | h) | h) | h) | h) | h)) | h) | h
  all_goals subst h; decide

theorem exp_facts {c : Char} (h : isExp c = true) : isDigit c = false ∧ c ≠ '.' ∧ c ≠ 'n' := by
  simp only [isExp, Bool.or_eq_true, decide_eq_true_eq] at h
  rcases h with h | h
  all_goals subst h; decide

theorem run_int_digits (s : Sign) (cs : Text) (hcs : AllDigits cs) :
    ∀ (pre : Text) (b : JsBig), Is b (decVal pre) →
    ∃ b', run conv (.parseInt ⟨b, s⟩) cs = .ok ([], .parseInt ⟨b', s⟩) ∧ Is b' (decVal (pre ++ cs)) := by
  induction cs with
  | nil => intro pre b hb; exact ⟨b, rfl, by simpa using hb⟩
  | cons c cs ih =>
    intro pre b hb
    have hc := hcs c (by simp)
    obtain ⟨b1, h1, h2⟩ := addDigit_ok hb hc
    rw [← decVal_snoc] at h2
    obtain ⟨b2, h3, h4⟩ := ih (fun x hx => hcs x (by simp [hx])) (pre ++ [c]) b1 h2
    refine ⟨b2, ?_, by simpa using h4⟩
    rw [run_cons_ok (ts := []) (st' := .parseInt ⟨b1, s⟩), h3]
    · rfl
    · simp only [step, hc, if_true, h1]; rfl

theorem i64_of {x : Int} (h1 : -2 ^ 63 ≤ x) (h2 : x < 2 ^ 63) : i64 x = .ok x := by
  unfold i64; rw [if_pos ⟨h1, h2⟩]

theorem floatAddDigit_total {b : JsBig} {m : Nat} {s : Sign} {fe : Int} {c : Char}
    (hb : Is b m) (hc : isDigit c = true) (h1 : -2 ^ 63 < fe) (h2 : fe ≤ 0) :
    ∃ b', FloatState.addDigit ⟨b, s, fe⟩ c = .ok ⟨b', s, fe - 1⟩ ∧ Is b' (10 * m + digitNum c) := by
  obtain ⟨b', e1, e2⟩ := addDigit_ok hb hc
  refine ⟨b', ?_, e2⟩
  simp only [FloatState.addDigit, e1, bind, Except.bind, i64_of (show -2 ^ 63 ≤ fe - 1 by omega)
    (show fe - 1 < 2 ^ 63 by omega)]
  rfl

theorem run_frac_digits (s : Sign) (cs : Text) (hcs : AllDigits cs) :
    ∀ (pre fs : Text) (b : JsBig), Is b (decVal (pre ++ fs)) → fs.length + cs.length < 2 ^ 62 →
    ∃ b', run conv (.parseFrac ⟨b, s, -(fs.length : Int)⟩) cs =
      .ok ([], .parseFrac ⟨b', s, -((fs ++ cs).length : Int)⟩) ∧ Is b' (decVal (pre ++ (fs ++ cs))) := by
  induction cs with
  | nil => intro pre fs b hb _; exact ⟨b, by simp [run], by simpa using hb⟩
  | cons c cs ih =>
    intro pre fs b hb hl
    simp only [List.length_cons] at hl
    have hc := hcs c (by simp)
    obtain ⟨b1, h1, h2⟩ := floatAddDigit_total (s := s) (fe := -(fs.length : Int)) hb hc
      (by omega) (by omega)
    rw [← decVal_snoc, List.append_assoc] at h2
    obtain ⟨b2, h3, h4⟩ := ih (fun x hx => hcs x (by simp [hx])) pre (fs ++ [c]) b1 h2
      (by simp; omega)
    refine ⟨b2, ?_, by simpa using h4⟩
    rw [run_cons_ok (ts := []) (st' := .parseFrac ⟨b1, s, -((fs ++ [c]).length : Int)⟩), h3]
    · simp [Except.bind]
    · simp only [step, hc, if_true, h1, bind, Except.bind, pure, Except.pure]
      rw [show -(fs.length : Int) - 1 = -((fs ++ [c]).length : Int) by simp; omega]

theorem decVal_append_ge (a b : Text) : decVal a ≤ decVal (a ++ b) := by
  induction b using List.reverseRecOn with
  | nil => simp
  | append_singleton b c ih => rw [← List.append_assoc, decVal_snoc]; omega

theorem expAddDigit_total {x : ExpState} {c : Char} {n : Nat} (hx : x.e = n) (hc : isDigit c = true)
    (h : 10 * n + digitNum c < 2 ^ 62) :
    x.addDigit c = .ok { x with e := ((10 * n + digitNum c : Nat) : Int) } := by
  have e : x.e * 10 + (digitNum c : Int) = ((10 * n + digitNum c : Nat) : Int) := by
    rw [hx]; push_cast; ring
  have h1 : i64 (x.e * 10) = .ok (x.e * 10) := i64_of (by omega) (by omega)
  have h2 : i64 (x.e * 10 + (digitNum c : Int)) = .ok ((10 * n + digitNum c : Nat) : Int) := by
    rw [e]; exact i64_of (by omega) (by omega)
  simp only [ExpState.addDigit, digitToNumber_eq hc, bind, Except.bind, h1, h2]
  rfl

theorem run_exp_digits (b : JsBig) (s es : Sign) (fe : Int) (cs : Text) (hcs : AllDigits cs) :
    ∀ (pre : Text), decVal (pre ++ cs) < 2 ^ 62 →
    run conv (.parseExp ⟨b, s, fe, es, decVal pre⟩) cs =
      .ok ([], .parseExp ⟨b, s, fe, es, decVal (pre ++ cs)⟩) := by
  induction cs with
  | nil => intro pre _; simp [run]
  | cons c cs ih =>
    intro pre hl
    have hc := hcs c (by simp)
    have hp : decVal (pre ++ [c]) < 2 ^ 62 := by
      have := decVal_append_ge (pre ++ [c]) cs
      simp only [List.append_assoc, List.singleton_append] at this
      omega
    rw [run_cons_ok (ts := []) (st' := .parseExp ⟨b, s, fe, es, decVal (pre ++ [c])⟩),
      ih (fun x hx => hcs x (by simp [hx])) (pre ++ [c]) (by simpa using hl)]
    · simp [Except.bind]
    · rw [decVal_snoc] at hp
      simp only [step, hc, if_true]
      rw [expAddDigit_total rfl hc hp, decVal_snoc]
      rfl

/-- the integer part -/
theorem run_intPart (neg : Bool) {ds : Text} (h : IntPart ds) :
    (ds = ['0'] ∧ run conv .initial (signText neg ++ ds) = .ok ([], .parseZero (sg neg))) ∨
    (ds ≠ ['0'] ∧ ∃ b, Is b (decVal ds) ∧
      run conv .initial (signText neg ++ ds) = .ok ([], .parseInt ⟨b, sg neg⟩)) := by
  rcases h with rfl | ⟨c, cs, rfl, hc, hcs⟩
  · left
    refine ⟨rfl, ?_⟩
    cases neg
    · rw [show signText false ++ ['0'] = ['0'] from rfl, run_one]; rfl
    · rw [show signText true ++ ['0'] = ['-'] ++ ['0'] from rfl]
      exact run_trans (s2 := .parseMinus) (t1 := []) (by rw [run_one]; rfl) (by rw [run_one]; rfl)
  · right
    have h0 : c ≠ '0' := by rintro rfl; revert hc; decide
    refine ⟨by simp [h0], ?_⟩
    have hd := digit_le (digit19_digit hc)
    have hb : Is (JsBig.fromU64 .pos (digitNum c)) (decVal [c]) := by
      have := is_fromU64 (digitNum c) (by unfold digitNum; omega)
      simpa [decVal, digitNum] using this
    obtain ⟨b, h1, h2⟩ := run_int_digits (conv := conv) (sg neg) cs hcs [c] _ hb
    refine ⟨b, by simpa using h2, ?_⟩
    have hop : isOp c = false := by
      have e := hd
      simp only [isOp, isPunct, Bool.or_eq_false_iff, decide_eq_false_iff_not]
      refine ⟨⟨⟨⟨⟨⟨⟨⟨⟨⟨?_, ?_⟩, ?_⟩, ?_⟩, ?_⟩, ?_⟩, ?_⟩, ?_⟩, ?_⟩, ?_⟩, ?_⟩
      all_goals rintro rfl; revert hc; decide
    cases neg
    · rw [show signText false ++ c :: cs = [c] ++ cs from rfl]
      exact run_trans (t1 := []) (by rw [run_one]; simp [step, stepInitial, hop, hc]; rfl) h1
    · rw [show signText true ++ c :: cs = ['-'] ++ ([c] ++ cs) from rfl]
      refine run_trans (t1 := []) (s2 := .parseMinus) (by rw [run_one]; rfl) ?_
      exact run_trans (t1 := []) (by rw [run_one]; simp [step, h0, hc]; rfl) h1

/-- integer and fraction part -/
theorem run_mant (l : NumLit) (hl : l.Lax) (hlen : l.text.length < 2 ^ 62) :
    ∃ b st, Is b l.mant ∧
      run conv .initial (signText l.neg ++ (l.int ++ fracText l.frac)) = .ok ([], st) ∧
      ((l.int = ['0'] ∧ l.frac = none ∧ st = .parseZero (sg l.neg)) ∨
       (l.int ≠ ['0'] ∧ l.frac = none ∧ st = .parseInt ⟨b, sg l.neg⟩) ∨
       (l.frac ≠ none ∧ st = .parseFrac ⟨b, sg l.neg, -((l.frac.getD []).length : Int)⟩)) := by
  obtain ⟨neg, ds, fr, ex⟩ := l
  cases fr with
  | none =>
    rcases run_intPart (conv := conv) neg hl.int with ⟨h1, h2⟩ | ⟨h1, b, hb, h2⟩
    · simp only at h1
      subst h1
      refine ⟨JsBig.fromU64 .pos 0, _, ?_, by simpa [fracText] using h2, Or.inl ⟨rfl, rfl, rfl⟩⟩
      exact is_zero _
    · refine ⟨b, _, by simpa [mant] using hb, by simpa [fracText] using h2,
        Or.inr (Or.inl ⟨h1, rfl, rfl⟩)⟩
  | some fs =>
    obtain ⟨hne, hfs⟩ := hl.frac fs rfl
    obtain ⟨c, cs, rfl⟩ : ∃ c cs, fs = c :: cs := by
      cases fs with
      | nil => exact absurd rfl hne
      | cons c cs => exact ⟨c, cs, rfl⟩
    have hc := hfs c (by simp)
    have hcs : AllDigits cs := fun x hx => hfs x (by simp [hx])
    have hlen' : cs.length + 1 < 2 ^ 62 := by
      simp only [text, fracText, List.length_append, List.length_cons] at hlen
      omega
    have hdot : ∃ b0, Is b0 (decVal ds) ∧ run conv .initial (signText neg ++ (ds ++ ['.'])) =
        .ok ([], .parseFracBegin ⟨b0, sg neg⟩) := by
      rw [← List.append_assoc]
      rcases run_intPart (conv := conv) neg hl.int with ⟨h1, h2⟩ | ⟨h1, b, hb, h2⟩
      · simp only at h1
        subst h1
        exact ⟨JsBig.fromU64 .pos 0, is_zero _, run_trans h2 (by rw [run_one]; rfl)⟩
      · exact ⟨b, hb, run_trans h2 (by rw [run_one]; rfl)⟩
    obtain ⟨b0, hb0, h1⟩ := hdot
    obtain ⟨b1, h2, hb1⟩ := floatAddDigit_total (s := sg neg) (fe := 0) hb0 hc (by norm_num) (by norm_num)
    rw [← decVal_snoc] at hb1
    obtain ⟨b2, h3, hb2⟩ := run_frac_digits (conv := conv) (sg neg) cs hcs ds [c] b1 hb1
      (by simp; omega)
    refine ⟨b2, _, by simpa [mant] using hb2, ?_, Or.inr (Or.inr ⟨by simp, rfl⟩)⟩
    rw [show signText neg ++ (ds ++ fracText (some (c :: cs))) =
      (signText neg ++ (ds ++ ['.'])) ++ ([c] ++ cs) by simp [fracText]]
    refine run_trans h1 (run_trans (t1 := []) (t2 := []) ?_ h3)
    rw [run_one]
    simp only [step, hc, if_true, IntState.intoFloat, h2]
    rfl

theorem accepts_zero (s : Sign) : Accepts conv (.parseZero s) (.number 0) := by
  refine ⟨fun c hc => ?_, rfl⟩
  obtain ⟨-, -, h1, h2, h3, -⟩ := terminal_facts hc
  simp [step, h1, h2, h3, hc]

theorem accepts_int {b : JsBig} {s : Sign} {v : Nat} (h : conv ⟨b, s, 0, false⟩ = .ok v) :
    Accepts conv (.parseInt ⟨b, s⟩) (.number v) := by
  have ht : intToken conv ⟨b, s⟩ = .ok (.number v) := by
    simp only [intToken, h]; rfl
  refine ⟨fun c hc => ?_, ?_⟩
  · obtain ⟨h0, -, h1, h2, h3, -⟩ := terminal_facts hc
    simp [step, h0, h1, h2, h3, hc, ht]
  · simp [endTokens, ht]

theorem accepts_frac {b : JsBig} {s : Sign} {fe : Int} {v : Nat} (h : conv ⟨b, s, fe, false⟩ = .ok v) :
    Accepts conv (.parseFrac ⟨b, s, fe⟩) (.number v) := by
  have ht : floatToken conv ⟨b, s, fe⟩ = .ok (.number v) := by
    simp only [floatToken, h]; rfl
  refine ⟨fun c hc => ?_, ?_⟩
  · obtain ⟨h0, -, h1, h2, h3, -⟩ := terminal_facts hc
    simp [step, h0, h2, hc, ht]
  · simp [endTokens, ht]

theorem expToken_total {l : NumLit} {e : ExpPart} {b : JsBig} {v : Nat}
    (he : l.exp = some e) (hlen : (l.frac.getD []).length < 2 ^ 62) (hv : decVal e.digits < 2 ^ 62)
    (h : conv ⟨b, sg l.neg, l.expo, false⟩ = .ok v) :
    expToken conv ⟨b, sg l.neg, -((l.frac.getD []).length : Int), sg (e.sign = some '-'),
      decVal e.digits⟩ = .ok (.number v) := by
  have hx : l.expo = -((l.frac.getD []).length : Int) + e.value := by
    rw [NumLit.expo, he]; simp only; omega
  unfold expToken
  by_cases hs : e.sign = some '-'
  · have e1 : e.value = -(decVal e.digits : Int) := by simp [ExpPart.value, hs]
    simp only [hs, sg, decide_true, if_true]
    rw [i64_of (by omega) (by omega)]
    simp only [bind, Except.bind]
    rw [i64_of (by omega) (by omega), ← e1, ← hx]
    simp only [sg] at h
    simp [h, pure, Except.pure]
  · have e1 : e.value = (decVal e.digits : Int) := by simp [ExpPart.value, hs]
    simp only [hs, sg, decide_false, Bool.false_eq_true, if_false, bind, Except.bind]
    rw [i64_of (by omega) (by omega), ← e1, ← hx]
    simp only [sg] at h
    simp [h, pure, Except.pure]

/-- a whole literal -/
theorem run_lit (l : NumLit) (hl : l.Valid) (hlen : l.text.length < 2 ^ 62)
    (he : ∀ e, l.exp = some e → decVal e.digits < 2 ^ 62) (v : Nat) (hv : LitValue conv l v) :
    ∃ st, run conv .initial l.text = .ok ([], st) ∧ Accepts conv st (.number v) := by
  obtain ⟨b, st, hb, hrun, hst⟩ := run_mant (conv := conv) l hl.1 hlen
  have huniq : ∀ b', Is b' l.mant → b' = b := fun b' h' =>
    C03_canonical_unique _ _ h'.1 hb.1 (by rw [h'.2, hb.2])
  have htext : l.text = (signText l.neg ++ (l.int ++ fracText l.frac)) ++ expText l.exp := by
    simp [text]
  have hfl : (l.frac.getD []).length < 2 ^ 62 := by
    rw [htext] at hlen
    cases h : l.frac with
    | none => simp
    | some fs => simp [fracText, h] at hlen ⊢; omega
  cases hexp : l.exp with
  | none =>
    rw [htext, hexp]
    simp only [expText, List.append_nil]
    refine ⟨st, hrun, ?_⟩
    have hexpo : l.expo = -((l.frac.getD []).length : Int) := by rw [expo, hexp]; simp
    rcases hst with ⟨h1, h2, rfl⟩ | ⟨h1, h2, rfl⟩ | ⟨h2, rfl⟩
    · rw [LitValue, if_pos ⟨h1, h2, hexp⟩] at hv
      rw [hv]; exact accepts_zero _
    · rw [LitValue, if_neg (by simp [h1])] at hv
      obtain ⟨b', h3, h4⟩ := hv
      rw [huniq b' h3, hexpo, h2] at h4
      exact accepts_int (by simpa using h4)
    · rw [LitValue, if_neg (by simp [h2])] at hv
      obtain ⟨b', h3, h4⟩ := hv
      rw [huniq b' h3, hexpo] at h4
      exact accepts_frac h4
  | some e =>
    rw [LitValue, if_neg (by simp [hexp])] at hv
    obtain ⟨b', h3, h4⟩ := hv
    rw [huniq b' h3] at h4
    have hex := hl.1.exp e hexp
    have hne := hl.2 e hexp
    have hlt := he e hexp
    refine ⟨.parseExp ⟨b, sg l.neg, -((l.frac.getD []).length : Int), sg (e.sign = some '-'),
      decVal e.digits⟩, ?_, ?_⟩
    · rw [htext, hexp]
      simp only [expText, ExpPart.text]
      have hm : ∃ b0, Is b0 l.mant ∧ step conv st e.marker =
          .ok ([], .parseExpBegin ⟨b0, sg l.neg, -((l.frac.getD []).length : Int), .pos, 0⟩) := by
        obtain ⟨g1, g2, g3⟩ := exp_facts hex.marker
        rcases hst with ⟨h1, h2, rfl⟩ | ⟨h1, h2, rfl⟩ | ⟨h2, rfl⟩
        · have hz : l.mant = 0 := by simp [mant, h1, h2, decVal]
          refine ⟨JsBig.fromU64 (sg l.neg) 0, by rw [hz]; exact is_zero _, ?_⟩
          simp [step, g2, hex.marker, h2]
        · exact ⟨b, hb, by simp [step, g1, g2, hex.marker, h2, IntState.intoExp]⟩
        · exact ⟨b, hb, by simp [step, g1, hex.marker, FloatState.intoExp]⟩
      obtain ⟨b0, hb0, hm⟩ := hm
      rw [huniq b0 hb0] at hm
      refine run_trans (t1 := []) (t2 := []) hrun ?_
      rw [run_cons_ok hm]
      obtain ⟨c, cs, hds⟩ : ∃ c cs, e.digits = c :: cs := by
        cases h : e.digits with
        | nil => exact absurd h hne
        | cons c cs => exact ⟨c, cs, rfl⟩
      have hc : isDigit c = true := hex.digits c (by simp [hds])
      have hcs : AllDigits cs := fun x hx => hex.digits x (by simp [hds, hx])
      rw [hds] at hlt ⊢
      have h1c : decVal [c] < 2 ^ 62 := by
        have := decVal_append_ge [c] cs
        simp only [List.singleton_append] at this
        omega
      have hfirst : ∀ es, ExpState.addDigit ⟨b, sg l.neg, -((l.frac.getD []).length : Int), es, 0⟩ c =
          .ok ⟨b, sg l.neg, -((l.frac.getD []).length : Int), es, decVal [c]⟩ := by
        intro es
        rw [expAddDigit_total (n := 0) rfl hc (by simpa [decVal, digitNum] using h1c)]
        simp [decVal, digitNum]
      have hrest : ∀ es, run conv (.parseExp ⟨b, sg l.neg, -((l.frac.getD []).length : Int), es,
          decVal [c]⟩) cs = .ok ([], .parseExp ⟨b, sg l.neg, -((l.frac.getD []).length : Int), es,
            decVal (c :: cs)⟩) := by
        intro es
        exact run_exp_digits b _ es _ cs hcs [c] hlt
      cases hs : e.sign with
      | none =>
        simp only [Option.toList, List.nil_append]
        rw [run_cons_ok (ts := []) (st' := .parseExp ⟨b, sg l.neg,
          -((l.frac.getD []).length : Int), .pos, decVal [c]⟩), hrest]
        · rfl
        · simp only [step, hc, if_true, hfirst]; rfl
      | some sc =>
        simp only [Option.toList, List.singleton_append]
        have hsc := hex.sign sc hs
        rw [run_cons_ok (ts := []) (st' := .parseExpSign ⟨b, sg l.neg,
          -((l.frac.getD []).length : Int), sg (sc = '-'), 0⟩)]
        · rw [run_cons_ok (ts := []) (st' := .parseExp ⟨b, sg l.neg,
            -((l.frac.getD []).length : Int), sg (sc = '-'), decVal [c]⟩), hrest]
          · simp [Except.bind]
          · simp only [step, hc, if_true, hfirst]; rfl
        · rcases hsc with rfl | rfl
          · rfl
          · rfl
    · have ht := expToken_total hexp hfl hlt h4
      refine ⟨fun c hc => ?_, ?_⟩
      · obtain ⟨h0, -⟩ := terminal_facts hc
        simp only [step, h0, hc, if_true, Bool.false_eq_true, if_false, ht]; rfl
      · simp only [endTokens, ht]; rfl

/-- a whole bigint literal -/
theorem run_big (neg : Bool) {ds : Text} (h : IntPart ds) :
    ∃ b, b.Canon ∧ b.toInt = signed (sg neg) (decVal ds) ∧
      run conv .initial (bigText neg ds) = .ok ([], .parseBigInt b) := by
  have e : bigText neg ds = (signText neg ++ ds) ++ ['n'] := by simp [bigText]
  rw [e]
  rcases run_intPart (conv := conv) neg h with ⟨rfl, h2⟩ | ⟨h1, b, hb, h2⟩
  · refine ⟨JsBig.fromU64 (sg neg) 0, (is_zero _).1, ?_, run_trans h2 (by rw [run_one]; rfl)⟩
    rw [(is_zero _).2]; cases neg <;> rfl
  · have hneg := C01_negative_exact b hb.1
    refine ⟨IntState.intoBigint ⟨b, sg neg⟩, ?_, ?_, run_trans h2 (by rw [run_one]; rfl)⟩
    · cases neg
      exacts [hb.1, hneg.2]
    · cases neg
      · exact hb.2
      · show (JsBig.negative b).toInt = _
        rw [hneg.1, hb.2]; rfl

theorem accepts_big (b : JsBig) : Accepts conv (.parseBigInt b) (.bigInt b) :=
  ⟨fun c hc => by simp [step, hc], rfl⟩

end Tok
end Nanvm
