import Verif.Model.Release
import Verif.Lemmas.TokNumRun
/-!
# The tokenizer of a release build
-/
namespace Nanvm

theorem wrap64_id {x : Int} (h1 : -2 ^ 63 ≤ x) (h2 : x < 2 ^ 63) : wrap64 x = x := by
  unfold wrap64; omega

theorem wrap64_range (x : Int) : -2 ^ 63 ≤ wrap64 x ∧ wrap64 x < 2 ^ 63 := by
  unfold wrap64; omega

theorem wrap64_mod (x : Int) : ∃ k, wrap64 x = x + k * 2 ^ 64 := by
  unfold wrap64
  exact ⟨-((x + 2 ^ 63) / 2 ^ 64), by omega⟩

theorem wrap64_congr {x y : Int} (h : ∃ k, x = y + k * 2 ^ 64) : wrap64 x = wrap64 y := by
  obtain ⟨k, rfl⟩ := h
  unfold wrap64; omega

namespace Tok
open NumLit

variable {conv : BigFloat → Res Nat}

/-- the overflow panic -/
abbrev ovf {α : Type} : Res α := .error (.panic .overflow)

/-- `r` is the debug result unless the debug build panics for overflow -/
def Unless {α : Type} (d r : Res α) : Prop := d = ovf ∨ r = d

theorem Unless.rfl' {α : Type} {d : Res α} : Unless d d := Or.inr rfl

theorem Unless.bind {α β : Type} {d r : Res α} {f g : α → Res β} (h : Unless d r)
    (hf : ∀ a, Unless (f a) (g a)) : Unless (d.bind f) (r.bind g) := by
  rcases h with rfl | rfl
  · exact Or.inl rfl
  · cases r with
    | error e => exact Or.inr rfl
    | ok a => exact hf a

theorem unless_i64 (x : Int) : Unless (i64 x) (.ok (wrap64 x)) := by
  unfold i64
  split
  · rename_i h; right; rw [wrap64_id h.1 h.2]
  · left; rfl

theorem unless_float (f : FloatState) (c : Char) : Unless (f.addDigit c) (f.addDigitR c) := by
  show Unless (Except.bind (addDigit f.b c) fun b => (i64 (f.fe - 1)).bind fun fe => .ok { f with b, fe })
    (Except.bind (addDigit f.b c) fun b => Except.bind (.ok (wrap64 (f.fe - 1))) fun fe =>
      .ok { f with b, fe })
  exact Unless.rfl'.bind fun b => (unless_i64 _).bind fun fe => Unless.rfl'

theorem unless_exp (x : ExpState) (c : Char) : Unless (x.addDigit c) (x.addDigitR c) := by
  show Unless (Except.bind (digitToNumber c) fun d => (i64 (x.e * 10)).bind fun y =>
      (i64 (y + d)).bind fun e => .ok { x with e })
    (Except.bind (digitToNumber c) fun d => Except.bind (.ok (wrap64 (x.e * 10))) fun y =>
      Except.bind (.ok (wrap64 (y + d))) fun e => .ok { x with e })
  exact Unless.rfl'.bind fun d => (unless_i64 _).bind fun y => (unless_i64 _).bind fun e => Unless.rfl'

theorem unless_token (x : ExpState) : Unless (expToken conv x) (expTokenR conv x) := by
  obtain ⟨b, s, fe, es, e⟩ := x
  cases es
  · show Unless ((i64 (fe + e)).bind fun n => (conv ⟨b, s, n, false⟩).bind fun v => .ok (Token.number v))
      (Except.bind (.ok (wrap64 (fe + e))) fun n => (conv ⟨b, s, n, false⟩).bind fun v => .ok (Token.number v))
    exact (unless_i64 _).bind fun n => Unless.rfl'
  · show Unless ((i64 (-e)).bind fun m => (i64 (fe + m)).bind fun n =>
        (conv ⟨b, s, n, false⟩).bind fun v => .ok (Token.number v))
      (Except.bind (.ok (wrap64 (-e))) fun m => Except.bind (.ok (wrap64 (fe + m))) fun n =>
        (conv ⟨b, s, n, false⟩).bind fun v => .ok (Token.number v))
    exact (unless_i64 _).bind fun m => (unless_i64 _).bind fun n => Unless.rfl'

/-- `pushR` with the tables looked up -/
def stepR (conv : BigFloat → Res Nat) (st : State) (c : Char) : Res Out :=
  match st with
  | .parseFracBegin i =>
    if isDigit c then (i.intoFloat.addDigitR c).bind fun f => .ok ([], .parseFrac f)
    else .ok (badNumber c)
  | .parseFrac f =>
    if isDigit c then (f.addDigitR c).bind fun f => .ok ([], .parseFrac f)
    else if isExp c then .ok ([], .parseExpBegin f.intoExp)
    else if isTerminal c then (floatToken conv f).bind fun t => .ok (andInitial [t] c)
    else .ok (badNumber c)
  | .parseExpBegin x =>
    if isDigit c then (x.addDigitR c).bind fun x => .ok ([], .parseExp x)
    else if c = '+' then .ok ([], .parseExpSign x)
    else if c = '-' then .ok ([], .parseExpSign { x with es := .neg })
    else if isTerminal c then (expTokenR conv x).bind fun t => .ok (andInitial [t] c)
    else .ok (badNumber c)
  | .parseExpSign x | .parseExp x =>
    if isDigit c then (x.addDigitR c).bind fun x => .ok ([], .parseExp x)
    else if isTerminal c then (expTokenR conv x).bind fun t => .ok (andInitial [t] c)
    else .ok (badNumber c)
  | st => step conv st c

theorem transfer_push (vec : List Token) (c : Char) :
    transfer (push conv) vec .initial c = .ok (andInitial vec c) := transfer_initial conv 1 vec c

theorem pushR_eq_stepR (st : State) (c : Char) : pushR conv st c = stepR conv st c := by
  cases st
  case parseFracBegin i =>
    simp only [pushR, lookup_fracBegin, bind, fracBeginClass, stepR, invalidNumber, transfer_push]
    simp only [Except.bind]
    (repeat' split) <;> first | rfl | simp_all
  case parseFrac f =>
    simp only [pushR, lookup_frac, bind, fracClass, stepR, invalidNumber, transfer_push]
    simp only [Except.bind]
    cases floatToken conv f <;> (repeat' split) <;> first | rfl | simp_all
  case parseExpBegin x =>
    simp only [pushR, lookup_expBegin, bind, expBeginClass, stepR, invalidNumber, transfer_push]
    simp only [Except.bind]
    cases expTokenR conv x <;> (repeat' split) <;> first | rfl | simp_all
  case parseExpSign x =>
    simp only [pushR, lookup_exp, bind, expClass, stepR, invalidNumber, transfer_push]
    simp only [Except.bind]
    cases expTokenR conv x <;> (repeat' split) <;> first | rfl | simp_all
  case parseExp x =>
    simp only [pushR, lookup_exp, bind, expClass, stepR, invalidNumber, transfer_push]
    simp only [Except.bind]
    cases expTokenR conv x <;> (repeat' split) <;> first | rfl | simp_all
  all_goals exact push_eq_step conv _ c

theorem unless_step (st : State) (c : Char) : Unless (step conv st c) (stepR conv st c) := by
  cases st
  case parseFracBegin i =>
    simp only [step, stepR]
    split
    · exact (unless_float _ _).bind fun _ => Unless.rfl'
    · exact Unless.rfl'
  case parseFrac f =>
    simp only [step, stepR]
    split
    · exact (unless_float _ _).bind fun _ => Unless.rfl'
    · exact Unless.rfl'
  case parseExpBegin x =>
    simp only [step, stepR]
    repeat' split
    any_goals exact Unless.rfl'
    · exact (unless_exp _ _).bind fun _ => Unless.rfl'
    · exact (unless_token _).bind fun _ => Unless.rfl'
  case parseExpSign x =>
    simp only [step, stepR]
    repeat' split
    any_goals exact Unless.rfl'
    · exact (unless_exp _ _).bind fun _ => Unless.rfl'
    · exact (unless_token _).bind fun _ => Unless.rfl'
  case parseExp x =>
    simp only [step, stepR]
    repeat' split
    any_goals exact Unless.rfl'
    · exact (unless_exp _ _).bind fun _ => Unless.rfl'
    · exact (unless_token _).bind fun _ => Unless.rfl'
  all_goals exact Unless.rfl'

theorem runR_cons (st : State) (c : Char) (cs : Text) :
    runR conv st (c :: cs) = (stepR conv st c).bind fun p => (runR conv p.2 cs).bind fun q =>
      .ok (p.1 ++ q.1, q.2) := by
  rw [runR, pushR_eq_stepR]; rfl

theorem unless_run (t : Text) : ∀ st, Unless (run conv st t) (runR conv st t) := by
  induction t with
  | nil => intro st; exact Unless.rfl'
  | cons c cs ih =>
    intro st
    rw [run_cons, runR_cons]
    exact (unless_step st c).bind fun p => (ih p.2).bind fun _ => Unless.rfl'

theorem unless_end (st : State) : Unless (endTokens conv st) (endTokensR conv st) := by
  cases st
  case parseExp x => exact (unless_token x).bind fun _ => Unless.rfl'
  all_goals exact Unless.rfl'

theorem unless_tokenize (t : Text) : Unless (tokenize conv t) (tokenizeR conv t) :=
  (unless_run t .initial).bind fun p => (unless_end p.2).bind fun _ => Unless.rfl'

/-! ## Literals -/

theorem runR_of_run {st st' : State} {t : Text} {ts : List Token}
    (h : run conv st t = .ok (ts, st')) : runR conv st t = .ok (ts, st') := by
  rcases unless_run (conv := conv) t st with h' | h'
  · rw [h] at h'; cases h'
  · rw [h', h]

theorem runR_cons_ok {st : State} {c : Char} {cs : Text} {ts : List Token} {st' : State}
    (h : stepR conv st c = .ok (ts, st')) :
    runR conv st (c :: cs) = (runR conv st' cs).bind fun q => .ok (ts ++ q.1, q.2) := by
  rw [runR_cons, h]; rfl

theorem runR_append_ok {st st' : State} {a : Text} {ts : List Token}
    (h : runR conv st a = .ok (ts, st')) (b : Text) :
    runR conv st (a ++ b) = (runR conv st' b).bind fun q => .ok (ts ++ q.1, q.2) := by
  induction a generalizing st ts with
  | nil =>
    cases h
    simp only [List.nil_append]
    cases runR conv st' b <;> rfl
  | cons c cs ih =>
    rw [List.cons_append, runR_cons]
    rw [runR_cons] at h
    cases e : stepR conv st c with
    | error x => rw [e] at h; cases h
    | ok p =>
      rw [e] at h
      simp only [Except.bind] at h ⊢
      cases e2 : runR conv p.2 cs with
      | error x => rw [e2] at h; cases h
      | ok q =>
        rw [e2] at h
        cases h
        rw [ih e2]
        cases runR conv q.2 b with
        | error x => rfl
        | ok w => simp [Except.bind]

theorem expR_digit {x : ExpState} {c : Char} {n : Nat} (hx : x.e = wrap64 n) (hc : isDigit c = true) :
    x.addDigitR c = .ok { x with e := wrap64 ((10 * n + digitNum c : Nat) : Int) } := by
  simp only [ExpState.addDigitR, digitToNumber_eq hc, bind, Except.bind, pure, Except.pure]
  rw [hx, wrap64_congr (y := ((10 * n + digitNum c : Nat) : Int))]
  obtain ⟨k, hk⟩ := wrap64_mod n
  obtain ⟨j, hj⟩ := wrap64_mod (wrap64 n * 10)
  rw [hj, hk]
  exact ⟨10 * k + j, by push_cast; ring⟩

theorem runR_exp_digits (b : JsBig) (s es : Sign) (fe : Int) (cs : Text) (hcs : AllDigits cs) :
    ∀ (pre : Text), runR conv (.parseExp ⟨b, s, fe, es, wrap64 (decVal pre)⟩) cs =
      .ok ([], .parseExp ⟨b, s, fe, es, wrap64 (decVal (pre ++ cs))⟩) := by
  induction cs with
  | nil => intro pre; simp [runR]
  | cons c cs ih =>
    intro pre
    have hc := hcs c (by simp)
    rw [runR_cons_ok (ts := []) (st' := .parseExp ⟨b, s, fe, es, wrap64 (decVal (pre ++ [c]))⟩),
      ih (fun x hx => hcs x (by simp [hx])) (pre ++ [c])]
    · simp [Except.bind]
    · simp only [stepR, hc, if_true]
      rw [expR_digit (x := ⟨b, s, fe, es, wrap64 (decVal pre)⟩) (n := decVal pre) rfl hc, decVal_snoc]
      rfl

theorem expTokenR_eq {l : NumLit} {e : ExpPart} {b : JsBig} (he : l.exp = some e) :
    expTokenR conv ⟨b, sg l.neg, -((l.frac.getD []).length : Int), sg (e.sign = some '-'),
      wrap64 (decVal e.digits)⟩ =
      (conv ⟨b, sg l.neg, wrap64 l.expo, false⟩).bind fun v => .ok (.number v) := by
  have hx : l.expo = -((l.frac.getD []).length : Int) + e.value := by
    rw [NumLit.expo, he]; simp only; omega
  obtain ⟨k, hk⟩ := wrap64_mod (decVal e.digits)
  unfold expTokenR
  by_cases hs : e.sign = some '-'
  · have e1 : e.value = -(decVal e.digits : Int) := by simp [ExpPart.value, hs]
    obtain ⟨j, hj⟩ := wrap64_mod (-wrap64 (decVal e.digits))
    simp only [hs, decide_true, sg, if_true]
    rw [wrap64_congr (y := l.expo) ⟨j - k, by rw [hj, hk, hx, e1]; ring⟩]
    rfl
  · have e1 : e.value = (decVal e.digits : Int) := by simp [ExpPart.value, hs]
    simp only [hs, decide_false, sg, Bool.false_eq_true, if_false]
    rw [wrap64_congr (y := l.expo) ⟨k, by rw [hk, hx, e1]; ring⟩]
    rfl

/-- reading a literal up to the first digit of its exponent -/
theorem reach_exp (conv : BigFloat → Res Nat) (l : NumLit) (hl : l.Valid) (hlen : l.text.length < 2 ^ 62)
    (e : ExpPart) (hexp : l.exp = some e) : ∃ b pre c cs, Is b l.mant ∧ e.digits = c :: cs ∧
      l.text = pre ++ cs ∧ run conv .initial pre = .ok ([], .parseExp ⟨b, sg l.neg,
        -((l.frac.getD []).length : Int), sg (e.sign = some '-'), decVal [c]⟩) := by
  obtain ⟨b, st, hb, hrun, hst⟩ := run_mant (conv := conv) l hl.1 hlen
  have huniq : ∀ b', Is b' l.mant → b' = b := fun b' h' =>
    C03_canonical_unique _ _ h'.1 hb.1 (by rw [h'.2, hb.2])
  have hex := hl.1.exp e hexp
  obtain ⟨c, cs, hds⟩ : ∃ c cs, e.digits = c :: cs := by
    cases h : e.digits with
    | nil => exact absurd h (hl.2 e hexp)
    | cons c cs => exact ⟨c, cs, rfl⟩
  have hc : isDigit c = true := hex.digits c (by simp [hds])
  have hd := digit_le hc
  refine ⟨b, (signText l.neg ++ (l.int ++ fracText l.frac)) ++ (e.marker :: (e.sign.toList ++ [c])),
    c, cs, hb, hds, by simp [text, hexp, expText, ExpPart.text, hds], ?_⟩
  have hm : ∃ b0, Is b0 l.mant ∧ step conv st e.marker =
      .ok ([], .parseExpBegin ⟨b0, sg l.neg, -((l.frac.getD []).length : Int), .pos, 0⟩) := by
    obtain ⟨g1, g2, g3⟩ := exp_facts hex.marker
    rcases hst with ⟨h1, h2, rfl⟩ | ⟨h1, h2, rfl⟩ | ⟨h2, rfl⟩
    · have hz : l.mant = 0 := by simp [mant, h1, h2, decVal]
      refine ⟨JsBig.fromU64 (sg l.neg) 0, by rw [hz]; exact is_zero _, ?_⟩
      simp [step, g2, hex.marker, h2]
    · exact ⟨b, hb, by simp [step, g1, g2, hex.marker, h2, IntState.intoExp]⟩
    · exact ⟨b, hb, by simp [step, g1, hex.marker, FloatState.intoExp]⟩
  obtain ⟨b0, hb0, hm⟩ := hm
  rw [huniq b0 hb0] at hm
  refine run_trans (t1 := []) (t2 := []) hrun ?_
  rw [run_cons_ok hm]
  have hfirst : ∀ es, ExpState.addDigit ⟨b, sg l.neg, -((l.frac.getD []).length : Int), es, 0⟩ c =
      .ok ⟨b, sg l.neg, -((l.frac.getD []).length : Int), es, decVal [c]⟩ := by
    intro es
    rw [expAddDigit_total (n := 0) rfl hc (by unfold digitNum; omega)]
    simp [decVal, digitNum]
  cases hs : e.sign with
  | none =>
    simp only [Option.toList, List.nil_append]
    rw [run_one]
    simp only [step, hc, if_true, hfirst]; rfl
  | some sc =>
    simp only [Option.toList, List.singleton_append]
    have hsc := hex.sign sc hs
    rw [run_cons_ok (ts := []) (st' := .parseExpSign ⟨b, sg l.neg,
      -((l.frac.getD []).length : Int), sg (sc = '-'), 0⟩)]
    · rw [run_one]
      simp only [step, hc, if_true, hfirst]
      rcases hsc with rfl | rfl <;> rfl
    · rcases hsc with rfl | rfl
      · rfl
      · rfl

/-- a literal with an exponent, read by a release build -/
theorem tokenizeR_lit (l : NumLit) (hl : l.Valid) (hlen : l.text.length < 2 ^ 62) (e : ExpPart)
    (hexp : l.exp = some e) : ∃ b, Is b l.mant ∧ tokenizeR conv l.text =
      (conv ⟨b, sg l.neg, wrap64 l.expo, false⟩).bind fun v => .ok [.number v] := by
  obtain ⟨b, pre, c, cs, hb, hds, ht, hrun⟩ := reach_exp conv l hl hlen e hexp
  refine ⟨b, hb, ?_⟩
  have hex := hl.1.exp e hexp
  have hd := digit_le (hex.digits c (by simp [hds]))
  have hcs : AllDigits cs := fun x hx => hex.digits x (by simp [hds, hx])
  have h1 : wrap64 (decVal [c]) = decVal [c] := wrap64_id (by omega) (by simp [decVal]; omega)
  rw [← h1] at hrun
  have hall := runR_append_ok (runR_of_run hrun) cs
  rw [runR_exp_digits b _ _ _ cs hcs [c], ← ht] at hall
  show (runR conv .initial l.text).bind _ = _
  rw [hall]
  show ((expTokenR conv _).bind fun t => .ok [t]).bind _ = _
  rw [List.singleton_append, ← hds, expTokenR_eq hexp]
  cases conv ⟨b, sg l.neg, wrap64 l.expo, false⟩ <;> rfl

theorem i64_big {x : Int} (h : 2 ^ 63 ≤ x) : i64 x = ovf := by
  unfold i64
  exact if_neg fun h' => absurd h'.2 (not_lt.2 h)

theorem bind_ok_apply {α β : Type} (a : α) (f : α → Res β) : Except.bind (.ok a : Res α) f = f a := rfl

theorem i64_mul_add {n d : Nat} :
    ((i64 ((n : Int) * 10)).bind fun y => i64 (y + d)) =
      if 10 * n + d < 2 ^ 63 then .ok ((10 * n + d : Nat) : Int) else ovf := by
  have e1 : ((n : Int) * 10 + (d : Int)) = ((10 * n + d : Nat) : Int) := by push_cast; ring
  by_cases h4 : n * 10 < 2 ^ 63
  · have h5 : i64 ((n : Int) * 10) = .ok ((n : Int) * 10) := i64_of (by omega) (by omega)
    rw [h5, bind_ok_apply, e1]
    by_cases h : 10 * n + d < 2 ^ 63
    · rw [if_pos h]
      exact i64_of (by omega) (by omega)
    · rw [if_neg h]
      exact i64_big (by omega)
  · have h5 : i64 ((n : Int) * 10) = ovf := i64_big (by omega)
    rw [h5, if_neg (by omega)]
    rfl

theorem expAddDigit_exact {x : ExpState} {c : Char} {n : Nat} (hx : x.e = n)
    (hc : isDigit c = true) : x.addDigit c =
      if 10 * n + digitNum c < 2 ^ 63 then .ok { x with e := ((10 * n + digitNum c : Nat) : Int) }
      else ovf := by
  have e : x.addDigit c = ((i64 (x.e * 10)).bind fun y => i64 (y + digitNum c)).bind
      fun e => .ok { x with e } := by
    show Except.bind (digitToNumber c) (fun d => (i64 (x.e * 10)).bind fun y => (i64 (y + d)).bind
      fun e => .ok { x with e }) = _
    rw [digitToNumber_eq hc, bind_ok_apply]
    cases i64 (x.e * 10) with
    | error x => rfl
    | ok a => rw [bind_ok_apply, bind_ok_apply]
  rw [e, hx, i64_mul_add]
  split
  · rw [bind_ok_apply]
  · rfl

/-- reading digits that exceed `i64` -/
theorem run_exp_overflow (b : JsBig) (s es : Sign) (fe : Int) (cs : Text) (hcs : AllDigits cs) :
    ∀ (pre : Text), decVal pre < 2 ^ 63 → 2 ^ 63 ≤ decVal (pre ++ cs) →
    run conv (.parseExp ⟨b, s, fe, es, decVal pre⟩) cs = ovf := by
  induction cs with
  | nil => intro pre h1 h2; simp only [List.append_nil] at h2; omega
  | cons c cs ih =>
    intro pre h1 h2
    have hc := hcs c (by simp)
    have hsn := decVal_snoc pre c
    have hx := expAddDigit_exact (x := ⟨b, s, fe, es, decVal pre⟩) rfl hc
    rw [← hsn] at hx
    by_cases h3 : decVal (pre ++ [c]) < 2 ^ 63
    · rw [if_pos h3] at hx
      rw [run_cons_ok (ts := []) (st' := .parseExp ⟨b, s, fe, es, decVal (pre ++ [c])⟩),
        ih (fun x hx => hcs x (by simp [hx])) (pre ++ [c]) h3 (by simpa using h2)]
      · rfl
      · simp only [step, hc, if_true, hx]; rfl
    · rw [if_neg h3] at hx
      rw [run_cons]
      simp only [step, hc, if_true, hx]
      rfl

/-- a debug build panics for an exponent that exceeds `i64` -/
theorem tokenize_overflow (l : NumLit) (hl : l.Valid) (hlen : l.text.length < 2 ^ 62) (e : ExpPart)
    (hexp : l.exp = some e) (h : 2 ^ 63 ≤ decVal e.digits) : tokenize conv l.text = ovf := by
  obtain ⟨b, pre, c, cs, hb, hds, ht, hrun⟩ := reach_exp conv l hl hlen e hexp
  have hex := hl.1.exp e hexp
  have hd := digit_le (hex.digits c (by simp [hds]))
  have hcs : AllDigits cs := fun x hx => hex.digits x (by simp [hds, hx])
  rw [tokenize_eq, ht, finish_append hrun, finish, run_exp_overflow b _ _ _ cs hcs [c]
    (by simp [decVal]; omega) (by rw [List.singleton_append, ← hds]; exact h)]
  rfl

end Tok
end Nanvm
