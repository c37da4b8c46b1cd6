import Verif.Lemmas.TokStep
/-!
# Runs of the tokenizer
-/
namespace Nanvm
namespace Tok

variable {conv : BigFloat → Res Nat}

theorem run_nil (st : State) : run conv st [] = .ok ([], st) := rfl

theorem run_cons (st : State) (c : Char) (cs : Text) :
    run conv st (c :: cs) = (step conv st c).bind fun p => (run conv p.2 cs).bind fun q =>
      .ok (p.1 ++ q.1, q.2) := by
  rw [run, push_eq_step]; rfl

theorem run_cons_ok {st : State} {c : Char} {cs : Text} {ts : List Token} {st' : State}
    (h : step conv st c = .ok (ts, st')) :
    run conv st (c :: cs) = (run conv st' cs).bind fun q => .ok (ts ++ q.1, q.2) := by
  rw [run_cons, h]; rfl

theorem run_one (st : State) (c : Char) : run conv st [c] = step conv st c := by
  rw [run_cons]
  cases h : step conv st c with
  | error e => rfl
  | ok p => obtain ⟨a, b⟩ := p; simp [run, Except.bind]

theorem run_append (st : State) (a b : Text) :
    run conv st (a ++ b) = (run conv st a).bind fun p => (run conv p.2 b).bind fun q =>
      .ok (p.1 ++ q.1, q.2) := by
  induction a generalizing st with
  | nil =>
    simp only [List.nil_append, run_nil, Except.bind]
    cases run conv st b <;> rfl
  | cons c cs ih =>
    simp only [List.cons_append, run_cons]
    cases step conv st c with
    | error e => rfl
    | ok p =>
      simp only [Except.bind, ih]
      cases run conv p.2 cs with
      | error e => rfl
      | ok q =>
        simp only
        cases run conv q.2 b <;> simp

theorem run_append_ok {st st' : State} {a : Text} {ts : List Token}
    (h : run conv st a = .ok (ts, st')) (b : Text) :
    run conv st (a ++ b) = (run conv st' b).bind fun q => .ok (ts ++ q.1, q.2) := by
  rw [run_append, h]; rfl

theorem run_trans {s1 s2 s3 : State} {a b : Text} {t1 t2 : List Token}
    (h1 : run conv s1 a = .ok (t1, s2)) (h2 : run conv s2 b = .ok (t2, s3)) :
    run conv s1 (a ++ b) = .ok (t1 ++ t2, s3) := by
  rw [run_append_ok h1, h2]; rfl

/-- the tokens from a state on, with the end of the text -/
def finish (conv : BigFloat → Res Nat) (st : State) (t : Text) : Res (List Token) :=
  (run conv st t).bind fun p => (endTokens conv p.2).bind fun e => .ok (p.1 ++ e)

theorem tokenize_eq (t : Text) : tokenize conv t = finish conv .initial t := by
  unfold tokenize finish
  cases run conv .initial t with
  | error e => rfl
  | ok p => rfl

theorem finish_append {st st' : State} {a : Text} {ts : List Token}
    (h : run conv st a = .ok (ts, st')) (b : Text) :
    finish conv st (a ++ b) = (finish conv st' b).bind fun q => .ok (ts ++ q) := by
  unfold finish
  rw [run_append_ok h]
  cases run conv st' b with
  | error e => rfl
  | ok p =>
    simp only [Except.bind]
    cases endTokens conv p.2 <;> simp

theorem finish_cons {st st' : State} {c : Char} {ts : List Token}
    (h : step conv st c = .ok (ts, st')) (b : Text) :
    finish conv st (c :: b) = (finish conv st' b).bind fun q => .ok (ts ++ q) := by
  have : run conv st [c] = .ok (ts, st') := by rw [run_one, h]
  exact finish_append this b

theorem finish_nil (st : State) : finish conv st [] = endTokens conv st := by
  simp only [finish, run, Except.bind]
  cases endTokens conv st <;> simp

end Tok
end Nanvm
