import Mathlib.Data.List.Infix
import Verif.Model.Analyzer
import Verif.Lemmas.TokRun
/-!
# Property theorems C71: the analyzer
-/
namespace Nanvm
namespace Analyzer
open Tok

variable {D : Type} {conv : BigFloat → Res Nat}

/-- processing a token only adds diagnostics at the end -/
def Appends (proc : List D → Token → List D) : Prop := ∀ d t, ∃ new, proc d t = d ++ new

theorem foldl_appends {proc : List D → Token → List D} (h : Appends proc) (ts : List Token) :
    ∀ d, ∃ new, ts.foldl proc d = d ++ new := by
  induction ts with
  | nil => intro d; exact ⟨[], by simp⟩
  | cons t ts ih =>
    intro d
    obtain ⟨n1, h1⟩ := h d t
    obtain ⟨n2, h2⟩ := ih (proc d t)
    exact ⟨n1 ++ n2, by rw [List.foldl_cons, h2, h1, List.append_assoc]⟩

/-- `push_mut` fails only where the tokenizer does; its result is the number of the diagnostics that
it added at the end. -/
theorem C71_push {proc : List D → Token → List D} (hp : Appends proc) (a : St D)
    (ha : a.len = a.diagnostics.length) (c : Char) :
    (∀ e, Tok.push conv a.tok c = .error e → a.push proc conv c = .error e) ∧
    (∀ ts st, Tok.push conv a.tok c = .ok (ts, st) → ∃ new a',
      a.push proc conv c = .ok (new.length, a') ∧ a'.diagnostics = a.diagnostics ++ new ∧
      a'.len = a'.diagnostics.length ∧ a'.tok = st) := by
  constructor
  · intro e h; simp only [St.push, h]; rfl
  · intro ts st h
    obtain ⟨new, hn⟩ := foldl_appends hp ts a.diagnostics
    refine ⟨new, ⟨st, (a.diagnostics ++ new).length, a.diagnostics ++ new⟩, ?_, rfl, rfl, rfl⟩
    simp only [St.push, h]
    change (subU (ts.foldl proc a.diagnostics).length a.len >>= fun x => _) = _
    rw [hn, ha, subU, if_pos (by simp)]
    simp [Bind.bind, Except.bind, pure, Except.pure]

/-- For a whole text the results add up to the number of diagnostics that `end` returns, which are
those of the tokens that the tokenizer gives before its own `end`. -/
theorem C71_total {proc : List D → Token → List D} (hp : Appends proc) (t : Text) (ts : List Token)
    (st : State) (h : run conv .initial t = .ok (ts, st)) :
    ∃ ns a, St.new.pushAll proc conv t = .ok (ns, a) ∧ ns.length = t.length ∧
      ns.sum = a.end_.length ∧ a.end_ = ts.foldl proc [] := by
  have key : ∀ (t : Text) (a : St D) (ts : List Token) (st : State), a.len = a.diagnostics.length →
      run conv a.tok t = .ok (ts, st) → ∃ ns a', a.pushAll proc conv t = .ok (ns, a') ∧
        ns.length = t.length ∧ a.diagnostics.length + ns.sum = a'.diagnostics.length ∧
        a'.diagnostics = ts.foldl proc a.diagnostics := by
    intro t
    induction t with
    | nil => intro a ts st ha h; cases h; exact ⟨[], a, rfl, rfl, by simp, rfl⟩
    | cons c t ih =>
      intro a ts st ha h
      rw [run] at h
      cases e : Tok.push conv a.tok c with
      | error e' => rw [e] at h; cases h
      | ok o =>
        obtain ⟨ts1, st1⟩ := o
        rw [e] at h
        change (run conv st1 t >>= fun x => _) = _ at h
        cases e2 : run conv st1 t with
        | error e' => rw [e2] at h; cases h
        | ok o2 =>
          obtain ⟨ts2, st2⟩ := o2
          rw [e2] at h
          cases h
          obtain ⟨new, a', h1, h2, h3, h4⟩ := (C71_push hp a ha c).2 ts1 st1 e
          have h5 : a'.diagnostics = ts1.foldl proc a.diagnostics := by
            simp only [St.push, e] at h1
            change (subU (ts1.foldl proc a.diagnostics).length a.len >>= fun x => _) = _ at h1
            cases e3 : subU (ts1.foldl proc a.diagnostics).length a.len with
            | error e' => rw [e3] at h1; cases h1
            | ok n => rw [e3] at h1; cases h1; rfl
          obtain ⟨ns, a'', h6, h7, h8, h9⟩ := ih a' ts2 st2 h3 (by rw [h4]; exact e2)
          refine ⟨new.length :: ns, a'', ?_, by simp [h7], ?_, ?_⟩
          · rw [St.pushAll, h1]
            change (a'.pushAll proc conv t >>= fun x => _) = _
            rw [h6]; rfl
          · rw [← h8, h2]; simp; omega
          · rw [h9, h5, List.foldl_append]
  obtain ⟨ns, a, h1, h2, h3, h4⟩ := key t St.new ts st rfl h
  exact ⟨ns, a, h1, h2, by simpa [St.new, St.end_] using h3, h4⟩

/-- The analyzer of the code never reports anything. -/
theorem C71_silent (t : Text) (ts : List Token) (st : State) (h : run conv .initial t = .ok (ts, st)) :
    ∃ ns a, St.new.pushAll (D := D) emptyProc conv t = .ok (ns, a) ∧ (∀ n ∈ ns, n = 0) ∧ a.end_ = [] := by
  obtain ⟨ns, a, h1, h2, h3, h4⟩ := C71_total (proc := emptyProc (D := D))
    (fun d _ => ⟨[], by simp [emptyProc]⟩) t ts st h
  have h5 : ∀ (ts : List Token) (d : List D), ts.foldl emptyProc d = d := by
    intro ts
    induction ts with
    | nil => intro d; rfl
    | cons t ts ih => intro d; exact ih d
  rw [h5] at h4
  refine ⟨ns, a, h1, ?_, h4⟩
  rw [h4] at h3
  intro n hn
  have h6 : ∀ l : List Nat, n ∈ l → n ≤ l.sum := by
    intro l
    induction l with
    | nil => intro h; cases h
    | cons x l ih =>
      intro h
      rw [List.sum_cons]
      rcases List.mem_cons.1 h with rfl | h
      · omega
      · have := ih h; omega
  have := h6 ns hn
  rw [h3] at this
  exact Nat.le_zero.1 this

/-- The last token is lost: `end` does not end the tokenizer.  An analyzer that notes every token
notes none for the text `null`, which has one. -/
theorem C71_last_token_lost : ∃ a, tokenize conv "null".toList = .ok [.id "null".toList] ∧
    St.new.pushAll (fun d t => d ++ [t]) conv "null".toList = .ok ([0, 0, 0, 0], a) ∧ a.end_ = [] :=
  ⟨⟨.parseId "null".toList, 0, []⟩, by rfl, by rfl, rfl⟩

example : Appends (D := Token) (fun d t => d ++ [t]) ∧
    ∃ st, run conv .initial "[]".toList = .ok ([.arrayBegin], st) :=
  ⟨fun d t => ⟨[t], rfl⟩, _, by rfl⟩

end Analyzer
end Nanvm
