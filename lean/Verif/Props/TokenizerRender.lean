import Verif.Props.TokenizerNumber
import Verif.Props.TokenizerSpace
/-!
# Property theorems C34: rendering tokens and tokenizing again
-/
namespace Nanvm
open Tok NumLit

variable {conv : BigFloat → Res Nat}

/-! ## Specification -/

/-- a token as it is written -/
inductive Item
  | op (c : Char)
  | id (s : Text)
  | str (ps : List Piece)
  | num (l : NumLit)
  | big (neg : Bool) (ds : Text)
  | newLine

namespace Item

def Valid : Item → Prop
  | op c => isOp c = true
  | id s => ∃ c cs, s = c :: cs ∧ isIdStart c = true ∧ ∀ x ∈ cs, isIdChar x = true
  | str ps => (∀ p ∈ ps, p.Valid) ∧ ∀ p ∈ ps, ¬ p.Surrogate
  | num l => l.Valid ∧ l.text.length < 2 ^ 62 ∧ ∀ e, l.exp = some e → decVal e.digits < 2 ^ 62
  | big _ ds => IntPart ds
  | newLine => True

def text : Item → Text
  | op c => [c]
  | id s => s
  | str ps => literal ps
  | num l => l.text
  | big neg ds => bigText neg ds
  | newLine => ['\n']

/-- the token an item stands for -/
def Denotes (conv : BigFloat → Res Nat) : Item → Token → Prop
  | op '{', t => t = .objectBegin
  | op '}', t => t = .objectEnd
  | op '[', t => t = .arrayBegin
  | op ']', t => t = .arrayEnd
  | op ':', t => t = .colon
  | op ',', t => t = .comma
  | op '=', t => t = .equals
  | op '.', t => t = .dot
  | op ';', t => t = .semicolon
  | op '(', t => t = .openingParenthesis
  | op ')', t => t = .closingParenthesis
  | op _, _ => False
  | id s, t => t = .id s
  | str ps, t => ∃ s, content ps = some s ∧ t = .string s
  | num l, t => ∃ v, LitValue conv l v ∧ t = .number v
  | big neg ds, t => ∃ b : JsBig, b.Canon ∧
      b.toInt = (if neg then -(decVal ds : Int) else decVal ds) ∧ t = .bigInt b
  | newLine, t => t = .newLine

end Item

/-- items, each followed by its own nonempty separator of blanks -/
def render (l : List (Item × Text)) : Text := l.flatMap fun x => x.1.text ++ x.2

/-- no two newlines in a row and none at the end (they have no tokens of their own) -/
def NewLinesApart : List (Item × Text) → Prop
  | [] => True
  | [x] => x.1 ≠ .newLine
  | x :: y :: r => (x.1 = .newLine → y.1 ≠ .newLine) ∧ NewLinesApart (y :: r)

/-! ## Proof -/

theorem NewLinesApart.tail {x : Item × Text} {r : List (Item × Text)} (h : NewLinesApart (x :: r)) :
    NewLinesApart r := by
  cases r with
  | nil => trivial
  | cons y r => exact h.2

theorem run_id_chars (cs : Text) (h : ∀ x ∈ cs, isIdChar x = true) : ∀ s,
    run conv (.parseId s) cs = .ok ([], .parseId (s ++ cs)) := by
  induction cs with
  | nil => intro s; simp [run]
  | cons c cs ih =>
    intro s
    have hc : step conv (.parseId s) c = .ok ([], .parseId (s ++ [c])) := by
      simp [step, h c (by simp)]
    rw [run_cons_ok hc, ih (fun x hx => h x (by simp [hx]))]
    simp [Except.bind]

theorem step_idStart {c : Char} (h : isIdStart c = true) :
    step conv .initial c = .ok ([], .parseId [c]) := by
  have hop : isOp c = false := by
    simp only [isOp, isPunct, Bool.or_eq_false_iff, decide_eq_false_iff_not]
    refine ⟨⟨⟨⟨⟨⟨⟨⟨⟨⟨?_, ?_⟩, ?_⟩, ?_⟩, ?_⟩, ?_⟩, ?_⟩, ?_⟩, ?_⟩, ?_⟩, ?_⟩
    all_goals rintro rfl; revert h; decide
  have h1 : isDigit19 c = false := by
    by_contra hd
    have hd' : isDigit19 c = true := by simpa using hd
    have := digit_le (digit19_digit hd')
    simp only [isIdStart, isLetter, Bool.or_eq_true, Bool.and_eq_true, decide_eq_true_eq] at h
    rcases h with ((⟨h, -⟩ | ⟨h, -⟩) | rfl) | rfl
    · have h : 97 ≤ c.toNat := h
      omega
    · have h : 65 ≤ c.toNat := h
      omega
    · revert hd'; decide
    · revert hd'; decide
  have h2 : c ≠ '"' := by rintro rfl; revert h; decide
  have h3 : c ≠ '0' := by rintro rfl; revert h; decide
  have h4 : c ≠ '-' := by rintro rfl; revert h; decide
  simp [step, stepInitial, hop, h1, h2, h3, h4, h]

theorem op_cases {c : Char} (h : isOp c = true) : c = '{' ∨ c = '}' ∨ c = '[' ∨ c = ']' ∨ c = ':' ∨
    c = ',' ∨ c = '=' ∨ c = ';' ∨ c = '(' ∨ c = ')' ∨ c = '.' := by
  simpa [isOp, isPunct, or_assoc] using h

theorem blank_terminal {c : Char} (h : isBlank c = true) : isTerminal c = true := by
  simp [isTerminal, isWhite, h]

theorem stepInitial_blank {c : Char} (h : isBlank c = true) : stepInitial c = ([], .initial) := by
  rcases blank_cases h with rfl | rfl | rfl <;> rfl

/-- an item other than a newline, then a blank -/
theorem run_item {it : Item} {t : Token} (hv : it.Valid) (hd : it.Denotes conv t)
    (hn : it ≠ .newLine) {c : Char} (hc : isBlank c = true) :
    run conv .initial (it.text ++ [c]) = .ok ([t], .initial) := by
  have hacc : ∀ {st : State} {p : Text}, run conv .initial p = .ok ([], st) → Accepts conv st t →
      run conv .initial (p ++ [c]) = .ok ([t], .initial) := by
    intro st p h1 h2
    refine run_trans (t1 := []) h1 ?_
    rw [run_one, h2.1 c (blank_terminal hc), andInitial, stepInitial_blank hc]
    rfl
  cases it with
  | newLine => exact absurd rfl hn
  | op c0 =>
    have h1 : run conv .initial [c0] = .ok ([], .parseOperator [c0]) := by
      rw [run_one]
      have : isOp c0 = true := hv
      simp [step, stepInitial, this]
    refine run_trans (t1 := []) h1 ?_
    rw [run_one]
    have h2 : Flushes conv (.parseOperator [c0]) [t] := by
      rcases op_cases hv with rfl | rfl | rfl | rfl | rfl | rfl | rfl | rfl | rfl | rfl | rfl <;>
        exact ⟨_, rfl, by cases hd; rfl⟩
    rw [flush_step h2 c (by rcases blank_cases hc with h | h | h <;> simp [h]) (by intro h; cases h),
      stepInitial_blank hc]
  | id s =>
    obtain ⟨c0, cs, rfl, h0, hcs⟩ := hv
    cases hd
    have h1 : run conv .initial (c0 :: cs) = .ok ([], .parseId (c0 :: cs)) := by
      rw [run_cons_ok (step_idStart h0), run_id_chars cs hcs]
      rfl
    refine run_trans (t1 := []) h1 ?_
    rw [run_one, flush_step (st := .parseId (c0 :: cs)) (fl := [.id (c0 :: cs)]) rfl c
      (by rcases blank_cases hc with h | h | h <;> simp [h]) (by intro h; cases h),
      stepInitial_blank hc]
  | str ps =>
    obtain ⟨s, h1, rfl⟩ := hd
    refine run_trans (t2 := []) (C33_literal_partial ps s hv.1 hv.2 h1).2 ?_
    rw [run_one]
    simp [step, stepInitial_blank hc]
  | num l =>
    obtain ⟨v, h1, rfl⟩ := hd
    obtain ⟨st, h2, h3⟩ := run_lit l hv.1 hv.2.1 hv.2.2 v h1
    exact hacc h2 h3
  | big neg ds =>
    obtain ⟨b, h1, h2, rfl⟩ := hd
    obtain ⟨b', h3, h4, h5⟩ := run_big (conv := conv) neg (show IntPart ds from hv)
    have : b' = b := C03_canonical_unique _ _ h3 h1 (by rw [h4, h2]; cases neg <;> rfl)
    subst this
    exact hacc h5 (accepts_big _)

/-- the first character of such an item is not white space -/
theorem item_head {it : Item} (hv : it.Valid) (hn : it ≠ .newLine) :
    ∃ c cs, it.text = c :: cs ∧ isWhite c = false := by
  have hdig : ∀ {c : Char}, isDigit c = true → isWhite c = false := by
    intro c hc
    simp only [isWhite, isBlank, Bool.or_eq_false_iff, decide_eq_false_iff_not]
    refine ⟨⟨⟨?_, ?_⟩, ?_⟩, ?_⟩ <;> rintro rfl <;> revert hc <;> decide
  have hlit : ∀ (neg : Bool) {ds : Text} (r : Text), IntPart ds →
      ∃ c cs, signText neg ++ (ds ++ r) = c :: cs ∧ isWhite c = false := by
    intro neg ds r h
    cases neg
    · obtain ⟨h1, h2⟩ := intPart_digits h
      cases ds with
      | nil => exact absurd rfl h2
      | cons c cs => exact ⟨c, cs ++ r, rfl, hdig (h1 c (by simp))⟩
    · exact ⟨'-', ds ++ r, rfl, rfl⟩
  cases it with
  | newLine => exact absurd rfl hn
  | op c =>
    refine ⟨c, [], rfl, ?_⟩
    rcases op_cases hv with rfl | rfl | rfl | rfl | rfl | rfl | rfl | rfl | rfl | rfl | rfl <;> rfl
  | id s =>
    obtain ⟨c, cs, rfl, h0, -⟩ := hv
    refine ⟨c, cs, rfl, ?_⟩
    simp only [isWhite, isBlank, Bool.or_eq_false_iff, decide_eq_false_iff_not]
    refine ⟨⟨⟨?_, ?_⟩, ?_⟩, ?_⟩ <;> rintro rfl <;> revert h0 <;> decide
  | str ps => exact ⟨'"', _, rfl, rfl⟩
  | num l => exact hlit l.neg _ hv.1.1.int
  | big neg ds => exact hlit neg _ hv

theorem finish_newLine {c : Char} (h : isWhite c = false) (r : Text) :
    finish conv .parseNewLine (c :: r) =
      (finish conv .initial (c :: r)).bind fun q => .ok (.newLine :: q) := by
  have h1 : step conv .parseNewLine c = .ok (andInitial [.newLine] c) := by simp [step, h]
  rw [finish_andInitial h1, tokenize_eq]

/-- Any sequence of tokens, written in any of the ways the grammar allows and separated by blanks,
is read back as exactly this sequence. -/
theorem C34_render (l : List (Item × Text)) (ts : List Token)
    (hv : ∀ x ∈ l, x.1.Valid) (hw : ∀ x ∈ l, x.2 ≠ [] ∧ ∀ c ∈ x.2, isBlank c = true)
    (hn : NewLinesApart l) (hd : List.Forall₂ (fun x t => x.1.Denotes conv t) l ts) :
    tokenize conv (render l) = .ok ts := by
  rw [tokenize_eq]
  induction hd with
  | nil => rfl
  | @cons x t l ts hx hd ih =>
    have ih := ih (fun y hy => hv y (by simp [hy])) (fun y hy => hw y (by simp [hy])) hn.tail
    obtain ⟨it, ws⟩ := x
    obtain ⟨hne, hws⟩ := hw (it, ws) (by simp)
    simp only at hne hws hx
    rw [render, List.flatMap_cons]
    change finish conv .initial ((it.text ++ ws) ++ render l) = _
    by_cases hit : it = .newLine
    · subst hit
      cases hx
      have h1 : run conv .initial (Item.newLine.text ++ ws) = .ok ([], .parseNewLine) := by
        refine run_trans (t1 := []) (t2 := []) (s2 := .parseNewLine) (by rw [Item.text, run_one]; rfl) ?_
        exact run_white_newLine ws fun c hc => by simp [isWhite, hws c hc]
      rw [finish_append h1]
      cases l with
      | nil => exact absurd rfl hn
      | cons y l =>
        obtain ⟨c, cs, e, hc⟩ := item_head (hv y (by simp)) (hn.1 rfl)
        have e' : render (y :: l) = c :: (cs ++ y.2 ++ render l) := by
          rw [render, List.flatMap_cons, e]; simp [render]
        rw [e'] at ih ⊢
        rw [finish_newLine hc, ih]
        rfl
    · obtain ⟨c, cs, rfl⟩ : ∃ c cs, ws = c :: cs := by
        cases ws with
        | nil => exact absurd rfl hne
        | cons c cs => exact ⟨c, cs, rfl⟩
      have h1 := run_item (hv (it, c :: cs) (by simp)) hx hit (hws c (by simp))
      have h2 : run conv .initial cs = .ok ([], .initial) :=
        run_blanks_initial cs fun x hx => hws x (by simp [hx])
      have h3 : run conv .initial (it.text ++ c :: cs) = .ok ([t], .initial) := by
        rw [show it.text ++ c :: cs = (it.text ++ [c]) ++ cs by simp]
        exact run_trans h1 h2
      rw [finish_append h3, ih]
      rfl

/-- the hypotheses hold for `a`, newline, `=`, `"\n"`, `12n` -/
example :
    let l : List (Item × Text) := [(.id ['a'], [' ']), (.newLine, [' ']), (.op '=', [' ', '\t']),
      (.str [.esc 'n'], [' ']), (.big false ['1', '2'], [' '])]
    (∀ x ∈ l, x.1.Valid) ∧ (∀ x ∈ l, x.2 ≠ [] ∧ ∀ c ∈ x.2, isBlank c = true) ∧ NewLinesApart l ∧
    List.Forall₂ (fun x t => x.1.Denotes conv t) l
      [.id ['a'], .newLine, .equals, .string ['\n'], .bigInt (JsBig.fromU64 .pos 12)] := by
  refine ⟨?_, by decide, by simp [NewLinesApart], ?_⟩
  · intro x hx
    simp only [List.mem_cons, List.not_mem_nil, or_false] at hx
    rcases hx with rfl | rfl | rfl | rfl | rfl
    · exact ⟨'a', [], rfl, by decide, by simp⟩
    · trivial
    · rfl
    · exact ⟨by decide, by decide⟩
    · exact Or.inr ⟨'1', ['2'], rfl, by decide, by decide⟩
  · refine .cons rfl (.cons rfl (.cons rfl (.cons ⟨_, ?_, rfl⟩ (.cons ⟨_, ?_, ?_, rfl⟩ .nil))))
    · decide
    · decide
    · decide

/-- Newlines in a row and newlines at the end have no tokens of their own. -/
theorem C34_newlines_merge :
    tokenize conv ['a', '\n', ' ', '\n', ' ', 'b', '\n'] = .ok [.id ['a'], .newLine, .id ['b']] := by
  rfl

end Nanvm
