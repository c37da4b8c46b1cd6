import Verif.Model.Tokenizer
/-!
# `parser/analyzer.rs`

Simplifications:
* `process_token` is empty in the code (analyzer.rs:72).  It is a parameter `proc`, a function of the
  diagnostics and the token, so that the bookkeeping of `push_mut` can be described for the analyzer
  that is planned; `emptyProc` is the function of the code.
* `AnalyzerParameters` and the module, which nothing reads or changes, are left out.
-/
namespace Nanvm
namespace Analyzer
open Tok

/-- `AnalyzerState`, analyzer.rs:25-33 -/
structure St (D : Type) where
  tok : State
  /-- `diagnostics_len` -/
  len : Nat
  diagnostics : List D

/-- `AnalyzerState::new`, analyzer.rs:38-47 -/
def St.new {D : Type} : St D := ⟨.initial, 0, []⟩

/-- `process_token`, analyzer.rs:72 -/
def emptyProc {D : Type} (d : List D) (_ : Token) : List D := d

/-- `push_mut`, analyzer.rs:52-62: the number of new diagnostics and the state; the subtraction of
`usize` overflows if there are fewer diagnostics than before -/
def St.push {D : Type} (proc : List D → Token → List D) (conv : BigFloat → Res Nat) (a : St D)
    (c : Char) : Res (Nat × St D) := do
  let (ts, tok) ← Tok.push conv a.tok c
  let diagnostics := ts.foldl proc a.diagnostics
  return (← subU diagnostics.length a.len, ⟨tok, diagnostics.length, diagnostics⟩)

/-- `end`, analyzer.rs:65-71: the diagnostics -/
def St.end_ {D : Type} (a : St D) : List D := a.diagnostics

/-- the results of `push_mut` for the characters of a text one after the other, and the state -/
def St.pushAll {D : Type} (proc : List D → Token → List D) (conv : BigFloat → Res Nat) :
    St D → Text → Res (List Nat × St D)
  | a, [] => .ok ([], a)
  | a, c :: cs => do
    let (n, a) ← a.push proc conv c
    let (ns, a) ← pushAll proc conv a cs
    return (n :: ns, a)

end Analyzer
end Nanvm
