import Verif.Lemmas.ParserDeadEnd
import Verif.Props.ParserFiles
/-!
# C86: the parser has no dead ends

A module is given to the parser token by token.  If it has not been rejected yet it can still be
completed; if it is rejected nothing that follows makes a difference.
-/
namespace Nanvm
namespace Parser
open Tok Grammar

/-- the outcome of the main module with the tokens `ts`, where at most `fuel` modules are being read
at a time -/
def run (env : Env) (fuel : Nat) (ts : List Token) : Res (Ctx × Outcome) :=
  parseWithTokens env fuel (enter Ctx.empty env.path) ts

/-- a file that can be named: it is not the main module, and is a module that needs no other -/
def Leaf (env : Env) (s : Text) : Prop :=
  env.resolve s ≠ env.path ∧ ∃ leaf k, env.read (env.resolve s) = some leaf ∧
    AcceptedModule (fun _ => False) (fun _ => False) .json leaf k

theorem leaf_start {env : Env} {s : Text} (h : env.resolve s ≠ env.path) :
    env.resolve s ∉ (enter Ctx.empty env.path).progress := by
  simpa [enter, Ctx.empty, setInsert] using h

/-- **C86**: either the tokens given so far can be continued to a module that is accepted, or their
outcome, which is not an acceptance, is that of every continuation. -/
theorem C86_no_dead_end (env : Env) (s : Text) (hs : Leaf env s) (fuel : Nat) (ts : List Token) :
    (∃ more ctx k v, run env (fuel + 2) (ts ++ more) = .ok (ctx, .ok (k, v))) ∨
      ((∀ ctx k v, run env (fuel + 2) ts ≠ .ok (ctx, .ok (k, v))) ∧
        ∀ more, run env (fuel + 2) (ts ++ more) = run env (fuel + 2) ts) := by
  obtain ⟨hne, leaf, k, hr, hleaf⟩ := hs
  have hrun (ts : List Token) : run env (fuel + 2) ts =
      (pushAll env (parseWithTokens env (fuel + 1)) (enter Ctx.empty env.path) JState.start ts >>=
        fun x => pure (x.1, x.2.end_)) := rfl
  cases h : pushAll env (parseWithTokens env (fuel + 1)) (enter Ctx.empty env.path) JState.start ts with
  | error e =>
    refine .inr ⟨fun ctx k v h' => ?_, fun more => ?_⟩
    · rw [hrun, h] at h'; cases h'
    · rw [hrun, hrun, pushAll_append, h]; rfl
  | ok x =>
    obtain ⟨c, j⟩ := x
    by_cases hj : ∃ e, j = .error e
    · obtain ⟨e, rfl⟩ := hj
      refine .inr ⟨fun ctx k v h' => ?_, fun more => ?_⟩
      · rw [hrun, h] at h'; cases h'
      · rw [hrun, hrun, pushAll_append, h]
        change (pushAll env _ c (.error e) more >>= _) = _
        rw [pushAll_error]
    · exact .inl (completable hr hleaf (enter_ok (by intro q v h; cases h) _) (leaf_start hne) h
        (fun e he => hj ⟨e, he⟩))

/-- **C86**: `UnexpectedEnd` is reported only for a module that is unfinished: the tokens of the main
module, or of a file that was read, are the beginning of a module that would be accepted. -/
theorem C86_end (env : Env) (s : Text) (hs : Leaf env s) (fuel : Nat) (ts : List Token) (ctx : Ctx)
    (h : run env fuel ts = .ok (ctx, .error .unexpectedEnd)) :
    ∃ ts', (ts' = ts ∨ ∃ p ∈ ctx.reads, env.read p = some ts') ∧
      ∃ more k, AcceptedModule (fun s => ∃ k, LoadsAs env.read env.resolve (env.resolve s) k)
        (fun _ => False) .json (ts' ++ more) k := by
  obtain ⟨hne, leaf, k, hr, hleaf⟩ := hs
  exact end_of hr hleaf fuel (enter_ok (by intro q v h; cases h) _) (by intro q v h; cases h)
    (leaf_start hne) h

/-- **C86**: the beginning of a module that is accepted is accepted too, or the report is
`UnexpectedEnd`: there is no other error for a module that is merely unfinished. -/
theorem C86_unfinished (env : Env) (fuel : Nat) (ts more : List Token) (ctx : Ctx) (k : DataType)
    (v : Val) (h : run env fuel (ts ++ more) = .ok (ctx, .ok (k, v))) :
    ∃ ctx', (∃ k' v', run env fuel ts = .ok (ctx', .ok (k', v'))) ∨
      run env fuel ts = .ok (ctx', .error .unexpectedEnd) := by
  cases fuel with
  | zero => cases h
  | succ fuel =>
    have hrun (ts : List Token) : run env (fuel + 1) ts =
        (pushAll env (parseWithTokens env fuel) (enter Ctx.empty env.path) JState.start ts >>=
          fun x => pure (x.1, x.2.end_)) := rfl
    rw [hrun, pushAll_append] at h
    rw [hrun]
    cases h0 : pushAll env (parseWithTokens env fuel) (enter Ctx.empty env.path) JState.start ts with
    | error e => rw [h0] at h; cases h
    | ok x =>
      obtain ⟨c, j⟩ := x
      rw [h0] at h
      refine ⟨c, ?_⟩
      cases j with
      | error e =>
        change (pushAll env _ c (.error e) more >>= _) = _ at h
        rw [pushAll_error] at h
        cases h
      | _ => first | exact .inl ⟨_, _, rfl⟩ | exact .inr rfl

/-- **C86**: so long as nothing was rejected, the outcome is a module or `UnexpectedEnd`; in other
words each other report stands for all continuations. -/
theorem C86_final (env : Env) (fuel : Nat) (ts more : List Token) (ctx : Ctx) (e : ParseError)
    (h : run env fuel ts = .ok (ctx, .error e)) (he : e ≠ .unexpectedEnd) :
    run env fuel (ts ++ more) = .ok (ctx, .error e) := by
  cases fuel with
  | zero => cases h
  | succ fuel =>
    have hrun (ts : List Token) : run env (fuel + 1) ts =
        (pushAll env (parseWithTokens env fuel) (enter Ctx.empty env.path) JState.start ts >>=
          fun x => pure (x.1, x.2.end_)) := rfl
    rw [hrun] at h
    rw [hrun, pushAll_append]
    cases h0 : pushAll env (parseWithTokens env fuel) (enter Ctx.empty env.path) JState.start ts with
    | error e => rw [h0] at h; cases h
    | ok x =>
      obtain ⟨c, j⟩ := x
      rw [h0] at h
      obtain ⟨rfl, h3⟩ := Prod.mk.inj (Except.ok.inj h)
      cases j with
      | error e' =>
        cases h3
        change (pushAll env _ c (.error e) more >>= _) = _
        rw [pushAll_error]; rfl
      | _ => cases h3 <;> exact absurd rfl he

/-- **C86**: a panic stands for all continuations as well. -/
theorem C86_panic (env : Env) (fuel : Nat) (ts more : List Token) (p : Panic)
    (h : run env fuel ts = .error (.panic p)) : run env fuel (ts ++ more) = .error (.panic p) := by
  cases fuel with
  | zero => cases h
  | succ fuel =>
    have hrun (ts : List Token) : run env (fuel + 1) ts =
        (pushAll env (parseWithTokens env fuel) (enter Ctx.empty env.path) JState.start ts >>=
          fun x => pure (x.1, x.2.end_)) := rfl
    rw [hrun] at h
    rw [hrun, pushAll_append]
    cases h0 : pushAll env (parseWithTokens env fuel) (enter Ctx.empty env.path) JState.start ts with
    | error e => rw [h0] at h; cases h; rfl
    | ok x => rw [h0] at h; cases h

/-- the beginning `module.exports = require(` -/
def requiring : List Token :=
  [.id "module".toList, .dot, .id "exports".toList, .equals, .id "require".toList, .openingParenthesis]

/-- waiting for a name, where no file can be read -/
theorem stuck {env : Env} (hfs : ∀ p, p ≠ env.path → env.fs p = none) {self : ParseTokens}
    (more : List Token) : ∀ {ctx : Ctx} {st : AnyState}, st.status = .importValue →
    ctx.complete = [] → env.path ∈ ctx.progress →
    ∃ ctx', pushAll env self ctx (.parseModule st) more = .ok (ctx', .parseModule st) ∨
      ∃ e, pushAll env self ctx (.parseModule st) more = .ok (ctx', .error e) := by
  induction more with
  | nil => intro ctx st _ _ _; exact ⟨_, .inl rfl⟩
  | cons t more ih =>
    intro ctx st hst hc hp
    by_cases hnl : t = .newLine
    · subst hnl; exact ih hst hc hp
    · have he : ∃ ctx' e, jsonPush env self ctx (.parseModule st) t = .ok (ctx', .error e) := by
        rw [jsonPush_eq hnl]
        simp only [moduleParse, anyParse, dispatch, hst]
        cases t with
        | string s =>
          simp only [importValue, importModule, hc]
          by_cases h : env.resolve s = env.path
          · exact ⟨_, _, by rw [h]; simp only [TMap.get, hp, if_true]; rfl⟩
          · by_cases h' : env.resolve s ∈ ctx.progress
            · exact ⟨_, _, by simp only [TMap.get, h', if_true]; rfl⟩
            · exact ⟨_, _, by simp only [TMap.get, h', if_false, hfs _ h]; rfl⟩
        | _ => exact ⟨_, _, rfl⟩
      obtain ⟨ctx', e, he⟩ := he
      refine ⟨ctx', .inr ⟨e, ?_⟩⟩
      simp only [pushAll, he]
      exact pushAll_error ..

/-- **C86**: a file that can be named is needed: if there is no other file,
`module.exports = require(` is not rejected though it cannot be completed. -/
theorem C86_without_files (env : Env) (hfs : ∀ p, p ≠ env.path → env.fs p = none) (fuel : Nat) :
    (∃ ctx, run env (fuel + 1) requiring = .ok (ctx, .error .unexpectedEnd)) ∧
      ∀ more ctx k v, run env (fuel + 1) (requiring ++ more) ≠ .ok (ctx, .ok (k, v)) := by
  have hrun (ts : List Token) : run env (fuel + 1) ts =
      (pushAll env (parseWithTokens env fuel) (enter Ctx.empty env.path) JState.start ts >>=
        fun x => pure (x.1, x.2.end_)) := rfl
  have h0 : ∃ st, pushAll env (parseWithTokens env fuel) (enter Ctx.empty env.path) JState.start
      requiring = .ok (enter Ctx.empty env.path, .parseModule st) ∧ st.status = .importValue :=
    ⟨_, rfl, rfl⟩
  obtain ⟨st, h0, hst⟩ := h0
  refine ⟨⟨_, by rw [hrun, h0]; rfl⟩, fun more ctx k v h => ?_⟩
  rw [hrun, pushAll_append, h0] at h
  change (pushAll env _ _ (.parseModule st) more >>= _) = _ at h
  obtain ⟨c, h1 | ⟨e, h1⟩⟩ := stuck hfs (self := parseWithTokens env fuel) more hst
    (ctx := enter Ctx.empty env.path) rfl (by simp [enter, Ctx.empty, setInsert])
  · rw [h1] at h; cases h
  · rw [h1] at h; cases h

/-- two files; the second holds `null` -/
def withLeaf : Env :=
  ⟨fun p => if p = ['b'] then some "null".toList else none, fun _ => .ok 0, ['m']⟩

theorem withLeaf_leaf : Leaf withLeaf ['b'] := by
  refine ⟨by decide +kernel, [.id "null".toList], .json, by decide +kernel, ?_⟩
  exact .value _ _ _ _ (by
    intro t ht
    obtain rfl := Option.some.inj ht
    intro h
    revert h
    simp [BeginsLine]) (.literal _ _ _ (by decide))

/-- `module.exports = require(` can be completed, `[1,)` cannot: the two cases of
`C86_no_dead_end` -/
example : ∃ more ctx k v, run withLeaf 2 (requiring ++ more) = .ok (ctx, .ok (k, v)) :=
  ⟨[.string ['b'], .closingParenthesis], _, _, _, rfl⟩

example : ∀ more, run withLeaf 2 ([.arrayBegin, .number 0, .comma, .closingParenthesis] ++ more) =
    run withLeaf 2 [.arrayBegin, .number 0, .comma, .closingParenthesis] := by
  rcases C86_no_dead_end withLeaf ['b'] withLeaf_leaf 0
    [.arrayBegin, .number 0, .comma, .closingParenthesis] with ⟨more, ctx, k, v, h⟩ | h
  · obtain ⟨c, ⟨k', v', h⟩ | h⟩ := C86_unfinished _ _ _ _ _ _ _ h <;> cases h
  · exact h.2

/-- the end of a file that is needed -/
def halfLeaf : Env :=
  ⟨fun p => if p = ['b'] then some "[1,".toList else if p = ['c'] then some "null".toList else none,
    fun _ => .ok 0, ['m']⟩

example : (run halfLeaf 2 (requiring ++ [.string ['b'], .closingParenthesis])).map
    (fun (x : Ctx × Outcome) => (match x.2 with
      | .error e => some e
      | .ok _ => none, x.1.reads)) =
    .ok (some .unexpectedEnd, [['b'], ['m']]) := by
  decide +kernel

end Parser
end Nanvm
