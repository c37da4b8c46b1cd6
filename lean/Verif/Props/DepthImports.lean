import Verif.Lemmas.DepthImports
import Verif.Lemmas.TokRun
import Verif.Lemmas.PathDot
import Verif.Props.ParserFiles
import Verif.Props.Path
import Verif.Lemmas.ParserProject
import Mathlib.Data.List.Perm.Subperm
/-!
# Property theorems C88, modules: how deeply `parse_with_tokens` calls itself
-/
namespace Nanvm
namespace Parser
open Tok Grammar

/-- The full property for the parser: a fixed number of calls of `parse_with_tokens` at the same time
is enough for all finite sets of files. -/
def ImportsBounded (conv : BigFloat → Res Nat) : Prop := ∃ f, ∀ (fs : Text → Option Text) path,
  (∃ files : List Text, ∀ p text, fs p = some text → p ∈ files) →
  (∀ p text, fs p = some text → tokenize conv text ≠ .error .fuel) →
  parse ⟨fs, conv, path⟩ f Ctx.empty ≠ .error .fuel

/-- Proved part: as many calls as there are files in the longest chain of files that name each other
are enough, and then more make no difference. -/
theorem C88_imports_partial (env : Env)
    (htok : ∀ p text, env.fs p = some text → tokenize env.conv text ≠ .error .fuel) (f : Nat)
    (h : ∀ l, NamedChain env.read env.resolve (l ++ [env.path]) → (l ++ [env.path]).length ≤ f) :
    parse env f Ctx.empty ≠ .error .fuel ∧
      ∀ f' ≥ f, parse env f' Ctx.empty = parse env f Ctx.empty := by
  have key : parse env f Ctx.empty ≠ .error .fuel := by
    intro hp
    rcases parse_cases hp with ⟨-, he⟩ | ⟨text, hf, ⟨e, ht, he⟩ | ⟨ts, ht, he⟩⟩
    · cases he
    · cases he; exact htok _ _ hf ht
    · obtain ⟨l, h1, h2⟩ := parseWithTokens_chain htok f (enter Ctx.empty env.path) env.path [] ts
        (enter_ok (empty_ok env) _) (read_eq hf ht) he.symm (.one _ _ (read_eq hf ht)) (by
          intro q hq
          rw [List.mem_singleton.1 hq]
          simp [enter, Ctx.empty, setInsert])
      have := h l h1
      simp at this
      omega
  exact ⟨key, fun f' hf' => C38_fuel env f f' hf' key⟩

/-! ## A chain of modules -/

/-- the name of a module -/
def linkName (k : Nat) : Text := List.replicate (k + 1) 'x'

/-- the text of a module: the first is an empty array, each other one exports the one before -/
def linkText : Nat → Text
  | 0 => ['[', ']']
  | k + 1 => "module.exports=require(\"".toList ++ (linkName k ++ ['"', ')'])

/-- `n + 1` modules -/
def linkFiles (n : Nat) (p : Text) : Option Text :=
  if p = linkName (p.length - 1) ∧ p.length ≤ n + 1 then some (linkText (p.length - 1)) else none

/-- the tokens of `linkText` -/
def linkTokens : Nat → List Token
  | 0 => [.arrayBegin, .arrayEnd]
  | k + 1 => [.id "module".toList, .dot, .id "exports".toList, .equals, .id "require".toList,
      .openingParenthesis] ++ .string (linkName k) :: [.closingParenthesis]

variable {conv : BigFloat → Res Nat}

/-- one character, after the tokens `acc` -/
theorem run_one_step {st st' : State} {c : Char} {cs : Text} {acc ts : List Token} {x : Res Out}
    (h : step conv st c = .ok (ts, st'))
    (h2 : ((Tok.run conv st' cs).bind fun q => .ok ((acc ++ ts) ++ q.1, q.2)) = x) :
    ((Tok.run conv st (c :: cs)).bind fun q => .ok (acc ++ q.1, q.2)) = x := by
  rw [← h2, run_cons_ok h]
  cases Tok.run conv st' cs with
  | error e => rfl
  | ok q => simp [Except.bind]

theorem run_start {st : State} {cs : Text} {x : Res Out}
    (h : ((Tok.run conv st cs).bind fun q => .ok ([] ++ q.1, q.2)) = x) : Tok.run conv st cs = x := by
  rw [← h]
  cases Tok.run conv st cs with
  | error e => rfl
  | ok q => simp [Except.bind]

theorem run_xs (n : Nat) (s : Text) : Tok.run conv (.parseString s) (List.replicate n 'x') =
    .ok ([], .parseString (s ++ List.replicate n 'x')) := by
  induction n generalizing s with
  | zero => simp [Tok.run]
  | succ n ih =>
    rw [List.replicate_succ, run_cons_ok (ts := []) (st' := .parseString (s ++ ['x'])) rfl, ih]
    simp [Except.bind]

theorem tokenize_of {cs : Text} {ts te : List Token} {st : State}
    (h : Tok.run conv .initial cs = .ok (ts, st)) (he : endTokens conv st = .ok te) :
    tokenize conv cs = .ok (ts ++ te) := by
  rw [tokenize, h]
  change (endTokens conv st >>= fun x => pure (ts ++ x)) = _
  rw [he]
  rfl

theorem run_link_start : Tok.run conv .initial "module.exports=require(\"".toList =
    .ok ([.id "module".toList, .dot, .id "exports".toList, .equals, .id "require".toList,
      .openingParenthesis], .parseString []) := by
  rw [show "module.exports=require(\"".toList = ['m', 'o', 'd', 'u', 'l', 'e', '.', 'e', 'x',
    'p', 'o', 'r', 't', 's', '=', 'r', 'e', 'q', 'u', 'i', 'r', 'e', '(', '"'] from
    by decide +kernel]
  refine run_start ?_
  iterate 24 refine run_one_step rfl ?_
  rfl

theorem run_link_end (s : Text) : Tok.run conv (.parseString s) ['"', ')'] =
    .ok ([.string s], .parseOperator [')']) := by
  refine run_start ?_
  refine run_one_step (ts := [.string s]) (st' := .initial) rfl ?_
  refine run_one_step (ts := []) (st' := .parseOperator [')']) rfl ?_
  rfl

theorem run_brackets : Tok.run conv .initial ['[', ']'] =
    .ok ([.arrayBegin], .parseOperator [']']) := by
  refine run_start ?_
  refine run_one_step (ts := []) (st' := .parseOperator ['[']) rfl ?_
  refine run_one_step (ts := [.arrayBegin]) (st' := .parseOperator [']']) rfl ?_
  rfl

theorem end_bracket : endTokens conv (.parseOperator [']']) = .ok [.arrayEnd] := by rfl
theorem end_paren : endTokens conv (.parseOperator [')']) = .ok [.closingParenthesis] := by rfl

theorem link_tokens (k : Nat) : tokenize conv (linkText k) = .ok (linkTokens k) := by
  cases k with
  | zero => exact tokenize_of run_brackets end_bracket
  | succ k =>
    have h2 : Tok.run conv (.parseString []) (linkName k) = .ok ([], .parseString (linkName k)) :=
      run_xs (k + 1) []
    have h3 := run_trans h2 (run_link_end _)
    have h4 := run_trans run_link_start h3
    have h5 := tokenize_of h4 end_paren
    refine Eq.trans h5 (congrArg Except.ok ?_)
    rw [linkTokens, List.nil_append, List.append_assoc]
    rfl

theorem link_resolve (n k : Nat) :
    Env.resolve ⟨linkFiles n, conv, linkName n⟩ (linkName k) = linkName k := by
  have hs : ∀ k, '/' ∉ linkName k := by
    intro k h
    have := List.eq_of_mem_replicate h
    cases this
  have h1 : Path.split (linkName n) = ([], linkName n) := by
    rcases C48_split (linkName n) with ⟨-, h⟩ | ⟨d, f, -, h, -⟩
    · exact h
    · exact absurd (h ▸ by simp) (hs n)
  simp only [Env.resolve, h1, Path.concat, Path.normalize, List.nil_append]
  rw [show Path.splitSlash ('/' :: linkName k) = [[], linkName k] by
    rw [Path.splitSlash, if_pos rfl, Path.splitSlash_of_noSlash (hs k)]]
  have h2 : linkName k ≠ [] := by simp [linkName]
  have h3 : linkName k ≠ ['.', '.'] := by
    intro h
    have : '.' ∈ linkName k := by rw [h]; simp
    have := List.eq_of_mem_replicate this
    cases this
  simp [Path.normStep, h2, h3, Path.joinSlash]

theorem link_file {n k : Nat} (h : k ≤ n) : linkFiles n (linkName k) = some (linkText k) := by
  simp [linkFiles, linkName, h]

/-- the first tokens of a module of the chain -/
theorem link_push {env : Env} {self : ParseTokens} {ctx : Ctx} {k : Nat} :
    pushAll env self ctx JState.start (linkTokens (k + 1)) =
      (importModule env self ctx (linkName k) >>= fun x => match x with
        | (ctx, .ok v) => .ok (ctx, .result .cjs v)
        | (ctx, .error e) => .ok (ctx, .error e)) := by
  change ((anyParse env self ctx ⟨.cjs, .importValue, .none, [], []⟩ (.string (linkName k)) >>=
    fun x => Except.ok (x.1, forModule x.2)) >>= fun x =>
      pushAll env self x.1 x.2 [.closingParenthesis]) = _
  rw [anyParse_import rfl]
  change (((importModule env self ctx (linkName k) >>= _) >>= _) >>= _) = _
  cases importModule env self ctx (linkName k) with
  | error e => rfl
  | ok x =>
    obtain ⟨ctx, x⟩ := x
    cases x <;> rfl

theorem link_import {n k : Nat} (hk : k ≤ n) {self : ParseTokens} {ctx : Ctx}
    (hc : ctx.complete = []) (hp : linkName k ∉ ctx.progress) :
    importModule ⟨linkFiles n, conv, linkName n⟩ self ctx (linkName k) = (do
      let (ctx, r) ← self (enter ctx (linkName k)) (linkTokens k)
      match r with
      | .ok (_, v) => return (leave ctx (linkName k) v, .ok v)
      | .error e => return (ctx, .error e)) := by
  have h0 : TMap.get ctx.complete (linkName k) = none := by rw [hc]; rfl
  simp only [importModule, link_resolve, h0, hp, link_file hk, link_tokens, if_false]
  rfl

theorem link_ne {j k : Nat} (h : j ≠ k) : linkName j ≠ linkName k := by
  intro e
  have := congrArg List.length e
  simp [linkName] at this
  omega

theorem link_enter {k : Nat} {ctx : Ctx} (hp : ∀ j < k + 1, linkName j ∉ ctx.progress) :
    ∀ j < k, linkName j ∉ (enter ctx (linkName k)).progress := by
  intro j hj
  simp only [enter, setInsert_new (hp k (by omega)), List.mem_cons, not_or]
  exact ⟨link_ne (by omega), hp j (by omega)⟩

theorem parse_tokens_succ (env : Env) (f : Nat) (ctx : Ctx) (ts : List Token) :
    parseWithTokens env (f + 1) ctx ts =
      (pushAll env (parseWithTokens env f) ctx JState.start ts >>= fun x =>
        pure (x.1, x.2.end_)) := rfl

theorem link_short (n f : Nat) : ∀ (k : Nat) (ctx : Ctx), k ≤ n → f ≤ k → ctx.complete = [] →
    (∀ j < k, linkName j ∉ ctx.progress) →
    parseWithTokens ⟨linkFiles n, conv, linkName n⟩ f ctx (linkTokens k) = .error .fuel := by
  induction f with
  | zero => intro k ctx _ _ _ _; rfl
  | succ f ih =>
    intro k ctx hk hf hc hp
    obtain ⟨k, rfl⟩ : ∃ j, k = j + 1 := ⟨k - 1, by omega⟩
    rw [parse_tokens_succ, link_push, link_import (by omega) hc (hp k (by omega)),
      ih k (enter ctx (linkName k)) (by omega) (by omega) hc (link_enter hp)]
    rfl

theorem link_long (n : Nat) : ∀ (k : Nat) (ctx : Ctx), k ≤ n → ctx.complete = [] →
    (∀ j < k, linkName j ∉ ctx.progress) →
    ∃ ctx' dt i, parseWithTokens ⟨linkFiles n, conv, linkName n⟩ (k + 1) ctx (linkTokens k) =
      .ok (ctx', .ok (dt, .arr i [])) := by
  intro k
  induction k with
  | zero => intro ctx _ _ _; exact ⟨_, _, _, rfl⟩
  | succ k ih =>
    intro ctx hk hc hp
    obtain ⟨ctx', dt, i, h⟩ := ih (enter ctx (linkName k)) (by omega) hc (link_enter hp)
    refine ⟨leave ctx' (linkName k) (.arr i []), .cjs, i, ?_⟩
    rw [parse_tokens_succ, link_push, link_import (by omega) hc (hp k (by omega)), h]
    rfl

/-- No number of calls is enough for all projects: for every `n` there are `n + 1` files, such that
the main module is an array, and `n` calls of `parse_with_tokens` at the same time are not enough. -/
theorem C88_imports_chain_violated (n : Nat) : ∃ (fs : Text → Option Text) (path : Text)
    (files : List Text), files.length = n + 1 ∧ (∀ p text, fs p = some text → p ∈ files) ∧
    (∀ p text, fs p = some text → ∃ ts, tokenize conv text = .ok ts) ∧
    (∃ ctx dt i, parse ⟨fs, conv, path⟩ (n + 1) Ctx.empty = .ok (ctx, .ok (dt, .arr i []))) ∧
    parse ⟨fs, conv, path⟩ n Ctx.empty = .error .fuel := by
  have hfresh : ∀ j < n, linkName j ∉ (enter Ctx.empty (linkName n)).progress :=
    link_enter (by intro j _; simp [Ctx.empty])
  have hp (f : Nat) : parse ⟨linkFiles n, conv, linkName n⟩ f Ctx.empty =
      parseWithTokens ⟨linkFiles n, conv, linkName n⟩ f (enter Ctx.empty (linkName n))
        (linkTokens n) := by
    simp only [parse, link_file (Nat.le_refl n), link_tokens]
    rfl
  refine ⟨linkFiles n, linkName n, (List.range (n + 1)).map linkName, by simp, ?_, ?_, ?_, ?_⟩
  · intro p text h
    rw [linkFiles] at h
    split at h
    next hh =>
      rw [hh.1]
      exact List.mem_map_of_mem (List.mem_range.2 (by omega))
    next => cases h
  · intro p text h
    rw [linkFiles] at h
    split at h
    next hh =>
      cases h
      exact ⟨_, link_tokens _⟩
    next => cases h
  · rw [hp]
    exact link_long n n _ (Nat.le_refl n) rfl hfresh
  · rw [hp]
    exact link_short n n n _ (Nat.le_refl n) (Nat.le_refl n) rfl hfresh

/-- The full property for the parser is false. -/
theorem C88_imports_violated : ¬ ImportsBounded conv := by
  rintro ⟨f, h⟩
  obtain ⟨fs, path, files, -, h1, h2, -, h3⟩ := C88_imports_chain_violated (conv := conv) f
  refine h fs path ⟨files, h1⟩ (fun p text hp => ?_) h3
  obtain ⟨ts, e⟩ := h2 p text hp
  rw [e]
  simp

/-! ## Examples that meet the hypotheses -/

/-- the modules `xx` and `x`: no chain is longer than two -/
example : let env : Env := ⟨linkFiles 1, fun _ => .ok 0, linkName 1⟩
    (∀ p text, env.fs p = some text → tokenize env.conv text ≠ .error .fuel) ∧
    (∀ l, NamedChain env.read env.resolve (l ++ [env.path]) → (l ++ [env.path]).length ≤ 2) ∧
    NamedChain env.read env.resolve [linkName 0, linkName 1] := by
  intro env
  have hfile : ∀ p text, env.fs p = some text → p ∈ [linkName 0, linkName 1] ∧
      ∃ ts, tokenize env.conv text = .ok ts := by
    intro p text h
    change linkFiles 1 p = _ at h
    rw [linkFiles] at h
    split at h
    next hh =>
      cases h
      refine ⟨?_, _, link_tokens _⟩
      have : p.length - 1 = 0 ∨ p.length - 1 = 1 := by omega
      rw [hh.1]
      rcases this with e | e <;> rw [e] <;> simp
    next => cases h
  have hread : ∀ p ts, env.read p = some ts → p ∈ [linkName 0, linkName 1] := by
    intro p ts h
    obtain ⟨text, hf, -⟩ := read_cases h
    exact (hfile p text hf).1
  have hmem : ∀ l, NamedChain env.read env.resolve l → l.Nodup ∧ ∀ q ∈ l, q ∈ [linkName 0, linkName 1] := by
    intro l h
    induction h with
    | one p ts h => exact ⟨by simp, fun q hq => by rw [List.mem_singleton.1 hq]; exact hread p ts h⟩
    | next s p l ts ts' h1 h2 h3 h4 _ ih =>
      refine ⟨List.nodup_cons.2 ⟨h4, ih.1⟩, fun q hq => ?_⟩
      rcases List.mem_cons.1 hq with rfl | hq
      · exact hread _ _ h1
      · exact ih.2 q hq
  refine ⟨fun p text h he => ?_, fun l h => ?_, ?_⟩
  · obtain ⟨-, ts, e⟩ := hfile p text h
    rw [e] at he
    cases he
  · obtain ⟨h1, h2⟩ := hmem _ h
    exact (List.Nodup.subperm h1 h2).length_le
  · have e := link_resolve (conv := env.conv) 1 0
    have h0 : env.read (linkName 0) = some (linkTokens 0) :=
      read_eq (link_file (n := 1) (k := 0) (by omega)) (link_tokens 0)
    have h1 : env.read (linkName 1) = some (linkTokens 1) :=
      read_eq (link_file (n := 1) (k := 1) (by omega)) (link_tokens 1)
    have := NamedChain.next (read := env.read) (resolve := env.resolve) (linkName 0) (linkName 1) []
      (linkTokens 1) (linkTokens 0) (by rw [e]; exact h0) h1 (by simp [linkTokens]) (by
        rw [e]; simp [link_ne]) (.one _ _ h1)
    rwa [e] at this

end Parser
end Nanvm
