import Verif.Props.ParserPure
import Verif.Props.App
/-!
# Property theorems C78: only the files that are read matter
-/
namespace Nanvm
namespace Parser
open Tok
open Ser (bind_eq_ok)

namespace Frame

/-- every step logs the files it reads, and does the same if these files are the same -/
def Only {α : Type} (fs fs' : Text → Option Text) (ctx : Ctx) (x x' : Res (Ctx × α)) : Prop :=
  ∀ ctx' a, x = .ok (ctx', a) → (∀ p ∈ ctx.reads, p ∈ ctx'.reads) ∧
    ((∀ p ∈ ctx'.reads, fs p = fs' p) → x' = .ok (ctx', a))

theorem Only.refl {α : Type} {fs fs' : Text → Option Text} {ctx : Ctx} {x : Res (Ctx × α)}
    (h : ∀ ctx' a, x = .ok (ctx', a) → ctx'.reads = ctx.reads) : Only fs fs' ctx x x := by
  intro ctx' a hx
  exact ⟨fun p hp => by rw [h ctx' a hx]; exact hp, fun _ => hx⟩

theorem Only.bind {α β : Type} {fs fs' : Text → Option Text} {ctx : Ctx} {x x' : Res (Ctx × α)}
    {f f' : Ctx × α → Res (Ctx × β)} (h : Only fs fs' ctx x x')
    (hf : ∀ ctx1 a, Only fs fs' ctx1 (f (ctx1, a)) (f' (ctx1, a))) :
    Only fs fs' ctx (x >>= f) (x' >>= f') := by
  intro ctx' b hx
  obtain ⟨⟨ctx1, a⟩, h1, h2⟩ := bind_eq_ok.1 hx
  obtain ⟨h3, h4⟩ := h ctx1 a h1
  obtain ⟨h5, h6⟩ := hf ctx1 a ctx' b h2
  refine ⟨fun p hp => h5 p (h3 p hp), fun hs => ?_⟩
  exact bind_eq_ok.2 ⟨(ctx1, a), h4 fun p hp => hs p (h5 p hp), h6 hs⟩

theorem Only.pure {α : Type} {fs fs' : Text → Option Text} {ctx : Ctx} (a : α) :
    Only fs fs' ctx (.ok (ctx, a)) (.ok (ctx, a)) :=
  Only.refl fun _ _ h => by cases h; rfl

theorem Only.error {α : Type} {fs fs' : Text → Option Text} {ctx : Ctx} (e : Err)
    (x : Res (Ctx × α)) : Only fs fs' ctx (.error e) x := by
  intro _ _ h; cases h

variable {env env' : Env} {self self' : ParseTokens}

theorem importModule_only (hc : env'.conv = env.conv) (hp : env'.path = env.path)
    (hs : ∀ ctx ts, Only env.fs env'.fs ctx (self ctx ts) (self' ctx ts)) (ctx : Ctx) (s : Text) :
    Only env.fs env'.fs ctx (importModule env self ctx s) (importModule env' self' ctx s) := by
  have hr : env'.resolve s = env.resolve s := by rw [Env.resolve, Env.resolve, hp]
  unfold importModule
  rw [hr, hc]
  simp only
  cases hg : ctx.complete.get (env.resolve s) with
  | some v => exact Only.pure _
  | none =>
    simp only
    by_cases hin : env.resolve s ∈ ctx.progress
    · rw [if_pos hin, if_pos hin]; exact Only.pure _
    · rw [if_neg hin, if_neg hin]
      intro ctx' a hx
      -- the file is among the files read
      have key : ∀ (text : Text) (c : Ctx),
          Only env.fs env'.fs c (do
            let tokens ← tokenize env.conv text
            let (ctx, r) ← self c tokens
            match r with
            | .ok (_, v) =>
              return (({ ctx with
                progress := setRemove ctx.progress (env.resolve s),
                complete := ctx.complete.insert (env.resolve s) v } : Ctx),
                (Except.ok v : Except ParseError Val))
            | .error e => return (ctx, Except.error e)) (do
            let tokens ← tokenize env.conv text
            let (ctx, r) ← self' c tokens
            match r with
            | .ok (_, v) =>
              return (({ ctx with
                progress := setRemove ctx.progress (env.resolve s),
                complete := ctx.complete.insert (env.resolve s) v } : Ctx),
                (Except.ok v : Except ParseError Val))
            | .error e => return (ctx, Except.error e)) := by
        intro text c
        cases tokenize env.conv text with
        | error e => exact Only.error _ _
        | ok ts =>
          refine Only.bind (hs c ts) fun ctx1 r => ?_
          cases r with
          | error e => exact Only.pure _
          | ok v => exact Only.refl fun _ _ h => by cases h; rfl
      cases hf : env.fs (env.resolve s) with
      | none =>
        rw [hf] at hx
        cases hx
        refine ⟨fun p hp => List.mem_cons_of_mem _ hp, fun h => ?_⟩
        have := h (env.resolve s) List.mem_cons_self
        rw [← this, hf]
      | some text =>
        rw [hf] at hx
        obtain ⟨h1, h2⟩ := key text _ ctx' a hx
        refine ⟨fun p hp => h1 p (List.mem_cons_of_mem _ hp), fun h => ?_⟩
        have := h (env.resolve s) (h1 _ List.mem_cons_self)
        rw [← this, hf]
        exact h2 h

/-- the branches of `dispatch` -/
theorem dispatch_cases (n : Nat) (st : AnyState) (t : Token) :
    (st.status = .importValue ∧ ∀ {α : Type} (f : AnyResult × Nat → α) (iv : Res α),
      dispatch n st t f iv = iv) ∨
    ∃ res : Res (AnyResult × Nat), ∀ {α : Type} (f : AnyResult × Nat → α) (iv : Res α),
      dispatch n st t f iv = res.map f := by
  have hb : ∀ {α β : Type} (x : Res α) (f : α → β),
      (do return f (← x) : Res β) = x.map f := by
    intro α β x f
    cases x <;> rfl
  unfold dispatch
  cases st.status with
  | importValue => exact .inl ⟨rfl, fun f iv => rfl⟩
  | initial | objectColon => exact .inr ⟨parseValue n st t, fun f iv => hb _ _⟩
  | arrayBegin => exact .inr ⟨parseArrayBegin n st t, fun f iv => hb _ _⟩
  | arrayValue => exact .inr ⟨parseArrayValue n st t, fun f iv => hb _ _⟩
  | arrayComma => exact .inr ⟨parseArrayComma n st t, fun f iv => hb _ _⟩
  | objectBegin => exact .inr ⟨parseObjectBegin n st t, fun f iv => hb _ _⟩
  | objectKey => exact .inr ⟨.ok (parseObjectKey st t, n), fun f iv => rfl⟩
  | objectValue => exact .inr ⟨parseObjectNext n st t, fun f iv => hb _ _⟩
  | objectComma => exact .inr ⟨parseObjectComma n st t, fun f iv => hb _ _⟩
  | importBegin => exact .inr ⟨.ok (parseImportBegin st t, n), fun f iv => rfl⟩
  | importEnd =>
    refine .inr ⟨(parseImportEnd st t).map (·, n), fun f iv => ?_⟩
    cases parseImportEnd st t <;> rfl

theorem anyParse_only (hc : env'.conv = env.conv) (hp : env'.path = env.path)
    (hs : ∀ ctx ts, Only env.fs env'.fs ctx (self ctx ts) (self' ctx ts)) (ctx : Ctx)
    (st : AnyState) (t : Token) :
    Only env.fs env'.fs ctx (anyParse env self ctx st t) (anyParse env' self' ctx st t) := by
  unfold anyParse
  rcases dispatch_cases ctx.next st t with ⟨-, h⟩ | ⟨res, h⟩
  · rw [h, h]
    unfold importValue
    split
    · refine Only.bind (importModule_only hc hp hs ctx _) fun ctx1 r => ?_
      cases r <;> exact Only.pure _
    · exact Only.pure _
  · rw [h, h]
    cases res with
    | error e => exact Only.error _ _
    | ok r => exact Only.refl fun _ _ h => by cases h; rfl

theorem rootParse_only (hc : env'.conv = env.conv) (hp : env'.path = env.path)
    (hs : ∀ ctx ts, Only env.fs env'.fs ctx (self ctx ts) (self' ctx ts)) (ctx : Ctx)
    (r : RootState) (t : Token) :
    Only env.fs env'.fs ctx (rootParse env self ctx r t) (rootParse env' self' ctx r t) := by
  unfold rootParse
  cases r.parse ctx.next t with
  | error e => exact Only.error _ _
  | ok x =>
    obtain ⟨⟨j, imp⟩, n⟩ := x
    have hnext : ∀ {x x' : Res (Ctx × JState)}, Only env.fs env'.fs { ctx with next := n } x x' →
        Only env.fs env'.fs ctx x x' := fun h => h
    apply hnext
    cases imp with
    | none => exact Only.pure _
    | some im =>
      obtain ⟨id, module⟩ := im
      cases j with
      | parseRoot r =>
        refine Only.bind (importModule_only hc hp hs _ _) fun ctx1 r => ?_
        cases r <;> exact Only.pure _
      | _ => exact Only.error _ _

theorem jsonPush_only (hc : env'.conv = env.conv) (hp : env'.path = env.path)
    (hs : ∀ ctx ts, Only env.fs env'.fs ctx (self ctx ts) (self' ctx ts)) (ctx : Ctx)
    (j : JState) (t : Token) :
    Only env.fs env'.fs ctx (jsonPush env self ctx j t) (jsonPush env' self' ctx j t) := by
  unfold jsonPush
  split
  · split
    · exact rootParse_only hc hp hs ctx _ _
    · exact Only.pure _
  · split
    · exact rootParse_only hc hp hs ctx _ _
    · exact Only.pure _
    · exact Only.bind (anyParse_only hc hp hs ctx _ _) fun ctx1 r => Only.pure _
    · unfold constStateParse
      split
      · exact Only.error _ _
      · exact Only.bind (anyParse_only hc hp hs ctx _ _) fun ctx1 r => Only.pure _
    · exact Only.pure _

theorem pushAll_only (hc : env'.conv = env.conv) (hp : env'.path = env.path)
    (hs : ∀ ctx ts, Only env.fs env'.fs ctx (self ctx ts) (self' ctx ts)) (ctx : Ctx)
    (j : JState) (ts : List Token) :
    Only env.fs env'.fs ctx (pushAll env self ctx j ts) (pushAll env' self' ctx j ts) := by
  induction ts generalizing ctx j with
  | nil => exact Only.pure _
  | cons t ts ih => exact Only.bind (jsonPush_only hc hp hs ctx j t) fun ctx1 j1 => ih ctx1 j1

theorem parseWithTokens_only (hc : env'.conv = env.conv) (hp : env'.path = env.path) (fuel : Nat)
    (ctx : Ctx) (ts : List Token) : Only env.fs env'.fs ctx (parseWithTokens env fuel ctx ts)
      (parseWithTokens env' fuel ctx ts) := by
  induction fuel generalizing ctx ts with
  | zero => exact Only.error _ _
  | succ fuel ih =>
    exact Only.bind (pushAll_only hc hp ih ctx JState.start ts) fun ctx1 j => Only.pure _

/-! ### Files that can be named, for runs that panic as well -/

/-- the strings among the tokens name files of `S` -/
def NamesIn (env : Env) (S : Text → Prop) (ts : List Token) : Prop :=
  ∀ s, Token.string s ∈ ts → S (env.resolve s)

variable {S : Text → Prop}

theorem importModule_closed (hc : env'.conv = env.conv) (hp : env'.path = env.path)
    (hS : ∀ p, S p → ∀ text ts, env.fs p = some text → tokenize env.conv text = .ok ts →
      NamesIn env S ts)
    (ha : ∀ p, S p → env'.fs p = env.fs p)
    (hs : ∀ ctx ts, NamesIn env S ts → self' ctx ts = self ctx ts) (ctx : Ctx) (s : Text)
    (h : S (env.resolve s)) : importModule env' self' ctx s = importModule env self ctx s := by
  have hr : env'.resolve s = env.resolve s := by rw [Env.resolve, Env.resolve, hp]
  unfold importModule
  rw [hr, hc]
  simp only [ha _ h]
  cases ctx.complete.get (env.resolve s) with
  | some v => rfl
  | none =>
    simp only
    by_cases hin : env.resolve s ∈ ctx.progress
    · rw [if_pos hin, if_pos hin]
    · rw [if_neg hin, if_neg hin]
      cases hf : env.fs (env.resolve s) with
      | none => rfl
      | some text =>
        simp only
        cases ht : tokenize env.conv text with
        | error e => rfl
        | ok ts =>
          simp only [bind, Except.bind]
          rw [hs _ ts (hS _ h text ts hf ht)]

theorem anyParse_closed (hc : env'.conv = env.conv) (hp : env'.path = env.path)
    (hS : ∀ p, S p → ∀ text ts, env.fs p = some text → tokenize env.conv text = .ok ts →
      NamesIn env S ts)
    (ha : ∀ p, S p → env'.fs p = env.fs p)
    (hs : ∀ ctx ts, NamesIn env S ts → self' ctx ts = self ctx ts) (ctx : Ctx) (st : AnyState)
    (t : Token) (h : NamesIn env S [t]) :
    anyParse env' self' ctx st t = anyParse env self ctx st t := by
  unfold anyParse
  rcases dispatch_cases ctx.next st t with ⟨-, h1⟩ | ⟨res, h1⟩
  · rw [h1, h1]
    unfold importValue
    split
    · rw [importModule_closed hc hp hS ha hs ctx _ (h _ (by simp))]
    · rfl
  · rw [h1, h1]

theorem rootParse_closed (hc : env'.conv = env.conv) (hp : env'.path = env.path)
    (hS : ∀ p, S p → ∀ text ts, env.fs p = some text → tokenize env.conv text = .ok ts →
      NamesIn env S ts)
    (ha : ∀ p, S p → env'.fs p = env.fs p)
    (hs : ∀ ctx ts, NamesIn env S ts → self' ctx ts = self ctx ts) (ctx : Ctx) (r : RootState)
    (t : Token) (h : NamesIn env S [t]) :
    rootParse env' self' ctx r t = rootParse env self ctx r t := by
  unfold rootParse
  cases hr : r.parse ctx.next t with
  | error e => rfl
  | ok x =>
    obtain ⟨⟨j, imp⟩, n⟩ := x
    cases imp with
    | none => rfl
    | some im =>
      obtain ⟨id, module⟩ := im
      have ht : t = .string module := by
        have e : (JState.parseRoot r).push ctx.next t = r.parse ctx.next t := by
          unfold JState.push; cases t <;> rfl
        obtain ⟨-, -, -, ht, -⟩ := (C77_import _ _ _ _ _ _ _).1 (e.trans hr)
        exact ht
      cases j with
      | parseRoot r =>
        simp only [bind, Except.bind]
        rw [importModule_closed hc hp hS ha hs _ _ (h _ (by simp [ht]))]
      | _ => rfl

theorem jsonPush_closed (hc : env'.conv = env.conv) (hp : env'.path = env.path)
    (hS : ∀ p, S p → ∀ text ts, env.fs p = some text → tokenize env.conv text = .ok ts →
      NamesIn env S ts)
    (ha : ∀ p, S p → env'.fs p = env.fs p)
    (hs : ∀ ctx ts, NamesIn env S ts → self' ctx ts = self ctx ts) (ctx : Ctx) (j : JState)
    (t : Token) (h : NamesIn env S [t]) :
    jsonPush env' self' ctx j t = jsonPush env self ctx j t := by
  unfold jsonPush moduleParse constStateParse
  simp only [rootParse_closed hc hp hS ha hs ctx _ t h, anyParse_closed hc hp hS ha hs ctx _ t h]

theorem pushAll_closed (hc : env'.conv = env.conv) (hp : env'.path = env.path)
    (hS : ∀ p, S p → ∀ text ts, env.fs p = some text → tokenize env.conv text = .ok ts →
      NamesIn env S ts)
    (ha : ∀ p, S p → env'.fs p = env.fs p)
    (hs : ∀ ctx ts, NamesIn env S ts → self' ctx ts = self ctx ts) (ctx : Ctx) (j : JState)
    (ts : List Token) (h : NamesIn env S ts) :
    pushAll env' self' ctx j ts = pushAll env self ctx j ts := by
  induction ts generalizing ctx j with
  | nil => rfl
  | cons t ts ih =>
    unfold pushAll
    rw [jsonPush_closed hc hp hS ha hs ctx j t fun s hm => h s (by simp at hm; simp [hm])]
    cases jsonPush env self ctx j t with
    | error e => rfl
    | ok x => exact ih _ _ fun s hm => h s (List.mem_cons_of_mem _ hm)

theorem parseWithTokens_closed (hc : env'.conv = env.conv) (hp : env'.path = env.path)
    (hS : ∀ p, S p → ∀ text ts, env.fs p = some text → tokenize env.conv text = .ok ts →
      NamesIn env S ts)
    (ha : ∀ p, S p → env'.fs p = env.fs p) (fuel : Nat) (ctx : Ctx) (ts : List Token)
    (h : NamesIn env S ts) : parseWithTokens env' fuel ctx ts = parseWithTokens env fuel ctx ts := by
  induction fuel generalizing ctx ts with
  | zero => rfl
  | succ fuel ih =>
    unfold parseWithTokens
    rw [pushAll_closed hc hp hS ha ih ctx JState.start ts h]

end Frame

open Frame

/-- **C78**: the result of loading a module, its cache and the files that are read depend only on
the files that are read: if these have the same contents (or are missing as before), nothing
changes. -/
theorem C78_parse (env env' : Env) (hc : env'.conv = env.conv) (hp : env'.path = env.path)
    (fuel : Nat) (ctx ctx' : Ctx) (o : Outcome) (h : parse env fuel ctx = .ok (ctx', o))
    (hs : ∀ p ∈ ctx'.reads, env'.fs p = env.fs p) : parse env' fuel ctx = .ok (ctx', o) := by
  unfold parse at h ⊢
  rw [hp, hc]
  simp only at h ⊢
  cases hf : env.fs env.path with
  | none =>
    rw [hf] at h
    cases h
    rw [hs env.path List.mem_cons_self, hf]
  | some text =>
    rw [hf] at h
    cases ht : tokenize env.conv text with
    | error e => simp only [ht] at h; cases h
    | ok ts =>
      simp only [ht] at h
      obtain ⟨h1, h2⟩ := parseWithTokens_only hc hp fuel _ ts ctx' o h
      have h3 := hs env.path (h1 _ List.mem_cons_self)
      rw [h3, hf]
      simp only [ht]
      exact h2 fun p hp => (hs p hp).symm

/-- **C78**, for runs that panic as well: let `S` be a set of paths that contains the root module and
with every file all files named by a string in it.  Files outside `S` do not matter at all: with the
same files in `S` loading gives the same value, error or panic. -/
theorem C78_named (env env' : Env) (hc : env'.conv = env.conv) (hp : env'.path = env.path)
    (S : Text → Prop) (hroot : S env.path)
    (hS : ∀ p text ts s, S p → env.fs p = some text → tokenize env.conv text = .ok ts →
      .string s ∈ ts → S (env.resolve s))
    (ha : ∀ p, S p → env'.fs p = env.fs p) (fuel : Nat) (ctx : Ctx) :
    parse env' fuel ctx = parse env fuel ctx := by
  unfold parse
  rw [hp, hc, ha _ hroot]
  simp only
  cases hf : env.fs env.path with
  | none => rfl
  | some text =>
    simp only
    cases ht : tokenize env.conv text with
    | error e => rfl
    | ok ts =>
      exact parseWithTokens_closed hc hp (fun p hp text ts hf ht s hm => hS p text ts s hp hf ht hm)
        ha fuel _ ts fun s hm => hS _ text ts s hroot hf ht hm

/-- a file system with the files `m`, which imports `b`, and `c` -/
def threeFiles (b c : Text) : Env :=
  ⟨fun p => if p = ['m'] then some "import a from \"b\"\nexport default [a,a]".toList
    else if p = ['b'] then some b else if p = ['c'] then some c else none, fun _ => .ok 0, ['m']⟩

/-- the file `c` is not read, so its contents do not matter; those of `b` do -/
example :
    (parse (threeFiles "[]".toList "1".toList) 3 Ctx.empty).map
      (fun (x : Ctx × Outcome) => (x.1.reads, x.2.isOk)) = .ok ([['b'], ['m']], true) ∧
    (parse (threeFiles "[]".toList "2".toList) 3 Ctx.empty).map
      (fun (x : Ctx × Outcome) => (x.1.reads, x.2.isOk)) = .ok ([['b'], ['m']], true) ∧
    (parse (threeFiles "[".toList "1".toList) 3 Ctx.empty).map
      (fun (x : Ctx × Outcome) => (x.1.reads, x.2.isOk)) = .ok ([['b'], ['m']], false) := by
  decide +kernel

/-- a module that panics, beside a file that it cannot name -/
example :
    (parse (threeFiles "const x = ;".toList "1".toList) 3 Ctx.empty).map
      (fun (x : Ctx × Outcome) => x.2.isOk) = .error (.panic .todo) ∧
    (parse (threeFiles "const x = ;".toList "2".toList) 3 Ctx.empty).map
      (fun (x : Ctx × Outcome) => x.2.isOk) = .error (.panic .todo) ∧
    (∀ p text ts s, p = ['m'] ∨ p = ['b'] →
      (threeFiles "const x = ;".toList "1".toList).fs p = some text →
      tokenize (fun _ => .ok 0) text = .ok ts → .string s ∈ ts →
        Env.resolve (threeFiles "const x = ;".toList "1".toList) s = ['m'] ∨
        Env.resolve (threeFiles "const x = ;".toList "1".toList) s = ['b']) := by
  refine ⟨by decide +kernel, by decide +kernel, ?_⟩
  have h1 : tokenize (fun _ => .ok 0) "import a from \"b\"\nexport default [a,a]".toList =
      .ok [.id "import".toList, .id ['a'], .id "from".toList, .string ['b'], .newLine,
        .id "export".toList, .id "default".toList, .arrayBegin, .id ['a'], .comma, .id ['a'],
        .arrayEnd] := by decide +kernel
  have h2 : tokenize (fun _ => .ok 0) "const x = ;".toList =
      .ok [.id "const".toList, .id ['x'], .equals, .semicolon] := by decide +kernel
  rintro p text ts s (rfl | rfl) hf ht hm
  · have hf : some "import a from \"b\"\nexport default [a,a]".toList = some text := hf
    rw [← Option.some.inj hf, h1] at ht
    cases ht
    have hs : s = ['b'] := by simpa using hm
    subst hs
    right; decide +kernel
  · have hf : some "const x = ;".toList = some text := hf
    rw [← Option.some.inj hf, h2] at ht
    cases ht
    simp at hm

end Parser

namespace App
open _root_.Nanvm.Parser

theorem writeResult_frame (io : Io) (output : Text) {w w' : World} (hw : w'.writes = w.writes)
    (s : Res Text) : (writeResult io output s w').1 = (writeResult io output s w).1 ∧
      (writeResult io output s w').2.writes = (writeResult io output s w).2.writes ∧
      ∀ p, w'.files p = w.files p →
        (writeResult io output s w').2.files p = (writeResult io output s w).2.files p := by
  cases s with
  | error e => exact ⟨rfl, hw, fun p h => h⟩
  | ok t =>
    simp only [writeResult, ioWrite]
    by_cases hcw : io.canWrite output t
    · simp only [hcw, if_true, hw]
      refine ⟨trivial, trivial, fun p h => ?_⟩
      by_cases hpo : p = output
      · simp [hpo]
      · simp only [if_neg hpo]; exact h
    · simp only [hcw, hw]
      exact ⟨rfl, rfl, fun p h => h⟩

/-- **C78**: so does a conversion: if loading the input reads the files `ctx.reads` and these are the
same in another file system, the conversion has the same result and writes the same. -/
theorem C78_run (io : Io) (w w' : World) (prog input output : Text) (rest : List Text)
    (ha : io.args = prog :: input :: output :: rest) (ctx : Ctx) (o : Outcome)
    (h : parse ⟨w.files, io.conv, input⟩ io.fuelParse Ctx.empty = .ok (ctx, o))
    (hs : ∀ p ∈ ctx.reads, w'.files p = w.files p) (hw : w'.writes = w.writes) :
    (run io w').1 = (run io w).1 ∧ (run io w').2.writes = (run io w).2.writes ∧
      ∀ p, w'.files p = w.files p → (run io w').2.files p = (run io w).2.files p := by
  have h' := C78_parse ⟨w.files, io.conv, input⟩ ⟨w'.files, io.conv, input⟩ rfl rfl _ _ _ _ h hs
  have hwr := writeResult_frame io output hw
  unfold run
  rw [ha]
  simp only
  cases fileToDataType output with
  | error e => exact ⟨rfl, hw, fun p h => h⟩
  | ok dt =>
    simp only [h, h']
    obtain _ | x := o
    · exact ⟨rfl, hw, fun p h => h⟩
    · cases dt with
      | djs => exact ⟨rfl, hw, fun p h => h⟩
      | _ => exact hwr _

/-- **C78**, for conversions that panic as well: files outside a set `S` that contains the input and
all files named in files of `S` do not matter. -/
theorem C78_run_named (io : Io) (w w' : World) (S : Text → Prop)
    (hroot : ∀ input, io.args[1]? = some input → S input ∧
      ∀ p text ts s, S p → w.files p = some text → Tok.tokenize io.conv text = .ok ts →
        Tok.Token.string s ∈ ts → S (Env.resolve ⟨w.files, io.conv, input⟩ s))
    (ha : ∀ p, S p → w'.files p = w.files p) (hw : w'.writes = w.writes) :
    (run io w').1 = (run io w).1 ∧ (run io w').2.writes = (run io w).2.writes ∧
      ∀ p, w'.files p = w.files p → (run io w').2.files p = (run io w).2.files p := by
  unfold run
  match hargs : io.args with
  | [] | [_] | [_, _] => exact ⟨rfl, hw, fun p h => h⟩
  | prog :: input :: output :: rest =>
    obtain ⟨h1, h2⟩ := hroot input (by rw [hargs]; rfl)
    have e := C78_named ⟨w.files, io.conv, input⟩ ⟨w'.files, io.conv, input⟩ rfl rfl S h1 h2 ha
      io.fuelParse Ctx.empty
    simp only
    cases fileToDataType output with
    | error e => exact ⟨rfl, hw, fun p h => h⟩
    | ok dt =>
      simp only [e]
      cases parse ⟨w.files, io.conv, input⟩ io.fuelParse Ctx.empty with
      | error e => exact ⟨rfl, hw, fun p h => h⟩
      | ok x =>
        obtain ⟨ctx, o⟩ := x
        obtain _ | x := o
        · exact ⟨rfl, hw, fun p h => h⟩
        · cases dt with
          | djs => exact ⟨rfl, hw, fun p h => h⟩
          | _ => exact writeResult_frame io output hw _

/-- two file systems that differ only in a file that is not read -/
example :
    let io := ioOf ["nanvm".toList, ['m'], "o.json".toList]
    let w : World := ⟨(threeFiles "[]".toList "1".toList).fs, []⟩
    let w' : World := ⟨(threeFiles "[]".toList "2".toList).fs, []⟩
    (run io w).2.writes = [("o.json".toList, "[[],[]]".toList)] ∧
      (run io w').2.writes = (run io w).2.writes ∧ w'.files ['c'] ≠ w.files ['c'] := by
  decide +kernel

end App
end Nanvm
