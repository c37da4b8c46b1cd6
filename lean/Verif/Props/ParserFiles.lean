import Verif.Lemmas.ParserTotal
import Verif.Lemmas.GrammarImports
import Mathlib.Logic.Relation
/-!
# C38, C39, C40, C47: modules and files

`parse env fuel Ctx.empty` is a top-level parse of the file `env.path` with an empty cache; the
fuel bounds the nesting of modules (`C38_terminates`, `C38_fuel` show that it does not matter).
-/
namespace Nanvm
namespace Parser
open Tok Grammar

theorem empty_ok (env : Env) : CacheOk env Ctx.empty := fun p v h => by
  simp [Ctx.empty, TMap.get] at h

/-- the ways a parse begins -/
theorem parse_cases {env : Env} {fuel : Nat} {x : Res (Ctx × Outcome)}
    (h : parse env fuel Ctx.empty = x) :
    (env.fs env.path = none ∧ x = .ok (enter Ctx.empty env.path, .error .cannotReadFile)) ∨
    (∃ text, env.fs env.path = some text ∧
      ((∃ e, tokenize env.conv text = .error e ∧ x = .error e) ∨
       (∃ ts, tokenize env.conv text = .ok ts ∧
         x = parseWithTokens env fuel (enter Ctx.empty env.path) ts))) := by
  subst h
  unfold parse
  cases hf : env.fs env.path with
  | none => exact .inl ⟨rfl, rfl⟩
  | some text =>
    refine .inr ⟨text, rfl, ?_⟩
    cases ht : tokenize env.conv text with
    | error e => exact .inl ⟨e, rfl, by simp only [ht]; rfl⟩
    | ok ts => exact .inr ⟨ts, rfl, by simp only [ht]; rfl⟩

/-! ## C38 -/

theorem remaining_le (files progress : List Text) : remaining files progress ≤ files.length :=
  List.length_filter_le _ _

/-- **C38**: with finitely many files parsing ends; the nesting of modules does not exceed the
number of files. -/
theorem C38_terminates (env : Env) (files : List Text)
    (hfin : ∀ p text, env.fs p = some text → p ∈ files)
    (htok : ∀ p text, env.fs p = some text → tokenize env.conv text ≠ .error .fuel)
    (fuel : Nat) (hfuel : files.length < fuel) : parse env fuel Ctx.empty ≠ .error .fuel := by
  intro h
  rcases parse_cases h with ⟨-, he⟩ | ⟨text, hf, ⟨e, ht, he⟩ | ⟨ts, ht, he⟩⟩
  · cases he
  · cases he; exact htok _ _ hf ht
  · have := parseWithTokens_err hfin fuel _ _ _ (enter_ok (empty_ok env) _) he.symm
      (lt_of_le_of_lt (remaining_le _ _) hfuel)
    cases this with
    | semicolon h1 h2 => cases h2
    | nested p ts' h1 h2 h3 => cases h3
    | tokens p text h1 h2 => exact htok _ _ h1 h2

/-- **C38**: once the fuel suffices, more makes no difference: the result of a parse is well
defined. -/
theorem C38_fuel (env : Env) (fuel fuel' : Nat) (hle : fuel ≤ fuel')
    (h : parse env fuel Ctx.empty ≠ .error .fuel) :
    parse env fuel' Ctx.empty = parse env fuel Ctx.empty := by
  rcases parse_cases (env := env) (fuel := fuel) rfl with ⟨hf, he⟩ | ⟨text, hf, ⟨e, ht, he⟩ |
    ⟨ts, ht, he⟩⟩
  · simp only [parse, hf]
  · simp only [parse, hf, ht]; rfl
  · rw [he] at h
    have : parse env fuel' Ctx.empty = parseWithTokens env fuel' (enter Ctx.empty env.path) ts := by
      simp only [parse, hf, ht]; rfl
    rw [he, this, parseWithTokens_more hle _ _ h]

/-- the file at `p` names the file at `q` -/
def ImportsFile (env : Env) (p q : Text) : Prop :=
  ∃ ts s, env.read p = some ts ∧ Imports ts s ∧ q = env.resolve s

theorem parse_sound {env : Env} {fuel : Nat} {ctx : Ctx} {dt : DataType} {v : Val}
    (h : parse env fuel Ctx.empty = .ok (ctx, .ok (dt, v))) :
    CacheOk env ctx ∧ ∃ ts, env.read env.path = some ts ∧
      Module (Loaded env ctx) (fun _ => none) ts v := by
  rcases parse_cases h with ⟨-, he⟩ | ⟨text, hf, ⟨e, ht, he⟩ | ⟨ts, ht, he⟩⟩
  · cases he
  · cases he
  · obtain ⟨h1, h2, h3⟩ := (parseWithTokens_ok env fuel).ok _ _ _ _ _ he.symm
      (enter_ok (empty_ok env) _)
    exact ⟨h2, ts, read_eq hf ht, h3⟩

theorem denotes_acc {env : Env} {p : Text} {v : Val}
    (h : Denotes env.read (fun _ => env.resolve) p v) :
    Acc (fun q p => ImportsFile env p q) p := by
  induction h with
  | module p ts M v hr hm _ ih =>
    constructor
    rintro q ⟨ts', s, hr', hi, rfl⟩
    rw [hr] at hr'
    cases hr'
    obtain ⟨w, hw⟩ := hm.imports hi
    exact ih s w hw

/-- **C38**: if a parse succeeds then no chain of imports that begins at the root is infinite; in
particular none leads back to itself. -/
theorem C38_no_cycle (env : Env) (fuel : Nat) (ctx : Ctx) (dt : DataType) (v : Val)
    (h : parse env fuel Ctx.empty = .ok (ctx, .ok (dt, v))) :
    Acc (fun q p => ImportsFile env p q) env.path := by
  obtain ⟨h1, ts, h2, h3⟩ := parse_sound h
  exact denotes_acc (module_denotes h1 h2 h3)

theorem not_acc_of_cycle {α : Type} {r : α → α → Prop} {a : α}
    (h : Relation.TransGen r a a) : ¬ Acc r a := by
  intro ha
  have := ha.transGen
  induction this with
  | intro x _ ih => exact ih x h h (ha.inv_of_transGen h)

/-- the beginning of a module up to the name of the first import -/
inductive Starts : List Token → Prop
  | newLine (pre) : Starts pre → Starts (.newLine :: pre)
  | import_ (n) : Starts [.id "import".toList, .id n, .id "from".toList]
  | require : Starts [.id "require".toList, .openingParenthesis]
  | const_ (n) : Starts [.id "const".toList, .id n, .equals, .id "require".toList,
      .openingParenthesis]
  | module : Starts [.id "module".toList, .dot, .id "exports".toList, .equals,
      .id "require".toList, .openingParenthesis]

theorem rootParse_import_err {env : Env} {self : ParseTokens} {ctx ctx' : Ctx} {st : AnyState}
    {n s : Text} {nl : Bool} {e : ParseError}
    (h : importModule env self ctx s = .ok (ctx', .error e)) :
    rootParse env self ctx ⟨.importIdFrom n, st, nl⟩ (.string s) = .ok (ctx', .error e) := by
  change (importModule env self ctx s >>= _) = _
  rw [h]
  rfl

theorem anyParse_import_err {env : Env} {self : ParseTokens} {ctx ctx' : Ctx} {st : AnyState}
    {s : Text} {e : ParseError} (h : importModule env self ctx s = .ok (ctx', .error e))
    (hs : st.status = .importValue) :
    anyParse env self ctx st (.string s) = .ok (ctx', .error e) := by
  rw [anyParse_import hs]
  change (importModule env self ctx s >>= _) = _
  rw [h]
  rfl

theorem starts_import {env : Env} {self : ParseTokens} {pre : List Token} (hpre : Starts pre)
    {ctx ctx' : Ctx} {s : Text} {e : ParseError} (rest : List Token)
    (h : importModule env self ctx s = .ok (ctx', .error e)) :
    pushAll env self ctx JState.start (pre ++ .string s :: rest) = .ok (ctx', .error e) := by
  induction hpre with
  | newLine pre _ ih => exact ih
  | import_ n =>
    change (rootParse env self ctx ⟨.importIdFrom n, _, _⟩ (.string s) >>= fun x =>
      pushAll env self x.1 x.2 rest) = _
    rw [rootParse_import_err h]
    exact pushAll_error env self ctx' e rest
  | require =>
    change ((anyParse env self ctx ⟨.cjs, .importValue, .none, [], []⟩ (.string s) >>= fun x =>
      Except.ok (x.1, forModule x.2)) >>= fun x => pushAll env self x.1 x.2 rest) = _
    rw [anyParse_import_err h rfl]
    exact pushAll_error env self ctx' e rest
  | const_ n =>
    change ((anyParse env self ctx ⟨.cjs, .importValue, .none, [], []⟩ (.string s) >>= fun x =>
      Except.ok (x.1, constResult n x.2)) >>= fun x => pushAll env self x.1 x.2 rest) = _
    rw [anyParse_import_err h rfl]
    exact pushAll_error env self ctx' e rest
  | module =>
    change ((anyParse env self ctx ⟨.cjs, .importValue, .none, [], []⟩ (.string s) >>= fun x =>
      Except.ok (x.1, forModule x.2)) >>= fun x => pushAll env self x.1 x.2 rest) = _
    rw [anyParse_import_err h rfl]
    exact pushAll_error env self ctx' e rest

theorem circular_aux {env : Env} {S : Text → Prop} (files : List Text)
    (hfin : ∀ p text, env.fs p = some text → p ∈ files)
    (hS : ∀ p, S p → ∃ pre s rest, env.read p = some (pre ++ .string s :: rest) ∧ Starts pre ∧
      S (env.resolve s))
    (fuel : Nat) : ∀ (ctx : Ctx) (pre : List Token) (s : Text) (rest : List Token), Starts pre →
      S (env.resolve s) → (∀ p, S p → ctx.complete.get p = none) →
      remaining files ctx.progress < fuel →
      ∃ ctx', parseWithTokens env fuel ctx (pre ++ .string s :: rest) =
        .ok (ctx', .error .circularDependency) := by
  induction fuel with
  | zero => intro _ _ _ _ _ _ _ h; omega
  | succ fuel ih =>
    intro ctx pre s rest hpre hs hcomp hlt
    have key : ∃ ctx', importModule env (parseWithTokens env fuel) ctx s =
        .ok (ctx', .error .circularDependency) := by
      by_cases hp : env.resolve s ∈ ctx.progress
      · exact ⟨ctx, by simp [importModule, hcomp _ hs, hp]⟩
      · obtain ⟨pre', s', rest', hr, hpre', hs'⟩ := hS _ hs
        have hr0 := hr
        unfold Env.read at hr
        split at hr
        next text hf =>
          split at hr
          next ts ht =>
            cases hr
            obtain ⟨ctx', h'⟩ := ih (enter ctx (env.resolve s)) pre' s' rest' hpre' hs' hcomp (by
              have := remaining_lt (hfin _ _ hf) hp
              simp only [enter, setInsert_new hp]
              omega)
            refine ⟨ctx', ?_⟩
            simp only [importModule, hcomp _ hs, hp, hf, ht, if_false]
            simp only [enter] at h'
            change (parseWithTokens env fuel _ _ >>= _) = _
            rw [h']
            rfl
          next => cases hr
        next => cases hr
    obtain ⟨ctx', hk⟩ := key
    refine ⟨ctx', ?_⟩
    change (pushAll env (parseWithTokens env fuel) ctx JState.start _ >>= _) = _
    rw [starts_import hpre rest hk]
    rfl

/-- **C38**: if every module of a set, to which the root belongs, first imports a module of that
set, then following the imports leads back to a module that is being parsed, and the result is
`CircularDependency`. -/
theorem C38_circular (env : Env) (files : List Text)
    (hfin : ∀ p text, env.fs p = some text → p ∈ files) (S : Text → Prop)
    (hS : ∀ p, S p → ∃ pre s rest, env.read p = some (pre ++ .string s :: rest) ∧ Starts pre ∧
      S (env.resolve s))
    (hroot : S env.path) (fuel : Nat) (hfuel : files.length < fuel) :
    ∃ ctx, parse env fuel Ctx.empty = .ok (ctx, .error .circularDependency) := by
  obtain ⟨pre, s, rest, hr, hpre, hs⟩ := hS _ hroot
  unfold Env.read at hr
  split at hr
  next text hf =>
    split at hr
    next ts ht =>
      cases hr
      obtain ⟨ctx', h'⟩ := circular_aux files hfin hS fuel (enter Ctx.empty env.path) pre s rest
        hpre hs (fun _ _ => rfl) (lt_of_le_of_lt (remaining_le _ _) hfuel)
      refine ⟨ctx', ?_⟩
      simp only [parse, hf, ht]
      exact h'
    next => cases hr
  next => cases hr

/-- two files that import each other -/
def ring : Env where
  fs := fun p =>
    if p = "a".toList then some "import b from \"b\"\nexport default [b]".toList
    else if p = "b".toList then some "\nmodule.exports = require(\"a\")".toList
    else none
  conv := fun _ => .ok 0
  path := "a".toList

theorem ring_fin : ∀ p text, ring.fs p = some text → p ∈ ["a".toList, "b".toList] := by
  intro p text h
  by_cases h1 : p = "a".toList
  · simp [h1]
  · by_cases h2 : p = "b".toList
    · simp [h2]
    · rw [ring] at h
      simp only [if_neg h1, if_neg h2] at h
      cases h

example : ∃ ctx, parse ring 3 Ctx.empty = .ok (ctx, .error .circularDependency) := by
  refine C38_circular ring _ ring_fin (fun p => p = "a".toList ∨ p = "b".toList) ?_ (.inl rfl) 3
    (by decide)
  rintro p (rfl | rfl)
  · have h : ring.read "a".toList = some ([.id "import".toList, .id "b".toList, .id "from".toList] ++
        .string "b".toList :: [.newLine, .id "export".toList, .id "default".toList, .arrayBegin,
          .id "b".toList, .arrayEnd]) := by decide +kernel
    exact ⟨_, _, _, h, .import_ _, .inr (by decide)⟩
  · have h : ring.read "b".toList = some ([.newLine, .id "module".toList, .dot,
        .id "exports".toList, .equals, .id "require".toList, .openingParenthesis] ++
        .string "a".toList :: [.closingParenthesis]) := by decide +kernel
    exact ⟨_, _, _, h, .newLine _ .module, .inl (by decide)⟩

example : parse ring 3 Ctx.empty ≠ .error .fuel :=
  C38_terminates ring _ ring_fin (fun p text h => by
    have := ring_fin p text h
    simp only [List.mem_cons, List.not_mem_nil, or_false] at this
    rcases this with rfl | rfl <;> cases h <;> decide +kernel) 3 (by decide)

/-- **C38**: importing a module that is being parsed is an error, without reading anything. -/
theorem C38_in_progress (env : Env) (self : ParseTokens) (ctx : Ctx) (s : Text)
    (h : ctx.complete.get (env.resolve s) = none) (hp : env.resolve s ∈ ctx.progress) :
    importModule env self ctx s = .ok (ctx, .error .circularDependency) := by
  simp [importModule, h, hp]

theorem parse_reason {env : Env} {files : List Text}
    (hfin : ∀ p text, env.fs p = some text → p ∈ files) {fuel : Nat} (hfuel : files.length < fuel)
    {e : Err} (h : parse env fuel Ctx.empty = .error e) :
    (∃ p text, env.fs p = some text ∧ tokenize env.conv text = .error e) ∨
    (e = .panic .todo ∧ ∃ p ts, env.read p = some ts ∧ .semicolon ∈ ts) := by
  rcases parse_cases h with ⟨-, he⟩ | ⟨text, hf, ⟨e, ht, he⟩ | ⟨ts, ht, he⟩⟩
  · cases he
  · cases he; exact .inl ⟨_, _, hf, ht⟩
  · have := parseWithTokens_err hfin fuel _ _ _ (enter_ok (empty_ok env) _) he.symm
      (lt_of_le_of_lt (remaining_le _ _) hfuel)
    cases this with
    | semicolon h1 h2 => exact .inr ⟨h2, _, _, read_eq hf ht, h1⟩
    | nested p ts' h1 h2 h3 => exact .inr ⟨h3, _, _, h1, h2⟩
    | tokens p text h1 h2 => exact .inl ⟨_, _, h1, h2⟩

/-- **C38**: a module from which a cycle of imports can be reached is rejected, wherever the imports
are. -/
theorem C38_cycle_rejected (env : Env) (files : List Text)
    (hfin : ∀ p text, env.fs p = some text → p ∈ files)
    (htok : ∀ p text, env.fs p = some text → ∃ ts, tokenize env.conv text = .ok ts ∧
      .semicolon ∉ ts)
    (p : Text) (hreach : Relation.ReflTransGen (ImportsFile env) env.path p)
    (hcycle : Relation.TransGen (ImportsFile env) p p) (fuel : Nat) (hfuel : files.length < fuel) :
    ∃ ctx e, parse env fuel Ctx.empty = .ok (ctx, .error e) := by
  cases h : parse env fuel Ctx.empty with
  | error e =>
    exfalso
    rcases parse_reason hfin hfuel h with ⟨p, text, h1, h2⟩ | ⟨-, p, ts, h1, h2⟩
    · obtain ⟨ts, h3, -⟩ := htok _ _ h1
      rw [h2] at h3; cases h3
    · unfold Env.read at h1
      split at h1
      next text hf =>
        obtain ⟨ts', h3, h4⟩ := htok _ _ hf
        rw [h3] at h1
        cases h1
        exact h4 h2
      next => cases h1
  | ok x =>
    obtain ⟨ctx, o⟩ := x
    cases o with
    | error e => exact ⟨ctx, e, rfl⟩
    | ok y =>
      obtain ⟨dt, v⟩ := y
      have hacc := C38_no_cycle env fuel ctx dt v h
      exfalso
      have : Acc (fun q p => ImportsFile env p q) p := by
        clear hcycle
        induction hreach with
        | refl => exact hacc
        | tail _ hbc ih => exact ih.inv hbc
      exact not_acc_of_cycle (Relation.transGen_swap.2 hcycle) this

/-! ## C39 -/

/-- **C39**: no path is read twice. -/
theorem C39_read_once (env : Env) (fuel : Nat) (ctx : Ctx) (o : Outcome)
    (h : parse env fuel Ctx.empty = .ok (ctx, o)) : ctx.reads.Nodup := by
  rcases parse_cases h with ⟨-, he⟩ | ⟨text, hf, ⟨e, ht, he⟩ | ⟨ts, ht, he⟩⟩
  · cases he; simp [enter, Ctx.empty]
  · cases he
  · have : ExtE (enter Ctx.empty env.path) ctx := by
      cases o with
      | ok y =>
        exact ((parseWithTokens_ok env fuel).ok _ _ _ _ _ he.symm (enter_ok (empty_ok env) _)).1.toE
      | error e =>
        exact (parseWithTokens_ok env fuel).err _ _ _ _ he.symm (enter_ok (empty_ok env) _)
    obtain ⟨new, h1, h2, h3⟩ := this.reads
    rw [h1]
    simp only [enter, Ctx.empty, setInsert, List.not_mem_nil, if_false] at h3 ⊢
    rw [List.nodup_append]
    refine ⟨h2, by simp, ?_⟩
    rintro x hx y hy rfl
    exact (h3 x hx).2 hy

/-- **C39**: a module that was imported before is not read again; its value is the one in the
cache. -/
theorem C39_cached (env : Env) (self : ParseTokens) (ctx : Ctx) (s : Text) (v : Val)
    (h : ctx.complete.get (env.resolve s) = some v) :
    importModule env self ctx s = .ok (ctx, .ok v) := by
  simp [importModule, h]

/-- **C39**: the files read by a successful parse are the root and the modules in the cache. -/
theorem C39_reads (env : Env) (fuel : Nat) (ctx : Ctx) (dt : DataType) (v : Val)
    (h : parse env fuel Ctx.empty = .ok (ctx, .ok (dt, v))) (p : Text) :
    p ∈ ctx.reads ↔ p = env.path ∨ ∃ w, ctx.complete.get p = some w := by
  rcases parse_cases h with ⟨-, he⟩ | ⟨text, hf, ⟨e, ht, he⟩ | ⟨ts, ht, he⟩⟩
  · cases he
  · cases he
  · obtain ⟨new, h1, h2, h3, h4⟩ := ((parseWithTokens_ok env fuel).ok _ _ _ _ _ he.symm
          (enter_ok (empty_ok env) _)).1.reads
    rw [h1]
    simp only [enter, Ctx.empty, List.mem_append, List.mem_singleton, TMap.get] at h3 h4 ⊢
    constructor
    · rintro (hp | hp)
      · exact .inr (Option.ne_none_iff_exists'.1 (h3 p hp).2.2)
      · exact .inl hp
    · rintro (hp | ⟨w, hp⟩)
      · exact .inr hp
      · rcases h4 p (by rw [hp]; simp) with h | h
        · exact absurd rfl h
        · exact .inl h

/-- **C39**: after the first error nothing is read any more: the rest of the tokens makes no
difference to the context. -/
theorem C39_after_error (env : Env) (fuel : Nat) (ctx ctx' : Ctx) (pre rest : List Token)
    (e : ParseError)
    (h : pushAll env (parseWithTokens env fuel) ctx JState.start pre = .ok (ctx', .error e)) :
    parseWithTokens env (fuel + 1) ctx (pre ++ rest) = .ok (ctx', .error e) := by
  have app : ∀ (j : JState) (ctx : Ctx),
      pushAll env (parseWithTokens env fuel) ctx j pre = .ok (ctx', .error e) →
      pushAll env (parseWithTokens env fuel) ctx j (pre ++ rest) = .ok (ctx', .error e) := by
    clear h
    induction pre with
    | nil => intro j ctx h; cases h; exact pushAll_error _ _ _ _ _
    | cons t pre ih =>
      intro j ctx h
      simp only [pushAll, List.cons_append] at h ⊢
      cases hj : jsonPush env (parseWithTokens env fuel) ctx j t with
      | error e => rw [hj] at h; cases h
      | ok x => rw [hj] at h; exact ih _ _ h
  change (pushAll env (parseWithTokens env fuel) ctx JState.start (pre ++ rest) >>= _) = _
  rw [app _ _ h]
  rfl

/-- two modules that import a third one -/
def diamond : Env where
  fs := fun p =>
    if p = "a".toList then
      some "import b from \"b\"\nimport c from \"c\"\nexport default [b,c]".toList
    else if p = "b".toList then some "import d from \"d\"\nexport default d".toList
    else if p = "c".toList then some "import d from \"x/../d\"\nexport default d".toList
    else if p = "d".toList then some "[]".toList
    else none
  conv := fun _ => .ok 0
  path := "a".toList

/-- the paths read by a parse that gives an array of two references to block 0, in order -/
def twiceOf : Res (Ctx × Outcome) → Option (List Text)
  | .ok (ctx, .ok (_, .arr _ [.arr 0 [], .arr 0 []])) => some ctx.reads.reverse
  | _ => none

/-- the hypothesis of `C39_read_once`, `C39_reads`, `C38_no_cycle`, `C40_root_relative` and
`C47_one_value`: a parse that succeeds; the file imported twice is read once and its value, block 0,
occurs twice -/
example : twiceOf (parse diamond 5 Ctx.empty) =
    some ["a".toList, "b".toList, "d".toList, "c".toList] := by decide +kernel

/-! ## C40 -/

/-- resolution against the directory of the importing file -/
def relative (p s : Text) : Text := Path.concat (Path.split p).1 s

theorem denotes_resolve {read : Text → Option (List Token)} {r r' : Text → Text → Text}
    (h : ∀ p ts s, read p = some ts → r p s = r' p s) {p : Text} {v : Val}
    (hd : Denotes read r p v) : Denotes read r' p v := by
  induction hd with
  | module p ts M v hr hm _ ih =>
    refine .module p ts M v hr hm fun s w hw => ?_
    rw [← h p ts s hr]
    exact ih s w hw

/-- **C40** (what holds): names are resolved against the directory of the root module, for every
module.  If all files are in that directory, this is the directory of the importing file, and the
value of the root is as specified.  Missing: files in other directories (`C40_relative_violated`). -/
theorem C40_relative_partial (env : Env) (fuel : Nat) (ctx : Ctx) (dt : DataType) (v : Val)
    (h : parse env fuel Ctx.empty = .ok (ctx, .ok (dt, v)))
    (hdir : ∀ p text, env.fs p = some text → (Path.split p).1 = (Path.split env.path).1) :
    Denotes env.read relative env.path v := by
  obtain ⟨h1, ts, h2, h3⟩ := parse_sound h
  refine denotes_resolve (fun p ts s hr => ?_) (module_denotes h1 h2 h3)
  unfold Env.read at hr
  split at hr
  next text hf => simp only [Env.resolve, relative, hdir p text hf]
  next => cases hr

/-- **C40** (what holds): the value of the root module is the specified one, if names are resolved
against the directory of the root. -/
theorem C40_root_relative (env : Env) (fuel : Nat) (ctx : Ctx) (dt : DataType) (v : Val)
    (h : parse env fuel Ctx.empty = .ok (ctx, .ok (dt, v))) :
    Denotes env.read (fun _ s => relative env.path s) env.path v := by
  obtain ⟨h1, ts, h2, h3⟩ := parse_sound h
  exact module_denotes h1 h2 h3

/-- three files in two directories -/
def twoDirs : Env where
  fs := fun p =>
    if p = "r".toList then some "import a from \"d/m\"\nexport default a".toList
    else if p = "d/m".toList then some "import b from \"n\"\nexport default b".toList
    else if p = "d/n".toList then some "null".toList
    else none
  conv := fun _ => .ok 0
  path := "r".toList

/-- the error of a parse -/
def errorOf : Res (Ctx × Outcome) → Option ParseError
  | .ok (_, .error e) => some e
  | _ => none

/-- **C40** fails: the module `d/m` imports `n`, which is the file `d/n`; the parser looks for `n`
next to the root and cannot read it. -/
theorem C40_relative_violated :
    Denotes twoDirs.read relative twoDirs.path .null ∧
    errorOf (parse twoDirs 4 Ctx.empty) = some .cannotReadFile := by
  refine ⟨?_, by decide +kernel⟩
  have h3 : Denotes twoDirs.read relative "d/n".toList .null :=
    .module _ [.id "null".toList] (fun _ _ => False) _ (by decide +kernel)
      (.value _ _ _ .null) (fun _ _ h => h.elim)
  have h2 : Denotes twoDirs.read relative "d/m".toList .null := by
    refine .module _ _ (fun s w => s = "n".toList ∧ w = .null) _ (by decide +kernel : _ = some
      [.id "import".toList, .id "b".toList, .id "from".toList, .string "n".toList, .newLine,
        .id "export".toList, .id "default".toList, .id "b".toList]) ?_ ?_
    · refine .import_ _ _ _ .null _ _ ⟨rfl, rfl⟩ (.newLine _ _ _ (.exportDefault _ _ _ ?_))
      exact .ref _ _ (by decide) (by simp [withConst])
    · rintro s w ⟨rfl, rfl⟩
      have : relative "d/m".toList "n".toList = "d/n".toList := by decide
      rw [this]
      exact h3
  refine .module _ _ (fun s w => s = "d/m".toList ∧ w = .null) _ (by decide +kernel : _ = some
      [.id "import".toList, .id "a".toList, .id "from".toList, .string "d/m".toList, .newLine,
        .id "export".toList, .id "default".toList, .id "a".toList]) ?_ ?_
  · refine .import_ _ _ _ .null _ _ ⟨rfl, rfl⟩ (.newLine _ _ _ (.exportDefault _ _ _ ?_))
    exact .ref _ _ (by decide) (by simp [withConst])
  · rintro s w ⟨rfl, rfl⟩
    have : relative "r".toList "d/m".toList = "d/m".toList := by decide
    change Denotes twoDirs.read relative (relative "r".toList "d/m".toList) .null
    rw [this]
    exact h2

/-! ## C47 -/

/-- **C47**: a successful parse has one table of values, one value for each path, such that every
import, in the root and in every module, denotes the entry for its path.  Values carry the numbers
of their heap blocks, so that equal entries are the same blocks. -/
theorem C47_one_value (env : Env) (fuel : Nat) (ctx : Ctx) (dt : DataType) (v : Val)
    (h : parse env fuel Ctx.empty = .ok (ctx, .ok (dt, v))) :
    ∃ table : Text → Option Val,
      (∃ ts, env.read env.path = some ts ∧
        Module (fun s w => table (env.resolve s) = some w) (fun _ => none) ts v) ∧
      ∀ p w, table p = some w → ∃ ts, env.read p = some ts ∧
        Module (fun s w => table (env.resolve s) = some w) (fun _ => none) ts w := by
  obtain ⟨h1, h2⟩ := parse_sound h
  exact ⟨ctx.complete.get, h2, fun p w hp => (h1 p w hp).1⟩

theorem tryIdToAny_ref {n : Text} (h : n ∉ reserved) (c : TMap Val) : tryIdToAny n c = c.get n := by
  simp only [reserved, List.mem_cons, List.not_mem_nil, or_false, not_or] at h
  rw [tryIdToAny, if_neg h.1, if_neg h.2.1, if_neg h.2.2]

theorem pair_run (env : Env) (self : ParseTokens) (ctx : Ctx) {a b : Text} {w : Val} {c : TMap Val}
    (ha : a ∉ reserved) (hb : b ∉ reserved) (hca : c.get a = some w) (hcb : c.get b = some w) :
    pushAll env self ctx (.parseRoot ⟨.initial, ⟨.mjs, .initial, .none, [], c⟩, true⟩)
      [.id "export".toList, .id "default".toList, .arrayBegin, .id a, .comma, .id b, .arrayEnd] =
      .ok ({ ctx with next := ctx.next + 1 }, .result .mjs (.arr ctx.next [w, w])) := by
  have e1 : tryIdToAny a c = some w := by rw [tryIdToAny_ref ha, hca]
  have e2 : tryIdToAny b c = some w := by rw [tryIdToAny_ref hb, hcb]
  have p1 : anyParse env self ctx ⟨.mjs, .arrayBegin, .stack (.array []), [], c⟩ (.id a) =
      .ok (ctx, .cont ⟨.mjs, .arrayValue, .stack (.array [w]), [], c⟩) := by
    simp [anyParse, dispatch, parseArrayBegin, pushToken, tryToAny, e1, pushValue, pure, bind,
      Except.pure, Except.bind]
  have p2 : anyParse env self ctx ⟨.mjs, .arrayComma, .stack (.array [w]), [], c⟩ (.id b) =
      .ok (ctx, .cont ⟨.mjs, .arrayValue, .stack (.array [w, w]), [], c⟩) := by
    simp [anyParse, dispatch, parseArrayComma, pushToken, tryToAny, e2, pushValue, pure, bind,
      Except.pure, Except.bind]
  change ((anyParse env self ctx ⟨.mjs, .arrayBegin, .stack (.array []), [], c⟩ (.id a) >>= fun x =>
    Except.ok (x.1, forModule x.2)) >>= fun x => pushAll env self x.1 x.2
      [.comma, .id b, .arrayEnd]) = _
  rw [p1]
  change ((anyParse env self ctx ⟨.mjs, .arrayComma, .stack (.array [w]), [], c⟩ (.id b) >>= fun x =>
    Except.ok (x.1, forModule x.2)) >>= fun x => pushAll env self x.1 x.2 [.arrayEnd]) = _
  rw [p2]
  rfl

/-- **C47**: two imports of one module in one module give two references to the same value. -/
theorem C47_twice (env : Env) (fuel : Nat) (ctx ctx' : Ctx) (a b s s' : Text) (dt : DataType)
    (v : Val) (hab : a ≠ b) (ha : a ∉ reserved) (hb : b ∉ reserved)
    (hs : env.resolve s = env.resolve s') (hc : CacheOk env ctx)
    (h : parseWithTokens env fuel ctx
      [.id "import".toList, .id a, .id "from".toList, .string s, .newLine,
       .id "import".toList, .id b, .id "from".toList, .string s', .newLine,
       .id "export".toList, .id "default".toList, .arrayBegin, .id a, .comma, .id b, .arrayEnd] =
      .ok (ctx', .ok (dt, v))) :
    ∃ i w, v = .arr i [w, w] := by
  cases fuel with
  | zero => cases h
  | succ fuel =>
    change (pushAll env (parseWithTokens env fuel) ctx JState.start _ >>= _) = _ at h
    change ((rootParse env (parseWithTokens env fuel) ctx
      ⟨.importIdFrom a, ⟨.mjs, .initial, .none, [], []⟩, false⟩ (.string s) >>= fun x =>
      pushAll env _ x.1 x.2 (.newLine :: _)) >>= _) = _ at h
    have hself := parseWithTokens_ok env fuel
    cases hi : importModule env (parseWithTokens env fuel) ctx s with
    | error e =>
      have : rootParse env (parseWithTokens env fuel) ctx
          ⟨.importIdFrom a, ⟨.mjs, .initial, .none, [], []⟩, false⟩ (.string s) = .error e := by
        change (importModule env (parseWithTokens env fuel) ctx s >>= _) = _
        rw [hi]; rfl
      rw [this] at h
      cases h
    | ok x =>
      obtain ⟨ctx1, x⟩ := x
      cases x with
      | error e =>
        rw [rootParse_import_err hi] at h
        change (pushAll env _ ctx1 (.error e) _ >>= _) = _ at h
        rw [pushAll_error] at h
        cases h
      | ok w =>
        obtain ⟨h1, h2, h3⟩ := importModule_ok hself hi hc
        have r1 : rootParse env (parseWithTokens env fuel) ctx
            ⟨.importIdFrom a, ⟨.mjs, .initial, .none, [], []⟩, false⟩ (.string s) =
            .ok (ctx1, .parseRoot ⟨.initial, ⟨.mjs, .initial, .none, [],
              TMap.insert [] a w⟩, false⟩) := by
          change (importModule env (parseWithTokens env fuel) ctx s >>= _) = _
          rw [hi]; rfl
        have r2 : rootParse env (parseWithTokens env fuel) ctx1
            ⟨.importIdFrom b, ⟨.mjs, .initial, .none, [], TMap.insert [] a w⟩, false⟩
              (.string s') =
            .ok (ctx1, .parseRoot ⟨.initial, ⟨.mjs, .initial, .none, [],
              TMap.insert (TMap.insert [] a w) b w⟩, false⟩) := by
          change (importModule env (parseWithTokens env fuel) ctx1 s' >>= _) = _
          rw [C39_cached env _ ctx1 s' w (by rw [← hs]; exact h3)]; rfl
        rw [r1] at h
        change ((rootParse env (parseWithTokens env fuel) ctx1
            ⟨.importIdFrom b, ⟨.mjs, .initial, .none, [], TMap.insert [] a w⟩, false⟩
              (.string s') >>= fun x => pushAll env _ x.1 x.2 (.newLine :: _)) >>= _) = _ at h
        rw [r2] at h
        change (pushAll env (parseWithTokens env fuel) ctx1 (.parseRoot ⟨.initial,
          ⟨.mjs, .initial, .none, [], TMap.insert (TMap.insert [] a w) b w⟩, true⟩) _ >>= _) = _ at h
        rw [pair_run env _ ctx1 (w := w) ha hb (by simp [TMap.get_insert, hab])
          (by simp [TMap.get_insert])] at h
        cases h
        exact ⟨_, _, rfl⟩

end Parser
end Nanvm
