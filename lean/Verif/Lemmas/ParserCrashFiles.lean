import Verif.Lemmas.ParserCrashModule
import Verif.Lemmas.ParserAcceptFiles
/-!
# Exactly which projects make the parser panic
-/
namespace Nanvm
namespace Grammar
open Tok
open Parser (DataType)

theorem Begun.limit {X b : Text → Prop} {Y : Nat → Text → Prop}
    (hY : ∀ n m s, n ≤ m → Y n s → Y m s) (hX : ∀ s, X s → ∃ n, Y n s) {part : Part}
    {k : DataType} {ts : List Token} {a : Option Text} (h : Begun X b part k ts a) :
    ∃ n, Begun (Y n) b part k ts a := by
  induction h with
  | nothing part k => exact ⟨0, .nothing part k⟩
  | require p k h => exact ⟨0, .require p k h⟩
  | requireOpen p k h => exact ⟨0, .requireOpen p k h⟩
  | requireAsks p k s h => exact ⟨0, .requireAsks p k s h⟩
  | requireNamed p k s h hx => obtain ⟨n, hn⟩ := hX s hx; exact ⟨n, .requireNamed p k s h hn⟩
  | array p k ts a _ ih => obtain ⟨n, ih⟩ := ih; exact ⟨n, .array p k ts a ih⟩
  | object p k ts a _ ih => obtain ⟨n, ih⟩ := ih; exact ⟨n, .object p k ts a ih⟩
  | element p k x a _ ih => obtain ⟨n, ih⟩ := ih; exact ⟨n, .element p k x a ih⟩
  | elementDone p k x k' h => obtain ⟨n, h⟩ := h.limit hY hX; exact ⟨n, .elementDone p k x k' h⟩
  | elements p k x k1 ts a h _ ih =>
    obtain ⟨n, h⟩ := h.limit hY hX
    obtain ⟨m, ih⟩ := ih
    exact ⟨max n m, .elements p k x k1 ts a
      (h.mono (fun s => hY _ _ s (Nat.le_max_left n m)))
      (ih.mono (fun s => hY _ _ s (Nat.le_max_right n m)))⟩
  | key f k t h => exact ⟨0, .key f k t h⟩
  | memberValue f k t x a h _ ih => obtain ⟨n, ih⟩ := ih; exact ⟨n, .memberValue f k t x a h ih⟩
  | memberDone f k t x k' h h1 =>
    obtain ⟨n, h1⟩ := h1.limit hY hX; exact ⟨n, .memberDone f k t x k' h h1⟩
  | members f k t x k1 ts a h h1 _ ih =>
    obtain ⟨n, h1⟩ := h1.limit hY hX
    obtain ⟨m, ih⟩ := ih
    exact ⟨max n m, .members f k t x k1 ts a h
      (h1.mono (fun s => hY _ _ s (Nat.le_max_left n m)))
      (ih.mono (fun s => hY _ _ s (Nat.le_max_right n m)))⟩

theorem BegunModule.mono {X Y : Text → Prop} (hX : ∀ s, X s → Y s) {b : Text → Prop}
    {k : DataType} {ts : List Token} {a : Option Text} (h : BegunModule X b k ts a) :
    BegunModule Y b k ts a := by
  induction h with
  | newLine b k ts a _ ih => exact .newLine b k ts a ih
  | const_ b k n ts k1 rest a h _ ih => exact .const_ b k n ts k1 rest a (Accepted.mono hX h) ih
  | import_ b k n s rest a h1 h2 _ ih => exact .import_ b k n s rest a h1 (hX s h2) ih
  | inConst b k n ts a h => exact .inConst b k n ts a (Begun.mono hX h)
  | inImport b k n s h => exact .inImport b k n s h
  | inExport b k ts s h1 h2 => exact .inExport b k ts s h1 (Begun.mono hX h2)
  | inModule b k ts s h1 h2 => exact .inModule b k ts s h1 (Begun.mono hX h2)
  | inValue b k ts s h1 h2 => exact .inValue b k ts s h1 (Begun.mono hX h2)

theorem BegunModule.limit {X : Text → Prop} {Y : Nat → Text → Prop}
    (hY : ∀ n m s, n ≤ m → Y n s → Y m s) (hX : ∀ s, X s → ∃ n, Y n s) {b : Text → Prop}
    {k : DataType} {ts : List Token} {a : Option Text} (h : BegunModule X b k ts a) :
    ∃ n, BegunModule (Y n) b k ts a := by
  induction h with
  | newLine b k ts a _ ih => obtain ⟨n, ih⟩ := ih; exact ⟨n, .newLine b k ts a ih⟩
  | const_ b k n ts k1 rest a h _ ih =>
    obtain ⟨i, ih1⟩ := Accepted.limit hY hX h
    obtain ⟨m, ih2⟩ := ih
    exact ⟨max i m, .const_ b k n ts k1 rest a
      (Accepted.mono (fun s => hY _ _ s (Nat.le_max_left i m)) ih1)
      (ih2.mono (fun s => hY _ _ s (Nat.le_max_right i m)))⟩
  | import_ b k n s rest a h1 h2 _ ih =>
    obtain ⟨i, ih1⟩ := hX s h2
    obtain ⟨m, ih2⟩ := ih
    exact ⟨max i m, .import_ b k n s rest a h1 (hY _ _ s (Nat.le_max_left i m) ih1)
      (ih2.mono (fun s => hY _ _ s (Nat.le_max_right i m)))⟩
  | inConst b k n ts a h => obtain ⟨m, h⟩ := Begun.limit hY hX h; exact ⟨m, .inConst b k n ts a h⟩
  | inImport b k n s h => exact ⟨0, .inImport b k n s h⟩
  | inExport b k ts s h1 h2 =>
    obtain ⟨n, h⟩ := Begun.limit hY hX h2; exact ⟨n, .inExport b k ts s h1 h⟩
  | inModule b k ts s h1 h2 =>
    obtain ⟨n, h⟩ := Begun.limit hY hX h2; exact ⟨n, .inModule b k ts s h1 h⟩
  | inValue b k ts s h1 h2 =>
    obtain ⟨n, h⟩ := Begun.limit hY hX h2; exact ⟨n, .inValue b k ts s h1 h⟩

end Grammar

namespace Parser
open Tok Grammar
open Ser (bind_eq_ok)

variable {env : Env}

/-- the names of modules that can be loaded -/
def Can (env : Env) (s : Text) : Prop := ∃ k, LoadsAs env.read env.resolve (env.resolve s) k

/-- the tokenizer panics -/
def Broken (env : Env) (p : Text) : Prop :=
  ∃ text q, env.fs p = some text ∧ tokenize env.conv text = .error (.panic q)

/-- the tokens lead to a panic; the module that leads to it is one of `C` -/
def CrashTokens (env : Env) (C : Text → Prop) (ts : List Token) : Prop :=
  (∃ pre rest, ts = pre ++ .semicolon :: rest ∧
    BegunModule (Can env) (fun _ => False) .json pre none) ∨
  ∃ pre rest s, ts = pre ++ rest ∧
    BegunModule (Can env) (fun _ => False) .json pre (some s) ∧ C (env.resolve s)

theorem CrashTokens.mono {C D : Text → Prop} (h : ∀ p, C p → D p) {ts : List Token}
    (hc : CrashTokens env C ts) : CrashTokens env D ts := by
  rcases hc with hc | ⟨pre, rest, s, h1, h2, h3⟩
  · exact .inl hc
  · exact .inr ⟨pre, rest, s, h1, h2, h _ h3⟩

/-- as `Crashes`, with at most this many modules -/
def CrashesBy (env : Env) : Nat → Text → Prop
  | 0, _ => False
  | n + 1, p => Broken env p ∨ ∃ ts, env.read p = some ts ∧ CrashTokens env (CrashesBy env n) ts

theorem CrashesBy.succ {n : Nat} : ∀ {p : Text}, CrashesBy env n p → CrashesBy env (n + 1) p := by
  induction n with
  | zero => intro p h; cases h
  | succ n ih =>
    rintro p (h | ⟨ts, h1, h2⟩)
    · exact .inl h
    · exact .inr ⟨ts, h1, h2.mono fun p hp => ih hp⟩

theorem CrashesBy.mono {n m : Nat} (hle : n ≤ m) {p : Text} (h : CrashesBy env n p) :
    CrashesBy env m p := by
  induction hle with
  | refl => exact h
  | step _ ih => exact ih.succ

/-- the panics of a project -/
abbrev Env.Crashes (env : Env) (p : Text) : Prop :=
  Grammar.Crashes env.read (Broken env) env.resolve p

theorem crashes_by {p : Text} (h : env.Crashes p) : ∃ n, CrashesBy env n p := by
  induction h with
  | text p h => exact ⟨1, .inl h⟩
  | semicolon p pre rest X h1 h2 h3 => exact ⟨1, .inr ⟨_, h1, .inl ⟨pre, rest, rfl, h2.mono h3⟩⟩⟩
  | needed p pre rest s X h1 h2 h3 _ ih =>
    obtain ⟨n, hn⟩ := ih
    exact ⟨n + 1, .inr ⟨_, h1, .inr ⟨pre, rest, s, rfl, h2.mono h3, hn⟩⟩⟩

theorem crashes_of {p : Text} {ts : List Token} (hr : env.read p = some ts)
    (h : CrashTokens env env.Crashes ts) : env.Crashes p := by
  rcases h with ⟨pre, rest, rfl, h⟩ | ⟨pre, rest, s, rfl, h, h2⟩
  · exact .semicolon p pre rest _ hr h fun s h => h
  · exact .needed p pre rest s _ hr h (fun s h => h) h2

/-! ## No module both loads and panics -/

/-- all files are there but one -/
def allBut (env : Env) (p : Text) : Env :=
  ⟨fun q => if q = p then none else some [], fun _ => .ok 0, env.path⟩

theorem allBut_resolve (p s : Text) : (allBut env p).resolve s = env.resolve s := rfl

theorem allBut_loads (p : Text) :
    CanLoad (allBut env p) (fun ctx _ => .ok (ctx, .ok (.json, .null)))
      (fun s => env.resolve s ≠ p) (fun c => c.progress = [] ∧ c.complete.get p = none) := by
  refine ⟨fun ctx n h => h, ?_⟩
  rintro c s ⟨hc, hp⟩ hs
  have e : (allBut env p).resolve s = env.resolve s := rfl
  cases hg : c.complete.get (env.resolve s) with
  | some v => exact ⟨c, v, by simp [importModule, e, hg], hc, hp⟩
  | none =>
    refine ⟨leave (enter c (env.resolve s)) (env.resolve s) .null, .null, ?_, ?_, ?_⟩
    · simp only [importModule, e, hg, hc, List.not_mem_nil, if_false]
      have h1 : tokenize (allBut env p).conv [] = .ok [] := by
        have : tokenize anyFile.conv [] = .ok [] := by decide +kernel
        exact this
      have h2 : (allBut env p).fs (env.resolve s) = some [] := by simp [allBut, hs]
      simp only [h1, h2, enter, hc]
      rfl
    · simp [leave, enter, hc, setInsert, setRemove]
    · simp only [leave, TMap.get_insert]
      rw [if_neg (fun h => hs h.symm)]
      exact hp

theorem allBut_missing {p s : Text} (hs : env.resolve s = p) (self : ParseTokens) (c : Ctx)
    (hc : c.progress = []) (hp : c.complete.get p = none) :
    ∃ c', importModule (allBut env p) self c s = .ok (c', .error .cannotReadFile) := by
  have e : (allBut env p).resolve s = p := hs
  have h2 : (allBut env p).fs p = none := by simp [allBut]
  exact ⟨enter c p, by simp [importModule, e, hp, hc, h2, enter]⟩

theorem crashes_not_loads {n : Nat} : ∀ {p : Text} {k : DataType}, CrashesBy env n p →
    ¬ LoadsAs env.read env.resolve p k := by
  induction n with
  | zero => intro p k h; cases h
  | succ n ih =>
    intro p k h hl
    cases hl with
    | mk p ts X kind k hr hm hX =>
      replace hm : AcceptedModule (Can env) (fun _ => False) .json ts k :=
        hm.mono fun s hs => ⟨_, hX s hs⟩
      rcases h with ⟨text, q, h1, h2⟩ | ⟨ts', hr', h⟩
      · simp [Env.read, h1, h2] at hr
      · rw [hr] at hr'
        obtain rfl := Option.some.inj hr'
        rcases h with ⟨pre, rest, rfl, hb⟩ | ⟨pre, rest, s, rfl, hb, hc⟩
        · have hI := kindLoads
          obtain ⟨c1, v1, -, h3⟩ := module_accepted hI (hm.mono (fun _ _ => trivial)) ⟨[], [], 0, []⟩ []
            rfl (fun n h => h.elim)
          obtain ⟨c2, m, st', -, h4⟩ := module_begun hI (hb.mono (fun _ _ => trivial)) ⟨[], [], 0, []⟩ []
            rfl (fun n h => h.elim)
          rw [pushAll_append, h4] at h3
          cases h3
        · have hI := allBut_loads (env := env) (env.resolve s)
          have hsub : ∀ s', Can env s' → env.resolve s' ≠ env.resolve s := by
            rintro s' ⟨k', h'⟩ e
            rw [e] at h'
            exact ih hc h'
          obtain ⟨c1, v1, -, h3⟩ := module_accepted hI (hm.mono hsub) ⟨[], [], 0, []⟩ []
            ⟨rfl, rfl⟩ (fun n h => h.elim)
          obtain ⟨c2, h5, -, h6⟩ := module_begun hI (hb.mono hsub) ⟨[], [], 0, []⟩ []
            ⟨rfl, rfl⟩ (fun n h => h.elim)
          obtain ⟨c3, h7⟩ := allBut_missing (env := env) (s := s) rfl
            (fun ctx _ => .ok (ctx, .ok (.json, .null))) c2 h5.1 h5.2
          rw [pushAll_append, h6 _ _ h7] at h3
          change pushAll _ _ c3 (.error _) rest = _ at h3
          rw [pushAll_error] at h3
          cases h3

/-! ## A panic has a reason -/

theorem onlyLoad_fuel (env : Env) (fuel : Nat) :
    OnlyLoad env (parseWithTokens env fuel) (Can env) (CacheLoads env) := by
  refine ⟨fun ctx n h => h, ?_⟩
  intro ctx s ctx' v hi h
  rcases importModule_cases ctx s rfl with ⟨v', h1, h2⟩ | ⟨h0, ⟨h1, h2⟩ | ⟨h1, ⟨h3, h2⟩ |
      ⟨text, h3, ⟨e, h4, h2⟩ | ⟨ts, h4, ⟨e, h5, h2⟩ | ⟨ctx1, e, h5, h2⟩ |
        ⟨ctx1, dt, v1, h5, h2⟩⟩⟩⟩⟩ <;> rw [h2] at h <;> cases h
  · exact ⟨hi _ _ h1, hi⟩
  · obtain ⟨h6, h7⟩ := tokens_loads fuel (ctx := enter ctx (env.resolve s)) hi h5
    have hl : LoadsAs env.read env.resolve (env.resolve s) dt :=
      loadsAs_of (by simp [Env.read, h3, h4]) h6
    refine ⟨⟨dt, hl⟩, ?_⟩
    intro p w hp
    simp only [leave] at hp
    rw [TMap.get_insert] at hp
    split at hp
    · rename_i e; rw [e]; exact ⟨dt, hl⟩
    · exact h7 p w hp

theorem tokens_crash (fuel : Nat) : ∀ {ctx : Ctx} {ts : List Token} {q : Panic},
    CacheLoads env ctx → parseWithTokens env fuel ctx ts = .error (.panic q) →
    CrashTokens env env.Crashes ts := by
  induction fuel with
  | zero => intro ctx ts q _ h; cases h
  | succ fuel ih =>
    intro ctx ts q hi h
    simp only [parseWithTokens] at h
    cases hp : pushAll env (parseWithTokens env fuel) ctx JState.start ts with
    | ok x => rw [hp] at h; cases h
    | error e =>
      rw [hp] at h
      cases h
      rw [start_eq] at hp
      have := module_stop (onlyLoad_fuel env fuel) hi hp
      rw [names_empty] at this
      rcases this with h | ⟨pre, rest, s, ctx1, h1, h2, h3, h4⟩
      · exact .inl h
      · refine .inr ⟨pre, rest, s, h1, h2, ?_⟩
        rcases importModule_cases ctx1 s h4 with ⟨v', h1, h2⟩ | ⟨h0, ⟨h1, h2⟩ | ⟨h1, ⟨h3, h2⟩ |
          ⟨text, h3, ⟨e, h4, h2⟩ | ⟨ts, h4, ⟨e, h5, h2⟩ | ⟨ctx1, e, h5, h2⟩ |
            ⟨ctx1, dt, v1, h5, h2⟩⟩⟩⟩⟩ <;> cases h2
        · exact .text _ ⟨text, q, h3, h4⟩
        · exact crashes_of (read_eq h3 h4) (ih (ctx := enter ctx1 (env.resolve s)) (by assumption) h5)

/-! ## A reason leads to a panic -/

theorem import_loads {n fuel : Nat} (hf : n ≤ fuel) {c : Ctx} {s : Text}
    (hq : ∀ q ∈ c.progress, ∀ k, ¬ LoadsAs env.read env.resolve q k)
    (hs : ∃ k, LoadsBy env.read env.resolve n (env.resolve s) k) :
    ∃ ctx' v, importModule env (parseWithTokens env fuel) c s = .ok (ctx', .ok v) ∧
      ctx'.progress = c.progress := by
  classical
  generalize hx : importModule env (parseWithTokens env fuel) c s = x
  have back : ∀ {n q k}, LoadsBy env.read env.resolve n q k → LoadsAs env.read env.resolve q k := by
    intro n
    induction n with
    | zero => intro q k h; cases h
    | succ n ih =>
      rintro q k ⟨ts, h1, h2⟩
      exact loadsAs_of h1 (h2.mono fun s ⟨k, h⟩ => ⟨k, ih h⟩)
  have hex : ∃ r, ∃ k, LoadsBy env.read env.resolve r (env.resolve s) k := ⟨n, hs⟩
  obtain ⟨k1, hk1⟩ := Nat.find_spec hex
  have hmin := fun m (hm : m < Nat.find hex) => Nat.find_min hex hm
  have hle : Nat.find hex ≤ n := Nat.find_min' hex hs
  generalize Nat.find hex = r at *
  have hload := back hk1
  cases r with
  | zero => cases hk1
  | succ r =>
    obtain ⟨ts, hr, h2⟩ := hk1
    rcases importModule_cases c s hx with ⟨v', h1, h2⟩ | ⟨h0, ⟨h1, -⟩ | ⟨h1, h2'⟩⟩
    · exact ⟨c, v', h2, rfl⟩
    · exact absurd hload (hq _ h1 _)
    · obtain ⟨ctx', v, h5, h6⟩ := tokens_accepted r (ctx := enter c (env.resolve s)) (fuel := fuel)
        (by omega) h2 (by
          intro q hq' k hk
          simp only [enter] at hq'
          rw [setInsert_new h1] at hq'
          rcases List.mem_cons.1 hq' with rfl | hq'
          · exact hmin r (by omega) ⟨k, hk⟩
          · exact hq q hq' k (back hk))
      obtain ⟨text, hfs, htok⟩ := read_cases hr
      rcases h2' with ⟨h3, -⟩ | ⟨text', h3, h2'⟩
      · rw [hfs] at h3; cases h3
      · rw [hfs] at h3
        obtain rfl := Option.some.inj h3
        rcases h2' with ⟨e, h4, -⟩ | ⟨ts', h4, h2'⟩
        · rw [htok] at h4; cases h4
        · rw [htok] at h4
          obtain rfl := Except.ok.inj h4
          rcases h2' with ⟨e, h7, -⟩ | ⟨c1, e, h7, -⟩ | ⟨c1, dt1, v1, h7, h2'⟩
          · rw [h5] at h7; cases h7
          · rw [h5] at h7; cases h7
          · rw [h5] at h7
            obtain ⟨rfl, h8⟩ := Prod.mk.inj (Except.ok.inj h7)
            refine ⟨_, _, h2', ?_⟩
            simp only [leave]
            rw [h6]
            simp only [enter]
            rw [setInsert_new h1, setRemove_new h1]

theorem canLoad_fuel {n fuel : Nat} (hf : n ≤ fuel) (progress : List Text)
    (hq : ∀ q ∈ progress, ∀ k, ¬ LoadsAs env.read env.resolve q k) :
    CanLoad env (parseWithTokens env fuel)
      (fun s => ∃ k, LoadsBy env.read env.resolve n (env.resolve s) k)
      (fun c => c.progress = progress ∧ CacheLoads env c) := by
  refine ⟨fun ctx n h => h, ?_⟩
  rintro c s ⟨rfl, hc⟩ hs
  obtain ⟨ctx', v, h1, h2⟩ := import_loads hf hq hs
  exact ⟨ctx', v, h1, h2, ((onlyLoad_fuel env fuel).sound c s ctx' v hc h1).2⟩

/-- what is known of a context in which a module panics -/
structure CrashReady (env : Env) (n : Nat) (ctx : Ctx) : Prop where
  cache : CacheLoads env ctx
  progress : ∀ q ∈ ctx.progress, (∀ k, ¬ LoadsAs env.read env.resolve q k) ∧ ¬ CrashesBy env n q

theorem crash_tokens (n : Nat) (ih : ∀ p, CrashesBy env n p → ∃ f, ∀ fuel ≥ f, ∀ ctx s,
      CrashReady env n ctx → env.resolve s = p →
      ∃ q, importModule env (parseWithTokens env fuel) ctx s = .error (.panic q))
    {ts : List Token} (h : CrashTokens env (CrashesBy env n) ts) :
    ∃ f, ∀ fuel ≥ f, ∀ ctx, CrashReady env n ctx →
      ∃ q, parseWithTokens env fuel ctx ts = .error (.panic q) := by
  have lim : ∀ {pre a}, BegunModule (Can env) (fun _ => False) .json pre a →
      ∃ m, BegunModule (fun s => ∃ k, LoadsBy env.read env.resolve m (env.resolve s) k)
        (fun _ => False) .json pre a := by
    intro pre a h
    refine h.limit (Y := fun n s => ∃ k, LoadsBy env.read env.resolve n (env.resolve s) k)
      (fun n m s hle ⟨k, h⟩ => ⟨k, h.mono hle⟩) ?_
    rintro s ⟨k, h⟩
    obtain ⟨n, hn⟩ := h.by_
    exact ⟨n, k, hn⟩
  have pwt : ∀ {fuel ctx q}, pushAll env (parseWithTokens env fuel) ctx
      (.parseRoot ⟨.initial, lineState .json [], true⟩) ts = .error (.panic q) →
      parseWithTokens env (fuel + 1) ctx ts = .error (.panic q) := by
    intro fuel ctx q h
    simp only [parseWithTokens]
    rw [start_eq, h]
    rfl
  rcases h with ⟨pre, rest, rfl, hb⟩ | ⟨pre, rest, s, rfl, hb, hc⟩
  · obtain ⟨m, hb⟩ := lim hb
    refine ⟨m + 1, fun fuel hf ctx hr => ?_⟩
    obtain ⟨fuel, rfl⟩ : ∃ f, fuel = f + 1 := ⟨fuel - 1, by omega⟩
    have hI := canLoad_fuel (env := env) (n := m) (fuel := fuel) (by omega) ctx.progress
      (fun q hq => (hr.progress q hq).1)
    obtain ⟨c2, x, st', -, h4⟩ := module_begun hI hb ctx [] ⟨rfl, hr.cache⟩ (fun n h => h.elim)
    refine ⟨.todo, pwt ?_⟩
    rw [pushAll_append, h4]
    rfl
  · obtain ⟨m, hb⟩ := lim hb
    obtain ⟨f, hf⟩ := ih _ hc
    refine ⟨max m f + 1, fun fuel hf' ctx hr => ?_⟩
    obtain ⟨fuel, rfl⟩ : ∃ f, fuel = f + 1 := ⟨fuel - 1, by omega⟩
    have hI := canLoad_fuel (env := env) (n := m) (fuel := fuel) (by omega) ctx.progress
      (fun q hq => (hr.progress q hq).1)
    obtain ⟨c2, h5, h6, -⟩ := module_begun hI hb ctx [] ⟨rfl, hr.cache⟩ (fun n h => h.elim)
    obtain ⟨q, hq⟩ := hf fuel (by omega) c2 s ⟨h5.2, by rw [h5.1]; exact hr.progress⟩ rfl
    refine ⟨q, pwt ?_⟩
    rw [pushAll_append, h6 q hq]
    rfl

theorem crash_import (n : Nat) : ∀ p, CrashesBy env n p → ∃ f, ∀ fuel ≥ f, ∀ ctx s,
    CrashReady env n ctx → env.resolve s = p →
    ∃ q, importModule env (parseWithTokens env fuel) ctx s = .error (.panic q) := by
  classical
  induction n using Nat.strongRecOn with
  | _ n ih =>
    intro p hp
    have hex : ∃ r, CrashesBy env r p := ⟨n, hp⟩
    have hr := Nat.find_spec hex
    have hmin := fun m (hm : m < Nat.find hex) => Nat.find_min hex hm
    have hle : Nat.find hex ≤ n := Nat.find_min' hex hp
    generalize Nat.find hex = r at *
    have hnl := fun k => crashes_not_loads (k := k) hr
    have fresh : ∀ {ctx}, CrashReady env n ctx → ctx.complete.get p = none ∧ p ∉ ctx.progress := by
      intro ctx hc
      constructor
      · cases hg : ctx.complete.get p with
        | none => rfl
        | some v =>
          obtain ⟨k, hk⟩ := hc.cache p v hg
          exact absurd hk (hnl k)
      · exact fun h => (hc.progress p h).2 hp
    cases r with
    | zero => cases hr
    | succ r =>
      rcases hr with ⟨text, q, h1, h2⟩ | ⟨ts, h1, h2⟩
      · refine ⟨0, fun fuel _ ctx s hc hs => ⟨q, ?_⟩⟩
        obtain ⟨h3, h4⟩ := fresh hc
        simp only [importModule, hs, h3, h4, if_false, h1, h2]
        rfl
      · obtain ⟨f, hf⟩ := crash_tokens r (ih r (by omega)) h2
        refine ⟨f, fun fuel hfu ctx s hc hs => ?_⟩
        obtain ⟨h3, h4⟩ := fresh hc
        obtain ⟨text, h5, h6⟩ := read_cases h1
        obtain ⟨q, hq⟩ := hf fuel hfu (enter ctx p) ⟨hc.cache, by
          intro q hq
          simp only [enter] at hq
          rw [setInsert_new h4] at hq
          rcases List.mem_cons.1 hq with rfl | hq
          · exact ⟨hnl, hmin r (by omega)⟩
          · exact ⟨(hc.progress q hq).1, fun h => (hc.progress q hq).2 (h.mono (by omega))⟩⟩
        refine ⟨q, ?_⟩
        simp only [importModule, hs, h3, h4, if_false, h5, h6]
        change parseWithTokens env fuel (enter ctx p) ts >>= _ = _
        rw [hq]
        rfl

end Parser
end Nanvm
