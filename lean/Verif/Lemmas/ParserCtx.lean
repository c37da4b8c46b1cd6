import Verif.Lemmas.ParserRun
/-!
# The module cache
-/
namespace Nanvm
namespace Parser
open Tok Grammar

/-- the tokens of a file -/
def Env.read (env : Env) (p : Text) : Option (List Token) :=
  match env.fs p with
  | some text =>
    match tokenize env.conv text with
    | .ok ts => some ts
    | .error _ => none
  | none => none

/-- the cache has the value `v` for the module named `s` -/
def Loaded (env : Env) (ctx : Ctx) (s : Text) (v : Val) : Prop :=
  ctx.complete.get (env.resolve s) = some v

/-- the value in the cache is the value of the module, when imports denote the values in the
cache -/
def Sound (env : Env) (ctx : Ctx) (p : Text) (v : Val) : Prop :=
  (∃ ts, env.read p = some ts ∧ Module (Loaded env ctx) (fun _ => none) ts v) ∧
  Denotes env.read (fun _ => env.resolve) p v

/-- the entries of the cache are sound -/
def CacheOk (env : Env) (ctx : Ctx) : Prop :=
  ∀ p v, ctx.complete.get p = some v → Sound env ctx p v

/-- what a successful piece of a run does to the context -/
structure Ext (ctx ctx' : Ctx) : Prop where
  progress : ctx'.progress = ctx.progress
  mono : ∀ p v, ctx.complete.get p = some v → ctx'.complete.get p = some v
  reads : ∃ new, ctx'.reads = new ++ ctx.reads ∧ new.Nodup ∧
    (∀ p ∈ new, ctx.complete.get p = none ∧ p ∉ ctx.progress ∧ ctx'.complete.get p ≠ none) ∧
    ∀ p, ctx'.complete.get p ≠ none → ctx.complete.get p ≠ none ∨ p ∈ new

/-- what any piece of a run does to the context -/
structure ExtE (ctx ctx' : Ctx) : Prop where
  reads : ∃ new, ctx'.reads = new ++ ctx.reads ∧ new.Nodup ∧
    ∀ p ∈ new, ctx.complete.get p = none ∧ p ∉ ctx.progress

theorem Ext.toE {ctx ctx' : Ctx} (h : Ext ctx ctx') : ExtE ctx ctx' := by
  obtain ⟨new, h1, h2, h3, -⟩ := h.reads
  exact ⟨new, h1, h2, fun p hp => ⟨(h3 p hp).1, (h3 p hp).2.1⟩⟩

theorem Ext.plain (ctx : Ctx) (n : Nat) : Ext ctx { ctx with next := n } :=
  ⟨rfl, fun _ _ h => h, [], rfl, List.nodup_nil, by simp, fun _ h => .inl h⟩

theorem Ext.get_none {ctx ctx' : Ctx} (h : Ext ctx ctx') {p : Text}
    (hn : ctx'.complete.get p = none) : ctx.complete.get p = none := by
  cases hg : ctx.complete.get p with
  | none => rfl
  | some v => rw [h.mono p v hg] at hn; cases hn

theorem Ext.transE {a b c : Ctx} (h : Ext a b) (h' : ExtE b c) : ExtE a c := by
  obtain ⟨n1, r1, d1, p1, q1⟩ := h.reads
  obtain ⟨n2, r2, d2, p2⟩ := h'.reads
  refine ⟨n2 ++ n1, by rw [r2, r1, List.append_assoc], ?_, ?_⟩
  · rw [List.nodup_append]
    refine ⟨d2, d1, ?_⟩
    rintro x hx y hy rfl
    exact (p1 x hy).2.2 (p2 x hx).1
  · intro p hp
    rcases List.mem_append.1 hp with hp | hp
    · have := p2 p hp
      rw [h.progress] at this
      exact ⟨h.get_none this.1, this.2⟩
    · exact ⟨(p1 p hp).1, (p1 p hp).2.1⟩

theorem Ext.trans {a b c : Ctx} (h : Ext a b) (h' : Ext b c) : Ext a c := by
  obtain ⟨n1, r1, d1, p1, q1⟩ := h.reads
  obtain ⟨n2, r2, d2, p2, q2⟩ := h'.reads
  refine ⟨by rw [h'.progress, h.progress], fun p v hp => h'.mono p v (h.mono p v hp),
    n2 ++ n1, by rw [r2, r1, List.append_assoc], ?_, ?_, ?_⟩
  · rw [List.nodup_append]
    refine ⟨d2, d1, ?_⟩
    rintro x hx y hy rfl
    exact (p1 x hy).2.2 (p2 x hx).1
  · intro p hp
    rcases List.mem_append.1 hp with hp | hp
    · have := p2 p hp
      rw [h.progress] at this
      exact ⟨h.get_none this.1, this.2⟩
    · refine ⟨(p1 p hp).1, (p1 p hp).2.1, fun hn => (p1 p hp).2.2 (h'.get_none hn)⟩
  · intro p hp
    rcases q2 p hp with hp | hp
    · rcases q1 p hp with hp | hp
      · exact .inl hp
      · exact .inr (List.mem_append_right _ hp)
    · exact .inr (List.mem_append_left _ hp)

theorem Loaded.mono {env : Env} {ctx ctx' : Ctx} (h : Ext ctx ctx') {s : Text} {v : Val}
    (hl : Loaded env ctx s v) : Loaded env ctx' s v := h.mono _ _ hl

theorem Sound.mono {env : Env} {ctx ctx' : Ctx}
    (h : ∀ p v, ctx.complete.get p = some v → ctx'.complete.get p = some v) {p : Text} {v : Val}
    (hs : Sound env ctx p v) : Sound env ctx' p v := by
  obtain ⟨⟨ts, h1, h2⟩, h3⟩ := hs
  exact ⟨⟨ts, h1, h2.mono fun s v hl => h _ _ hl⟩, h3⟩

/-- what is assumed about the parser for nested modules -/
structure SelfOk (env : Env) (nested : ParseTokens) : Prop where
  ok : ∀ ctx ts ctx' dt v, nested ctx ts = .ok (ctx', .ok (dt, v)) → CacheOk env ctx →
    Ext ctx ctx' ∧ CacheOk env ctx' ∧ Module (Loaded env ctx') (fun _ => none) ts v
  err : ∀ ctx ts ctx' e, nested ctx ts = .ok (ctx', .error e) → CacheOk env ctx → ExtE ctx ctx'

theorem setInsert_new {s : List Text} {k : Text} (h : k ∉ s) : setInsert s k = k :: s := by
  simp [setInsert, h]

theorem setRemove_new {s : List Text} {k : Text} (h : k ∉ s) : setRemove (k :: s) k = s := by
  simp only [setRemove]
  rw [List.filter_cons]
  simp only [ne_eq, not_true_eq_false, decide_false, Bool.false_eq_true, if_false]
  rw [List.filter_eq_self]
  intro a ha
  simp only [decide_not, Bool.not_eq_true', decide_eq_false_iff_not]
  rintro rfl
  exact h ha

/-- the context in which a module is parsed -/
def enter (ctx : Ctx) (path : Text) : Ctx :=
  { ctx with progress := setInsert ctx.progress path, reads := path :: ctx.reads }

/-- the context after a module was parsed -/
def leave (ctx : Ctx) (path : Text) (v : Val) : Ctx :=
  { ctx with
    progress := setRemove ctx.progress path, complete := ctx.complete.insert path v }

/-- the ways a module is imported -/
theorem importModule_cases {env : Env} {self : ParseTokens} (ctx : Ctx) (s : Text)
    {x : Res (Ctx × Except ParseError Val)} (h : importModule env self ctx s = x) :
    (∃ v, ctx.complete.get (env.resolve s) = some v ∧ x = .ok (ctx, .ok v)) ∨
    (ctx.complete.get (env.resolve s) = none ∧
     ((env.resolve s ∈ ctx.progress ∧ x = .ok (ctx, .error .circularDependency)) ∨
      (env.resolve s ∉ ctx.progress ∧
       ((env.fs (env.resolve s) = none ∧
          x = .ok (enter ctx (env.resolve s), .error .cannotReadFile)) ∨
        (∃ text, env.fs (env.resolve s) = some text ∧
          ((∃ e, tokenize env.conv text = .error e ∧ x = .error e) ∨
           (∃ ts, tokenize env.conv text = .ok ts ∧
            ((∃ e, self (enter ctx (env.resolve s)) ts = .error e ∧ x = .error e) ∨
             (∃ ctx' e, self (enter ctx (env.resolve s)) ts = .ok (ctx', .error e) ∧
               x = .ok (ctx', .error e)) ∨
             (∃ ctx' dt v, self (enter ctx (env.resolve s)) ts = .ok (ctx', .ok (dt, v)) ∧
               x = .ok (leave ctx' (env.resolve s) v, .ok v))))))))))  := by
  subst h
  cases hc : ctx.complete.get (env.resolve s) with
  | some v => exact .inl ⟨v, rfl, by simp [importModule, hc]⟩
  | none =>
    refine .inr ⟨rfl, ?_⟩
    by_cases hp : env.resolve s ∈ ctx.progress
    · exact .inl ⟨hp, by simp [importModule, hc, hp]⟩
    · refine .inr ⟨hp, ?_⟩
      cases hf : env.fs (env.resolve s) with
      | none => exact .inl ⟨rfl, by simp [importModule, hc, hp, hf, enter]⟩
      | some text =>
        refine .inr ⟨text, rfl, ?_⟩
        have e : importModule env self ctx s = (do
            let tokens ← tokenize env.conv text
            let (ctx, r) ← self (enter ctx (env.resolve s)) tokens
            match r with
            | .ok (_, v) => return (leave ctx (env.resolve s) v, .ok v)
            | .error e => return (ctx, .error e)) := by
          simp only [importModule, hc, hp, hf, if_false]
          rfl
        rw [e]
        cases ht : tokenize env.conv text with
        | error e => exact .inl ⟨e, rfl, rfl⟩
        | ok ts =>
          refine .inr ⟨ts, rfl, ?_⟩
          cases hs : self (enter ctx (env.resolve s)) ts with
          | error e => exact .inl ⟨e, rfl, by simp only [bind, Except.bind, hs]⟩
          | ok y =>
            obtain ⟨ctx', y⟩ := y
            cases y with
            | error e => exact .inr (.inl ⟨ctx', e, rfl, by simp only [bind, Except.bind, hs]; rfl⟩)
            | ok y =>
              obtain ⟨dt, v⟩ := y
              exact .inr (.inr ⟨ctx', dt, v, rfl, by simp only [bind, Except.bind, hs]; rfl⟩)

theorem enter_ok {env : Env} {ctx : Ctx} (h : CacheOk env ctx) (p : Text) :
    CacheOk env (enter ctx p) := fun q v hq => (h q v hq).mono (fun _ _ h => h)

theorem enter_ExtE {ctx ctx' : Ctx} {p : Text} (hc : ctx.complete.get p = none)
    (hp : p ∉ ctx.progress) (h : ExtE (enter ctx p) ctx') : ExtE ctx ctx' := by
  obtain ⟨new, h1, h2, h3⟩ := h.reads
  simp only [enter, setInsert_new hp, List.mem_cons, not_or] at h1 h3
  refine ⟨new ++ [p], by simp [h1], ?_, ?_⟩
  · rw [List.nodup_append]
    refine ⟨h2, by simp, ?_⟩
    rintro x hx y hy rfl
    exact (h3 x hx).2.1 (List.mem_singleton.1 hy)
  · intro q hq
    rcases List.mem_append.1 hq with hq | hq
    · exact ⟨(h3 q hq).1, (h3 q hq).2.2⟩
    · rw [List.mem_singleton.1 hq]; exact ⟨hc, hp⟩

theorem leave_Ext {ctx ctx' : Ctx} {p : Text} {v : Val} (hc : ctx.complete.get p = none)
    (hp : p ∉ ctx.progress) (h : Ext (enter ctx p) ctx') : Ext ctx (leave ctx' p v) := by
  obtain ⟨new, h1, h2, h3, h4⟩ := h.reads
  have hpr := h.progress
  simp only [enter, setInsert_new hp, List.mem_cons, not_or] at h1 h3 h4 hpr
  have hget : ∀ q w, ctx.complete.get q = some w → (leave ctx' p v).complete.get q = some w := by
    intro q w hq
    simp only [leave, TMap.get_insert]
    rw [if_neg (by rintro rfl; rw [hc] at hq; cases hq)]
    exact h.mono q w hq
  refine ⟨by simp only [leave, hpr]; exact setRemove_new hp, hget, new ++ [p],
    by simp [leave, h1], ?_, ?_, ?_⟩
  · rw [List.nodup_append]
    refine ⟨h2, by simp, ?_⟩
    rintro x hx y hy rfl
    exact (h3 x hx).2.1.1 (List.mem_singleton.1 hy)
  · intro q hq
    rcases List.mem_append.1 hq with hq | hq
    · refine ⟨(h3 q hq).1, (h3 q hq).2.1.2, ?_⟩
      simp only [leave, TMap.get_insert]
      rw [if_neg (h3 q hq).2.1.1]
      exact (h3 q hq).2.2
    · rw [List.mem_singleton.1 hq]
      exact ⟨hc, hp, by simp [leave, TMap.get_insert]⟩
  · intro q hq
    simp only [leave, TMap.get_insert] at hq
    by_cases he : q = p
    · exact .inr (by simp [he])
    · rw [if_neg he] at hq
      rcases h4 q hq with h | h
      · exact .inl h
      · exact .inr (List.mem_append_left _ h)

theorem leave_mono {ctx ctx' : Ctx} {p : Text} {v : Val} (hc : ctx.complete.get p = none)
    (hp : p ∉ ctx.progress) (h : Ext (enter ctx p) ctx') :
    ∀ q w, ctx'.complete.get q = some w → (leave ctx' p v).complete.get q = some w := by
  intro q w hq
  simp only [leave, TMap.get_insert]
  split
  next he =>
    subst he
    obtain ⟨new, h1, h2, h3, h4⟩ := h.reads
    rcases h4 q (by rw [hq]; simp) with h5 | h5
    · exact absurd hc h5
    · exact absurd (by simp [enter, setInsert_new hp]) (h3 q h5).2.1
  next => exact hq

theorem module_denotes {env : Env} {ctx : Ctx} (hc : CacheOk env ctx) {p : Text} {ts : List Token}
    {v : Val} (hr : env.read p = some ts) (hm : Module (Loaded env ctx) (fun _ => none) ts v) :
    Denotes env.read (fun _ => env.resolve) p v :=
  .module p ts _ v hr hm fun _ _ hl => (hc _ _ hl).2

theorem read_eq {env : Env} {p text : Text} {ts : List Token} (h : env.fs p = some text)
    (ht : tokenize env.conv text = .ok ts) : env.read p = some ts := by
  simp [Env.read, h, ht]

theorem importModule_ok {env : Env} {self : ParseTokens} (hself : SelfOk env self) {ctx ctx' : Ctx}
    {s : Text} {v : Val} (h : importModule env self ctx s = .ok (ctx', .ok v))
    (hc : CacheOk env ctx) : Ext ctx ctx' ∧ CacheOk env ctx' ∧ Loaded env ctx' s v := by
  rcases importModule_cases ctx s h with ⟨w, hw, he⟩ | ⟨hn, ⟨hp, he⟩ | ⟨hp, ⟨hf, he⟩ |
    ⟨text, hf, ⟨e, ht, he⟩ | ⟨ts, ht, ⟨e, hs, he⟩ | ⟨ctx1, e, hs, he⟩ | ⟨ctx1, dt, w, hs, he⟩⟩⟩⟩⟩
  · cases he; exact ⟨Ext.plain ctx ctx.next, hc, hw⟩
  all_goals cases he
  obtain ⟨h1, h2, h3⟩ := hself.ok _ _ _ _ _ hs (enter_ok hc _)
  have hm := leave_mono (v := v) hn hp h1
  refine ⟨leave_Ext hn hp h1, ?_, by simp [Loaded, leave, TMap.get_insert]⟩
  intro q w hq
  simp only [leave, TMap.get_insert] at hq
  split at hq
  next he =>
    subst he
    cases hq
    exact Sound.mono hm ⟨⟨ts, read_eq hf ht, h3⟩, module_denotes h2 (read_eq hf ht) h3⟩
  next => exact (h2 q w hq).mono hm

theorem importModule_err {env : Env} {self : ParseTokens} (hself : SelfOk env self) {ctx ctx' : Ctx}
    {s : Text} {e : ParseError} (h : importModule env self ctx s = .ok (ctx', .error e))
    (hc : CacheOk env ctx) : ExtE ctx ctx' := by
  rcases importModule_cases ctx s h with ⟨w, hw, he⟩ | ⟨hn, ⟨hp, he⟩ | ⟨hp, ⟨hf, he⟩ |
    ⟨text, hf, ⟨e, ht, he⟩ | ⟨ts, ht, ⟨e, hs, he⟩ | ⟨ctx1, e, hs, he⟩ | ⟨ctx1, dt, w, hs, he⟩⟩⟩⟩⟩
  · cases he
  · cases he; exact (Ext.plain ctx ctx.next).toE
  · cases he
    exact enter_ExtE hn hp (Ext.plain _ (enter ctx (env.resolve s)).next).toE
  · cases he
  · cases he
  · cases he
    exact enter_ExtE hn hp (hself.err _ _ _ _ hs (enter_ok hc _))
  · cases he

theorem pushAll_error (env : Env) (self : ParseTokens) (ctx : Ctx) (e : ParseError)
    (ts : List Token) : pushAll env self ctx (.error e) ts = .ok (ctx, .error e) := by
  induction ts with
  | nil => rfl
  | cons t ts ih =>
    simp only [pushAll]
    have : jsonPush env self ctx (.error e) t = .ok (ctx, .error e) := by
      cases t <;> rfl
    rw [this]
    exact ih

/-- a run of the parser over the tokens of one module -/
theorem pushAll_run {env : Env} {self : ParseTokens} (hself : SelfOk env self) {ctx ctx' : Ctx}
    {j j' : JState} {ts : List Token} (hp : pushAll env self ctx j ts = .ok (ctx', j'))
    (hc : CacheOk env ctx) (hi : JInv (fun _ _ => True) j) :
    (∃ e, j' = .error e ∧ ExtE ctx ctx') ∨
    (Ext ctx ctx' ∧ CacheOk env ctx' ∧
      (JInv (Loaded env ctx') j → JInv (Loaded env ctx') j' ∧
        ∀ rest v, Rem (Loaded env ctx') j' rest v → Rem (Loaded env ctx') j (ts ++ rest) v)) := by
  induction ts generalizing ctx j with
  | nil =>
    cases hp
    exact .inr ⟨Ext.plain ctx' ctx'.next, hc, fun h => ⟨h, fun _ _ h => h⟩⟩
  | cons t ts ih =>
    simp only [pushAll] at hp
    cases hj : jsonPush env self ctx j t with
    | error e => rw [hj] at hp; cases hp
    | ok x =>
      obtain ⟨ctx1, j1⟩ := x
      rw [hj] at hp
      change pushAll env self ctx1 j1 ts = _ at hp
      obtain ⟨s1, e1⟩ := jsonPush_step hi hj (fun _ _ _ => trivial)
      have key : (∃ e, j1 = .error e ∧ ExtE ctx ctx1) ∨ (Ext ctx ctx1 ∧ CacheOk env ctx1 ∧
          ∀ s v, importModule env self ctx s = .ok (ctx1, .ok v) → Loaded env ctx1 s v) := by
        cases e1 with
        | plain n h =>
          subst h
          exact .inr ⟨Ext.plain ctx n, fun q v hq => (hc q v hq).mono fun _ _ h => h,
            fun s v hs => (importModule_ok hself hs hc).2.2⟩
        | loaded s v h =>
          obtain ⟨a, b, c⟩ := importModule_ok hself h hc
          exact .inr ⟨a, b, fun s v hs => (importModule_ok hself hs hc).2.2⟩
        | failed s e h he => exact .inl ⟨e, he, importModule_err hself h hc⟩
      rcases key with ⟨e, rfl, hE⟩ | ⟨hE, hc1, hl⟩
      · rw [pushAll_error] at hp
        cases hp
        exact .inl ⟨e, rfl, hE⟩
      · rcases ih hp hc1 s1.1 with ⟨e, rfl, h⟩ | ⟨hE', hc', h2⟩
        · exact .inl ⟨e, rfl, hE.transE h⟩
        · refine .inr ⟨hE.trans hE', hc', fun hj0 => ?_⟩
          obtain ⟨s2, -⟩ := jsonPush_step hj0 hj (fun s v hs => hE'.mono _ _ (hl s v hs))
          obtain ⟨g1, g2⟩ := h2 s2.1
          exact ⟨g1, fun rest v hr => s2.2 _ _ (g2 rest v hr)⟩

theorem start_inv (M : Text → Val → Prop) : JInv M JState.start := ⟨rfl, rfl, rfl⟩

theorem parseWithTokens_ok (env : Env) (fuel : Nat) : SelfOk env (parseWithTokens env fuel) := by
  induction fuel with
  | zero => exact ⟨fun _ _ _ _ _ h => (by cases h), fun _ _ _ _ h => (by cases h)⟩
  | succ fuel ih =>
    constructor
    · intro ctx ts ctx' dt v h hc
      simp only [parseWithTokens] at h
      cases hp : pushAll env (parseWithTokens env fuel) ctx JState.start ts with
      | error e => rw [hp] at h; cases h
      | ok x =>
        obtain ⟨ctx1, j⟩ := x
        rw [hp] at h
        have h : (ctx1, j.end_) = (ctx', Except.ok (dt, v)) := Except.ok.inj h
        simp only [Prod.mk.injEq] at h
        obtain ⟨rfl, h⟩ := h
        have hj : j = .result dt v := by
          cases j <;> simp_all [JState.end_]
        subst hj
        rcases pushAll_run ih hp hc (start_inv _) with ⟨e, he, -⟩ | ⟨h1, h2, h3⟩
        · cases he
        · refine ⟨h1, h2, ?_⟩
          have := (h3 (start_inv _)).2 [] v ⟨rfl, rfl⟩
          rw [List.append_nil] at this
          exact this.2
    · intro ctx ts ctx' e h hc
      simp only [parseWithTokens] at h
      cases hp : pushAll env (parseWithTokens env fuel) ctx JState.start ts with
      | error e => rw [hp] at h; cases h
      | ok x =>
        obtain ⟨ctx1, j⟩ := x
        rw [hp] at h
        have h : (ctx1, j.end_) = (ctx', Except.error e) := Except.ok.inj h
        simp only [Prod.mk.injEq] at h
        obtain ⟨rfl, h⟩ := h
        rcases pushAll_run ih hp hc (start_inv _) with ⟨e, he, h⟩ | ⟨h1, h2, h3⟩
        · exact h
        · exact h1.toE

end Parser
end Nanvm
