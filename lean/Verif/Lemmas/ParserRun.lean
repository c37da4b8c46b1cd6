import Verif.Lemmas.ParserSound
/-!
# Steps of the parser

For every step: what it does to the context, that it does not panic, and how it is reflected in the
specification.
-/
namespace Nanvm
namespace Parser
open Tok Grammar

theorem _root_.Nanvm.Grammar.Value.mono {M M' : Text → Val → Prop} {c : Text → Option Val} (h : ∀ s v, M s v → M' s v)
    {ts : List Token} {v : Val} (hv : Value M c ts v) : Value M' c ts v := by
  induction hv with
  | null => exact .null
  | true => exact .true
  | false => exact .false
  | num b => exact .num b
  | str i s => exact .str i s
  | big i b => exact .big i b
  | ref n v h1 h2 => exact .ref n v h1 h2
  | require s v hm => exact .require s v (h s v hm)
  | arr i items comma _ hc ih => exact .arr i items comma ih hc
  | obj i ms comma l hk _ hc hl ih => exact .obj i ms comma l hk ih hc hl

theorem _root_.Nanvm.Grammar.Module.mono {M M' : Text → Val → Prop} (h : ∀ s v, M s v → M' s v)
    {c : Text → Option Val} {ts : List Token} {v : Val} (hm : Module M c ts v) :
    Module M' c ts v := by
  induction hm with
  | newLine c ts v _ ih => exact .newLine c ts v ih
  | const_ c n ts w rest v hv _ ih => exact .const_ c n ts w rest v (Value.mono h hv) ih
  | import_ c n s w rest v hv _ ih => exact .import_ c n s w rest v (h _ _ hv) ih
  | exportDefault c ts v hv => exact .exportDefault c ts v (Value.mono h hv)
  | moduleExports c ts v hv => exact .moduleExports c ts v (Value.mono h hv)
  | value c ts v hv => exact .value c ts v (Value.mono h hv)

variable {M : Text → Val → Prop} {env : Env} {self : ParseTokens}

theorem idle_st {st : AnyState} (h : Idle st) : St M st [] := by
  obtain ⟨h1, h2, h3⟩ := h
  unfold St
  rw [h1]
  exact ⟨h2, h3, rfl⟩

theorem anyParse_plain {st : AnyState} {T : List Token} (h : St M st T)
    (hs : st.status ≠ .importValue) (ctx : Ctx) (t : Token) :
    ∃ r n, anyParse env self ctx st t = .ok ({ ctx with next := n }, r) ∧
      Good M st (T ++ [t]) r := by
  obtain ⟨r, n, hr, hg⟩ := dispatch_good ctx.next h hs t
    (fun r => (({ ctx with next := r.2 } : Ctx), r.1)) (importValue env self ctx st t)
  exact ⟨r, n, hr, hg⟩

theorem anyParse_import {st : AnyState} (hs : st.status = .importValue) (ctx : Ctx) (t : Token) :
    anyParse env self ctx st t = importValue env self ctx st t := by
  simp only [anyParse, dispatch, hs]

/-- what a step does: it changes at most the number of the next allocation, or it imports -/
inductive Effect (env : Env) (self : ParseTokens) (ctx ctx' : Ctx) (failed : ParseError → Prop) :
    Prop
  | plain (n : Nat) : ctx' = { ctx with next := n } → Effect env self ctx ctx' failed
  | loaded (s : Text) (v : Val) : importModule env self ctx s = .ok (ctx', .ok v) →
    Effect env self ctx ctx' failed
  | failed (s : Text) (e : ParseError) : importModule env self ctx s = .ok (ctx', .error e) →
    failed e → Effect env self ctx ctx' failed

theorem importValue_cases {ctx ctx' : Ctx} {st : AnyState} {t : Token} {r : AnyResult}
    (h : importValue env self ctx st t = .ok (ctx', r)) :
    (ctx' = ctx ∧ ∃ e, r = .error e) ∨
    (∃ s v, t = .string s ∧ importModule env self ctx s = .ok (ctx', .ok v) ∧
      r = .cont { st with status := .importEnd, current := .any v }) ∨
    (∃ s e, t = .string s ∧ importModule env self ctx s = .ok (ctx', .error e) ∧ r = .error e) := by
  unfold importValue at h
  split at h
  next s =>
    cases hi : importModule env self ctx s with
    | error e => rw [hi] at h; cases h
    | ok x =>
      obtain ⟨ctx1, x⟩ := x
      rw [hi] at h
      cases x with
      | ok v => cases h; exact .inr (.inl ⟨s, v, rfl, hi, rfl⟩)
      | error e => cases h; exact .inr (.inr ⟨s, e, rfl, hi, rfl⟩)
  next => cases h; exact .inl ⟨rfl, _, rfl⟩

theorem anyParse_step {st : AnyState} {T : List Token} (h : St M st T) {ctx ctx' : Ctx} {t : Token}
    {r : AnyResult} (hp : anyParse env self ctx st t = .ok (ctx', r))
    (hM : ∀ s v, importModule env self ctx s = .ok (ctx', .ok v) → M s v) :
    Good M st (T ++ [t]) r ∧ Effect env self ctx ctx' (fun e => r = .error e) := by
  by_cases hs : st.status = .importValue
  · rw [anyParse_import hs] at hp
    rcases importValue_cases hp with ⟨rfl, e, rfl⟩ | ⟨s, v, rfl, hi, rfl⟩ | ⟨s, e, rfl, hi, rfl⟩
    · exact ⟨trivial, .plain ctx'.next rfl⟩
    · refine ⟨⟨?_, rfl, .inl rfl⟩, .loaded s v hi⟩
      simp only [St, hs] at h
      obtain ⟨hc, T1, hpe, rfl⟩ := h
      exact ⟨s, v, T1, rfl, hM s v hi, hpe, by simp⟩
    · exact ⟨trivial, .failed s e hi rfl⟩
  · obtain ⟨r', n, hr, hg⟩ := anyParse_plain (env := env) (self := self) h hs ctx t
    rw [hr] at hp
    cases hp
    exact ⟨hg, .plain n rfl⟩

/-- states that can occur -/
def JInv (M : Text → Val → Prop) : JState → Prop
  | .parseRoot r => Idle r.state
  | .parseConst _ st => ∃ T, St M st T
  | .parseModule st => ∃ T, St M st T
  | .result _ _ => True
  | .error _ => True

/-- no line breaks -/
abbrev nl (T : List Token) : List Token := T.filter (· ≠ .newLine)

/-- `Rem M j ts v`: according to the specification, from the state `j` the tokens `ts` lead to the
value `v` -/
def Rem (M : Text → Val → Prop) (j : JState) (ts : List Token) (v : Val) : Prop :=
  match j with
  | .parseRoot r =>
    let c := r.state.consts.get
    match r.status with
    | .initial => (r.newLine = false → ∃ rest, ts = .newLine :: rest) ∧ Module M c ts v
    | .export_ => Module M c (.id "export".toList :: ts) v
    | .module => Module M c (.id "module".toList :: ts) v
    | .moduleDot => Module M c (.id "module".toList :: .dot :: ts) v
    | .moduleDotExports => Module M c (.id "module".toList :: .dot :: .id "exports".toList :: ts) v
    | .const_ => Module M c (.id "const".toList :: ts) v
    | .constId s => Module M c (.id "const".toList :: .id s :: ts) v
    | .import_ => Module M c (.id "import".toList :: ts) v
    | .importId s => Module M c (.id "import".toList :: .id s :: ts) v
    | .importIdFrom s => Module M c (.id "import".toList :: .id s :: .id "from".toList :: ts) v
  | .parseConst key st => ∀ T, St M st (nl T) →
    Module M st.consts.get (.id "const".toList :: .id key :: .equals :: T ++ ts) v
  | .parseModule st => ∀ T, St M st (nl T) → ValueNl M st.consts.get (T ++ ts) v
  | .result _ v' => v' = v ∧ nl ts = []
  | .error _ => False

/-- a good step -/
def Step (M : Text → Val → Prop) (j : JState) (t : Token) (j' : JState) : Prop :=
  JInv M j' ∧ ∀ ts v, Rem M j' ts v → Rem M j (t :: ts) v

theorem step_error {j : JState} {t : Token} {e : ParseError} : Step M j t (.error e) :=
  ⟨trivial, fun _ _ h => h.elim⟩

theorem nl_snoc {T : List Token} {t : Token} (h : t ≠ .newLine) : nl (T ++ [t]) = nl T ++ [t] := by
  simp [nl, h]

theorem consts_insert (m : TMap Val) (k : Text) (v : Val) :
    (m.insert k v).get = withConst m.get k v := by
  funext k'
  rw [TMap.get_insert]
  rfl

/-- the value position of a module without `export` -/
theorem forModule_step {st : AnyState} {t : Token} (ht : t ≠ .newLine) {r : AnyResult}
    (hg : ∀ T, St M st T → Good M st (T ++ [t]) r) (hst : ∃ T, St M st T) :
    JInv M (forModule r) ∧ ∀ ts v, Rem M (forModule r) ts v →
      ∀ T, St M st (nl T) → ValueNl M st.consts.get (T ++ t :: ts) v := by
  obtain ⟨T0, h0⟩ := hst
  cases r with
  | cont st' =>
    refine ⟨⟨_, (hg T0 h0).1⟩, fun ts v hr T hT => ?_⟩
    have h := hg _ hT
    have := hr (T ++ [t]) (by rw [nl_snoc ht]; exact h.1)
    rwa [h.2.1, List.append_assoc] at this
  | success st' w =>
    refine ⟨trivial, fun ts v hr T hT => ?_⟩
    obtain ⟨rfl, hts⟩ := hr
    have h := hg _ hT
    have h1 := h.1
    rw [← nl_snoc ht] at h1
    unfold ValueNl
    have : (T ++ t :: ts).filter (· ≠ .newLine) = nl (T ++ [t]) := by
      rw [List.append_cons, List.filter_append]
      simp only [nl] at hts ⊢
      rw [hts, List.append_nil]
    rw [this]
    exact h1
  | error e => exact ⟨trivial, fun _ _ h => h.elim⟩

theorem constResult_step {key : Text} {st : AnyState} {t : Token} (ht : t ≠ .newLine)
    {r : AnyResult} (hg : ∀ T, St M st T → Good M st (T ++ [t]) r) (hst : ∃ T, St M st T) :
    Step M (.parseConst key st) t (constResult key r) := by
  obtain ⟨T0, h0⟩ := hst
  cases r with
  | cont st' =>
    refine ⟨⟨_, (hg T0 h0).1⟩, fun ts v hr T hT => ?_⟩
    have h := hg _ hT
    have := hr (T ++ [t]) (by rw [nl_snoc ht]; exact h.1)
    rw [h.2.1] at this
    simpa using this
  | success st' w =>
    refine ⟨(hg T0 h0).2.1, fun ts v hr T hT => ?_⟩
    have h := hg _ hT
    simp only [Rem] at hr
    obtain ⟨h1, h2⟩ := hr
    obtain ⟨rest, rfl⟩ := h1 (by trivial)
    rw [h.2.2.1, consts_insert] at h2
    have h3 := h.1
    rw [← nl_snoc ht] at h3
    have := Module.const_ _ key (T ++ [t]) w rest v h3 h2
    simpa using this
  | error e => exact step_error

theorem parse_initial {st : AnyState} (h : Idle st) (n : Nat) (t : Token) :
    ∃ r n', parseForModule n st t = .ok ((forModule r, none), n') ∧
      ∀ T, St M st T → Good M st (T ++ [t]) r := by
  obtain ⟨r, n', hr, -⟩ := dispatch_good (M := M) n (idle_st h) (by rw [h.1]; decide) t
    (fun r => ((r.1, (none : Option Text)), r.2)) (.ok (parseImportValue st t, n))
  refine ⟨r, n', ?_, fun T hT => ?_⟩
  · simp only [parseForModule, AnyState.parse, hr]
    rfl
  · obtain ⟨r', n'', hr', hg⟩ := dispatch_good (M := M) n hT (by rw [h.1]; decide) t
      (fun r => ((r.1, (none : Option Text)), r.2)) (.ok (parseImportValue st t, n))
    rw [hr] at hr'
    cases hr'
    exact hg

theorem root_value_step {r : RootState} (h : Idle r.state) (hs : r.status = .initial)
    (hn : r.newLine = true) {t : Token} (ht : t ≠ .newLine) (n : Nat) :
    ∃ j n', parseForModule n r.state t = .ok ((j, none), n') ∧ Step M (.parseRoot r) t j := by
  obtain ⟨x, n', hx, hg⟩ := parse_initial (M := M) h n t
  refine ⟨_, n', hx, ?_⟩
  obtain ⟨h1, h2⟩ := forModule_step ht hg ⟨[], idle_st h⟩
  refine ⟨h1, fun ts v hr => ?_⟩
  have := h2 ts v hr [] (idle_st h)
  simp only [Rem, hs, hn]
  exact ⟨fun h => by simp at h, .value _ _ _ (by simpa using this)⟩

theorem root_parse_step {r : RootState} (h : Idle r.state) (n : Nat) (t : Token) :
    ∃ j imp n', r.parse n t = .ok ((j, imp), n') ∧
      ((imp = none ∧ Step M (.parseRoot r) t j) ∨
       (∃ id s, imp = some (id, s) ∧ t = .string s ∧ r.status = .importIdFrom id ∧ n' = n ∧
         j = .parseRoot { r with status := .initial, newLine := false })) := by
  have e (e : ParseError) : Step M (.parseRoot r) t (.error e) := step_error
  obtain ⟨status, st, newLine⟩ := r
  simp only at h
  unfold RootState.parse
  cases status with
  | initial =>
    simp only
    by_cases hnl : t = .newLine
    · subst hnl
      refine ⟨_, _, _, rfl, .inl ⟨rfl, h, fun ts v hr => ?_⟩⟩
      simp only [Rem] at hr ⊢
      exact ⟨fun _ => ⟨ts, rfl⟩, .newLine _ _ _ hr.2⟩
    · cases hn : newLine with
      | false =>
        cases t <;> first | exact absurd rfl hnl | exact ⟨_, _, _, rfl, .inl ⟨rfl, step_error⟩⟩
      | true =>
        obtain ⟨j, n', hv, hstep⟩ :=
          root_value_step (M := M) (r := ⟨.initial, st, true⟩) h rfl rfl hnl n
        simp only at hv
        cases t with
        | newLine => exact absurd rfl hnl
        | id s =>
          simp only [if_true]
          split
          next hs =>
            subst hs
            refine ⟨_, _, _, rfl, .inl ⟨rfl, h, fun ts v hr => ⟨fun h => by simp at h, hr⟩⟩⟩
          next =>
          split
          next hs =>
            obtain ⟨rfl, -⟩ := hs
            refine ⟨_, _, _, rfl, .inl ⟨rfl, h, fun ts v hr => ⟨fun h => by simp at h, hr⟩⟩⟩
          next =>
          split
          next hs =>
            obtain ⟨rfl, -⟩ := hs
            refine ⟨_, _, _, rfl, .inl ⟨rfl, h, fun ts v hr => ⟨fun h => by simp at h, hr⟩⟩⟩
          next =>
          split
          next hs =>
            obtain ⟨rfl, -⟩ := hs
            refine ⟨_, _, _, rfl, .inl ⟨rfl, h, fun ts v hr => ⟨fun h => by simp at h, hr⟩⟩⟩
          next => exact ⟨j, none, n', by rw [hv]; rfl, .inl ⟨rfl, hstep⟩⟩
        | _ => exact ⟨j, none, n', by simp only [if_true]; rw [hv]; rfl, .inl ⟨rfl, hstep⟩⟩
  | export_ =>
    cases t with
    | id s =>
      simp only
      split
      next hs =>
        subst hs
        refine ⟨_, _, _, rfl, .inl ⟨rfl, ⟨[], idle_st h⟩, fun ts v hr => ?_⟩⟩
        exact .exportDefault _ _ _ (hr [] (idle_st h))
      next => exact ⟨_, _, _, rfl, .inl ⟨rfl, step_error⟩⟩
    | _ => exact ⟨_, _, _, rfl, .inl ⟨rfl, step_error⟩⟩
  | module =>
    cases t with
    | dot => exact ⟨_, _, _, rfl, .inl ⟨rfl, h, fun ts v hr => hr⟩⟩
    | _ => exact ⟨_, _, _, rfl, .inl ⟨rfl, step_error⟩⟩
  | moduleDot =>
    cases t with
    | id s =>
      simp only
      split
      next hs =>
        subst hs
        exact ⟨_, _, _, rfl, .inl ⟨rfl, h, fun ts v hr => hr⟩⟩
      next => exact ⟨_, _, _, rfl, .inl ⟨rfl, step_error⟩⟩
    | _ => exact ⟨_, _, _, rfl, .inl ⟨rfl, step_error⟩⟩
  | moduleDotExports =>
    cases t with
    | equals =>
      refine ⟨_, _, _, rfl, .inl ⟨rfl, ⟨[], idle_st h⟩, fun ts v hr => ?_⟩⟩
      exact .moduleExports _ _ _ (hr [] (idle_st h))
    | _ => exact ⟨_, _, _, rfl, .inl ⟨rfl, step_error⟩⟩
  | const_ =>
    cases t with
    | id s => exact ⟨_, _, _, rfl, .inl ⟨rfl, h, fun ts v hr => hr⟩⟩
    | _ => exact ⟨_, _, _, rfl, .inl ⟨rfl, step_error⟩⟩
  | constId s =>
    cases t with
    | equals =>
      refine ⟨_, _, _, rfl, .inl ⟨rfl, ⟨[], idle_st h⟩, fun ts v hr => ?_⟩⟩
      exact hr [] (idle_st h)
    | _ => exact ⟨_, _, _, rfl, .inl ⟨rfl, step_error⟩⟩
  | import_ =>
    cases t with
    | id s => exact ⟨_, _, _, rfl, .inl ⟨rfl, h, fun ts v hr => hr⟩⟩
    | _ => exact ⟨_, _, _, rfl, .inl ⟨rfl, step_error⟩⟩
  | importId id =>
    cases t with
    | id s =>
      simp only
      split
      next hs =>
        subst hs
        exact ⟨_, _, _, rfl, .inl ⟨rfl, h, fun ts v hr => hr⟩⟩
      next => exact ⟨_, _, _, rfl, .inl ⟨rfl, step_error⟩⟩
    | _ => exact ⟨_, _, _, rfl, .inl ⟨rfl, step_error⟩⟩
  | importIdFrom id =>
    cases t with
    | string s => exact ⟨_, _, _, rfl, .inr ⟨id, s, rfl, rfl, rfl, rfl, rfl⟩⟩
    | _ => exact ⟨_, _, _, rfl, .inl ⟨rfl, step_error⟩⟩

theorem rootParse_step {r : RootState} (h : Idle r.state) {ctx ctx' : Ctx} {t : Token} {j' : JState}
    (hp : rootParse env self ctx r t = .ok (ctx', j'))
    (hM : ∀ s v, importModule env self ctx s = .ok (ctx', .ok v) → M s v) :
    Step M (.parseRoot r) t j' ∧ Effect env self ctx ctx' (fun e => j' = .error e) := by
  obtain ⟨j, imp, n', hr, hcase⟩ := root_parse_step (M := M) h ctx.next t
  simp only [rootParse, hr] at hp
  rcases hcase with ⟨rfl, hstep⟩ | ⟨id, s, rfl, rfl, hst, rfl, rfl⟩
  · cases hp
    exact ⟨hstep, .plain n' rfl⟩
  · change (importModule env self ctx s >>= _) = _ at hp
    cases hi : importModule env self ctx s with
    | error e => rw [hi] at hp; cases hp
    | ok x =>
      obtain ⟨ctx1, x⟩ := x
      rw [hi] at hp
      cases x with
      | error e => cases hp; exact ⟨step_error, .failed s e hi rfl⟩
      | ok v =>
        cases hp
        refine ⟨⟨h, fun ts w hr => ?_⟩, .loaded s v hi⟩
        simp only [Rem] at hr
        obtain ⟨h1, h2⟩ := hr
        obtain ⟨rest, rfl⟩ := h1 (by trivial)
        rw [consts_insert] at h2
        simp only [Rem, hst]
        exact .import_ _ _ _ _ _ _ (hM s v hi) h2

theorem forModule_error {r : AnyResult} {e : ParseError} (h : r = .error e) :
    forModule r = .error e := by subst h; rfl

theorem constResult_error {k : Text} {r : AnyResult} {e : ParseError} (h : r = .error e) :
    constResult k r = .error e := by subst h; rfl

theorem Effect.map {ctx ctx' : Ctx} {p q : ParseError → Prop} (h : Effect env self ctx ctx' p)
    (hpq : ∀ e, p e → q e) : Effect env self ctx ctx' q := by
  cases h with
  | plain n h => exact .plain n h
  | loaded s v h => exact .loaded s v h
  | failed s e h he => exact .failed s e h (hpq e he)

theorem jsonPush_eq {t : Token} (h : t ≠ .newLine) (ctx : Ctx) (j : JState) :
    jsonPush env self ctx j t = match j with
      | .parseRoot r => rootParse env self ctx r t
      | .result _ _ => .ok (ctx, .error .unexpectedToken)
      | .parseModule st => moduleParse env self ctx st t
      | .parseConst key st => constStateParse env self ctx key st t
      | .error _ => .ok (ctx, j) := by
  cases t <;> first | exact absurd rfl h | (cases j <;> rfl)

theorem constStateParse_eq {t : Token} (h : t ≠ .semicolon) (ctx : Ctx) (k : Text) (st : AnyState) :
    constStateParse env self ctx k st t = (do
      let (ctx, r) ← anyParse env self ctx st t
      return (ctx, constResult k r)) := by
  cases t <;> first | exact absurd rfl h | rfl

/-- every step is as specified -/
theorem jsonPush_step {j : JState} (h : JInv M j) {ctx ctx' : Ctx} {t : Token} {j' : JState}
    (hp : jsonPush env self ctx j t = .ok (ctx', j'))
    (hM : ∀ s v, importModule env self ctx s = .ok (ctx', .ok v) → M s v) :
    Step M j t j' ∧ Effect env self ctx ctx' (fun e => j' = .error e) := by
  by_cases hnl : t = .newLine
  · subst hnl
    cases j with
    | parseRoot r => exact rootParse_step h hp hM
    | parseConst k st =>
      cases hp
      refine ⟨⟨h, fun ts v hr T hT => ?_⟩, .plain ctx.next rfl⟩
      have := hr (T ++ [.newLine]) (by simpa [nl] using hT)
      simpa using this
    | parseModule st =>
      cases hp
      refine ⟨⟨h, fun ts v hr T hT => ?_⟩, .plain ctx.next rfl⟩
      have := hr (T ++ [.newLine]) (by simpa [nl] using hT)
      simpa using this
    | result dt v =>
      cases hp
      refine ⟨⟨h, fun ts v hr => ?_⟩, .plain ctx.next rfl⟩
      exact ⟨hr.1, by simpa [nl] using hr.2⟩
    | error e => cases hp; exact ⟨step_error, .plain ctx.next rfl⟩
  · rw [jsonPush_eq hnl] at hp
    cases j with
    | parseRoot r => exact rootParse_step h hp hM
    | result dt v => cases hp; exact ⟨step_error, .plain ctx.next rfl⟩
    | error e => cases hp; exact ⟨step_error, .plain ctx.next rfl⟩
    | parseModule st =>
      simp only [moduleParse] at hp
      cases ha : anyParse env self ctx st t with
      | error e => rw [ha] at hp; cases hp
      | ok x =>
        obtain ⟨ctx1, r⟩ := x
        rw [ha] at hp
        cases hp
        have hg : ∀ T, St M st T → Good M st (T ++ [t]) r := fun T hT =>
          (anyParse_step hT ha hM).1
        obtain ⟨T0, h0⟩ := h
        refine ⟨forModule_step hnl hg ⟨T0, h0⟩, ?_⟩
        exact (anyParse_step h0 ha hM).2.map fun e he => forModule_error he
    | parseConst k st =>
      by_cases hsc : t = .semicolon
      · subst hsc; cases hp
      · simp only [constStateParse_eq hsc] at hp
        cases ha : anyParse env self ctx st t with
        | error e => rw [ha] at hp; cases hp
        | ok x =>
          obtain ⟨ctx1, r⟩ := x
          rw [ha] at hp
          cases hp
          have hg : ∀ T, St M st T → Good M st (T ++ [t]) r := fun T hT =>
            (anyParse_step hT ha hM).1
          obtain ⟨T0, h0⟩ := h
          refine ⟨constResult_step hnl hg ⟨T0, h0⟩, ?_⟩
          exact (anyParse_step h0 ha hM).2.map fun e he => constResult_error he

end Parser
end Nanvm
