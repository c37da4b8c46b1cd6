import Verif.Lemmas.ParserCrashFiles
/-!
# Every state of the parser can be completed
-/
namespace Nanvm
namespace Parser
open Tok Grammar
open Ser (bind_eq_ok)

variable {env : Env} {self : ParseTokens} {X : Text → Prop} {I : Ctx → Prop}

/-- a value can be put where the state is -/
def Open (st : AnyState) : Prop :=
  (st.current = .none ∧ st.stack = []) ∨ ∃ f, st.current = .stack f

theorem popTop_open (st : AnyState) : Open (popTop st) := by
  cases h : st.stack with
  | nil => exact .inl ⟨by simp [popTop, h], by simp [popTop, h]⟩
  | cons f l => exact .inr ⟨f, by simp [popTop, h]⟩

/-- tokens that can stand in a constant -/
def Calm (ts : List Token) : Prop := ∀ t ∈ ts, t ≠ .newLine ∧ t ≠ .semicolon

/-- some tokens complete the value -/
def Completes (I : Ctx → Prop) (f : List Token → Res (Ctx × AnyResult)) : Prop :=
  ∃ more ctx' st' v, Calm more ∧ f more = .ok (ctx', .success st' v) ∧ Idle st' ∧ I ctx'

theorem Completes.cons {f g : List Token → Res (Ctx × AnyResult)} (t : Token)
    (ht : t ≠ .newLine ∧ t ≠ .semicolon) (h : ∀ ts, f (t :: ts) = g ts)
    (hg : Completes I g) : Completes I f := by
  obtain ⟨more, ctx', st', v, h1, h2, h3⟩ := hg
  refine ⟨t :: more, ctx', st', v, ?_, by rw [h, h2], h3⟩
  intro x hx
  rcases List.mem_cons.1 hx with rfl | hx
  · exact ht
  · exact h1 x hx

theorem completes_top {st : AnyState} (h1 : st.current = .none) (h2 : st.stack = []) (v : Val)
    {ctx : Ctx} (hi : I ctx) :
    Completes I (fun ts => pushValue st v >>= fun r => after env self ctx r ts) := by
  refine ⟨[], ctx, { st with status := .initial }, v, by simp [Calm], ?_, ⟨rfl, h1, h2⟩, hi⟩
  simp only [pushValue, h1]
  change after env self ctx (.success _ _) [] = _
  rw [after]
  rfl

/-- after a value everything around it can be closed -/
theorem completes_push (hn : ∀ ctx n, I ctx → I { ctx with next := n }) (n : Nat) :
    ∀ (st : AnyState) (v : Val) (ctx : Ctx),
    (st.current = .none ∧ st.stack = []) ∨ (∃ f, st.current = .stack f) ∧ st.stack.length < n →
    I ctx → Completes I (fun ts => pushValue st v >>= fun r => after env self ctx r ts) := by
  induction n with
  | zero =>
    rintro st v ctx (⟨h1, h2⟩ | ⟨-, h⟩) hi
    · exact completes_top h1 h2 v hi
    · omega
  | succ n ih =>
    rintro st v ctx (⟨h1, h2⟩ | ⟨⟨f, hf⟩, hl⟩) hi
    · exact completes_top h1 h2 v hi
    · have hpop : ∀ st1 : AnyState, st1.stack = st.stack →
          ((popTop st1).current = .none ∧ (popTop st1).stack = []) ∨
          (∃ f, (popTop st1).current = .stack f) ∧ (popTop st1).stack.length < n := by
        intro st1 h1
        cases hs : st.stack with
        | nil => exact .inl ⟨by simp [popTop, h1, hs], by simp [popTop, h1, hs]⟩
        | cons g l =>
          rw [hs, List.length_cons] at hl
          exact .inr ⟨⟨g, by simp [popTop, h1, hs]⟩, by simp only [popTop, h1, hs]; omega⟩
      cases f with
      | array l =>
        refine Completes.cons .arrayEnd (by simp) (fun ts => ?_)
          (ih (popTop { st with status := .arrayValue, current := .stack (.array (l ++ [v])) })
            (.arr ctx.next (l ++ [v])) { ctx with next := ctx.next + 1 } (hpop _ rfl) (hn _ _ hi))
        have hv : pushValue st v = .ok (.cont { st with
          status := .arrayValue, current := .stack (.array (l ++ [v])) }) := by simp only [pushValue, hf]
        rw [hv]
        change after env self ctx (.cont _) _ = _
        rw [after_cont, anyRun_cons]
        simp only [anyParse, dispatch, parseArrayValue, endArray]
        cases pushValue (popTop { st with
          status := .arrayValue, current := .stack (.array (l ++ [v])) }) (.arr ctx.next (l ++ [v])) <;> rfl
      | object m k =>
        refine Completes.cons .objectEnd (by simp) (fun ts => ?_)
          (ih (popTop { st with status := .objectValue, current := .stack (.object (m.insert k v) []) })
            (.obj ctx.next ((m.insert k v).map fun kv => (toJsString kv.1, kv.2)))
            { ctx with next := ctx.next + 1 } (hpop _ rfl) (hn _ _ hi))
        have hv : pushValue st v = .ok (.cont { st with
          status := .objectValue, current := .stack (.object (m.insert k v) []) }) := by
          simp only [pushValue, hf]
        rw [hv]
        change after env self ctx (.cont _) _ = _
        rw [after_cont, anyRun_cons]
        simp only [anyParse, dispatch, parseObjectNext, endObject]
        cases pushValue (popTop { st with
          status := .objectValue, current := .stack (.object (m.insert k v) []) })
          (.obj ctx.next ((m.insert k v).map fun kv => (toJsString kv.1, kv.2))) <;> rfl

theorem completes_open (hn : ∀ ctx n, I ctx → I { ctx with next := n }) {st : AnyState}
    (v : Val) {ctx : Ctx} (ho : Open st) (hi : I ctx) :
    Completes I (fun ts => pushValue st v >>= fun r => after env self ctx r ts) := by
  refine completes_push hn (st.stack.length + 1) st v ctx ?_ hi
  rcases ho with h | h
  · exact .inl h
  · exact .inr ⟨h, by omega⟩

/-- every state within a value can be completed -/
theorem completes_st {M : Text → Val → Prop} (hI : CanLoad env self X I) {s : Text} (hs : X s)
    {st : AnyState} {T : List Token} (h : St M st T) {ctx : Ctx} (hi : I ctx) :
    Completes I (anyRun env self ctx st) := by
  have hn := hI.next
  -- a value where one is expected
  have null : ∀ {st : AnyState} {ctx : Ctx}, st.status = .initial ∨ st.status = .objectColon →
      Open st → I ctx → Completes I (anyRun env self ctx st) := by
    intro st ctx h1 ho hi
    refine Completes.cons (.id "null".toList) (by simp) (fun ts => ?_)
      (completes_open (env := env) (self := self) hn (st := st) .null (ctx := ctx) ho hi)
    have hv : parseValue ctx.next st (.id "null".toList) = pushToken ctx.next st (.id "null".toList) := by
      simp only [parseValue]
      rw [if_neg (by rintro ⟨-, h⟩; revert h; decide)]
    have ht : pushToken ctx.next st (.id "null".toList) =
        (do return (← pushValue st .null, ctx.next)) := rfl
    rw [anyRun_cons]
    rcases h1 with h1 | h1 <;>
    · simp only [anyParse, dispatch, h1]
      rw [hv, ht]
      cases pushValue st .null <;> rfl
  have close : ∀ {st : AnyState} {ctx : Ctx} {l : List Val}, st.current = .stack (.array l) →
      st.status = .arrayBegin ∨ st.status = .arrayComma ∨ st.status = .arrayValue → I ctx →
      Completes I (anyRun env self ctx st) := by
    intro st ctx l hc h1 hi
    refine Completes.cons .arrayEnd (by simp) (fun ts => ?_)
      (completes_open (env := env) (self := self) hn (st := popTop st) (.arr ctx.next l) (ctx := { ctx with next := ctx.next + 1 })
        (popTop_open st) (hn _ _ hi))
    rw [anyRun_cons]
    rcases h1 with h1 | h1 | h1 <;>
    · simp only [anyParse, dispatch, h1, parseArrayBegin, parseArrayComma, parseArrayValue, endArray, hc]
      cases pushValue (popTop st) (.arr ctx.next l) <;> rfl
  have closeO : ∀ {st : AnyState} {ctx : Ctx} {m : TMap Val} {k : Text},
      st.current = .stack (.object m k) →
      st.status = .objectBegin ∨ st.status = .objectComma ∨ st.status = .objectValue → I ctx →
      Completes I (anyRun env self ctx st) := by
    intro st ctx m k hc h1 hi
    refine Completes.cons .objectEnd (by simp) (fun ts => ?_)
      (completes_open (env := env) (self := self) hn (st := popTop st) (.obj ctx.next (m.map fun kv => (toJsString kv.1, kv.2)))
        (ctx := { ctx with next := ctx.next + 1 }) (popTop_open st) (hn _ _ hi))
    rw [anyRun_cons]
    rcases h1 with h1 | h1 | h1 <;>
    · simp only [anyParse, dispatch, h1, parseObjectBegin, parseObjectComma, parseObjectNext, endObject,
        hc]
      cases pushValue (popTop st) (.obj ctx.next (m.map fun kv => (toJsString kv.1, kv.2))) <;> rfl
  have done : ∀ {st : AnyState} {ctx : Ctx} {v : Val}, st.current = .any v → st.status = .importEnd →
      I ctx → Completes I (anyRun env self ctx st) := by
    intro st ctx v hc h1 hi
    refine Completes.cons .closingParenthesis (by simp) (fun ts => ?_)
      (completes_open (env := env) (self := self) hn (st := { popTop st with status := .initial }) v (ctx := ctx)
        (popTop_open st) hi)
    rw [anyRun_cons]
    simp only [anyParse, dispatch, h1, parseImportEnd, endImport, hc]
    cases pushValue { popTop st with status := .initial } v <;> rfl
  have name : ∀ {st : AnyState} {ctx : Ctx}, st.status = .importValue →
      I ctx → Completes I (anyRun env self ctx st) := by
    intro st ctx h1 hi
    obtain ⟨ctx', v, h2, h3⟩ := hI.loads ctx s hi hs
    refine Completes.cons (.string s) (by simp) (fun ts => ?_)
      (done (st := { st with status := .importEnd, current := .any v }) rfl rfl h3)
    rw [anyRun_cons]
    simp only [anyParse, dispatch, h1, importValue]
    rw [h2]
    change after env self ctx' (.cont _) ts = _
    rw [after_cont]
  cases hst : st.status <;> simp only [St, hst] at h
  case initial => exact null (.inl hst) (.inl ⟨h.1, h.2.1⟩) hi
  case arrayBegin => exact close h.1 (.inl hst) hi
  case arrayValue => obtain ⟨items, x, T1, h, -⟩ := h; exact close h (.inr (.inr hst)) hi
  case arrayComma => obtain ⟨items, T1, -, h, -⟩ := h; exact close h (.inr (.inl hst)) hi
  case objectBegin => obtain ⟨k, T1, h, -⟩ := h; exact closeO h (.inl hst) hi
  case objectValue => obtain ⟨ms, m, k, T1, h, -⟩ := h; exact closeO h (.inr (.inr hst)) hi
  case objectComma => obtain ⟨ms, k, T1, -, h, -⟩ := h; exact closeO h (.inr (.inl hst)) hi
  case objectColon =>
    obtain ⟨ms, kt, k, T1, h, -⟩ := h
    exact null (.inr hst) (.inr ⟨_, h⟩) hi
  case objectKey =>
    obtain ⟨ms, kt, k, T1, h, -⟩ := h
    refine Completes.cons .colon (by simp) (fun ts => ?_)
      (null (st := { st with status := .objectColon }) (.inr rfl) (.inr ⟨_, h⟩) hi)
    rw [anyRun_cons]
    simp only [anyParse, dispatch, hst, parseObjectKey]
    change after env self ctx (.cont _) ts = _
    rw [after_cont]
  case importBegin =>
    refine Completes.cons .openingParenthesis (by simp) (fun ts => ?_)
      (name (st := { st with status := .importValue }) rfl hi)
    rw [anyRun_cons]
    simp only [anyParse, dispatch, hst, parseImportBegin]
    change after env self ctx (.cont _) ts = _
    rw [after_cont]
  case importValue => exact name hst hi
  case importEnd =>
    obtain ⟨s, v, T1, h, -⟩ := h
    exact done h hst hi

/-- the run ends in a module -/
def Finishes (env : Env) (self : ParseTokens) (ctx : Ctx) (j : JState) : Prop :=
  ∃ more ctx' k v, pushAll env self ctx j more = .ok (ctx', .result k v)

theorem Finishes.step {ctx ctx' : Ctx} {j j' : JState} (more : List Token)
    (h : pushAll env self ctx j more = .ok (ctx', j')) (h' : Finishes env self ctx' j') :
    Finishes env self ctx j := by
  obtain ⟨ts, c, k, v, h2⟩ := h'
  exact ⟨more ++ ts, c, k, v, by rw [pushAll_append, h]; exact h2⟩

theorem Calm.nl {ts : List Token} (h : Calm ts) : nl ts = ts :=
  List.filter_eq_self.2 fun t ht => by simpa using (h t ht).1

theorem Calm.semicolon {ts : List Token} (h : Calm ts) : .semicolon ∉ ts :=
  fun hm => (h _ hm).2 rfl

/-- every state can be completed -/
theorem finishes (hI : CanLoad env self X I) {s : Text} (hs : X s) {M : Text → Val → Prop} {j : JState}
    (h : JInv M j) (he : ∀ e, j ≠ .error e) {ctx : Ctx} (hi : I ctx) : Finishes env self ctx j := by
  have module : ∀ {st : AnyState} {T : List Token} {ctx : Ctx}, St M st T → I ctx →
      Finishes env self ctx (.parseModule st) := by
    intro st T ctx h hi
    obtain ⟨more, ctx', st', v, h1, h2, h3, h4⟩ := completes_st hI hs h hi
    exact ⟨more, ctx', st'.dataType, v, module_run (by rw [h1.nl]; exact h2)⟩
  have line : ∀ {st : AnyState} {ctx : Ctx} (b : Bool), Idle st → I ctx →
      Finishes env self ctx (.parseRoot ⟨.initial, st, b⟩) := by
    intro st ctx b h hi
    refine Finishes.step [.newLine] (ctx' := ctx) (j' := .parseRoot ⟨.initial, st, true⟩) rfl ?_
    refine ⟨[.id "null".toList], ctx, st.dataType, .null, ?_⟩
    obtain ⟨dt, x, y, z, c⟩ := st
    obtain ⟨h1, h2, h3⟩ := h
    cases h1; cases h2; cases h3
    cases dt <;> rfl
  have const : ∀ {key : Text} {st : AnyState} {T : List Token} {ctx : Ctx}, St M st T → I ctx →
      Finishes env self ctx (.parseConst key st) := by
    intro key st T ctx h hi
    obtain ⟨more, ctx', st', v, h1, h2, h3, h4⟩ := completes_st hI hs h hi
    obtain ⟨b, h5⟩ := (const_run (key := key) h1.semicolon (by rw [h1.nl]; exact h2)).1 st' v rfl
    exact .step more h5 (line b h3 h4)
  cases j with
  | error e => exact absurd rfl (he e)
  | result k v => exact ⟨[], ctx, k, v, rfl⟩
  | parseModule st => obtain ⟨T, h⟩ := h; exact module h hi
  | parseConst key st => obtain ⟨T, h⟩ := h; exact const h hi
  | parseRoot r =>
    obtain ⟨status, st, b⟩ := r
    have h : Idle st := h
    have hst := idle_st (M := M) h
    have hload := hI.loads ctx s hi hs
    cases status with
    | initial => exact line b h hi
    | export_ => exact .step [.id "default".toList] (ctx' := ctx) (by rfl) (module hst hi)
    | module =>
      exact .step [.dot, .id "exports".toList, .equals] (ctx' := ctx) (by rfl) (module hst hi)
    | moduleDot => exact .step [.id "exports".toList, .equals] (ctx' := ctx) (by rfl) (module hst hi)
    | moduleDotExports => exact .step [.equals] (ctx' := ctx) (by rfl) (module hst hi)
    | const_ => exact .step [.id ['a'], .equals] (ctx' := ctx) (by rfl) (const (key := ['a']) hst hi)
    | constId n => exact .step [.equals] (ctx' := ctx) (by rfl) (const hst hi)
    | import_ =>
      obtain ⟨ctx', v, h1, h2⟩ := hload
      refine .step [.id ['a'], .id "from".toList, .string s] (ctx' := ctx')
        (j' := .parseRoot ⟨.initial, { st with consts := st.consts.insert ['a'] v }, false⟩) ?_ (line _ h h2)
      change ((importModule env self ctx s >>= _) >>= _) = _
      rw [h1]
      rfl
    | importId n =>
      obtain ⟨ctx', v, h1, h2⟩ := hload
      refine .step [.id "from".toList, .string s] (ctx' := ctx')
        (j' := .parseRoot ⟨.initial, { st with consts := st.consts.insert n v }, false⟩) ?_ (line _ h h2)
      change ((importModule env self ctx s >>= _) >>= _) = _
      rw [h1]
      rfl
    | importIdFrom n =>
      obtain ⟨ctx', v, h1, h2⟩ := hload
      refine .step [.string s] (ctx' := ctx')
        (j' := .parseRoot ⟨.initial, { st with consts := st.consts.insert n v }, false⟩) ?_ (line _ h h2)
      change ((importModule env self ctx s >>= _) >>= _) = _
      rw [h1]
      rfl

/-- a module that needs no others can be imported, if it is not being parsed -/
theorem canLoad_leaf {s : Text} {leaf : List Token} {k : DataType}
    (hr : env.read (env.resolve s) = some leaf)
    (hleaf : AcceptedModule (fun _ => False) (fun _ => False) .json leaf k) {progress : List Text}
    (hn : env.resolve s ∉ progress) (fuel : Nat) :
    CanLoad env (parseWithTokens env (fuel + 1)) (fun s' => s' = s)
      (fun c => c.progress = progress) := by
  refine ⟨fun ctx n h => h, ?_⟩
  rintro c s rfl rfl
  generalize hx : importModule env (parseWithTokens env (fuel + 1)) c s = x
  rcases importModule_cases c s hx with ⟨v', h1, h2⟩ | ⟨h0, ⟨h1, -⟩ | ⟨h1, h2'⟩⟩
  · exact ⟨c, v', h2, rfl⟩
  · exact absurd h1 hn
  · obtain ⟨ctx', v, h5, h6⟩ := tokens_accepted (env := env) 0 (ctx := enter c (env.resolve s)) (fuel := fuel + 1)
      (by omega) (hleaf.mono fun s h => h.elim) (fun q _ k h => h.elim)
    obtain ⟨text, hfs, htok⟩ := read_cases hr
    rcases h2' with ⟨h3, -⟩ | ⟨text', h3, h2'⟩
    · rw [hfs] at h3; cases h3
    · rw [hfs] at h3
      obtain rfl := Option.some.inj h3
      rcases h2' with ⟨e, h4, -⟩ | ⟨ts', h4, h2'⟩
      · rw [htok] at h4; cases h4
      · rw [htok] at h4
        obtain rfl := Except.ok.inj h4
        simp only [h5] at h2'
        rcases h2' with ⟨e, ⟨⟩, -⟩ | ⟨c1, e, h7, -⟩ | ⟨c1, dt1, v1, h7, h2'⟩
        · cases h7
        · obtain ⟨rfl, h8⟩ := Prod.mk.inj (Except.ok.inj h7)
          refine ⟨_, _, h2', ?_⟩
          simp only [leave]
          rw [h6]
          simp only [enter]
          rw [setInsert_new h1, setRemove_new h1]

/-! ## Where errors come from -/

/-- the parser itself reports no unexpected end before the end -/
theorem pushValue_end {st : AnyState} {v : Val} : pushValue st v ≠ .ok (.error .unexpectedEnd) := by
  unfold pushValue
  split <;> simp

theorem pushToken_end {n m : Nat} {st : AnyState} {t : Token} :
    pushToken n st t ≠ .ok (.error .unexpectedEnd, m) := by
  intro h
  unfold pushToken at h
  split at h
  · rename_i v n' _
    cases hv : pushValue st v with
    | error e => rw [hv] at h; cases h
    | ok r => rw [hv] at h; cases h; exact pushValue_end hv
  · cases h

theorem parseValue_end {n m : Nat} {st : AnyState} {t : Token} :
    parseValue n st t ≠ .ok (.error .unexpectedEnd, m) := by
  intro h
  unfold parseValue at h
  split at h
  · cases h
  · cases h
  · split at h
    · cases h
    · exact pushToken_end h
  · exact pushToken_end h

theorem parseForModule_end {n m : Nat} {st : AnyState} {t : Token} {x : Option Text} (hst : Idle st) :
    parseForModule n st t ≠ .ok ((.error .unexpectedEnd, x), m) := by
  intro h
  simp only [parseForModule, AnyState.parse, dispatch, hst.1] at h
  cases hv : parseValue n st t with
  | error e => rw [hv] at h; cases h
  | ok r =>
    obtain ⟨r, m'⟩ := r
    rw [hv] at h
    cases r with
    | cont st => cases h
    | success st v => cases h
    | error e => cases h; exact parseValue_end hv

/-- an unexpected end within a value is that of an imported module -/
theorem anyParse_end {ctx ctx' : Ctx} {st : AnyState} {t : Token}
    (h : anyParse env self ctx st t = .ok (ctx', .error .unexpectedEnd)) :
    ∃ s, importModule env self ctx s = .ok (ctx', .error .unexpectedEnd) := by
  generalize hn : ctx.next = n
  have pt : ∀ m, pushToken n st t ≠ .ok (.error .unexpectedEnd, m) := fun m => pushToken_end
  have ea : ∀ m, endArray n st ≠ .ok (.error .unexpectedEnd, m) := by
    intro m h
    unfold endArray at h
    split at h
    · rename_i l _
      cases hv : pushValue (popTop st) (.arr n l) with
      | error e => rw [hv] at h; cases h
      | ok r => rw [hv] at h; cases h; exact pushValue_end hv
    · cases h
  have eo : ∀ m, endObject n st ≠ .ok (.error .unexpectedEnd, m) := by
    intro m h
    unfold endObject at h
    split at h
    · rename_i l _ _
      cases hv : pushValue (popTop st) (.obj n (l.map fun kv => (toJsString kv.1, kv.2))) with
      | error e => rw [hv] at h; cases h
      | ok r => rw [hv] at h; cases h; exact pushValue_end hv
    · cases h
  have ei : endImport st ≠ .ok (.error .unexpectedEnd) := by
    intro h
    unfold endImport at h
    split at h
    · exact pushValue_end h
    · cases h
  have pk : ∀ s, pushKey st s ≠ .error .unexpectedEnd := by
    intro s h
    unfold pushKey at h
    split at h <;> cases h
  have bi : ∀ {x : Res (AnyResult × Nat)} {ctx' : Ctx}, (∀ m, x ≠ .ok (.error .unexpectedEnd, m)) →
      (do return (fun r : AnyResult × Nat => (({ ctx with next := r.2 } : Ctx), r.1)) (← x)) =
        (.ok (ctx', .error .unexpectedEnd) : Res (Ctx × AnyResult)) → False := by
    intro x ctx' hx h
    cases x with
    | error e => cases h
    | ok r =>
      obtain ⟨r, m⟩ := r
      have := Except.ok.inj h
      obtain ⟨-, rfl⟩ := Prod.mk.inj this
      exact hx m rfl
  have pv : ∀ m, parseValue n st t ≠ .ok (.error .unexpectedEnd, m) := fun m => parseValue_end
  unfold anyParse dispatch at h
  rw [hn] at h
  cases hst : st.status <;> simp only [hst] at h
  case initial => exact (bi pv h).elim
  case objectColon => exact (bi pv h).elim
  case arrayBegin =>
    refine (bi (fun m h => ?_) h).elim
    unfold parseArrayBegin at h
    split at h
    · cases h
    · exact ea m h
    · cases h
    · exact pt m h
  case arrayValue =>
    refine (bi (fun m h => ?_) h).elim
    unfold parseArrayValue at h
    split at h
    · exact ea m h
    · cases h
    · cases h
  case arrayComma =>
    refine (bi (fun m h => ?_) h).elim
    unfold parseArrayComma at h
    split at h
    · cases h
    · cases h
    · split at h
      · cases h
      · exact pt m h
    · exact ea m h
    · exact pt m h
  case objectBegin =>
    refine (bi (fun m h => ?_) h).elim
    unfold parseObjectBegin at h
    split at h
    · exact pk _ (congrArg Prod.fst (Except.ok.inj h))
    · split at h
      · exact pk _ (congrArg Prod.fst (Except.ok.inj h))
      · cases h
    · exact eo m h
    · cases h
  case objectKey =>
    have h := congrArg Prod.snd (Except.ok.inj h)
    simp only [parseObjectKey] at h
    split at h <;> cases h
  case objectValue =>
    refine (bi (fun m h => ?_) h).elim
    unfold parseObjectNext at h
    split at h
    · exact eo m h
    · cases h
    · cases h
  case objectComma =>
    refine (bi (fun m h => ?_) h).elim
    unfold parseObjectComma at h
    split at h
    · exact pk _ (congrArg Prod.fst (Except.ok.inj h))
    · exact eo m h
    · cases h
  case importBegin =>
    have h := congrArg Prod.snd (Except.ok.inj h)
    simp only [parseImportBegin] at h
    split at h <;> cases h
  case importEnd =>
    cases hp : parseImportEnd st t with
    | error e => rw [hp] at h; cases h
    | ok r =>
      rw [hp] at h
      have h := congrArg Prod.snd (Except.ok.inj h)
      dsimp only at h
      subst h
      unfold parseImportEnd at hp
      split at hp
      · exact (ei hp).elim
      · cases hp
  case importValue =>
    unfold importValue at h
    split at h
    · rename_i s
      cases hi : importModule env self ctx s with
      | error e => rw [hi] at h; cases h
      | ok x =>
        obtain ⟨c, x⟩ := x
        rw [hi] at h
        cases x with
        | ok v => cases h
        | error e => cases h; exact ⟨s, hi⟩
    · cases h

/-- an unexpected end before the end is that of an imported module -/
theorem jsonPush_end {M : Text → Val → Prop} {ctx ctx' : Ctx} {j : JState} {t : Token}
    (hinv : JInv M j) (hj : ∀ e, j ≠ .error e)
    (h : jsonPush env self ctx j t = .ok (ctx', .error .unexpectedEnd)) :
    ∃ s, importModule env self ctx s = .ok (ctx', .error .unexpectedEnd) := by
  have root : ∀ {r : RootState}, Idle r.state →
      rootParse env self ctx r t = .ok (ctx', .error .unexpectedEnd) →
      ∃ s, importModule env self ctx s = .ok (ctx', .error .unexpectedEnd) := by
    intro r hst h
    obtain ⟨j1, imp, n, hr, ⟨rfl, -⟩ | ⟨id, s, rfl, -, -, rfl, rfl⟩⟩ := root_parse_step (M := M) hst ctx.next t
    · exfalso
      simp only [rootParse, hr] at h
      have hj1 : j1 = .error .unexpectedEnd := congrArg Prod.snd (Except.ok.inj h)
      subst hj1
      have hv : ∀ {n m : Nat}, (do
          let ((j, _), n) ← parseForModule n r.state t
          return ((j, none), n)) ≠
            (.ok ((.error .unexpectedEnd, none), m) : Res ((JState × Option (Text × Text)) × Nat)) := by
        intro n m h
        cases hv : parseForModule n r.state t with
        | error e => rw [hv] at h; cases h
        | ok x =>
          obtain ⟨⟨j, y⟩, n'⟩ := x
          rw [hv] at h
          cases h
          exact parseForModule_end hst hv
      unfold RootState.parse at hr
      cases hs : r.status <;> simp only [hs] at hr <;>
        repeat' (first | (cases hr; done) | exact hv hr | split at hr)
    · simp only [rootParse, hr] at h
      change (importModule env self _ s >>= _) = _ at h
      cases hi : importModule env self ctx s with
      | error e => rw [hi] at h; cases h
      | ok x =>
        obtain ⟨c, x⟩ := x
        rw [hi] at h
        cases x with
        | ok v => cases h
        | error e => cases h; exact ⟨_, hi⟩
  by_cases hnl : t = .newLine
  · subst hnl
    cases j with
    | parseRoot r => exact root hinv h
    | error e => exact absurd rfl (hj e)
    | _ => cases h
  · rw [jsonPush_eq hnl] at h
    cases j with
    | parseRoot r => exact root hinv h
    | result dt v => cases h
    | error e => exact absurd rfl (hj e)
    | parseModule st =>
      simp only [moduleParse] at h
      cases ha : anyParse env self ctx st t with
      | error e => rw [ha] at h; cases h
      | ok x =>
        obtain ⟨c, r⟩ := x
        rw [ha] at h
        cases r with
        | cont st => cases h
        | success st v => cases h
        | error e => cases h; exact anyParse_end ha
    | parseConst key st =>
      by_cases hsc : t = .semicolon
      · subst hsc; cases h
      · simp only [constStateParse_eq hsc] at h
        cases ha : anyParse env self ctx st t with
        | error e => rw [ha] at h; cases h
        | ok x =>
          obtain ⟨c, r⟩ := x
          rw [ha] at h
          cases r with
          | cont st => cases h
          | success st v => cases h
          | error e => cases h; exact anyParse_end ha

/-- what holds of a context while a module is parsed -/
structure Kept (env : Env) (progress : List Text) (c : Ctx) : Prop where
  cache : CacheOk env c
  loads : CacheLoads env c
  progress : c.progress = progress

/-- the run up to an error of an imported module -/
theorem pushAll_end {fuel : Nat} {progress : List Text} {ts : List Token} : ∀ {ctx ctx' : Ctx} {j : JState},
    Kept env progress ctx → JInv (fun _ _ => True) j → (∀ e, j ≠ .error e) →
    pushAll env (parseWithTokens env fuel) ctx j ts = .ok (ctx', .error .unexpectedEnd) →
    ∃ c s, Kept env progress c ∧
      importModule env (parseWithTokens env fuel) c s = .ok (ctx', .error .unexpectedEnd) := by
  induction ts with
  | nil => intro ctx ctx' j _ _ hj h; cases h; exact absurd rfl (hj _)
  | cons t ts ih =>
    intro ctx ctx' j hk hinv hj h
    simp only [pushAll] at h
    obtain ⟨⟨c1, j1⟩, h1, h2⟩ := bind_eq_ok.1 h
    obtain ⟨s1, e1⟩ := jsonPush_step hinv h1 (fun _ _ _ => trivial)
    by_cases hj1 : ∃ e, j1 = .error e
    · obtain ⟨e, rfl⟩ := hj1
      change pushAll env _ c1 (.error e) ts = _ at h2
      rw [pushAll_error] at h2
      cases h2
      obtain ⟨s, hs⟩ := jsonPush_end hinv hj h1
      exact ⟨ctx, s, hk, hs⟩
    · have hk1 : Kept env progress c1 := by
        cases e1 with
        | plain n h => subst h; exact ⟨fun q v hq => (hk.cache q v hq).mono fun _ _ h => h, hk.loads, hk.progress⟩
        | loaded s v h =>
          obtain ⟨a, b, -⟩ := importModule_ok (parseWithTokens_ok env fuel) h hk.cache
          exact ⟨b, ((onlyLoad_fuel env fuel).sound _ _ _ _ hk.loads h).2, a.progress.trans hk.progress⟩
        | failed s e _ he => exact absurd ⟨e, he⟩ hj1
      exact ih hk1 s1.1 (fun e he => hj1 ⟨e, he⟩) h2

/-- the state after tokens that are not rejected can be completed -/
theorem completable {s : Text} {leaf : List Token} {k : DataType}
    (hr : env.read (env.resolve s) = some leaf)
    (hleaf : AcceptedModule (fun _ => False) (fun _ => False) .json leaf k) {fuel : Nat} {ctx ctx' : Ctx}
    {j : JState} {ts : List Token} (hc : CacheOk env ctx) (hn : env.resolve s ∉ ctx.progress)
    (h : pushAll env (parseWithTokens env (fuel + 1)) ctx JState.start ts = .ok (ctx', j))
    (hj : ∀ e, j ≠ .error e) :
    ∃ more ctx'' k v,
      parseWithTokens env (fuel + 2) ctx (ts ++ more) = .ok (ctx'', .ok (k, v)) := by
  rcases pushAll_run (parseWithTokens_ok env (fuel + 1)) h hc (start_inv _) with ⟨e, he, -⟩ | ⟨hE, -, -⟩
  · exact absurd he (hj e)
  · obtain ⟨more, c, k', v, h1⟩ := finishes (canLoad_leaf hr hleaf (hE.progress ▸ hn) fuel) rfl
      (pushAll_inv h (start_inv _)) hj rfl
    refine ⟨more, c, k', v, ?_⟩
    rw [parseWithTokens]
    dsimp only
    rw [pushAll_append, h]
    change (pushAll env _ ctx' j more >>= _) = _
    rw [h1]
    rfl

/-- an unexpected end is that of the module or that of a module which was read -/
theorem end_of {s : Text} {leaf : List Token} {k : DataType}
    (hr : env.read (env.resolve s) = some leaf)
    (hleaf : AcceptedModule (fun _ => False) (fun _ => False) .json leaf k) (fuel : Nat) :
    ∀ {ctx ctx' : Ctx} {ts : List Token}, CacheOk env ctx → CacheLoads env ctx →
    env.resolve s ∉ ctx.progress →
    parseWithTokens env fuel ctx ts = .ok (ctx', .error .unexpectedEnd) →
    ∃ ts', (ts' = ts ∨ ∃ p ∈ ctx'.reads, env.read p = some ts') ∧
      ∃ more k, AcceptedModule (Can env) (fun _ => False) .json (ts' ++ more) k := by
  induction fuel with
  | zero => intro ctx ctx' ts _ _ _ h; cases h
  | succ fuel ih =>
    intro ctx ctx' ts hc hl hn h
    have h0 := h
    rw [parseWithTokens] at h
    obtain ⟨⟨c1, j⟩, h1, h2⟩ := bind_eq_ok.1 h
    obtain ⟨rfl, h3⟩ := Prod.mk.inj (Except.ok.inj h2)
    by_cases hj : ∃ e, j = .error e
    · obtain ⟨e, rfl⟩ := hj
      cases h3
      obtain ⟨c, s', hk, hi⟩ := pushAll_end ⟨hc, hl, rfl⟩ (start_inv _) (fun e he => by cases he) h1
      rcases importModule_cases c s' hi with ⟨w, hw, he⟩ | ⟨h0, ⟨hp, he⟩ | ⟨hp, ⟨hf, he⟩ |
        ⟨text, hf, ⟨e, ht, he⟩ | ⟨ts', ht, ⟨e, hs, he⟩ | ⟨ctx1, e, hs, he⟩ | ⟨ctx1, dt, w, hs, he⟩⟩⟩⟩⟩ <;>
        cases he
      have hread := read_eq hf ht
      have hne : env.resolve s ≠ env.resolve s' := by
        intro he
        rw [← he, hr] at hread
        obtain rfl := Option.some.inj hread
        cases fuel with
        | zero => cases hs
        | succ fuel =>
          obtain ⟨c2, v, h5, -⟩ := tokens_accepted (env := env) 0 (ctx := enter c (env.resolve s'))
            (fuel := fuel + 1) (by omega) (hleaf.mono fun s h => h.elim) (fun q _ k h => h.elim)
          rw [h5] at hs
          cases hs
      obtain ⟨ts2, h5, h6⟩ := ih (ctx := enter c (env.resolve s')) (enter_ok hk.cache _) hk.loads (by
        simp only [enter]
        rw [setInsert_new hp, List.mem_cons, not_or, hk.progress]
        exact ⟨hne, hn⟩) hs
      refine ⟨ts2, .inr ?_, h6⟩
      rcases h5 with rfl | h5
      · obtain ⟨new, h7, -⟩ := ((parseWithTokens_ok env fuel).err _ _ _ _ hs (enter_ok hk.cache _)).reads
        exact ⟨env.resolve s', by rw [h7]; simp [enter], hread⟩
      · exact h5
    · have h4 : pushAll env (parseWithTokens env (fuel + 1)) ctx JState.start ts = .ok (c1, j) := by
        rw [pushAll_agree (fun c t hf => parseWithTokens_fuel fuel c t hf) ctx _ ts
          (by rw [h1]; simp)]
        exact h1
      obtain ⟨more, c2, k2, v, h5⟩ := completable hr hleaf hc hn h4 (fun e he => hj ⟨e, he⟩)
      exact ⟨ts, .inl rfl, more, k2, (tokens_loads _ hl h5).1⟩

end Parser
end Nanvm
