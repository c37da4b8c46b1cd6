import Verif.Spec.Crashes
import Verif.Lemmas.ParserAcceptModule
/-!
# Unfinished values: the parser is in the middle of a value exactly after the texts of `Begun`
-/
namespace Nanvm
namespace Parser
open Tok Grammar
open Ser (bind_eq_ok)

variable {env : Env} {self : ParseTokens} {X : Text → Prop} {I : Ctx → Prop}

/-! ## Unfinished texts are read -/

/-- the parser goes on with an imported module -/
def goOn (f : Val → AnyState) (x : Ctx × Except ParseError Val) : Res (Ctx × AnyResult) :=
  .ok (x.1, match x.2 with
    | .ok v => .cont (f v)
    | .error e => .error e)

/-- where the parser is after an unfinished text -/
def Waits (env : Env) (self : ParseTokens) (I : Ctx → Prop) (r : Res (Ctx × AnyResult)) :
    Option Text → Prop
  | none => ∃ ctx' st', I ctx' ∧ r = .ok (ctx', .cont st')
  | some s => ∃ ctx' f, I ctx' ∧ r = importModule env self ctx' s >>= goOn f

def Begins (env : Env) (self : ParseTokens) (I : Ctx → Prop) (b : Text → Prop) (part : Part)
    (k : DataType) (ts : List Token) (a : Option Text) : Prop :=
  ∀ ctx st, I ctx → st.dataType = k → (∀ n, b n → Known st n) →
  (match part with
  | .value p => At st p
  | .elements p => At st p ∧ p ≠ .single ∧ ∃ l, st.current = .stack (.array l)
  | .members f => st.status = (if f then .objectBegin else .objectComma) ∧
      ∃ m s, st.current = .stack (.object m s)) →
  Waits env self I (anyRun env self ctx st ts) a

theorem begun_begins (hI : CanLoad env self X I) {b : Text → Prop} {part : Part} {k : DataType}
    {ts : List Token} {a : Option Text} (h : Begun X b part k ts a) :
    Begins env self I b part k ts a := by
  induction h with
  | nothing part k =>
    intro ctx st hi hk hb hat
    exact ⟨ctx, st, hi, anyRun_nil _ _⟩
  | require p k hr =>
    intro ctx st hi hk hb hat
    subst hk
    rw [anyRun_cons, at_require hat ctx hr]
    exact ⟨ctx, _, hi, by change after env self ctx (.cont _) _ = _; rw [after_cont, anyRun_nil]⟩
  | requireOpen p k hr =>
    intro ctx st hi hk hb hat
    subst hk
    rw [anyRun_cons, at_require hat ctx hr]
    change Waits env self I (after env self ctx (.cont _) _) _
    rw [after_cont, anyRun_cons]
    change Waits env self I (after env self ctx (.cont _) _) _
    rw [after_cont, anyRun_nil]
    exact ⟨ctx, _, hi, rfl⟩
  | requireAsks p k s hr =>
    intro ctx st hi hk hb hat
    subst hk
    rw [anyRun_cons, at_require hat ctx hr]
    refine ⟨ctx, fun v => { st with
      dataType := .cjs, status := .importEnd, current := .any v, stack := saveTop st }, hi, ?_⟩
    change after env self ctx (.cont _) _ = _
    rw [after_cont, anyRun_cons]
    change after env self ctx (.cont _) _ = _
    rw [after_cont, anyRun_cons]
    change (importModule env self ctx s >>= _) >>= _ = _
    cases importModule env self ctx s with
    | error e => rfl
    | ok x =>
      obtain ⟨c, r⟩ := x
      cases r with
      | error e => change after env self c (.error e) [] = _; rw [after]; rfl
      | ok v => change after env self c (.cont _) [] = _; rw [after_cont, anyRun_nil]; rfl
  | requireNamed p k s hr hx =>
    intro ctx st hi hk hb hat
    subst hk
    obtain ⟨ctx', v, h1, h2⟩ := hI.loads ctx s hi hx
    rw [anyRun_cons, at_require hat ctx hr]
    refine ⟨ctx', { st with
      dataType := .cjs, status := .importEnd, current := .any v, stack := saveTop st }, h2, ?_⟩
    change after env self ctx (.cont _) _ = _
    rw [after_cont, anyRun_cons]
    change after env self ctx (.cont _) _ = _
    rw [after_cont, anyRun_cons]
    change (importModule env self ctx s >>= _) >>= _ = _
    rw [h1]
    change after env self ctx' (.cont _) [] = _
    rw [after_cont, anyRun_nil]
  | array p k ts a _ ih =>
    intro ctx st hi hk hb hat
    rw [anyRun_cons, pos_array hat.pos]
    change Waits env self I (after env self ctx (.cont _) _) _
    rw [after_cont]
    exact ih ctx _ hi hk hb ⟨⟨rfl, .inr ⟨_, rfl⟩⟩, by simp, ⟨_, rfl⟩⟩
  | object p k ts a _ ih =>
    intro ctx st hi hk hb hat
    rw [anyRun_cons, pos_object hat.pos]
    change Waits env self I (after env self ctx (.cont _) _) _
    rw [after_cont]
    exact ih ctx _ hi hk hb ⟨rfl, ⟨_, _, rfl⟩⟩
  | element p k x a _ ih =>
    intro ctx st hi hk hb hat
    exact ih ctx st hi hk hb hat.1
  | elementDone p k x k' h =>
    intro ctx st hi hk hb hat
    obtain ⟨l, hl⟩ := hat.2.2
    obtain ⟨ctx', v, h1, h2⟩ := accepted_does hI h ctx st hi hk hb hat.1
    have := h2 []
    rw [List.append_nil, pushValue_array hl] at this
    rw [this]
    exact ⟨ctx', _, h1, by change after env self ctx' (.cont _) _ = _; rw [after_cont, anyRun_nil]⟩
  | elements p k x k1 ts a h _ ih =>
    intro ctx st hi hk hb hat
    obtain ⟨l, hl⟩ := hat.2.2
    obtain ⟨ctx', v, h1, h2⟩ := accepted_does hI h ctx st hi hk hb hat.1
    rw [h2, pushValue_array hl]
    change Waits env self I (after env self ctx' (.cont _) _) _
    rw [after_cont, anyRun_cons]
    change Waits env self I (after env self ctx' (.cont _) _) _
    rw [after_cont]
    exact ih ctx' _ h1 rfl hb ⟨⟨rfl, .inr ⟨_, rfl⟩⟩, by simp, ⟨_, rfl⟩⟩
  | key f k t hkey =>
    intro ctx st hi hk hb hat
    obtain ⟨hs, m, s, hm⟩ := hat
    subst hk
    obtain ⟨key, hk1, hkr⟩ := at_key (env := env) (self := self) hs hm hkey
    rw [anyRun_cons, hk1]
    exact ⟨ctx, _, hi, by change after env self ctx (.cont _) _ = _; rw [after_cont, anyRun_nil]⟩
  | memberValue f k t x a hkey _ ih =>
    intro ctx st hi hk hb hat
    obtain ⟨hs, m, s, hm⟩ := hat
    subst hk
    obtain ⟨key, hk1, hkr⟩ := at_key (env := env) (self := self) hs hm hkey
    rw [hkr]
    exact ih ctx _ hi rfl hb ⟨.inr rfl, .inr ⟨_, rfl⟩⟩
  | memberDone f k t x k' hkey h =>
    intro ctx st hi hk hb hat
    obtain ⟨hs, m, s, hm⟩ := hat
    subst hk
    obtain ⟨key, hk1, hkr⟩ := at_key (env := env) (self := self) hs hm hkey
    rw [hkr]
    obtain ⟨ctx', v, h1, h2⟩ := accepted_does hI h ctx { st with
      status := .objectColon, current := .stack (.object m key) } hi rfl hb
      ⟨.inr rfl, .inr ⟨_, rfl⟩⟩
    have := h2 []
    rw [List.append_nil] at this
    rw [this]
    exact ⟨ctx', _, h1, by change after env self ctx' (.cont _) _ = _; rw [after_cont, anyRun_nil]⟩
  | members f k t x k1 ts a hkey h _ ih =>
    intro ctx st hi hk hb hat
    obtain ⟨hs, m, s, hm⟩ := hat
    subst hk
    obtain ⟨key, hk1, hkr⟩ := at_key (env := env) (self := self) hs hm hkey
    rw [List.cons_append, List.cons_append, hkr]
    obtain ⟨ctx', v, h1, h2⟩ := accepted_does hI h ctx { st with
      status := .objectColon, current := .stack (.object m key) } hi rfl hb
      ⟨.inr rfl, .inr ⟨_, rfl⟩⟩
    rw [h2]
    change Waits env self I (after env self ctx' (.cont _) _) _
    rw [after_cont, anyRun_cons]
    change Waits env self I (after env self ctx' (.cont _) _) _
    rw [after_cont]
    exact ih ctx' _ h1 rfl hb ⟨rfl, ⟨_, _, rfl⟩⟩

/-! ## What is read is an unfinished text -/

theorem At.not_import {st : AnyState} {p : Place} (h : At st p) : st.status ≠ .importValue := by
  have hs := h.status
  cases p <;> simp only at hs
  · rcases hs with hs | hs <;> simp [hs]
  · simp [hs]
  · simp [hs]

/-- the rest of the tokens leads to a state -/
def Stops (env : Env) (self : ParseTokens) (ctx : Ctx) (r : Res AnyResult) (c : List Token)
    (ctx' : Ctx) (st' : AnyState) : Prop :=
  (r >>= fun r => after env self ctx r c) = .ok (ctx', .cont st')

/-- the tokens are an unfinished part of a value -/
structure Opens (X b : Text → Prop) (I : Ctx → Prop) (part : Part) (k : DataType) (ts : List Token)
    (ctx' : Ctx) (st' : AnyState) : Prop where
  ctx : I ctx'
  begun : Begun X b part k ts none
  asks : st'.status = .importValue → ∀ s, Begun X b part k (ts ++ [.string s]) (some s)

theorem opens_nil {X b : Text → Prop} {I : Ctx → Prop} {part : Part} {k : DataType} {ctx ctx' : Ctx}
    {st st' : AnyState} (hi : I ctx) (hs : st.status ≠ .importValue)
    (h : anyRun env self ctx st [] = .ok (ctx', .cont st')) : Opens X b I part k [] ctx' st' := by
  rw [anyRun_nil] at h
  cases h
  exact ⟨hi, .nothing _ _, fun e => absurd e hs⟩

theorem value_prefix (hI : OnlyLoad env self X I) (n : Nat)
    (ihE : ∀ ts : List Token, ts.length < n → ∀ ctx st p ctx' st', I ctx → At st p → p ≠ .single →
      (∃ l, st.current = .stack (.array l)) →
      anyRun env self ctx st ts = .ok (ctx', .cont st') →
      Opens X (Known st) I (.elements p) st.dataType ts ctx' st' ∨
      ∃ a c k' v ctx1, ts = a ++ c ∧ Accepted X (Known st) (.elements p) st.dataType a k' ∧ I ctx1 ∧
        Stops env self ctx1 (pushValue { popTop st with dataType := k' } v) c ctx' st')
    (ihM : ∀ ts : List Token, ts.length < n → ∀ ctx st f ctx' st', I ctx →
      st.status = (if f then .objectBegin else .objectComma) →
      (∃ m s, st.current = .stack (.object m s)) →
      anyRun env self ctx st ts = .ok (ctx', .cont st') →
      Opens X (Known st) I (.members f) st.dataType ts ctx' st' ∨
      ∃ a c k' v ctx1, ts = a ++ c ∧ Accepted X (Known st) (.members f) st.dataType a k' ∧ I ctx1 ∧
        Stops env self ctx1 (pushValue { popTop st with dataType := k' } v) c ctx' st') :
    ∀ ts : List Token, ts.length ≤ n → ∀ ctx st p ctx' st', I ctx → At st p →
      (p = .single ∨ ts.head? ≠ some .arrayEnd) →
      anyRun env self ctx st ts = .ok (ctx', .cont st') →
      Opens X (Known st) I (.value p) st.dataType ts ctx' st' ∨
      ∃ a c k' v ctx1, ts = a ++ c ∧ a ≠ [] ∧ Accepted X (Known st) (.value p) st.dataType a k' ∧
        I ctx1 ∧ Stops env self ctx1 (pushValue { st with dataType := k' } v) c ctx' st' := by
  intro ts hlen ctx st p ctx' st' hi hat hne h
  cases ts with
  | nil => exact .inl (opens_nil hi hat.not_import h)
  | cons t ts =>
    rw [anyRun_cons] at h
    simp only [List.length_cons] at hlen
    by_cases h1 : t = .arrayBegin
    · subst h1
      rw [pos_array hat.pos] at h
      change after env self ctx (.cont _) _ = _ at h
      rw [after_cont] at h
      rcases ihE ts (by omega) ctx _ .first ctx' st' hi
        ⟨rfl, .inr ⟨_, rfl⟩⟩ (by simp) ⟨_, rfl⟩ h with ho | ⟨a, c, k', v, ctx1, h1, h2, h3, h4⟩
      · exact .inl ⟨ho.ctx, .array _ _ _ _ ho.begun, fun e s => .array _ _ _ _ (ho.asks e s)⟩
      refine .inr ⟨.arrayBegin :: a, c, k', v, ctx1, by rw [h1]; rfl, by simp, .array _ _ _ _ h2, h3, ?_⟩
      rw [← restore_kind hat .arrayBegin (.stack (.array []))]
      exact h4
    by_cases h2 : t = .objectBegin
    · subst h2
      rw [pos_object hat.pos] at h
      change after env self ctx (.cont _) _ = _ at h
      rw [after_cont] at h
      rcases ihM ts (by omega) ctx _ true ctx' st' hi
        rfl ⟨_, _, rfl⟩ h with ho | ⟨a, c, k', v, ctx1, h1, h2, h3, h4⟩
      · exact .inl ⟨ho.ctx, .object _ _ _ _ ho.begun, fun e s => .object _ _ _ _ (ho.asks e s)⟩
      refine .inr ⟨.objectBegin :: a, c, k', v, ctx1, by rw [h1]; rfl, by simp, .object _ _ _ _ h2, h3, ?_⟩
      rw [← restore_kind hat .objectBegin (.stack (.object [] []))]
      exact h4
    by_cases hr : t = .id "require".toList ∧ RequireAllowed p st.dataType
    · obtain ⟨rfl, hr⟩ := hr
      rw [at_require hat ctx hr] at h
      change after env self ctx (.cont _) _ = _ at h
      rw [after_cont] at h
      cases ts with
      | nil =>
        rw [anyRun_nil] at h
        cases h
        exact .inl ⟨hi, .require _ _ hr, fun e => by cases e⟩
      | cons t ts =>
        rw [anyRun_cons] at h
        by_cases ht : t = .openingParenthesis
        · subst ht
          change after env self ctx (.cont _) _ = _ at h
          rw [after_cont] at h
          cases ts with
          | nil =>
            rw [anyRun_nil] at h
            cases h
            exact .inl ⟨hi, .requireOpen _ _ hr, fun _ s => .requireAsks _ _ s hr⟩
          | cons t ts =>
            rw [anyRun_cons] at h
            change importValue env self ctx _ t >>= _ = _ at h
            cases t with
            | string s =>
              change (importModule env self ctx s >>= _) >>= _ = _ at h
              cases hm : importModule env self ctx s with
              | error e => rw [hm] at h; cases h
              | ok x =>
                obtain ⟨ctx1, r⟩ := x
                rw [hm] at h
                cases r with
                | error e =>
                  change after env self ctx1 (.error e) _ = _ at h
                  rw [after] at h; cases h
                | ok v =>
                  obtain ⟨hx, hi1⟩ := hI.sound _ _ _ _ hi hm
                  change after env self ctx1 (.cont _) _ = _ at h
                  rw [after_cont] at h
                  cases ts with
                  | nil =>
                    rw [anyRun_nil] at h
                    cases h
                    exact .inl ⟨hi1, .requireNamed _ _ _ hr hx, fun e => by cases e⟩
                  | cons t ts =>
                    rw [anyRun_cons] at h
                    by_cases ht : t = .closingParenthesis
                    · subst ht
                      refine .inr ⟨[.id "require".toList, .openingParenthesis, .string s,
                        .closingParenthesis], ts, .cjs, v, ctx1, rfl, by simp,
                        .require _ _ _ hr hx, hi1, ?_⟩
                      rw [← restore_import hat, Stops, ← h]
                      simp only [anyParse, dispatch, parseImportEnd, endImport]
                      generalize pushValue _ v = q
                      cases q <;> rfl
                    · have : anyParse env self ctx1 { st with
                          dataType := .cjs, status := .importEnd, current := .any v,
                          stack := saveTop st } t = .ok (ctx1, .error .wrongRequireStatement) := by
                        cases t <;> first | rfl | exact absurd rfl ht
                      rw [this] at h
                      change after env self ctx1 (.error _) _ = _ at h
                      rw [after] at h; cases h
            | _ =>
              change after env self ctx (.error _) _ = _ at h
              rw [after] at h; cases h
        · have : anyParse env self ctx { st with
              dataType := .cjs, status := .importBegin, current := .none,
              stack := saveTop st } t = .ok (ctx, .error .wrongRequireStatement) := by
            cases t <;> first | rfl | exact absurd rfl ht
          rw [this] at h
          change after env self ctx (.error _) _ = _ at h
          rw [after] at h; cases h
    · have ht : p = .single ∨ t ≠ .arrayEnd := by
        rcases hne with hne | hne
        · exact .inl hne
        · exact .inr fun e => hne (by rw [e]; rfl)
      rw [at_step hat ctx ht hr h1 h2, pushToken] at h
      cases hv : tryToAny ctx.next t st.consts with
      | none =>
        rw [hv] at h
        change after env self ctx (.error _) _ = _ at h
        rw [after] at h; cases h
      | some x =>
        obtain ⟨v, m⟩ := x
        rw [hv] at h
        refine .inr ⟨[t], ts, st.dataType, v, { ctx with next := m }, rfl, by simp, ?_, hI.next _ _ hi, ?_⟩
        · cases t with
          | number f => exact .num _ _ _
          | string s => exact .str _ _ _
          | bigInt b => exact .big _ _ _
          | id s =>
            have : ∃ v, tryIdToAny s st.consts = some v := by
              simp only [tryToAny] at hv
              cases he : tryIdToAny s st.consts with
              | none => rw [he] at hv; cases hv
              | some v => exact ⟨v, rfl⟩
            rcases (tryId_iff _ _).1 this with h | ⟨h, h'⟩
            · exact .literal _ _ _ h
            · refine .name _ _ _ h h' ?_
              rintro ⟨rfl, h3⟩
              exact hr ⟨rfl, h3⟩
          | _ => cases hv
        · rw [Stops, ← h]
          dsimp only
          generalize pushValue _ v = q
          cases q <;> rfl

theorem after_error2 {ctx ctx' : Ctx} {e : ParseError} {ts : List Token} {st' : AnyState}
    (h : after env self ctx (.error e) ts = .ok (ctx', .cont st')) : False := by
  rw [after] at h; cases h

theorem elements_prefix (hI : OnlyLoad env self X I) (n : Nat)
    (ihE : ∀ ts : List Token, ts.length < n → ∀ ctx st p ctx' st', I ctx → At st p → p ≠ .single →
      (∃ l, st.current = .stack (.array l)) →
      anyRun env self ctx st ts = .ok (ctx', .cont st') →
      Opens X (Known st) I (.elements p) st.dataType ts ctx' st' ∨
      ∃ a c k' v ctx1, ts = a ++ c ∧ Accepted X (Known st) (.elements p) st.dataType a k' ∧ I ctx1 ∧
        Stops env self ctx1 (pushValue { popTop st with dataType := k' } v) c ctx' st')
    (hV : ∀ ts : List Token, ts.length ≤ n → ∀ ctx st p ctx' st', I ctx → At st p →
      (p = .single ∨ ts.head? ≠ some .arrayEnd) →
      anyRun env self ctx st ts = .ok (ctx', .cont st') →
      Opens X (Known st) I (.value p) st.dataType ts ctx' st' ∨
      ∃ a c k' v ctx1, ts = a ++ c ∧ a ≠ [] ∧ Accepted X (Known st) (.value p) st.dataType a k' ∧
        I ctx1 ∧ Stops env self ctx1 (pushValue { st with dataType := k' } v) c ctx' st') :
    ∀ ts : List Token, ts.length ≤ n → ∀ ctx st p ctx' st', I ctx → At st p → p ≠ .single →
      (∃ l, st.current = .stack (.array l)) →
      anyRun env self ctx st ts = .ok (ctx', .cont st') →
      Opens X (Known st) I (.elements p) st.dataType ts ctx' st' ∨
      ∃ a c k' v ctx1, ts = a ++ c ∧ Accepted X (Known st) (.elements p) st.dataType a k' ∧ I ctx1 ∧
        Stops env self ctx1 (pushValue { popTop st with dataType := k' } v) c ctx' st' := by
  intro ts hlen ctx st p ctx' st' hi hat hp hl h
  obtain ⟨l, hl⟩ := hl
  by_cases hend : ts.head? = some .arrayEnd
  · cases ts with
    | nil => cases hend
    | cons t ts =>
      cases hend
      refine .inr ⟨[.arrayEnd], ts, st.dataType, .arr ctx.next l, { ctx with next := ctx.next + 1 }, rfl,
        .noElement _ _, hI.next _ _ hi, ?_⟩
      rw [anyRun_cons] at h
      have : anyParse env self ctx st .arrayEnd =
          (pushValue (popTop st) (.arr ctx.next l)).map
            fun r => ({ ctx with next := ctx.next + 1 }, r) := by
        have hs := hat.status
        cases p with
        | single => exact absurd rfl hp
        | first =>
          simp only at hs
          simp only [anyParse, dispatch, hs, parseArrayBegin, endArray, hl]
          cases pushValue (popTop st) (.arr ctx.next l) <;> rfl
        | later =>
          simp only at hs
          simp only [anyParse, dispatch, hs, parseArrayComma, endArray, hl]
          cases pushValue (popTop st) (.arr ctx.next l) <;> rfl
      rw [this] at h
      have : ({ popTop st with dataType := st.dataType } : AnyState) = popTop st := by
        unfold popTop; split <;> rfl
      rw [this, Stops, ← h]
      cases pushValue (popTop st) (.arr ctx.next l) <;> rfl
  · rcases hV ts hlen ctx st p ctx' st' hi hat (.inr hend) h with
      ho | ⟨a, c, k1, v, ctx1, h1, h0, h2, h3, h4⟩
    · exact .inl ⟨ho.ctx, .element _ _ _ _ ho.begun, fun e s => .element _ _ _ _ (ho.asks e s)⟩
    rw [Stops, pushValue_array hl] at h4
    change after env self ctx1 (.cont _) c = _ at h4
    rw [after_cont] at h4
    cases c with
    | nil =>
      rw [anyRun_nil] at h4
      cases h4
      rw [List.append_nil] at h1
      exact .inl ⟨h3, .elementDone _ _ _ _ (h1 ▸ h2), fun e => by cases e⟩
    | cons t c =>
      rw [anyRun_cons] at h4
      by_cases ht : t = .arrayEnd
      · subst ht
        refine .inr ⟨a ++ [.arrayEnd], c, k1, .arr ctx1.next (l ++ [v]),
          { ctx1 with next := ctx1.next + 1 }, by rw [h1]; simp, .lastElement _ _ _ _ h2,
          hI.next _ _ h3, ?_⟩
        rw [Stops, ← h4]
        simp only [anyParse, dispatch, parseArrayValue, endArray]
        rw [popTop_kind st .arrayValue (.stack (.array (l ++ [v])))]
        generalize pushValue _ (Val.arr ctx1.next (l ++ [v])) = q
        cases q <;> rfl
      by_cases ht2 : t = .comma
      · subst ht2
        change after env self ctx1 (.cont _) c = _ at h4
        rw [after_cont] at h4
        have hlen2 : c.length < n := by
          rw [h1] at hlen
          simp only [List.length_append, List.length_cons] at hlen
          omega
        rcases ihE c hlen2 ctx1 _ .later ctx' st' h3
          ⟨rfl, .inr ⟨_, rfl⟩⟩ (by simp) ⟨_, rfl⟩ h4 with ho | ⟨a2, c2, k2, v2, ctx2, g1, g2, g3, g4⟩
        · refine .inl ⟨ho.ctx, ?_, fun e s => ?_⟩
          · rw [h1]
            exact .elements _ _ _ _ _ _ h2 ho.begun
          · rw [h1, List.append_assoc]
            exact .elements _ _ _ _ _ _ h2 (ho.asks e s)
        refine .inr ⟨a ++ .comma :: a2, c2, k2, v2, ctx2, by rw [h1, g1]; simp,
          .element _ _ _ _ _ _ h2 g2, g3, ?_⟩
        have := popTop_kind2 st .arrayComma (.stack (.array (l ++ [v]))) k1 k2 v2
        rw [← this]
        exact g4
      · have : anyParse env self ctx1 { st with
            dataType := k1, status := .arrayValue, current := .stack (.array (l ++ [v])) } t =
            .ok (ctx1, .error .unexpectedToken) := by
          cases t <;> first | rfl | exact absurd rfl ht | exact absurd rfl ht2
        rw [this] at h4
        exact (after_error2 h4).elim

theorem members_prefix (hI : OnlyLoad env self X I) (n : Nat)
    (ihM : ∀ ts : List Token, ts.length < n → ∀ ctx st f ctx' st', I ctx →
      st.status = (if f then .objectBegin else .objectComma) →
      (∃ m s, st.current = .stack (.object m s)) →
      anyRun env self ctx st ts = .ok (ctx', .cont st') →
      Opens X (Known st) I (.members f) st.dataType ts ctx' st' ∨
      ∃ a c k' v ctx1, ts = a ++ c ∧ Accepted X (Known st) (.members f) st.dataType a k' ∧ I ctx1 ∧
        Stops env self ctx1 (pushValue { popTop st with dataType := k' } v) c ctx' st')
    (hV : ∀ ts : List Token, ts.length ≤ n → ∀ ctx st p ctx' st', I ctx → At st p →
      (p = .single ∨ ts.head? ≠ some .arrayEnd) →
      anyRun env self ctx st ts = .ok (ctx', .cont st') →
      Opens X (Known st) I (.value p) st.dataType ts ctx' st' ∨
      ∃ a c k' v ctx1, ts = a ++ c ∧ a ≠ [] ∧ Accepted X (Known st) (.value p) st.dataType a k' ∧
        I ctx1 ∧ Stops env self ctx1 (pushValue { st with dataType := k' } v) c ctx' st') :
    ∀ ts : List Token, ts.length ≤ n → ∀ ctx st f ctx' st', I ctx →
      st.status = (if f then .objectBegin else .objectComma) →
      (∃ m s, st.current = .stack (.object m s)) →
      anyRun env self ctx st ts = .ok (ctx', .cont st') →
      Opens X (Known st) I (.members f) st.dataType ts ctx' st' ∨
      ∃ a c k' v ctx1, ts = a ++ c ∧ Accepted X (Known st) (.members f) st.dataType a k' ∧ I ctx1 ∧
        Stops env self ctx1 (pushValue { popTop st with dataType := k' } v) c ctx' st' := by
  intro ts hlen ctx st f ctx' st' hi hs hm h
  obtain ⟨m, s, hm⟩ := hm
  cases ts with
  | nil => exact .inl (opens_nil hi (by rw [hs]; cases f <;> simp) h)
  | cons t ts =>
    by_cases hend : t = .objectEnd
    · subst hend
      refine .inr ⟨[.objectEnd], ts, st.dataType,
        .obj ctx.next (m.map fun kv => (toJsString kv.1, kv.2)), { ctx with next := ctx.next + 1 },
        rfl, .noMember _ _, hI.next _ _ hi, ?_⟩
      rw [anyRun_cons] at h
      have : anyParse env self ctx st .objectEnd =
          (pushValue (popTop st) (.obj ctx.next (m.map fun kv => (toJsString kv.1, kv.2)))).map
            fun r => ({ ctx with next := ctx.next + 1 }, r) := by
        cases f
        · simp only [Bool.false_eq_true, if_false] at hs
          simp only [anyParse, dispatch, hs, parseObjectComma, endObject, hm]
          generalize pushValue (popTop st) _ = q
          cases q <;> rfl
        · simp only [if_true] at hs
          simp only [anyParse, dispatch, hs, parseObjectBegin, endObject, hm]
          generalize pushValue (popTop st) _ = q
          cases q <;> rfl
      rw [this] at h
      have : ({ popTop st with dataType := st.dataType } : AnyState) = popTop st := by
        unfold popTop; split <;> rfl
      rw [this, Stops, ← h]
      cases pushValue (popTop st) _ <;> rfl
    · have hkey : KeyAllowed f st.dataType t := by
        by_contra hk
        have : anyParse env self ctx st t = .ok (ctx, .error .unexpectedToken) := by
          cases f
          · simp only [Bool.false_eq_true, if_false] at hs
            simp only [anyParse, dispatch, hs]
            cases t with
            | string s => exact absurd (.inl ⟨_, rfl⟩) hk
            | objectEnd => exact absurd rfl hend
            | _ => rfl
          · simp only [if_true] at hs
            simp only [anyParse, dispatch, hs]
            cases t with
            | string s => exact absurd (.inl ⟨_, rfl⟩) hk
            | objectEnd => exact absurd rfl hend
            | id s =>
              have hd : st.dataType = .json := by
                by_contra hd
                exact hk (.inr ⟨rfl, hd, _, rfl⟩)
              simp only [parseObjectBegin, hd, DataType.isDjs, Bool.false_eq_true, if_false]
              rfl
            | _ => rfl
        rw [anyRun_cons, this] at h
        exact after_error2 h
      obtain ⟨key, hk1, hkr⟩ := at_key (env := env) (self := self) hs hm hkey
      cases ts with
      | nil =>
        rw [anyRun_cons, hk1] at h
        change after env self ctx (.cont _) _ = _ at h
        rw [after_cont, anyRun_nil] at h
        cases h
        exact .inl ⟨hi, .key _ _ _ hkey, fun e => by cases e⟩
      | cons t2 ts =>
        by_cases h2 : t2 = .colon
        · subst h2
          rw [hkr] at h
          simp only [List.length_cons] at hlen
          rcases hV ts (by omega) ctx _ .single ctx' st'
            hi ⟨.inr rfl, .inr ⟨_, rfl⟩⟩ (.inl rfl) h with ho | ⟨a, c, k1, v, ctx1, h1, h0, h2, h3, h4⟩
          · exact .inl ⟨ho.ctx, .memberValue _ _ _ _ _ hkey ho.begun,
              fun e s => .memberValue _ _ _ _ _ hkey (ho.asks e s)⟩
          change after env self ctx1 (.cont _) c = _ at h4
          rw [after_cont] at h4
          cases c with
          | nil =>
            rw [anyRun_nil] at h4
            cases h4
            rw [List.append_nil] at h1
            exact .inl ⟨h3, .memberDone _ _ _ _ _ hkey (h1 ▸ h2), fun e => by cases e⟩
          | cons t3 c =>
            rw [anyRun_cons] at h4
            by_cases ht : t3 = .objectEnd
            · subst ht
              refine .inr ⟨t :: .colon :: a ++ [.objectEnd], c, k1,
                .obj ctx1.next ((m.insert key v).map fun kv => (toJsString kv.1, kv.2)),
                { ctx1 with next := ctx1.next + 1 }, by rw [h1]; simp, by
                  have := Accepted.lastMember f st.dataType t a k1 hkey h2
                  exact this,
                hI.next _ _ h3, ?_⟩
              rw [Stops, ← h4]
              simp only [anyParse, dispatch, parseObjectNext, endObject]
              rw [popTop_kind st .objectValue (.stack (.object (m.insert key v) []))]
              generalize pushValue _ (Val.obj ctx1.next _) = q
              cases q <;> rfl
            by_cases ht2 : t3 = .comma
            · subst ht2
              change after env self ctx1 (.cont _) c = _ at h4
              rw [after_cont] at h4
              have hlen2 : c.length < n := by
                rw [h1] at hlen
                simp only [List.length_append, List.length_cons] at hlen
                omega
              rcases ihM c hlen2 ctx1 _ false ctx' st' h3
                rfl ⟨_, _, rfl⟩ h4 with ho | ⟨a2, c2, k2, v2, ctx2, g1, g2, g3, g4⟩
              · refine .inl ⟨ho.ctx, ?_, fun e s => ?_⟩
                · rw [h1]
                  exact .members _ _ _ _ _ _ _ hkey h2 ho.begun
                · have := Begun.members _ _ _ _ _ _ _ hkey h2 (ho.asks e s)
                  rw [h1]
                  simp only [List.cons_append, List.append_assoc] at this ⊢
                  exact this
              refine .inr ⟨t :: .colon :: a ++ .comma :: a2, c2, k2, v2, ctx2, by rw [h1, g1]; simp,
                .member _ _ _ _ _ _ _ hkey h2 g2, g3, ?_⟩
              have := popTop_kind2 st .objectComma (.stack (.object (m.insert key v) [])) k1 k2 v2
              rw [← this]
              exact g4
            · have : anyParse env self ctx1 { st with
                  dataType := k1, status := .objectValue,
                  current := .stack (.object (m.insert key v) []) } t3 =
                  .ok (ctx1, .error .unexpectedToken) := by
                cases t3 <;> first | rfl | exact absurd rfl ht | exact absurd rfl ht2
              rw [this] at h4
              exact (after_error2 h4).elim
        · rw [anyRun_cons, hk1] at h
          change after env self ctx (.cont _) _ = _ at h
          rw [after_cont, anyRun_cons] at h
          have : anyParse env self ctx { st with
              status := .objectKey, current := .stack (.object m key) } t2 =
              .ok (ctx, .error .unexpectedToken) := by
            cases t2 <;> first | rfl | exact absurd rfl h2
          rw [this] at h
          exact (after_error2 h).elim

/-- what remains after a part of a value that may be unfinished -/
theorem prefix_decompose (hI : OnlyLoad env self X I) (n : Nat) :
    (∀ ts : List Token, ts.length ≤ n → ∀ ctx st p ctx' st', I ctx → At st p →
      (p = .single ∨ ts.head? ≠ some .arrayEnd) →
      anyRun env self ctx st ts = .ok (ctx', .cont st') →
      Opens X (Known st) I (.value p) st.dataType ts ctx' st' ∨
      ∃ a c k' v ctx1, ts = a ++ c ∧ a ≠ [] ∧ Accepted X (Known st) (.value p) st.dataType a k' ∧
        I ctx1 ∧ Stops env self ctx1 (pushValue { st with dataType := k' } v) c ctx' st') ∧
    (∀ ts : List Token, ts.length ≤ n → ∀ ctx st p ctx' st', I ctx → At st p → p ≠ .single →
      (∃ l, st.current = .stack (.array l)) →
      anyRun env self ctx st ts = .ok (ctx', .cont st') →
      Opens X (Known st) I (.elements p) st.dataType ts ctx' st' ∨
      ∃ a c k' v ctx1, ts = a ++ c ∧ Accepted X (Known st) (.elements p) st.dataType a k' ∧ I ctx1 ∧
        Stops env self ctx1 (pushValue { popTop st with dataType := k' } v) c ctx' st') ∧
    ∀ ts : List Token, ts.length ≤ n → ∀ ctx st f ctx' st', I ctx →
      st.status = (if f then .objectBegin else .objectComma) →
      (∃ m s, st.current = .stack (.object m s)) →
      anyRun env self ctx st ts = .ok (ctx', .cont st') →
      Opens X (Known st) I (.members f) st.dataType ts ctx' st' ∨
      ∃ a c k' v ctx1, ts = a ++ c ∧ Accepted X (Known st) (.members f) st.dataType a k' ∧ I ctx1 ∧
        Stops env self ctx1 (pushValue { popTop st with dataType := k' } v) c ctx' st' := by
  induction n with
  | zero =>
    refine ⟨?_, ?_, ?_⟩
    · intro ts hl ctx st p ctx' st' hi hat _ h
      rw [List.length_eq_zero_iff.1 (Nat.le_zero.1 hl)] at h ⊢
      exact .inl (opens_nil hi hat.not_import h)
    · intro ts hl ctx st p ctx' st' hi hat _ _ h
      rw [List.length_eq_zero_iff.1 (Nat.le_zero.1 hl)] at h ⊢
      exact .inl (opens_nil hi hat.not_import h)
    · intro ts hl ctx st f ctx' st' hi hs _ h
      rw [List.length_eq_zero_iff.1 (Nat.le_zero.1 hl)] at h ⊢
      exact .inl (opens_nil hi (by rw [hs]; cases f <;> simp) h)
  | succ n ih =>
    have hV := value_prefix hI (n + 1) (fun ts h => ih.2.1 ts (by omega))
      (fun ts h => ih.2.2 ts (by omega))
    exact ⟨hV, elements_prefix hI (n + 1) (fun ts h => ih.2.1 ts (by omega)) hV,
      members_prefix hI (n + 1) (fun ts h => ih.2.2 ts (by omega)) hV⟩

/-- a value that is not part of another -/
theorem idle_prefix (hI : OnlyLoad env self X I) {ts : List Token} {ctx ctx' : Ctx}
    {st st' : AnyState} (hst : Idle st) (hi : I ctx)
    (h : anyRun env self ctx st ts = .ok (ctx', .cont st')) :
    Opens X (Known st) I (.value .single) st.dataType ts ctx' st' := by
  rcases (prefix_decompose hI ts.length).1 ts le_rfl ctx st .single
    ctx' st' hi ⟨.inl hst.1, .inl hst.2⟩ (.inl rfl) h with ho | ⟨a, c, k', v, ctx1, h1, -, h2, h3, h4⟩
  · exact ho
  rw [Stops] at h4
  simp only [pushValue, hst.2.1] at h4
  change after env self ctx1 (.success _ _) c = _ at h4
  rw [after] at h4
  split at h4 <;> cases h4

end Parser
end Nanvm
