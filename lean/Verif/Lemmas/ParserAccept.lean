import Verif.Spec.Accepts
import Verif.Lemmas.ParserProgram
import Verif.Lemmas.SerRead
/-!
# The parser accepts exactly the grammar of `Spec/Accepts.lean`
-/
namespace Nanvm
namespace Parser
open Tok Grammar
open Ser (bind_eq_ok)

/-- modules that can be imported, and what holds of the context before and after -/
structure CanLoad (env : Env) (nested : ParseTokens) (X : Text → Prop) (I : Ctx → Prop) : Prop where
  next : ∀ ctx n, I ctx → I { ctx with next := n }
  loads : ∀ ctx s, I ctx → X s →
    ∃ ctx' v, importModule env nested ctx s = .ok (ctx', .ok v) ∧ I ctx'

/-- only these modules can be imported -/
structure OnlyLoad (env : Env) (nested : ParseTokens) (X : Text → Prop) (I : Ctx → Prop) : Prop where
  next : ∀ ctx n, I ctx → I { ctx with next := n }
  sound : ∀ ctx s ctx' v, I ctx → importModule env nested ctx s = .ok (ctx', .ok v) → X s ∧ I ctx'

variable {env : Env} {self : ParseTokens} {X : Text → Prop} {I : Ctx → Prop}

/-- the state is at a place -/
structure At (st : AnyState) (p : Place) : Prop where
  status : match p with
    | .single => st.status = .initial ∨ st.status = .objectColon
    | .first => st.status = .arrayBegin
    | .later => st.status = .arrayComma
  current : (st.current = .none ∧ st.stack = []) ∨ ∃ f, st.current = .stack f

theorem At.pos {st : AnyState} {p : Place} (h : At st p) : Pos st := by
  refine ⟨?_, h.current⟩
  have := h.status
  cases p <;> simp only at this <;> tauto

/-- the names that a state knows -/
def Known (st : AnyState) (n : Text) : Prop := ∃ v, st.consts.get n = some v

theorem tryId_iff (n : Text) (c : TMap Val) :
    (∃ v, tryIdToAny n c = some v) ↔ n ∈ reserved ∨ n ∉ reserved ∧ ∃ v, c.get n = some v := by
  by_cases h : n ∈ reserved
  · simp only [h, true_or, iff_true]
    simp only [reserved, List.mem_cons, List.not_mem_nil, or_false] at h
    rcases h with rfl | rfl | rfl
    · exact ⟨_, rfl⟩
    · exact ⟨_, rfl⟩
    · exact ⟨_, rfl⟩
  · rw [tryIdToAny_name h]
    simp [h]

/-- what `require` does at a place -/
theorem at_require {st : AnyState} {p : Place} (h : At st p) (ctx : Ctx)
    (hr : RequireAllowed p st.dataType) :
    anyParse env self ctx st (.id "require".toList) = .ok (ctx, beginImport st) := by
  have hs := h.status
  cases p with
  | single =>
    have : st.dataType.cjsCompatible = true := by
      have : st.dataType ≠ .mjs := hr
      revert this
      cases st.dataType <;> simp [DataType.cjsCompatible]
    rcases hs with hs | hs <;> simp [anyParse, dispatch, hs, parseValue, this] <;> rfl
  | first => exact hr.elim
  | later =>
    have hr : st.dataType = .cjs := hr
    simp only at hs
    simp [anyParse, dispatch, hs, parseArrayComma, hr]

/-- the other tokens, and `require` where it is a name -/
theorem at_step {st : AnyState} {p : Place} (h : At st p) (ctx : Ctx) {t : Token}
    (ht : p = .single ∨ t ≠ .arrayEnd)
    (hr : ¬ (t = .id "require".toList ∧ RequireAllowed p st.dataType))
    (h1 : t ≠ .arrayBegin) (h2 : t ≠ .objectBegin) :
    anyParse env self ctx st t =
      pushToken ctx.next st t >>= fun r => .ok ({ ctx with next := r.2 }, r.1) := by
  have hs := h.status
  have hv : p = .single → parseValue ctx.next st t = pushToken ctx.next st t := by
    rintro rfl
    cases t with
    | id s =>
      rw [parseValue, if_neg]
      rintro ⟨h3, rfl⟩
      exact hr ⟨rfl, fun h => by rw [h] at h3; cases h3⟩
    | arrayBegin => exact absurd rfl h1
    | objectBegin => exact absurd rfl h2
    | _ => rfl
  cases p with
  | single =>
    rcases hs with hs | hs <;> simp only [anyParse, dispatch, hs, hv rfl]
    · rfl
    · rfl
  | first =>
    have h3 : parseArrayBegin ctx.next st t = pushToken ctx.next st t := by
      cases t with
      | arrayBegin => exact absurd rfl h1
      | objectBegin => exact absurd rfl h2
      | arrayEnd => exact absurd rfl (ht.resolve_left (by simp))
      | _ => rfl
    simp only at hs
    simp only [anyParse, dispatch, hs, h3]
    rfl
  | later =>
    have h3 : parseArrayComma ctx.next st t = pushToken ctx.next st t := by
      cases t with
      | id s =>
        rw [parseArrayComma, if_neg]
        rintro ⟨h3, rfl⟩
        exact hr ⟨rfl, h3⟩
      | arrayBegin => exact absurd rfl h1
      | objectBegin => exact absurd rfl h2
      | arrayEnd => exact absurd rfl (ht.resolve_left (by simp))
      | _ => rfl
    simp only at hs
    simp only [anyParse, dispatch, hs, h3]
    rfl

theorem pushValue_status (st : AnyState) (s : Status) (v : Val) :
    pushValue { st with status := s } v = pushValue st v := by
  obtain ⟨dt, s', cur, stk, c⟩ := st
  rcases cur with _ | (_ | _) | _ <;> rfl

/-- back to the state before an array or object -/
theorem restore_kind {st : AnyState} {p : Place} (h : At st p) (x : Status) (y : Elem)
    (k : DataType) (v : Val) :
    pushValue { popTop { st with status := x, current := y, stack := saveTop st } with
      dataType := k } v = pushValue { st with dataType := k } v := by
  obtain ⟨dt, s, cur, stk, c⟩ := st
  rcases h.current with ⟨h1, h2⟩ | ⟨f, h1⟩
  · simp only at h1 h2
    subst h1 h2
    rfl
  · simp only at h1
    subst h1
    cases f <;> rfl

theorem restore_import {st : AnyState} {p : Place} (h : At st p) (v : Val) :
    pushValue { popTop { st with
        dataType := .cjs, status := .importEnd, current := .any v, stack := saveTop st } with
      status := .initial } v =
    pushValue { st with dataType := .cjs } v := by
  obtain ⟨dt, s, cur, stk, c⟩ := st
  rcases h.current with ⟨h1, h2⟩ | ⟨f, h1⟩
  · simp only at h1 h2
    subst h1 h2
    rfl
  · simp only at h1
    subst h1
    cases f <;> rfl

theorem popTop_kind (st : AnyState) (x : Status) (y : Elem) (k : DataType) (v : Val) :
    pushValue (popTop { st with dataType := k, status := x, current := y }) v =
      pushValue { popTop st with dataType := k } v := by
  obtain ⟨dt, s, cur, stk, c⟩ := st
  cases stk with
  | nil => rfl
  | cons f l => cases f <;> rfl

theorem pushValue_array {st : AnyState} {l : List Val} (hl : st.current = .stack (.array l))
    (k : DataType) (v : Val) : pushValue { st with dataType := k } v = .ok (.cont { st with
      dataType := k, status := .arrayValue, current := .stack (.array (l ++ [v])) }) := by
  simp only [pushValue, hl]

theorem popTop_kind2 (st : AnyState) (x : Status) (y : Elem) (k1 k : DataType) (v : Val) :
    pushValue { popTop { st with dataType := k1, status := x, current := y } with dataType := k } v =
      pushValue { popTop st with dataType := k } v := by
  obtain ⟨dt, s, cur, stk, c⟩ := st
  cases stk with
  | nil => rfl
  | cons f l => cases f <;> rfl

/-- the key of a member -/
theorem at_key {st : AnyState} {f : Bool} {m : TMap Val} {s : Text} {t : Token}
    (hs : st.status = if f then .objectBegin else .objectComma)
    (hm : st.current = .stack (.object m s)) (hk : KeyAllowed f st.dataType t) :
    ∃ key, (∀ ctx, anyParse env self ctx st t = .ok (ctx, .cont { st with
      status := .objectKey, current := .stack (.object m key) })) ∧
    ∀ ctx rest, anyRun env self ctx st (t :: .colon :: rest) = anyRun env self ctx { st with
      status := .objectColon, current := .stack (.object m key) } rest := by
  have h1 : ∃ key, ∀ ctx, anyParse env self ctx st t = .ok (ctx, .cont { st with
      status := .objectKey, current := .stack (.object m key) }) := by
    rcases hk with ⟨key, rfl⟩ | ⟨rfl, hd, key, rfl⟩
    · refine ⟨key, fun ctx => ?_⟩
      cases f
      · simp only [Bool.false_eq_true, if_false] at hs
        simp only [anyParse, dispatch, hs, parseObjectComma, pushKey, hm]; rfl
      · simp only [if_true] at hs
        simp only [anyParse, dispatch, hs, parseObjectBegin, pushKey, hm]; rfl
    · refine ⟨key, fun ctx => ?_⟩
      have : st.dataType.isDjs = true := by
        revert hd
        cases st.dataType <;> simp [DataType.isDjs]
      simp only [if_true] at hs
      simp only [anyParse, dispatch, hs, parseObjectBegin, pushKey, hm, this, if_true]; rfl
  obtain ⟨key, h1⟩ := h1
  refine ⟨key, h1, fun ctx rest => ?_⟩
  rw [anyRun_cons, h1]
  change after _ _ _ _ _ = _
  rw [after_cont, anyRun_cons, ← after_cont]
  rfl

/-! ## What is in the grammar is accepted -/

/-- what a part of a value does -/
def Does (env : Env) (self : ParseTokens) (I : Ctx → Prop) (b : Text → Prop) (part : Part)
    (k : DataType) (ts : List Token) (k' : DataType) : Prop :=
  ∀ ctx st, I ctx → st.dataType = k → (∀ n, b n → Known st n) →
  match part with
  | .value p => At st p → ∃ ctx' v, I ctx' ∧ ∀ rest, anyRun env self ctx st (ts ++ rest) =
      pushValue { st with dataType := k' } v >>= fun r => after env self ctx' r rest
  | .elements p => At st p → p ≠ .single → (∃ l, st.current = .stack (.array l)) →
      ∃ ctx' v, I ctx' ∧ ∀ rest, anyRun env self ctx st (ts ++ rest) =
        pushValue { popTop st with dataType := k' } v >>= fun r => after env self ctx' r rest
  | .members f => st.status = (if f then .objectBegin else .objectComma) →
      (∃ m s, st.current = .stack (.object m s)) →
      ∃ ctx' v, I ctx' ∧ ∀ rest, anyRun env self ctx st (ts ++ rest) =
        pushValue { popTop st with dataType := k' } v >>= fun r => after env self ctx' r rest

theorem does_token (hI : CanLoad env self X I) {b : Text → Prop} {p : Place} {k : DataType}
    {t : Token} (h0 : t ≠ .arrayEnd) (h1 : t ≠ .arrayBegin) (h2 : t ≠ .objectBegin)
    (hr : ¬ (t = .id "require".toList ∧ RequireAllowed p k))
    (h : ∀ n c, (∀ m, b m → ∃ v, TMap.get c m = some v) → ∃ v n', tryToAny n t c = some (v, n')) :
    Does env self I b (.value p) k [t] k := by
  intro ctx st hi hk hb hat
  subst hk
  obtain ⟨v, n, hv⟩ := h ctx.next st.consts hb
  refine ⟨{ ctx with next := n }, v, hI.next _ _ hi, fun rest => ?_⟩
  rw [List.singleton_append, anyRun_cons, at_step hat ctx (.inr h0) hr h1 h2, pushToken, hv]
  dsimp only
  cases pushValue st v <;> rfl

theorem accepted_does (hI : CanLoad env self X I) {b : Text → Prop} {part : Part} {k k' : DataType}
    {ts : List Token} (h : Accepted X b part k ts k') : Does env self I b part k ts k' := by
  induction h with
  | literal p k n hn =>
    refine does_token hI (by simp) (by simp) (by simp) ?_ fun m c _ => ?_
    · rintro ⟨h, -⟩
      cases h
      revert hn
      decide
    · obtain ⟨v, hv⟩ := (tryId_iff n c).2 (.inl hn)
      exact ⟨v, m, by rw [tryToAny, hv]; rfl⟩
  | num p k x => exact does_token hI (by simp) (by simp) (by simp) (by simp) fun m c _ => ⟨_, _, rfl⟩
  | str p k s => exact does_token hI (by simp) (by simp) (by simp) (by simp) fun m c _ => ⟨_, _, rfl⟩
  | big p k x => exact does_token hI (by simp) (by simp) (by simp) (by simp) fun m c _ => ⟨_, _, rfl⟩
  | name p k n hn hb hr =>
    refine does_token hI (by simp) (by simp) (by simp) ?_ fun m c hc => ?_
    · rintro ⟨h, h'⟩
      cases h
      exact hr ⟨rfl, h'⟩
    · obtain ⟨v, hv⟩ := (tryId_iff n c).2 (.inr ⟨hn, hc n hb⟩)
      exact ⟨v, m, by rw [tryToAny, hv]; rfl⟩
  | require p k s hr hx =>
    intro ctx st hi hk hb hat
    subst hk
    obtain ⟨ctx', v, h1, h2⟩ := hI.loads ctx s hi hx
    refine ⟨{ ctx' with next := ctx'.next }, v, h2, fun rest => ?_⟩
    rw [← restore_import hat]
    simp only [List.cons_append, List.nil_append]
    rw [anyRun_cons, at_require hat ctx hr]
    change after env self ctx (.cont _) _ = _
    rw [after_cont, anyRun_cons]
    change after env self ctx (.cont _) _ = _
    rw [after_cont, anyRun_cons]
    change (importModule env self ctx s >>= _) >>= _ = _
    rw [h1]
    change after env self ctx' (.cont _) _ = _
    rw [after_cont, anyRun_cons]
    simp only [anyParse, dispatch, parseImportEnd, endImport]
    generalize pushValue _ v = q
    cases q <;> rfl
  | array p k ts k' _ ih =>
    intro ctx st hi hk hb hat
    obtain ⟨ctx', v, h1, h2⟩ := ih ctx { st with
      status := .arrayBegin, current := .stack (.array []), stack := saveTop st } hi hk hb
      ⟨rfl, .inr ⟨_, rfl⟩⟩ (by simp) ⟨_, rfl⟩
    refine ⟨ctx', v, h1, fun rest => ?_⟩
    rw [List.cons_append, anyRun_cons, pos_array hat.pos]
    change after env self ctx (.cont _) _ = _
    rw [after_cont]
    rw [← restore_kind hat .arrayBegin (.stack (.array []))]
    exact h2 rest
  | object p k ts k' _ ih =>
    intro ctx st hi hk hb hat
    obtain ⟨ctx', v, h1, h2⟩ := ih ctx { st with
      status := .objectBegin, current := .stack (.object [] []), stack := saveTop st } hi hk hb
      rfl ⟨_, _, rfl⟩
    refine ⟨ctx', v, h1, fun rest => ?_⟩
    rw [List.cons_append, anyRun_cons, pos_object hat.pos]
    change after env self ctx (.cont _) _ = _
    rw [after_cont]
    rw [← restore_kind hat .objectBegin (.stack (.object [] []))]
    exact h2 rest
  | noElement p k =>
    intro ctx st hi hk hb hat hp hl
    obtain ⟨l, hl⟩ := hl
    subst hk
    refine ⟨{ ctx with next := ctx.next + 1 }, .arr ctx.next l, hI.next _ _ hi, fun rest => ?_⟩
    rw [List.singleton_append, anyRun_cons]
    have : anyParse env self ctx st .arrayEnd =
        (pushValue (popTop st) (.arr ctx.next l)).map
          fun r => ({ ctx with next := ctx.next + 1 }, r) := by
      have hs := hat.status
      cases p with
      | single => exact absurd rfl hp
      | first =>
        simp only at hs
        simp only [anyParse, dispatch, hs, parseArrayBegin, endArray, hl]
        cases pushValue (popTop st) (.arr ctx.next l) <;> rfl
      | later =>
        simp only at hs
        simp only [anyParse, dispatch, hs, parseArrayComma, endArray, hl]
        cases pushValue (popTop st) (.arr ctx.next l) <;> rfl
    rw [this]
    have : ({ popTop st with dataType := st.dataType } : AnyState) = popTop st := by
      unfold popTop; split <;> rfl
    rw [this]
    cases pushValue (popTop st) (.arr ctx.next l) <;> rfl
  | lastElement p k x k' _ ih =>
    intro ctx st hi hk hb hat hp hl
    obtain ⟨l, hl⟩ := hl
    obtain ⟨ctx', v, h1, h2⟩ := ih ctx st hi hk hb hat
    refine ⟨{ ctx' with next := ctx'.next + 1 }, .arr ctx'.next (l ++ [v]), hI.next _ _ h1,
      fun rest => ?_⟩
    rw [List.append_assoc, h2, pushValue_array hl]
    change after env self ctx' (.cont _) _ = _
    rw [after_cont, List.singleton_append, anyRun_cons]
    simp only [anyParse, dispatch, parseArrayValue, endArray]
    rw [popTop_kind st .arrayValue (.stack (.array (l ++ [v])))]
    generalize pushValue _ (Val.arr ctx'.next (l ++ [v])) = q
    cases q <;> rfl
  | element p k x k1 ts k' _ _ ih1 ih2 =>
    intro ctx st hi hk hb hat hp hl
    obtain ⟨l, hl⟩ := hl
    obtain ⟨ctx', v, h1, h2⟩ := ih1 ctx st hi hk hb hat
    obtain ⟨ctx2, v2, h3, h4⟩ := ih2 ctx' { st with
      dataType := k1, status := .arrayComma, current := .stack (.array (l ++ [v])) } h1 rfl hb
      ⟨rfl, .inr ⟨_, rfl⟩⟩ (by simp) ⟨_, rfl⟩
    refine ⟨ctx2, v2, h3, fun rest => ?_⟩
    rw [List.append_assoc, h2, pushValue_array hl]
    change after env self ctx' (.cont _) _ = _
    rw [after_cont, List.cons_append, anyRun_cons]
    change after env self ctx' (.cont _) _ = _
    rw [after_cont]
    refine (h4 rest).trans ?_
    rw [popTop_kind2]
  | noMember f k =>
    intro ctx st hi hk hb hs hm
    obtain ⟨m, s, hm⟩ := hm
    subst hk
    refine ⟨{ ctx with next := ctx.next + 1 },
      .obj ctx.next (m.map fun kv => (toJsString kv.1, kv.2)), hI.next _ _ hi, fun rest => ?_⟩
    rw [List.singleton_append, anyRun_cons]
    have : anyParse env self ctx st .objectEnd =
        (pushValue (popTop st) (.obj ctx.next (m.map fun kv => (toJsString kv.1, kv.2)))).map
          fun r => ({ ctx with next := ctx.next + 1 }, r) := by
      cases f
      · simp only [Bool.false_eq_true, if_false] at hs
        simp only [anyParse, dispatch, hs, parseObjectComma, endObject, hm]
        generalize pushValue (popTop st) _ = q
        cases q <;> rfl
      · simp only [if_true] at hs
        simp only [anyParse, dispatch, hs, parseObjectBegin, endObject, hm]
        generalize pushValue (popTop st) _ = q
        cases q <;> rfl
    rw [this]
    have : ({ popTop st with dataType := st.dataType } : AnyState) = popTop st := by
      unfold popTop; split <;> rfl
    rw [this]
    cases pushValue (popTop st) _ <;> rfl
  | lastMember f k t x k' hkey _ ih =>
    intro ctx st hi hk hb hs hm
    obtain ⟨m, s, hm⟩ := hm
    subst hk
    obtain ⟨key, hk1, hkr⟩ := at_key (env := env) (self := self) hs hm hkey
    obtain ⟨ctx', v, h1, h2⟩ := ih ctx { st with
      status := .objectColon, current := .stack (.object m key) } hi rfl hb
      ⟨.inr rfl, .inr ⟨_, rfl⟩⟩
    refine ⟨{ ctx' with next := ctx'.next + 1 },
      .obj ctx'.next ((m.insert key v).map fun kv => (toJsString kv.1, kv.2)), hI.next _ _ h1,
      fun rest => ?_⟩
    rw [List.cons_append, List.cons_append, List.cons_append, List.cons_append, hkr,
      List.append_assoc, h2]
    change after env self ctx' (.cont _) _ = _
    rw [after_cont, List.singleton_append, anyRun_cons]
    simp only [anyParse, dispatch, parseObjectNext, endObject]
    rw [popTop_kind st .objectValue (.stack (.object (m.insert key v) []))]
    generalize pushValue _ (Val.obj ctx'.next _) = q
    cases q <;> rfl
  | member f k t x k1 ts k' hkey _ _ ih1 ih2 =>
    intro ctx st hi hk hb hs hm
    obtain ⟨m, s, hm⟩ := hm
    subst hk
    obtain ⟨key, hk1, hkr⟩ := at_key (env := env) (self := self) hs hm hkey
    obtain ⟨ctx', v, h1, h2⟩ := ih1 ctx { st with
      status := .objectColon, current := .stack (.object m key) } hi rfl hb
      ⟨.inr rfl, .inr ⟨_, rfl⟩⟩
    obtain ⟨ctx2, v2, h3, h4⟩ := ih2 ctx' { st with
      dataType := k1, status := .objectComma, current := .stack (.object (m.insert key v) []) } h1
      rfl hb rfl ⟨_, _, rfl⟩
    refine ⟨ctx2, v2, h3, fun rest => ?_⟩
    rw [List.cons_append, List.cons_append, List.cons_append, List.cons_append, hkr,
      List.append_assoc, h2]
    change after env self ctx' (.cont _) _ = _
    rw [after_cont, List.cons_append, anyRun_cons]
    change after env self ctx' (.cont _) _ = _
    rw [after_cont]
    refine (h4 rest).trans ?_
    rw [popTop_kind2]

/-! ## What is accepted is in the grammar -/

/-- the rest of the tokens leads to a value -/
def Ends (env : Env) (self : ParseTokens) (ctx : Ctx) (r : Res AnyResult) (c : List Token)
    (ctx' : Ctx) (st' : AnyState) (v' : Val) : Prop :=
  (r >>= fun r => after env self ctx r c) = .ok (ctx', .success st' v')

theorem value_decompose (hI : OnlyLoad env self X I) (n : Nat)
    (ihE : ∀ ts : List Token, ts.length < n → ∀ ctx st p ctx' st' v', I ctx → At st p → p ≠ .single →
      (∃ l, st.current = .stack (.array l)) →
      anyRun env self ctx st ts = .ok (ctx', .success st' v') →
      ∃ a c k' v ctx1, ts = a ++ c ∧ Accepted X (Known st) (.elements p) st.dataType a k' ∧ I ctx1 ∧
        Ends env self ctx1 (pushValue { popTop st with dataType := k' } v) c ctx' st' v')
    (ihM : ∀ ts : List Token, ts.length < n → ∀ ctx st f ctx' st' v', I ctx →
      st.status = (if f then .objectBegin else .objectComma) →
      (∃ m s, st.current = .stack (.object m s)) →
      anyRun env self ctx st ts = .ok (ctx', .success st' v') →
      ∃ a c k' v ctx1, ts = a ++ c ∧ Accepted X (Known st) (.members f) st.dataType a k' ∧ I ctx1 ∧
        Ends env self ctx1 (pushValue { popTop st with dataType := k' } v) c ctx' st' v') :
    ∀ ts : List Token, ts.length ≤ n → ∀ ctx st p ctx' st' v', I ctx → At st p →
      (p = .single ∨ ts.head? ≠ some .arrayEnd) →
      anyRun env self ctx st ts = .ok (ctx', .success st' v') →
      ∃ a c k' v ctx1, ts = a ++ c ∧ a ≠ [] ∧ Accepted X (Known st) (.value p) st.dataType a k' ∧
        I ctx1 ∧ Ends env self ctx1 (pushValue { st with dataType := k' } v) c ctx' st' v' := by
  intro ts hlen ctx st p ctx' st' v' hi hat hne h
  cases ts with
  | nil => rw [anyRun_nil] at h; cases h
  | cons t ts =>
    rw [anyRun_cons] at h
    simp only [List.length_cons] at hlen
    by_cases h1 : t = .arrayBegin
    · subst h1
      rw [pos_array hat.pos] at h
      change after env self ctx (.cont _) _ = _ at h
      rw [after_cont] at h
      obtain ⟨a, c, k', v, ctx1, h1, h2, h3, h4⟩ := ihE ts (by omega) ctx _ .first ctx' st' v' hi
        ⟨rfl, .inr ⟨_, rfl⟩⟩ (by simp) ⟨_, rfl⟩ h
      refine ⟨.arrayBegin :: a, c, k', v, ctx1, by rw [h1]; rfl, by simp, .array _ _ _ _ h2, h3, ?_⟩
      rw [← restore_kind hat .arrayBegin (.stack (.array []))]
      exact h4
    by_cases h2 : t = .objectBegin
    · subst h2
      rw [pos_object hat.pos] at h
      change after env self ctx (.cont _) _ = _ at h
      rw [after_cont] at h
      obtain ⟨a, c, k', v, ctx1, h1, h2, h3, h4⟩ := ihM ts (by omega) ctx _ true ctx' st' v' hi
        rfl ⟨_, _, rfl⟩ h
      refine ⟨.objectBegin :: a, c, k', v, ctx1, by rw [h1]; rfl, by simp, .object _ _ _ _ h2, h3, ?_⟩
      rw [← restore_kind hat .objectBegin (.stack (.object [] []))]
      exact h4
    by_cases hr : t = .id "require".toList ∧ RequireAllowed p st.dataType
    · obtain ⟨rfl, hr⟩ := hr
      rw [at_require hat ctx hr] at h
      change after env self ctx (.cont _) _ = _ at h
      rw [after_cont] at h
      cases ts with
      | nil => rw [anyRun_nil] at h; cases h
      | cons t ts =>
        rw [anyRun_cons] at h
        by_cases ht : t = .openingParenthesis
        · subst ht
          change after env self ctx (.cont _) _ = _ at h
          rw [after_cont] at h
          cases ts with
          | nil => rw [anyRun_nil] at h; cases h
          | cons t ts =>
            rw [anyRun_cons] at h
            change importValue env self ctx _ t >>= _ = _ at h
            cases t with
            | string s =>
              change (importModule env self ctx s >>= _) >>= _ = _ at h
              cases hm : importModule env self ctx s with
              | error e => rw [hm] at h; cases h
              | ok x =>
                obtain ⟨ctx1, r⟩ := x
                rw [hm] at h
                cases r with
                | error e =>
                  change after env self ctx1 (.error e) _ = _ at h
                  rw [after] at h; cases h
                | ok v =>
                  obtain ⟨hx, hi1⟩ := hI.sound _ _ _ _ hi hm
                  change after env self ctx1 (.cont _) _ = _ at h
                  rw [after_cont] at h
                  cases ts with
                  | nil => rw [anyRun_nil] at h; cases h
                  | cons t ts =>
                    rw [anyRun_cons] at h
                    by_cases ht : t = .closingParenthesis
                    · subst ht
                      refine ⟨[.id "require".toList, .openingParenthesis, .string s,
                        .closingParenthesis], ts, .cjs, v, ctx1, rfl, by simp,
                        .require _ _ _ hr hx, hi1, ?_⟩
                      rw [← restore_import hat, Ends, ← h]
                      simp only [anyParse, dispatch, parseImportEnd, endImport]
                      generalize pushValue _ v = q
                      cases q <;> rfl
                    · have : anyParse env self ctx1 { st with
                          dataType := .cjs, status := .importEnd, current := .any v,
                          stack := saveTop st } t = .ok (ctx1, .error .wrongRequireStatement) := by
                        cases t <;> first | rfl | exact absurd rfl ht
                      rw [this] at h
                      change after env self ctx1 (.error _) _ = _ at h
                      rw [after] at h; cases h
            | _ =>
              change after env self ctx (.error _) _ = _ at h
              rw [after] at h; cases h
        · have : anyParse env self ctx { st with
              dataType := .cjs, status := .importBegin, current := .none,
              stack := saveTop st } t = .ok (ctx, .error .wrongRequireStatement) := by
            cases t <;> first | rfl | exact absurd rfl ht
          rw [this] at h
          change after env self ctx (.error _) _ = _ at h
          rw [after] at h; cases h
    · have ht : p = .single ∨ t ≠ .arrayEnd := by
        rcases hne with hne | hne
        · exact .inl hne
        · exact .inr fun e => hne (by rw [e]; rfl)
      rw [at_step hat ctx ht hr h1 h2, pushToken] at h
      cases hv : tryToAny ctx.next t st.consts with
      | none =>
        rw [hv] at h
        change after env self ctx (.error _) _ = _ at h
        rw [after] at h; cases h
      | some x =>
        obtain ⟨v, m⟩ := x
        rw [hv] at h
        refine ⟨[t], ts, st.dataType, v, { ctx with next := m }, rfl, by simp, ?_, hI.next _ _ hi, ?_⟩
        · cases t with
          | number f => exact .num _ _ _
          | string s => exact .str _ _ _
          | bigInt b => exact .big _ _ _
          | id s =>
            have : ∃ v, tryIdToAny s st.consts = some v := by
              simp only [tryToAny] at hv
              cases he : tryIdToAny s st.consts with
              | none => rw [he] at hv; cases hv
              | some v => exact ⟨v, rfl⟩
            rcases (tryId_iff _ _).1 this with h | ⟨h, h'⟩
            · exact .literal _ _ _ h
            · refine .name _ _ _ h h' ?_
              rintro ⟨rfl, h3⟩
              exact hr ⟨rfl, h3⟩
          | _ => cases hv
        · rw [Ends, ← h]
          dsimp only
          generalize pushValue _ v = q
          cases q <;> rfl

theorem after_error {ctx ctx' : Ctx} {e : ParseError} {ts : List Token} {st' : AnyState} {v' : Val}
    (h : after env self ctx (.error e) ts = .ok (ctx', .success st' v')) : False := by
  rw [after] at h; cases h

theorem elements_decompose (hI : OnlyLoad env self X I) (n : Nat)
    (ihE : ∀ ts : List Token, ts.length < n → ∀ ctx st p ctx' st' v', I ctx → At st p → p ≠ .single →
      (∃ l, st.current = .stack (.array l)) →
      anyRun env self ctx st ts = .ok (ctx', .success st' v') →
      ∃ a c k' v ctx1, ts = a ++ c ∧ Accepted X (Known st) (.elements p) st.dataType a k' ∧ I ctx1 ∧
        Ends env self ctx1 (pushValue { popTop st with dataType := k' } v) c ctx' st' v')
    (hV : ∀ ts : List Token, ts.length ≤ n → ∀ ctx st p ctx' st' v', I ctx → At st p →
      (p = .single ∨ ts.head? ≠ some .arrayEnd) →
      anyRun env self ctx st ts = .ok (ctx', .success st' v') →
      ∃ a c k' v ctx1, ts = a ++ c ∧ a ≠ [] ∧ Accepted X (Known st) (.value p) st.dataType a k' ∧
        I ctx1 ∧ Ends env self ctx1 (pushValue { st with dataType := k' } v) c ctx' st' v') :
    ∀ ts : List Token, ts.length ≤ n → ∀ ctx st p ctx' st' v', I ctx → At st p → p ≠ .single →
      (∃ l, st.current = .stack (.array l)) →
      anyRun env self ctx st ts = .ok (ctx', .success st' v') →
      ∃ a c k' v ctx1, ts = a ++ c ∧ Accepted X (Known st) (.elements p) st.dataType a k' ∧ I ctx1 ∧
        Ends env self ctx1 (pushValue { popTop st with dataType := k' } v) c ctx' st' v' := by
  intro ts hlen ctx st p ctx' st' v' hi hat hp hl h
  obtain ⟨l, hl⟩ := hl
  by_cases hend : ts.head? = some .arrayEnd
  · cases ts with
    | nil => cases hend
    | cons t ts =>
      cases hend
      refine ⟨[.arrayEnd], ts, st.dataType, .arr ctx.next l, { ctx with next := ctx.next + 1 }, rfl,
        .noElement _ _, hI.next _ _ hi, ?_⟩
      rw [anyRun_cons] at h
      have : anyParse env self ctx st .arrayEnd =
          (pushValue (popTop st) (.arr ctx.next l)).map
            fun r => ({ ctx with next := ctx.next + 1 }, r) := by
        have hs := hat.status
        cases p with
        | single => exact absurd rfl hp
        | first =>
          simp only at hs
          simp only [anyParse, dispatch, hs, parseArrayBegin, endArray, hl]
          cases pushValue (popTop st) (.arr ctx.next l) <;> rfl
        | later =>
          simp only at hs
          simp only [anyParse, dispatch, hs, parseArrayComma, endArray, hl]
          cases pushValue (popTop st) (.arr ctx.next l) <;> rfl
      rw [this] at h
      have : ({ popTop st with dataType := st.dataType } : AnyState) = popTop st := by
        unfold popTop; split <;> rfl
      rw [this, Ends, ← h]
      cases pushValue (popTop st) (.arr ctx.next l) <;> rfl
  · obtain ⟨a, c, k1, v, ctx1, h1, h0, h2, h3, h4⟩ :=
      hV ts hlen ctx st p ctx' st' v' hi hat (.inr hend) h
    rw [Ends, pushValue_array hl] at h4
    change after env self ctx1 (.cont _) c = _ at h4
    rw [after_cont] at h4
    cases c with
    | nil => rw [anyRun_nil] at h4; cases h4
    | cons t c =>
      rw [anyRun_cons] at h4
      by_cases ht : t = .arrayEnd
      · subst ht
        refine ⟨a ++ [.arrayEnd], c, k1, .arr ctx1.next (l ++ [v]),
          { ctx1 with next := ctx1.next + 1 }, by rw [h1]; simp, .lastElement _ _ _ _ h2,
          hI.next _ _ h3, ?_⟩
        rw [Ends, ← h4]
        simp only [anyParse, dispatch, parseArrayValue, endArray]
        rw [popTop_kind st .arrayValue (.stack (.array (l ++ [v])))]
        generalize pushValue _ (Val.arr ctx1.next (l ++ [v])) = q
        cases q <;> rfl
      by_cases ht2 : t = .comma
      · subst ht2
        change after env self ctx1 (.cont _) c = _ at h4
        rw [after_cont] at h4
        have hlen2 : c.length < n := by
          rw [h1] at hlen
          simp only [List.length_append, List.length_cons] at hlen
          omega
        obtain ⟨a2, c2, k2, v2, ctx2, g1, g2, g3, g4⟩ := ihE c hlen2 ctx1 _ .later ctx' st' v' h3
          ⟨rfl, .inr ⟨_, rfl⟩⟩ (by simp) ⟨_, rfl⟩ h4
        refine ⟨a ++ .comma :: a2, c2, k2, v2, ctx2, by rw [h1, g1]; simp,
          .element _ _ _ _ _ _ h2 g2, g3, ?_⟩
        have := popTop_kind2 st .arrayComma (.stack (.array (l ++ [v]))) k1 k2 v2
        rw [← this]
        exact g4
      · have : anyParse env self ctx1 { st with
            dataType := k1, status := .arrayValue, current := .stack (.array (l ++ [v])) } t =
            .ok (ctx1, .error .unexpectedToken) := by
          cases t <;> first | rfl | exact absurd rfl ht | exact absurd rfl ht2
        rw [this] at h4
        exact (after_error h4).elim

theorem members_decompose (hI : OnlyLoad env self X I) (n : Nat)
    (ihM : ∀ ts : List Token, ts.length < n → ∀ ctx st f ctx' st' v', I ctx →
      st.status = (if f then .objectBegin else .objectComma) →
      (∃ m s, st.current = .stack (.object m s)) →
      anyRun env self ctx st ts = .ok (ctx', .success st' v') →
      ∃ a c k' v ctx1, ts = a ++ c ∧ Accepted X (Known st) (.members f) st.dataType a k' ∧ I ctx1 ∧
        Ends env self ctx1 (pushValue { popTop st with dataType := k' } v) c ctx' st' v')
    (hV : ∀ ts : List Token, ts.length ≤ n → ∀ ctx st p ctx' st' v', I ctx → At st p →
      (p = .single ∨ ts.head? ≠ some .arrayEnd) →
      anyRun env self ctx st ts = .ok (ctx', .success st' v') →
      ∃ a c k' v ctx1, ts = a ++ c ∧ a ≠ [] ∧ Accepted X (Known st) (.value p) st.dataType a k' ∧
        I ctx1 ∧ Ends env self ctx1 (pushValue { st with dataType := k' } v) c ctx' st' v') :
    ∀ ts : List Token, ts.length ≤ n → ∀ ctx st f ctx' st' v', I ctx →
      st.status = (if f then .objectBegin else .objectComma) →
      (∃ m s, st.current = .stack (.object m s)) →
      anyRun env self ctx st ts = .ok (ctx', .success st' v') →
      ∃ a c k' v ctx1, ts = a ++ c ∧ Accepted X (Known st) (.members f) st.dataType a k' ∧ I ctx1 ∧
        Ends env self ctx1 (pushValue { popTop st with dataType := k' } v) c ctx' st' v' := by
  intro ts hlen ctx st f ctx' st' v' hi hs hm h
  obtain ⟨m, s, hm⟩ := hm
  cases ts with
  | nil => rw [anyRun_nil] at h; cases h
  | cons t ts =>
    by_cases hend : t = .objectEnd
    · subst hend
      refine ⟨[.objectEnd], ts, st.dataType,
        .obj ctx.next (m.map fun kv => (toJsString kv.1, kv.2)), { ctx with next := ctx.next + 1 },
        rfl, .noMember _ _, hI.next _ _ hi, ?_⟩
      rw [anyRun_cons] at h
      have : anyParse env self ctx st .objectEnd =
          (pushValue (popTop st) (.obj ctx.next (m.map fun kv => (toJsString kv.1, kv.2)))).map
            fun r => ({ ctx with next := ctx.next + 1 }, r) := by
        cases f
        · simp only [Bool.false_eq_true, if_false] at hs
          simp only [anyParse, dispatch, hs, parseObjectComma, endObject, hm]
          generalize pushValue (popTop st) _ = q
          cases q <;> rfl
        · simp only [if_true] at hs
          simp only [anyParse, dispatch, hs, parseObjectBegin, endObject, hm]
          generalize pushValue (popTop st) _ = q
          cases q <;> rfl
      rw [this] at h
      have : ({ popTop st with dataType := st.dataType } : AnyState) = popTop st := by
        unfold popTop; split <;> rfl
      rw [this, Ends, ← h]
      cases pushValue (popTop st) _ <;> rfl
    · have hkey : KeyAllowed f st.dataType t := by
        by_contra hk
        have : anyParse env self ctx st t = .ok (ctx, .error .unexpectedToken) := by
          cases f
          · simp only [Bool.false_eq_true, if_false] at hs
            simp only [anyParse, dispatch, hs]
            cases t with
            | string s => exact absurd (.inl ⟨_, rfl⟩) hk
            | objectEnd => exact absurd rfl hend
            | _ => rfl
          · simp only [if_true] at hs
            simp only [anyParse, dispatch, hs]
            cases t with
            | string s => exact absurd (.inl ⟨_, rfl⟩) hk
            | objectEnd => exact absurd rfl hend
            | id s =>
              have hd : st.dataType = .json := by
                by_contra hd
                exact hk (.inr ⟨rfl, hd, _, rfl⟩)
              simp only [parseObjectBegin, hd, DataType.isDjs, Bool.false_eq_true, if_false]
              rfl
            | _ => rfl
        rw [anyRun_cons, this] at h
        exact after_error h
      obtain ⟨key, hk1, hkr⟩ := at_key (env := env) (self := self) hs hm hkey
      cases ts with
      | nil =>
        rw [anyRun_cons, hk1] at h
        change after env self ctx (.cont _) _ = _ at h
        rw [after_cont, anyRun_nil] at h
        cases h
      | cons t2 ts =>
        by_cases h2 : t2 = .colon
        · subst h2
          rw [hkr] at h
          simp only [List.length_cons] at hlen
          obtain ⟨a, c, k1, v, ctx1, h1, h0, h2, h3, h4⟩ := hV ts (by omega) ctx _ .single ctx' st' v'
            hi ⟨.inr rfl, .inr ⟨_, rfl⟩⟩ (.inl rfl) h
          change after env self ctx1 (.cont _) c = _ at h4
          rw [after_cont] at h4
          cases c with
          | nil => rw [anyRun_nil] at h4; cases h4
          | cons t3 c =>
            rw [anyRun_cons] at h4
            by_cases ht : t3 = .objectEnd
            · subst ht
              refine ⟨t :: .colon :: a ++ [.objectEnd], c, k1,
                .obj ctx1.next ((m.insert key v).map fun kv => (toJsString kv.1, kv.2)),
                { ctx1 with next := ctx1.next + 1 }, by rw [h1]; simp, by
                  have := Accepted.lastMember f st.dataType t a k1 hkey h2
                  exact this,
                hI.next _ _ h3, ?_⟩
              rw [Ends, ← h4]
              simp only [anyParse, dispatch, parseObjectNext, endObject]
              rw [popTop_kind st .objectValue (.stack (.object (m.insert key v) []))]
              generalize pushValue _ (Val.obj ctx1.next _) = q
              cases q <;> rfl
            by_cases ht2 : t3 = .comma
            · subst ht2
              change after env self ctx1 (.cont _) c = _ at h4
              rw [after_cont] at h4
              have hlen2 : c.length < n := by
                rw [h1] at hlen
                simp only [List.length_append, List.length_cons] at hlen
                omega
              obtain ⟨a2, c2, k2, v2, ctx2, g1, g2, g3, g4⟩ := ihM c hlen2 ctx1 _ false ctx' st' v' h3
                rfl ⟨_, _, rfl⟩ h4
              refine ⟨t :: .colon :: a ++ .comma :: a2, c2, k2, v2, ctx2, by rw [h1, g1]; simp,
                .member _ _ _ _ _ _ _ hkey h2 g2, g3, ?_⟩
              have := popTop_kind2 st .objectComma (.stack (.object (m.insert key v) [])) k1 k2 v2
              rw [← this]
              exact g4
            · have : anyParse env self ctx1 { st with
                  dataType := k1, status := .objectValue,
                  current := .stack (.object (m.insert key v) []) } t3 =
                  .ok (ctx1, .error .unexpectedToken) := by
                cases t3 <;> first | rfl | exact absurd rfl ht | exact absurd rfl ht2
              rw [this] at h4
              exact (after_error h4).elim
        · rw [anyRun_cons, hk1] at h
          change after env self ctx (.cont _) _ = _ at h
          rw [after_cont, anyRun_cons] at h
          have : anyParse env self ctx { st with
              status := .objectKey, current := .stack (.object m key) } t2 =
              .ok (ctx, .error .unexpectedToken) := by
            cases t2 <;> first | rfl | exact absurd rfl h2
          rw [this] at h
          exact (after_error h).elim

/-- what remains after a part of a value -/
theorem decompose (hI : OnlyLoad env self X I) (n : Nat) :
    (∀ ts : List Token, ts.length ≤ n → ∀ ctx st p ctx' st' v', I ctx → At st p →
      (p = .single ∨ ts.head? ≠ some .arrayEnd) →
      anyRun env self ctx st ts = .ok (ctx', .success st' v') →
      ∃ a c k' v ctx1, ts = a ++ c ∧ a ≠ [] ∧ Accepted X (Known st) (.value p) st.dataType a k' ∧
        I ctx1 ∧ Ends env self ctx1 (pushValue { st with dataType := k' } v) c ctx' st' v') ∧
    (∀ ts : List Token, ts.length ≤ n → ∀ ctx st p ctx' st' v', I ctx → At st p → p ≠ .single →
      (∃ l, st.current = .stack (.array l)) →
      anyRun env self ctx st ts = .ok (ctx', .success st' v') →
      ∃ a c k' v ctx1, ts = a ++ c ∧ Accepted X (Known st) (.elements p) st.dataType a k' ∧ I ctx1 ∧
        Ends env self ctx1 (pushValue { popTop st with dataType := k' } v) c ctx' st' v') ∧
    ∀ ts : List Token, ts.length ≤ n → ∀ ctx st f ctx' st' v', I ctx →
      st.status = (if f then .objectBegin else .objectComma) →
      (∃ m s, st.current = .stack (.object m s)) →
      anyRun env self ctx st ts = .ok (ctx', .success st' v') →
      ∃ a c k' v ctx1, ts = a ++ c ∧ Accepted X (Known st) (.members f) st.dataType a k' ∧ I ctx1 ∧
        Ends env self ctx1 (pushValue { popTop st with dataType := k' } v) c ctx' st' v' := by
  induction n with
  | zero =>
    refine ⟨?_, ?_, ?_⟩ <;> intro ts hl <;>
    · rw [List.length_eq_zero_iff.1 (Nat.le_zero.1 hl)]
      intros
      rename_i h
      rw [anyRun_nil] at h
      cases h
  | succ n ih =>
    have hV := value_decompose hI (n + 1) (fun ts h => ih.2.1 ts (by omega))
      (fun ts h => ih.2.2 ts (by omega))
    exact ⟨hV, elements_decompose hI (n + 1) (fun ts h => ih.2.1 ts (by omega)) hV,
      members_decompose hI (n + 1) (fun ts h => ih.2.2 ts (by omega)) hV⟩

/-- a value that is not part of another -/
theorem idle_decompose (hI : OnlyLoad env self X I) {ts : List Token} {ctx ctx' : Ctx}
    {st st' : AnyState} {v' : Val} (hst : Idle st) (hi : I ctx)
    (h : anyRun env self ctx st ts = .ok (ctx', .success st' v')) :
    ∃ k', Accepted X (Known st) (.value .single) st.dataType ts k' ∧ I ctx' ∧
      st' = { st with dataType := k' } := by
  obtain ⟨a, c, k', v, ctx1, h1, -, h2, h3, h4⟩ := (decompose hI ts.length).1 ts le_rfl ctx st .single
    ctx' st' v' hi ⟨.inl hst.1, .inl hst.2⟩ (.inl rfl) h
  rw [Ends] at h4
  simp only [pushValue, hst.2.1] at h4
  change after env self ctx1 (.success _ _) c = _ at h4
  rw [after] at h4
  split at h4
  next hc =>
    cases h4
    rw [hc, List.append_nil] at h1
    refine ⟨k', by rw [h1]; exact h2, h3, ?_⟩
    obtain ⟨dt, s, cur, stk, c⟩ := st
    obtain ⟨e1, e2, e3⟩ := hst
    simp only at e1 e2 e3
    subst e1 e2 e3
    rfl
  next => cases h4

/-- the converse -/
theorem idle_accepted (hI : CanLoad env self X I) {ts : List Token} {ctx : Ctx} {b : Text → Prop}
    {st : AnyState} {k' : DataType} (hst : Idle st) (hi : I ctx) (hb : ∀ n, b n → Known st n)
    (h : Accepted X b (.value .single) st.dataType ts k') :
    ∃ ctx' v, I ctx' ∧
      anyRun env self ctx st ts = .ok (ctx', .success { st with dataType := k' } v) := by
  obtain ⟨ctx', v, h1, h2⟩ := accepted_does hI h ctx st hi rfl hb ⟨.inl hst.1, .inl hst.2⟩
  refine ⟨ctx', v, h1, ?_⟩
  have := h2 []
  rw [List.append_nil] at this
  rw [this]
  obtain ⟨dt, s, cur, stk, c⟩ := st
  obtain ⟨e1, e2, e3⟩ := hst
  simp only at e1 e2 e3
  subst e1 e2 e3
  exact after_success _ _ _

end Parser
end Nanvm
