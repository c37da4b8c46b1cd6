import Verif.Lemmas.ParserCrash
import Verif.Lemmas.ParserTotal
/-!
# Unfinished modules: where the parser stops with a panic
-/
namespace Nanvm
namespace Grammar
open Tok
open Parser (DataType)

theorem Begun.mono {X Y b : Text → Prop} (hX : ∀ s, X s → Y s) {part : Part} {k : DataType}
    {ts : List Token} {a : Option Text} (h : Begun X b part k ts a) : Begun Y b part k ts a := by
  have acc : ∀ {part k ts k'}, Accepted X b part k ts k' → Accepted Y b part k ts k' := by
    intro part k ts k' h
    induction h with
    | literal p k n h => exact .literal p k n h
    | num p k x => exact .num p k x
    | str p k x => exact .str p k x
    | big p k x => exact .big p k x
    | name p k n h1 h2 h3 => exact .name p k n h1 h2 h3
    | require p k s h1 h2 => exact .require p k s h1 (hX s h2)
    | array p k ts k' _ ih => exact .array p k ts k' ih
    | object p k ts k' _ ih => exact .object p k ts k' ih
    | noElement p k => exact .noElement p k
    | lastElement p k x k' _ ih => exact .lastElement p k x k' ih
    | element p k x k1 ts k' _ _ ih1 ih2 => exact .element p k x k1 ts k' ih1 ih2
    | noMember f k => exact .noMember f k
    | lastMember f k t x k' h _ ih => exact .lastMember f k t x k' h ih
    | member f k t x k1 ts k' h _ _ ih1 ih2 => exact .member f k t x k1 ts k' h ih1 ih2
  induction h with
  | nothing part k => exact .nothing part k
  | require p k h => exact .require p k h
  | requireOpen p k h => exact .requireOpen p k h
  | requireAsks p k s h => exact .requireAsks p k s h
  | requireNamed p k s h hx => exact .requireNamed p k s h (hX s hx)
  | array p k ts a _ ih => exact .array p k ts a ih
  | object p k ts a _ ih => exact .object p k ts a ih
  | element p k x a _ ih => exact .element p k x a ih
  | elementDone p k x k' h => exact .elementDone p k x k' (acc h)
  | elements p k x k1 ts a h _ ih => exact .elements p k x k1 ts a (acc h) ih
  | key f k t h => exact .key f k t h
  | memberValue f k t x a h _ ih => exact .memberValue f k t x a h ih
  | memberDone f k t x k' h h1 => exact .memberDone f k t x k' h (acc h1)
  | members f k t x k1 ts a h h1 _ ih => exact .members f k t x k1 ts a h (acc h1) ih

theorem Begun.no_semicolon {X b : Text → Prop} {part : Part} {k : DataType} {ts : List Token}
    {a : Option Text} (h : Begun X b part k ts a) : .semicolon ∉ ts := by
  have key : ∀ {f k t}, KeyAllowed f k t → Token.semicolon ≠ t := by
    rintro f k t (⟨s, rfl⟩ | ⟨-, -, s, rfl⟩) <;> simp
  induction h with
  | elementDone p k x k' h => exact Parser.accepted_no_semicolon h
  | elements p k x k1 ts a h _ ih => simp [Parser.accepted_no_semicolon h, ih]
  | key f k t h => simpa using key h
  | memberValue f k t x a h _ ih => simp [key h, ih]
  | memberDone f k t x k' h h1 => simp [key h, Parser.accepted_no_semicolon h1]
  | members f k t x k1 ts a h h1 _ ih => simp [key h, Parser.accepted_no_semicolon h1, ih]
  | _ => simp_all

end Grammar

namespace Parser
open Tok Grammar
open Ser (bind_eq_ok)

variable {env : Env} {self : ParseTokens} {X : Text → Prop} {I : Ctx → Prop}

/-! ## Unfinished modules are read -/

theorem module_run_err {q : Panic} {ts : List Token} : ∀ {ctx : Ctx} {st : AnyState},
    anyRun env self ctx st (nl ts) = .error (.panic q) →
    pushAll env self ctx (.parseModule st) ts = .error (.panic q) := by
  induction ts with
  | nil => intro ctx st h; simp only [nl, List.filter_nil, anyRun_nil] at h; cases h
  | cons t ts ih =>
    intro ctx st h
    by_cases ht : t = .newLine
    · subst ht
      exact ih h
    · have : nl (t :: ts) = t :: nl ts := by simp [nl, ht]
      rw [this, anyRun_cons] at h
      rw [pushAll, jsonPush_eq ht]
      change (anyParse env self ctx st t >>= _) >>= _ = _
      cases hp : anyParse env self ctx st t with
      | error e => rw [hp] at h; cases h; rfl
      | ok x =>
        obtain ⟨ctx1, r1⟩ := x
        rw [hp] at h
        change after env self ctx1 r1 (nl ts) = _ at h
        change pushAll env self ctx1 (forModule r1) ts = _
        cases r1 with
        | cont st1 => rw [after_cont] at h; exact ih h
        | success st1 v1 => rw [after] at h; split at h <;> cases h
        | error e => rw [after] at h; cases h

theorem const_run_err {key : Text} {q : Panic} {ts : List Token} (hsemi : .semicolon ∉ ts) :
    ∀ {ctx : Ctx} {st : AnyState}, anyRun env self ctx st (nl ts) = .error (.panic q) →
    pushAll env self ctx (.parseConst key st) ts = .error (.panic q) := by
  induction ts with
  | nil => intro ctx st h; simp only [nl, List.filter_nil, anyRun_nil] at h; cases h
  | cons t ts ih =>
    intro ctx st h
    rw [List.mem_cons, not_or] at hsemi
    by_cases ht : t = .newLine
    · subst ht
      exact ih hsemi.2 h
    · have : nl (t :: ts) = t :: nl ts := by simp [nl, ht]
      rw [this, anyRun_cons] at h
      rw [pushAll, jsonPush_eq ht]
      simp only [constStateParse_eq (Ne.symm hsemi.1)]
      change (anyParse env self ctx st t >>= _) >>= _ = _
      cases hp : anyParse env self ctx st t with
      | error e => rw [hp] at h; cases h; rfl
      | ok x =>
        obtain ⟨ctx1, r1⟩ := x
        rw [hp] at h
        change after env self ctx1 r1 (nl ts) = _ at h
        change pushAll env self ctx1 (constResult key r1) ts = _
        cases r1 with
        | cont st1 => rw [after_cont] at h; exact ih hsemi.2 h
        | success st1 v1 => rw [after] at h; split at h <;> cases h
        | error e => rw [after] at h; cases h

theorem const_run_cont {key : Text} {ts : List Token} (hsemi : .semicolon ∉ ts) :
    ∀ {ctx ctx' : Ctx} {st st' : AnyState}, anyRun env self ctx st (nl ts) = .ok (ctx', .cont st') →
    pushAll env self ctx (.parseConst key st) ts = .ok (ctx', .parseConst key st') := by
  induction ts with
  | nil => intro ctx ctx' st st' h; simp only [nl, List.filter_nil, anyRun_nil] at h; cases h; rfl
  | cons t ts ih =>
    intro ctx ctx' st st' h
    rw [List.mem_cons, not_or] at hsemi
    by_cases ht : t = .newLine
    · subst ht
      exact ih hsemi.2 h
    · have : nl (t :: ts) = t :: nl ts := by simp [nl, ht]
      rw [this, anyRun_cons] at h
      rw [pushAll, jsonPush_eq ht]
      simp only [constStateParse_eq (Ne.symm hsemi.1)]
      change (anyParse env self ctx st t >>= _) >>= _ = _
      cases hp : anyParse env self ctx st t with
      | error e => rw [hp] at h; cases h
      | ok x =>
        obtain ⟨ctx1, r1⟩ := x
        rw [hp] at h
        change after env self ctx1 r1 (nl ts) = _ at h
        change pushAll env self ctx1 (constResult key r1) ts = _
        cases r1 with
        | cont st1 => rw [after_cont] at h; exact ih hsemi.2 h
        | success st1 v1 => rw [after] at h; split at h <;> cases h
        | error e => rw [after] at h; cases h

/-- where the parser of modules is after an unfinished text -/
def Halts (env : Env) (self : ParseTokens) (I : Ctx → Prop) (r : Res (Ctx × JState)) :
    Option Text → Prop
  | none => ∃ ctx' n st', I ctx' ∧ r = .ok (ctx', .parseConst n st')
  | some s => ∃ ctx', I ctx' ∧
      (∀ q, importModule env self ctx' s = .error (.panic q) → r = .error (.panic q)) ∧
      ∀ c e, importModule env self ctx' s = .ok (c, .error e) → r = .ok (c, .error e)

theorem value_halts (hI : CanLoad env self X I) {b : Text → Prop} {k : DataType} {ts : List Token}
    {s : Text} (h : BegunValue X b k ts (some s)) (ctx : Ctx) (c : TMap Val) (hi : I ctx)
    (hb : ∀ n, b n → Names c n) :
    Halts env self I (pushAll env self ctx (.parseModule (lineState k c)) ts) (some s) := by
  obtain ⟨ctx', f, h1, h2⟩ := begun_begins hI h ctx (lineState k c) hi rfl hb
    ⟨.inl rfl, .inl ⟨rfl, rfl⟩⟩
  refine ⟨ctx', h1, fun q hq => module_run_err (by rw [h2, hq]; rfl), fun c' e he => ?_⟩
  exact module_run (r := .error e) (by rw [h2, he]; rfl)

theorem const_halts (hI : CanLoad env self X I) {b : Text → Prop} {ts : List Token}
    {a : Option Text} (h : BegunValue X b .djs ts a) (ctx : Ctx) (c : TMap Val) (n : Text) (hi : I ctx)
    (hb : ∀ n, b n → Names c n) :
    Halts env self I (pushAll env self ctx (.parseConst n (lineState .djs c)) ts) a := by
  have hsemi : .semicolon ∉ ts := by
    intro hs
    exact h.no_semicolon (List.mem_filter.2 ⟨hs, by simp⟩)
  have := begun_begins hI h ctx (lineState .djs c) hi rfl hb ⟨.inl rfl, .inl ⟨rfl, rfl⟩⟩
  cases a with
  | none =>
    obtain ⟨ctx', st', h1, h2⟩ := this
    exact ⟨ctx', n, st', h1, const_run_cont hsemi h2⟩
  | some s =>
    obtain ⟨ctx', f, h1, h2⟩ := this
    refine ⟨ctx', h1, fun q hq => const_run_err hsemi (by rw [h2, hq]; rfl), fun c' e he => ?_⟩
    exact (const_run hsemi (r := .error e) (by rw [h2, he]; rfl)).2 e rfl

theorem module_begun (hI : CanLoad env self X I) {b : Text → Prop} {k : DataType}
    {ts : List Token} {a : Option Text} (h : BegunModule X b k ts a) :
    ∀ ctx c, I ctx → (∀ n, b n → Names c n) →
      Halts env self I
        (pushAll env self ctx (.parseRoot ⟨.initial, lineState k c, true⟩) ts) a := by
  induction h with
  | newLine b k ts a _ ih => exact fun ctx c hi hb => ih ctx c hi hb
  | const_ b k n ts k1 rest a hv _ ih =>
    intro ctx c hi hb
    obtain ⟨ctx1, v, h1, h2⟩ := idle_accepted (st := lineState .djs c) hI (lineState_idle _ c) hi hb hv
    have hsemi : .semicolon ∉ ts := by
      intro hs
      exact accepted_no_semicolon hv (List.mem_filter.2 ⟨hs, by simp⟩)
    obtain ⟨nlb, h3⟩ := (const_run (key := n) hsemi h2).1 _ _ rfl
    have h4 := ih ctx1 (c.insert n v) h1 (by
      rw [names_insert]
      exact fun m hm => hm.imp id (hb m))
    have : pushAll env self ctx (.parseRoot ⟨.initial, lineState k c, true⟩)
        ([.id "const".toList, .id n, .equals] ++ (ts ++ .newLine :: rest)) =
        pushAll env self ctx (.parseConst n (lineState .djs c)) (ts ++ .newLine :: rest) := by
      cases k <;> rfl
    rw [this, pushAll_append, h3]
    exact h4
  | import_ b k n s rest a hk hx _ ih =>
    intro ctx c hi hb
    obtain ⟨ctx1, v, h1, h2⟩ := hI.loads ctx s hi hx
    have h4 := ih ctx1 (c.insert n v) h2 (by
      rw [names_insert]
      exact fun m hm => hm.imp id (hb m))
    rw [pushAll_append]
    have : pushAll env self ctx (.parseRoot ⟨.initial, lineState k c, true⟩)
        [.id "import".toList, .id n, .id "from".toList, .string s] =
        .ok (ctx1, .parseRoot ⟨.initial, lineState .mjs (c.insert n v), false⟩) := by
      have h6 : pushAll env self ctx (.parseRoot ⟨.initial, lineState k c, true⟩)
        [.id "import".toList, .id n, .id "from".toList, .string s] =
        jsonPush env self ctx (.parseRoot ⟨.importIdFrom n, lineState .mjs c, false⟩) (.string s) >>=
          fun x => .ok x := by
        cases k <;> first | exact absurd rfl hk | rfl
      rw [h6]
      change (importModule env self ctx s >>= _) >>= _ = _
      rw [h1]
      rfl
    rw [this]
    exact h4
  | inConst b k n ts a hv =>
    intro ctx c hi hb
    have : pushAll env self ctx (.parseRoot ⟨.initial, lineState k c, true⟩)
        ([.id "const".toList, .id n, .equals] ++ ts) =
        pushAll env self ctx (.parseConst n (lineState .djs c)) ts := by
      cases k <;> rfl
    rw [this]
    exact const_halts hI hv ctx c n hi hb
  | inImport b k n s hk =>
    intro ctx c hi hb
    have h6 : pushAll env self ctx (.parseRoot ⟨.initial, lineState k c, true⟩)
      [.id "import".toList, .id n, .id "from".toList, .string s] =
      jsonPush env self ctx (.parseRoot ⟨.importIdFrom n, lineState .mjs c, false⟩) (.string s) >>=
        fun x => .ok x := by
      cases k <;> first | exact absurd rfl hk | rfl
    rw [h6]
    refine ⟨ctx, hi, fun q hq => ?_, fun c' e he => ?_⟩
    · change (importModule env self ctx s >>= _) >>= _ = _
      rw [hq]
      rfl
    · change (importModule env self ctx s >>= _) >>= _ = _
      rw [he]
      rfl
  | inExport b k ts s hk hv =>
    intro ctx c hi hb
    have := value_halts hI hv ctx c hi hb
    have h2 : pushAll env self ctx (.parseRoot ⟨.initial, lineState k c, true⟩)
        ([.id "export".toList, .id "default".toList] ++ ts) =
        pushAll env self ctx (.parseModule (lineState .mjs c)) ts := by
      cases k <;> first | exact absurd rfl hk | rfl
    rw [h2]
    exact this
  | inModule b k ts s hk hv =>
    intro ctx c hi hb
    have := value_halts hI hv ctx c hi hb
    have h2 : pushAll env self ctx (.parseRoot ⟨.initial, lineState k c, true⟩)
        ([.id "module".toList, .dot, .id "exports".toList, .equals] ++ ts) =
        pushAll env self ctx (.parseModule (lineState .cjs c)) ts := by
      cases k <;> first | exact absurd rfl hk | rfl
    rw [h2]
    exact this
  | inValue b k ts s hw hv =>
    intro ctx c hi hb
    have := value_halts hI hv ctx c hi hb
    have hne : nl ts ≠ [] := by
      intro e
      rw [BegunValue, show ts.filter (· ≠ .newLine) = [] from e] at hv
      generalize hg : ([] : List Token) = l at hv
      generalize hs : some s = o at hv
      cases hv <;> first | (cases hs; done) | (cases hg; done)
    have h2 : pushAll env self ctx (.parseRoot ⟨.initial, lineState k c, true⟩) ts =
        pushAll env self ctx (.parseModule (lineState k c)) ts := by
      clear this hv
      induction ts with
      | nil => simp at hne
      | cons t ts ih =>
        by_cases ht : t = .newLine
        · subst ht
          exact ih hw hne
        · simp only [pushAll]
          rw [line_value ctx ht (hw t (by simp [ht]))]
    rw [h2]
    exact this

/-! ## What is read is an unfinished module -/

/-- what the tokens that were read look like -/
def Stands (X b : Text → Prop) (I : Ctx → Prop) (k : DataType) (pre : List Token) (ctx : Ctx) :
    JState → Prop
  | .parseConst _ st => I ctx ∧ BegunModule X b k pre none ∧
      (st.status = .importValue → ∀ s, BegunModule X b k (pre ++ [.string s]) (some s))
  | .parseModule st => I ctx ∧
      (st.status = .importValue → ∀ s, BegunModule X b k (pre ++ [.string s]) (some s))
  | .parseRoot r => I ctx ∧
      ∀ id, r.status = .importIdFrom id → ∀ s, BegunModule X b k (pre ++ [.string s]) (some s)
  | .result _ _ => True
  | .error _ => True

theorem Stands.map {X b b' : Text → Prop} {k k' : DataType} {pre pre' : List Token}
    {ctx : Ctx} {j : JState} (h : Stands X b I k pre ctx j)
    (hm : ∀ ts a, BegunModule X b k (pre ++ ts) a → BegunModule X b' k' (pre' ++ ts) a) :
    Stands X b' I k' pre' ctx j := by
  cases j with
  | parseConst n st =>
    have := hm [] none
    rw [List.append_nil, List.append_nil] at this
    exact ⟨h.1, this h.2.1, fun e s => hm _ _ (h.2.2 e s)⟩
  | parseModule st => exact ⟨h.1, fun e s => hm _ _ (h.2 e s)⟩
  | parseRoot r => exact ⟨h.1, fun id e s => hm _ _ (h.2 id e s)⟩
  | _ => trivial

theorem error_stays {ctx ctx' : Ctx} {e : ParseError} {ts : List Token} {j : JState}
    (h : pushAll env self ctx (.error e) ts = .ok (ctx', j)) : j = .error e := by
  rw [pushAll_error] at h; cases h; rfl

theorem result_stays {ts : List Token} : ∀ {ctx ctx' : Ctx} {k : DataType} {v : Val} {j : JState},
    pushAll env self ctx (.result k v) ts = .ok (ctx', j) →
    (∃ e, j = .error e) ∨ j = .result k v := by
  induction ts with
  | nil => intro ctx ctx' k v j h; cases h; exact .inr rfl
  | cons t ts ih =>
    intro ctx ctx' k v j h
    by_cases ht : t = .newLine
    · subst ht
      exact ih h
    · rw [pushAll, jsonPush_eq ht] at h
      exact .inl ⟨_, error_stays h⟩

theorem module_stops {ts : List Token} : ∀ {ctx ctx' : Ctx} {st : AnyState} {j : JState},
    pushAll env self ctx (.parseModule st) ts = .ok (ctx', j) →
    (∃ e, j = .error e) ∨ (∃ k v, j = .result k v) ∨
    ∃ st', j = .parseModule st' ∧ anyRun env self ctx st (nl ts) = .ok (ctx', .cont st') := by
  induction ts with
  | nil => intro ctx ctx' st j h; cases h; exact .inr (.inr ⟨st, rfl, anyRun_nil _ _⟩)
  | cons t ts ih =>
    intro ctx ctx' st j h
    by_cases ht : t = .newLine
    · subst ht
      exact ih h
    · have : nl (t :: ts) = t :: nl ts := by simp [nl, ht]
      rw [this, anyRun_cons]
      rw [pushAll, jsonPush_eq ht] at h
      change (anyParse env self ctx st t >>= _) >>= _ = _ at h
      cases hp : anyParse env self ctx st t with
      | error e => rw [hp] at h; cases h
      | ok x =>
        rw [hp] at h
        obtain ⟨ctx1, r1⟩ := x
        change pushAll env self ctx1 (forModule r1) ts = _ at h
        change _ ∨ _ ∨ ∃ st', _ ∧ after env self ctx1 r1 (nl ts) = _
        cases r1 with
        | cont st1 => simp only [after_cont]; exact ih h
        | success st1 v1 =>
          rcases result_stays h with h | h
          · exact .inl h
          · exact .inr (.inl ⟨_, _, h⟩)
        | error e => exact .inl ⟨_, error_stays h⟩

theorem const_stops {key : Text} {ts : List Token} : ∀ {ctx ctx' : Ctx} {st : AnyState} {j : JState},
    pushAll env self ctx (.parseConst key st) ts = .ok (ctx', j) →
    (∃ e, j = .error e) ∨
    (∃ st', j = .parseConst key st' ∧ anyRun env self ctx st (nl ts) = .ok (ctx', .cont st')) ∨
    ∃ pre post ctx1 st1 v1, ts = pre ++ post ∧
      anyRun env self ctx st (nl pre) = .ok (ctx1, .success st1 v1) ∧
      pushAll env self ctx1
        (.parseRoot ⟨.initial, { st1 with consts := st1.consts.insert key v1 }, false⟩) post =
        .ok (ctx', j) := by
  induction ts with
  | nil => intro ctx ctx' st j h; cases h; exact .inr (.inl ⟨st, rfl, anyRun_nil _ _⟩)
  | cons t ts ih =>
    intro ctx ctx' st j h
    by_cases ht : t = .newLine
    · subst ht
      rcases ih h with h | h | ⟨pre, post, ctx1, st1, v1, h1, h2, h3⟩
      · exact .inl h
      · exact .inr (.inl h)
      · exact .inr (.inr ⟨.newLine :: pre, post, ctx1, st1, v1, by rw [h1]; rfl, h2, h3⟩)
    · rw [pushAll, jsonPush_eq ht] at h
      by_cases hs : t = .semicolon
      · subst hs; cases h
      simp only [constStateParse_eq hs] at h
      change (anyParse env self ctx st t >>= _) >>= _ = _ at h
      have hnl : ∀ ts, nl (t :: ts) = t :: nl ts := fun ts => by simp [nl, ht]
      cases hp : anyParse env self ctx st t with
      | error e => rw [hp] at h; cases h
      | ok x =>
        rw [hp] at h
        obtain ⟨ctx1, r1⟩ := x
        change pushAll env self ctx1 (constResult key r1) ts = _ at h
        cases r1 with
        | cont st1 =>
          rcases ih h with h | ⟨st', rfl, h6⟩ | ⟨pre, post, ctx2, st2, v2, h1, h2, h3⟩
          · exact .inl h
          · refine .inr (.inl ⟨st', rfl, ?_⟩)
            rw [hnl, anyRun_cons, hp]
            change after env self ctx1 (.cont st1) _ = _
            rw [after_cont, h6]
          · refine .inr (.inr ⟨t :: pre, post, ctx2, st2, v2, by rw [h1]; rfl, ?_, h3⟩)
            rw [hnl, anyRun_cons, hp]
            change after env self ctx1 (.cont st1) _ = _
            rw [after_cont, h2]
        | success st1 v1 =>
          refine .inr (.inr ⟨[t], ts, ctx1, st1, v1, rfl, ?_, h⟩)
          rw [hnl, anyRun_cons, hp]
          exact after_success _ _ _
        | error e => exact .inl ⟨_, error_stays h⟩

/-- a token that does not fit -/
theorem root_stays {r : RootState} {t : Token} {ts : List Token} {ctx ctx' : Ctx} {j : JState}
    {e : ParseError} (ht : r.parse ctx.next t = .ok ((.error e, none), ctx.next))
    (h : pushAll env self ctx (.parseRoot r) (t :: ts) = .ok (ctx', j)) : j = .error e := by
  have : jsonPush env self ctx (.parseRoot r) t = .ok (ctx, .error e) := by
    have h1 : jsonPush env self ctx (.parseRoot r) t = rootParse env self ctx r t := by
      cases t <;> rfl
    rw [h1, rootParse, ht]
    rfl
  rw [pushAll, this] at h
  exact error_stays h

/-- the parser has read nothing more, or has found an error, or `P` -/
inductive Reads (ctx ctx' : Ctx) (j : JState) (P : Prop) : Prop
  | failed (e) : j = .error e → Reads ctx ctx' j P
  | inside (r : RootState) : j = .parseRoot r → ctx' = ctx → (∀ id, r.status ≠ .importIdFrom id) →
    Reads ctx ctx' j P
  | done : P → Reads ctx ctx' j P

theorem Reads.stands {X b : Text → Prop} {k : DataType} {pre : List Token} {ctx ctx' : Ctx}
    {j : JState} {P : Prop} (h : Reads ctx ctx' j P) (hi : I ctx)
    (hP : P → Stands X b I k pre ctx' j) : Stands X b I k pre ctx' j := by
  cases h with
  | failed e h => subst h; trivial
  | inside r h1 h2 h3 => subst h1 h2; exact ⟨hi, fun id e => absurd e (h3 id)⟩
  | done h => exact hP h

theorem line_stops {st : AnyState} {ts : List Token} {ctx ctx' : Ctx} {j : JState}
    (h : pushAll env self ctx (.parseRoot ⟨.initial, st, false⟩) ts = .ok (ctx', j)) :
    Reads ctx ctx' j (∃ rest, ts = .newLine :: rest ∧
      pushAll env self ctx (.parseRoot ⟨.initial, st, true⟩) rest = .ok (ctx', j)) := by
  cases ts with
  | nil => cases h; exact .inside _ rfl rfl (by simp)
  | cons t ts =>
    by_cases ht : t = .newLine
    · subst ht
      exact .done ⟨ts, rfl, h⟩
    · refine .failed _ (root_stays (e := .newLineExpected) ?_ h)
      cases t <;> first | rfl | exact absurd rfl ht

theorem export_stops {st : AnyState} {b : Bool} {ts : List Token} {ctx ctx' : Ctx} {j : JState}
    (h : pushAll env self ctx (.parseRoot ⟨.export_, st, b⟩) ts = .ok (ctx', j)) :
    Reads ctx ctx' j (∃ rest, ts = .id "default".toList :: rest ∧
      pushAll env self ctx (.parseModule st) rest = .ok (ctx', j)) := by
  cases ts with
  | nil => cases h; exact .inside _ rfl rfl (by simp)
  | cons t ts =>
    by_cases ht : t = .id "default".toList
    · subst ht
      exact .done ⟨ts, rfl, h⟩
    · refine .failed _ (root_stays (e := .wrongExportStatement) ?_ h)
      cases t with
      | id s =>
        simp only [RootState.parse]
        rw [if_neg (fun e => ht (by rw [e]))]
      | _ => rfl

theorem module_head_stops {st : AnyState} {b : Bool} {ts : List Token} {ctx ctx' : Ctx} {j : JState}
    (h : pushAll env self ctx (.parseRoot ⟨.module, st, b⟩) ts = .ok (ctx', j)) :
    Reads ctx ctx' j (∃ rest, ts = .dot :: .id "exports".toList :: .equals :: rest ∧
      pushAll env self ctx (.parseModule st) rest = .ok (ctx', j)) := by
  cases ts with
  | nil => cases h; exact .inside _ rfl rfl (by simp)
  | cons t ts =>
    by_cases ht : t = .dot
    · subst ht
      replace h : pushAll env self ctx (.parseRoot ⟨.moduleDot, st, false⟩) ts = _ := h
      cases ts with
      | nil => cases h; exact .inside _ rfl rfl (by simp)
      | cons t ts =>
        by_cases ht : t = .id "exports".toList
        · subst ht
          replace h : pushAll env self ctx (.parseRoot ⟨.moduleDotExports, st, false⟩) ts = _ := h
          cases ts with
          | nil => cases h; exact .inside _ rfl rfl (by simp)
          | cons t ts =>
            by_cases ht : t = .equals
            · subst ht
              exact .done ⟨ts, rfl, h⟩
            · refine .failed _ (root_stays (e := .wrongExportStatement) ?_ h)
              cases t <;> first | rfl | exact absurd rfl ht
        · refine .failed _ (root_stays (e := .wrongExportStatement) ?_ h)
          cases t with
          | id s =>
            simp only [RootState.parse]
            rw [if_neg (fun e => ht (by rw [e]))]
          | _ => rfl
    · refine .failed _ (root_stays (e := .wrongExportStatement) ?_ h)
      cases t <;> first | rfl | exact absurd rfl ht

theorem const_head_stops {st : AnyState} {b : Bool} {ts : List Token} {ctx ctx' : Ctx} {j : JState}
    (h : pushAll env self ctx (.parseRoot ⟨.const_, st, b⟩) ts = .ok (ctx', j)) :
    Reads ctx ctx' j (∃ n rest, ts = .id n :: .equals :: rest ∧
      pushAll env self ctx (.parseConst n st) rest = .ok (ctx', j)) := by
  cases ts with
  | nil => cases h; exact .inside _ rfl rfl (by simp)
  | cons t ts =>
    cases t with
    | id n =>
      replace h : pushAll env self ctx (.parseRoot ⟨.constId n, st, false⟩) ts = _ := h
      cases ts with
      | nil => cases h; exact .inside _ rfl rfl (by simp)
      | cons t ts =>
        by_cases ht : t = .equals
        · subst ht
          exact .done ⟨n, ts, rfl, h⟩
        · refine .failed _ (root_stays (e := .wrongConstStatement) ?_ h)
          cases t <;> first | rfl | exact absurd rfl ht
    | _ => exact .failed _ (root_stays (e := .wrongConstStatement) rfl h)

theorem import_stops {st : AnyState} {b : Bool} {ts : List Token} {ctx ctx' : Ctx} {j : JState}
    (h : pushAll env self ctx (.parseRoot ⟨.import_, st, b⟩) ts = .ok (ctx', j)) :
    Reads ctx ctx' j
      ((∃ n r, ts = [.id n, .id "from".toList] ∧ ctx' = ctx ∧ j = .parseRoot r) ∨
      ∃ n s rest ctx1 v1, ts = .id n :: .id "from".toList :: .string s :: rest ∧
        importModule env self ctx s = .ok (ctx1, .ok v1) ∧
        pushAll env self ctx1
          (.parseRoot ⟨.initial, { st with consts := st.consts.insert n v1 }, false⟩) rest =
          .ok (ctx', j)) := by
  cases ts with
  | nil => cases h; exact .inside _ rfl rfl (by simp)
  | cons t ts =>
    cases t with
    | id n =>
      replace h : pushAll env self ctx (.parseRoot ⟨.importId n, st, false⟩) ts = _ := h
      cases ts with
      | nil => cases h; exact .inside _ rfl rfl (by simp)
      | cons t ts =>
        by_cases ht : t = .id "from".toList
        · subst ht
          replace h : pushAll env self ctx (.parseRoot ⟨.importIdFrom n, st, false⟩) ts = _ := h
          cases ts with
          | nil => cases h; exact .done (.inl ⟨n, _, rfl, rfl, rfl⟩)
          | cons t ts =>
            cases t with
            | string s =>
              rw [pushAll] at h
              change ((importModule env self ctx s) >>= _) >>= _ = _ at h
              cases hm : importModule env self ctx s with
              | error e => rw [hm] at h; cases h
              | ok x =>
                obtain ⟨ctx1, r⟩ := x
                rw [hm] at h
                cases r with
                | error e => exact .failed _ (error_stays h)
                | ok v1 => exact .done (.inr ⟨n, s, ts, ctx1, v1, rfl, hm, h⟩)
            | _ => exact .failed _ (root_stays (e := .wrongImportStatement) rfl h)
        · refine .failed _ (root_stays (e := .wrongImportStatement) ?_ h)
          cases t with
          | id s =>
            simp only [RootState.parse]
            rw [if_neg (fun e => ht (by rw [e]))]
          | _ => rfl
    | _ => exact .failed _ (root_stays (e := .wrongImportStatement) rfl h)

theorem module_stands (hI : OnlyLoad env self X I) (n : Nat) :
    ∀ ts : List Token, ts.length ≤ n → ∀ ctx ctx' k c j, I ctx →
      pushAll env self ctx (.parseRoot ⟨.initial, lineState k c, true⟩) ts = .ok (ctx', j) →
      Stands X (Names c) I k ts ctx' j := by
  have val : ∀ {k : DataType} {c : TMap Val} {ts : List Token} {ctx ctx' : Ctx} {j : JState}, I ctx →
      pushAll env self ctx (.parseModule (lineState k c)) ts = .ok (ctx', j) →
      (∃ e, j = .error e) ∨ (∃ k v, j = .result k v) ∨ ∃ st', j = .parseModule st' ∧ I ctx' ∧
        (st'.status = .importValue → ∀ s, BegunValue X (Names c) k (ts ++ [.string s]) (some s)) := by
    intro k c ts ctx ctx' j hi h
    rcases module_stops h with h | h | ⟨st', rfl, h6⟩
    · exact .inl h
    · exact .inr (.inl h)
    · have ho := idle_prefix hI (lineState_idle k c) hi h6
      refine .inr (.inr ⟨st', rfl, ho.ctx, fun e s => ?_⟩)
      have := ho.asks e s
      rw [BegunValue, List.filter_append]
      exact this
  induction n with
  | zero =>
    intro ts hl ctx ctx' k c j hi h
    rw [List.length_eq_zero_iff.1 (Nat.le_zero.1 hl)] at h
    cases h
    exact ⟨hi, fun id e => by cases e⟩
  | succ n ih =>
    intro ts hl ctx ctx' k c j hi h
    cases ts with
    | nil =>
      cases h
      exact ⟨hi, fun id e => by cases e⟩
    | cons t ts =>
      simp only [List.length_cons] at hl
      by_cases ht : t = .newLine
      · subst ht
        exact (ih ts (by omega) ctx ctx' k c j hi h).map fun ts a h => .newLine _ _ _ _ h
      by_cases hw : BeginsLine k t
      · rcases hw with rfl | ⟨rfl, hk⟩ | ⟨rfl, hk⟩ | ⟨rfl, hk⟩
        · replace h : pushAll env self ctx (.parseRoot ⟨.const_, lineState .djs c, false⟩) ts =
              .ok (ctx', j) := by
            rw [← h]; cases k <;> rfl
          refine (const_head_stops h).stands hi ?_
          rintro ⟨m, rest, rfl, h1⟩
          rcases const_stops h1 with ⟨e, rfl⟩ | ⟨st', rfl, h2⟩ | ⟨pre, post, ctx1, st1, v1, rfl, h2, h3⟩
          · trivial
          · have ho := idle_prefix hI (lineState_idle .djs c) hi h2
            refine ⟨ho.ctx, .inConst _ _ m rest none ho.begun, fun e s => ?_⟩
            refine .inConst _ _ m (rest ++ [.string s]) _ ?_
            have := ho.asks e s
            rw [BegunValue, List.filter_append]
            exact this
          · obtain ⟨k1, h4, h5, rfl⟩ := idle_decompose hI (lineState_idle _ c) hi h2
            refine (line_stops h3).stands h5 ?_
            rintro ⟨rest, rfl, h6⟩
            have := ih rest (by simp at hl; omega) ctx1 ctx' k1 (c.insert m v1) j h5 h6
            rw [names_insert] at this
            refine this.map fun ts a h => ?_
            have := BegunModule.const_ (Names c) k m pre k1 _ a h4 h
            simpa using this
        · replace h : pushAll env self ctx (.parseRoot ⟨.export_, lineState .mjs c, false⟩) ts =
              .ok (ctx', j) := by
            rw [← h]; cases k <;> first | exact absurd rfl hk | rfl
          refine (export_stops h).stands hi ?_
          rintro ⟨rest, rfl, h1⟩
          rcases val hi h1 with ⟨e, rfl⟩ | ⟨k, v, rfl⟩ | ⟨st', rfl, h2, h3⟩
          · trivial
          · trivial
          · exact ⟨h2, fun e s => .inExport _ _ _ _ hk (h3 e s)⟩
        · replace h : pushAll env self ctx (.parseRoot ⟨.module, lineState .cjs c, false⟩) ts =
              .ok (ctx', j) := by
            rw [← h]; cases k <;> first | exact absurd rfl hk | rfl
          refine (module_head_stops h).stands hi ?_
          rintro ⟨rest, rfl, h1⟩
          rcases val hi h1 with ⟨e, rfl⟩ | ⟨k, v, rfl⟩ | ⟨st', rfl, h2, h3⟩
          · trivial
          · trivial
          · exact ⟨h2, fun e s => .inModule _ _ _ _ hk (h3 e s)⟩
        · replace h : pushAll env self ctx (.parseRoot ⟨.import_, lineState .mjs c, false⟩) ts =
              .ok (ctx', j) := by
            rw [← h]; cases k <;> first | exact absurd rfl hk | rfl
          refine (import_stops h).stands hi ?_
          rintro (⟨m, r, rfl, rfl, rfl⟩ | ⟨m, s, rest, ctx1, v1, rfl, h1, h2⟩)
          · exact ⟨hi, fun id _ s => .inImport _ _ m s hk⟩
          · obtain ⟨hx, hi1⟩ := hI.sound _ _ _ _ hi h1
            refine (line_stops h2).stands hi1 ?_
            rintro ⟨rest, rfl, h3⟩
            have := ih rest (by simp at hl; omega) ctx1 ctx' .mjs (c.insert m v1) j hi1 h3
            rw [names_insert] at this
            exact this.map fun ts a h => .import_ _ _ _ _ _ _ hk hx h
      · have : pushAll env self ctx (.parseModule (lineState k c)) (t :: ts) = .ok (ctx', j) := by
          rw [← h]
          simp only [pushAll]
          rw [line_value ctx ht hw]
        rcases val hi this with ⟨e, rfl⟩ | ⟨k, v, rfl⟩ | ⟨st', rfl, h2, h3⟩
        · trivial
        · trivial
        · refine ⟨h2, fun e s => .inValue _ _ _ _ ?_ (h3 e s)⟩
          intro t' ht'
          simp [ht] at ht'
          rw [← ht']
          exact hw

/-! ## Where the parser stops -/

theorem pushAll_stop {ts : List Token} : ∀ {ctx : Ctx} {j : JState} {e : Err},
    pushAll env self ctx j ts = .error e →
    ∃ pre t rest ctx1 j1, ts = pre ++ t :: rest ∧ pushAll env self ctx j pre = .ok (ctx1, j1) ∧
      jsonPush env self ctx1 j1 t = .error e := by
  induction ts with
  | nil => intro ctx j e h; cases h
  | cons t ts ih =>
    intro ctx j e h
    simp only [pushAll] at h
    cases hj : jsonPush env self ctx j t with
    | error e' =>
      rw [hj] at h
      cases h
      exact ⟨[], t, ts, ctx, j, rfl, rfl, hj⟩
    | ok x =>
      obtain ⟨ctx1, j1⟩ := x
      rw [hj] at h
      obtain ⟨pre, t', rest, ctx2, j2, h1, h2, h3⟩ := ih (show pushAll env self ctx1 j1 ts = _ from h)
      refine ⟨t :: pre, t', rest, ctx2, j2, by rw [h1]; rfl, ?_, h3⟩
      simp only [pushAll]
      rw [hj]
      exact h2

theorem pushAll_inv {ts : List Token} : ∀ {ctx ctx' : Ctx} {j j' : JState},
    pushAll env self ctx j ts = .ok (ctx', j') → JInv (fun _ _ => True) j →
    JInv (fun _ _ => True) j' := by
  induction ts with
  | nil => intro ctx ctx' j j' h hj; cases h; exact hj
  | cons t ts ih =>
    intro ctx ctx' j j' h hj
    simp only [pushAll] at h
    obtain ⟨⟨ctx1, j1⟩, h1, h2⟩ := bind_eq_ok.1 h
    exact ih h2 (jsonPush_step hj h1 (fun _ _ _ => trivial)).1.1

theorem anyParse_stop {M : Text → Val → Prop} {st : AnyState} {T : List Token} (h : St M st T)
    {ctx : Ctx} {t : Token} {e : Err} (hp : anyParse env self ctx st t = .error e) :
    st.status = .importValue ∧ ∃ s, t = .string s ∧ importModule env self ctx s = .error e := by
  by_cases hs : st.status = .importValue
  · refine ⟨hs, ?_⟩
    rw [anyParse_import hs] at hp
    unfold importValue at hp
    split at hp
    next s =>
      refine ⟨s, rfl, ?_⟩
      cases hi : importModule env self ctx s with
      | error e' => rw [hi] at hp; cases hp; rfl
      | ok x =>
        obtain ⟨ctx1, x⟩ := x
        rw [hi] at hp
        cases x <;> cases hp
    next => cases hp
  · obtain ⟨r', n, hr, -⟩ := anyParse_plain (env := env) (self := self) h hs ctx t
    rw [hr] at hp
    cases hp

theorem rootParse_stop {r : RootState} (h : Idle r.state) {ctx : Ctx} {t : Token} {e : Err}
    (hp : rootParse env self ctx r t = .error e) :
    (∃ id, r.status = .importIdFrom id) ∧ ∃ s, t = .string s ∧
      importModule env self ctx s = .error e := by
  obtain ⟨j, imp, n', hr, hcase⟩ := root_parse_step (M := fun _ _ => True) h ctx.next t
  simp only [rootParse, hr] at hp
  rcases hcase with ⟨rfl, hstep⟩ | ⟨id, s, rfl, rfl, hst, rfl, rfl⟩
  · cases hp
  · change (importModule env self ctx s >>= _) = _ at hp
    refine ⟨⟨id, hst⟩, s, rfl, ?_⟩
    cases hi : importModule env self ctx s with
    | error e' => rw [hi] at hp; cases hp; rfl
    | ok x =>
      obtain ⟨ctx1, x⟩ := x
      rw [hi] at hp
      cases x <;> cases hp

/-- the parser stops at a semicolon in a constant or at the name of a module -/
theorem module_stop (hI : OnlyLoad env self X I) {ts : List Token} {ctx : Ctx} {k : DataType}
    {c : TMap Val} {e : Err} (hi : I ctx)
    (h : pushAll env self ctx (.parseRoot ⟨.initial, lineState k c, true⟩) ts = .error e) :
    (∃ pre rest, ts = pre ++ .semicolon :: rest ∧ BegunModule X (Names c) k pre none) ∨
    ∃ pre rest s ctx1, ts = pre ++ rest ∧ BegunModule X (Names c) k pre (some s) ∧ I ctx1 ∧
      importModule env self ctx1 s = .error e := by
  obtain ⟨pre, t, rest, ctx1, j1, rfl, h1, h2⟩ := pushAll_stop h
  have hs := module_stands hI pre.length pre le_rfl ctx ctx1 k c j1 hi h1
  have hv := pushAll_inv h1 (show Idle (lineState k c) from lineState_idle k c)
  have found : ∀ s, t = .string s → importModule env self ctx1 s = .error e → I ctx1 →
      BegunModule X (Names c) k (pre ++ [.string s]) (some s) →
      ∃ pre' rest' s ctx1, pre ++ t :: rest = pre' ++ rest' ∧
        BegunModule X (Names c) k pre' (some s) ∧ I ctx1 ∧
        importModule env self ctx1 s = .error e := by
    rintro s rfl h1 h2 h3
    exact ⟨_, rest, s, ctx1, by simp, h3, h2, h1⟩
  by_cases hnl : t = .newLine
  · subst hnl
    cases j1 with
    | parseRoot r =>
      obtain ⟨-, s, h3, -⟩ := rootParse_stop hv h2
      cases h3
    | _ => cases h2
  · rw [jsonPush_eq hnl] at h2
    cases j1 with
    | parseRoot r =>
      obtain ⟨⟨id, h3⟩, s, h4, h5⟩ := rootParse_stop hv h2
      exact .inr (found s h4 h5 hs.1 (hs.2 id h3 s))
    | result dt v => cases h2
    | error e => cases h2
    | parseModule st =>
      simp only [moduleParse] at h2
      obtain ⟨T, hT⟩ := hv
      cases ha : anyParse env self ctx1 st t with
      | error e' =>
        rw [ha] at h2; cases h2
        obtain ⟨h3, s, h4, h5⟩ := anyParse_stop hT ha
        exact .inr (found s h4 h5 hs.1 (hs.2 h3 s))
      | ok x => rw [ha] at h2; cases h2
    | parseConst n st =>
      by_cases hsc : t = .semicolon
      · subst hsc
        exact .inl ⟨pre, rest, rfl, hs.2.1⟩
      · simp only [constStateParse_eq hsc] at h2
        obtain ⟨T, hT⟩ := hv
        cases ha : anyParse env self ctx1 st t with
        | error e' =>
          rw [ha] at h2; cases h2
          obtain ⟨h3, s, h4, h5⟩ := anyParse_stop hT ha
          exact .inr (found s h4 h5 hs.1 (hs.2.2 h3 s))
        | ok x => rw [ha] at h2; cases h2

end Parser
end Nanvm
