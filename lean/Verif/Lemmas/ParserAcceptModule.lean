import Verif.Lemmas.ParserAccept
/-!
# The parser accepts exactly the modules of `Spec/Accepts.lean`
-/
namespace Nanvm
namespace Parser
open Tok Grammar
open Ser (bind_eq_ok)

variable {env : Env} {self : ParseTokens} {X : Text → Prop} {I : Ctx → Prop}

/-- a line begins -/
def lineState (k : DataType) (c : TMap Val) : AnyState := ⟨k, .initial, .none, [], c⟩

theorem lineState_idle (k : DataType) (c : TMap Val) : Idle (lineState k c) := ⟨rfl, rfl, rfl⟩

/-- the names in a map -/
def Names (c : TMap Val) (n : Text) : Prop := ∃ v, c.get n = some v

theorem names_insert (c : TMap Val) (n : Text) (v : Val) :
    Names (c.insert n v) = fun m => m = n ∨ Names c m := by
  funext m
  rw [Names, consts_insert]
  simp only [withConst, eq_iff_iff]
  by_cases h : m = n
  · simp [h]
  · simp [h, Names]

/-- the first token of a plain value -/
theorem line_value {k : DataType} {c : TMap Val} (ctx : Ctx) {t : Token} (h0 : t ≠ .newLine)
    (h : ¬ BeginsLine k t) :
    jsonPush env self ctx (.parseRoot ⟨.initial, lineState k c, true⟩) t =
      jsonPush env self ctx (.parseModule (lineState k c)) t := by
  have hst := lineState_idle k c
  generalize hg : lineState k c = st at *
  have hk : st.dataType = k := by rw [← hg]; rfl
  rw [jsonPush_eq h0, jsonPush_eq h0]
  simp only
  have hm : moduleParse env self ctx st t =
      parseValue ctx.next st t >>= fun r => .ok ({ ctx with next := r.2 }, forModule r.1) := by
    simp only [moduleParse, anyParse, dispatch, hst.1]
    cases parseValue ctx.next st t <;> rfl
  have hr : RootState.parse ctx.next ⟨.initial, st, true⟩ t =
      parseValue ctx.next st t >>= fun r => .ok ((forModule r.1, none), r.2) := by
    have hv : (do
        let ((j, _), n) ← parseForModule ctx.next st t
        return ((j, (none : Option (Text × Text))), n)) =
        (parseValue ctx.next st t >>= fun r => .ok ((forModule r.1, none), r.2) :
          Res ((JState × Option (Text × Text)) × Nat)) := by
      simp only [parseForModule, AnyState.parse, dispatch, hst.1]
      cases parseValue ctx.next st t <;> rfl
    rw [← hv]
    cases t <;> simp only [RootState.parse, if_true] <;> try rfl
    · rename_i s
      have h1 : s ≠ "const".toList := fun e => h (.inl (by rw [e]))
      have h2 : ¬ (s = "export".toList ∧ st.dataType.mjsCompatible = true) := by
        rintro ⟨rfl, hc⟩
        refine h (.inr (.inl ⟨rfl, fun e => ?_⟩))
        rw [hk, e] at hc; cases hc
      have h3 : ¬ (s = "module".toList ∧ st.dataType.cjsCompatible = true) := by
        rintro ⟨rfl, hc⟩
        refine h (.inr (.inr (.inl ⟨rfl, fun e => ?_⟩)))
        rw [hk, e] at hc; cases hc
      have h4 : ¬ (s = "import".toList ∧ st.dataType.mjsCompatible = true) := by
        rintro ⟨rfl, hc⟩
        refine h (.inr (.inr (.inr ⟨rfl, fun e => ?_⟩)))
        rw [hk, e] at hc; cases hc
      rw [if_neg h1, if_neg h2, if_neg h3, if_neg h4]
    · exact absurd rfl h0
  rw [hm, rootParse, hr]
  cases parseValue ctx.next st t <;> rfl

/-! ## Modules of the grammar are accepted -/

theorem accepted_no_semicolon {b : Text → Prop} {part : Part} {k k' : DataType} {ts : List Token}
    (h : Accepted X b part k ts k') : .semicolon ∉ ts := by
  induction h with
  | lastMember f k t x k' hk _ ih =>
    have : t ≠ .semicolon := by
      rcases hk with ⟨s, rfl⟩ | ⟨-, -, s, rfl⟩ <;> simp
    simp [ih, this.symm]
  | member f k t x k1 ts k' hk _ _ ih1 ih2 =>
    have : t ≠ .semicolon := by
      rcases hk with ⟨s, rfl⟩ | ⟨-, -, s, rfl⟩ <;> simp
    simp [ih1, ih2, this.symm]
  | _ => simp_all

theorem accepted_ne_nil {b : Text → Prop} {part : Part} {k k' : DataType} {ts : List Token}
    (h : Accepted X b part k ts k') : ts ≠ [] := by
  cases h <;> simp

theorem module_accepted (hI : CanLoad env self X I) {b : Text → Prop} {k k' : DataType}
    {ts : List Token} (h : AcceptedModule X b k ts k') :
    ∀ ctx c, I ctx → (∀ n, b n → Names c n) → ∃ ctx' v, I ctx' ∧
      pushAll env self ctx (.parseRoot ⟨.initial, lineState k c, true⟩) ts =
        .ok (ctx', .result k' v) := by
  have val : ∀ {b : Text → Prop} {k k' : DataType} {ts : List Token}, AcceptedValue X b k ts k' →
      ∀ ctx c, I ctx → (∀ n, b n → Names c n) → ∃ ctx' v, I ctx' ∧
        pushAll env self ctx (.parseModule (lineState k c)) ts = .ok (ctx', .result k' v) := by
    intro b k k' ts h ctx c hi hb
    obtain ⟨ctx', v, h1, h2⟩ := idle_accepted (st := lineState k c) hI (lineState_idle k c) hi hb h
    exact ⟨ctx', v, h1, module_run h2⟩
  induction h with
  | newLine b k ts k' _ ih => exact fun ctx c hi hb => ih ctx c hi hb
  | const_ b k n ts k1 rest k' hv _ ih =>
    intro ctx c hi hb
    obtain ⟨ctx1, v, h1, h2⟩ := idle_accepted (st := lineState .djs c) hI (lineState_idle _ c) hi hb hv
    have hsemi : .semicolon ∉ ts := by
      intro hs
      exact accepted_no_semicolon hv (List.mem_filter.2 ⟨hs, by simp⟩)
    obtain ⟨nlb, h3⟩ := (const_run (key := n) hsemi h2).1 _ _ rfl
    obtain ⟨ctx2, v2, h4, h5⟩ := ih ctx1 (c.insert n v) h1 (by
      rw [names_insert]
      exact fun m hm => hm.imp id (hb m))
    refine ⟨ctx2, v2, h4, ?_⟩
    have : pushAll env self ctx (.parseRoot ⟨.initial, lineState k c, true⟩)
        ([.id "const".toList, .id n, .equals] ++ (ts ++ .newLine :: rest)) =
        pushAll env self ctx (.parseConst n (lineState .djs c)) (ts ++ .newLine :: rest) := by
      cases k <;> rfl
    rw [this, pushAll_append, h3]
    exact h5
  | import_ b k n s rest k' hk hx _ ih =>
    intro ctx c hi hb
    obtain ⟨ctx1, v, h1, h2⟩ := hI.loads ctx s hi hx
    obtain ⟨ctx2, v2, h4, h5⟩ := ih ctx1 (c.insert n v) h2 (by
      rw [names_insert]
      exact fun m hm => hm.imp id (hb m))
    refine ⟨ctx2, v2, h4, ?_⟩
    rw [pushAll_append]
    have : pushAll env self ctx (.parseRoot ⟨.initial, lineState k c, true⟩)
        [.id "import".toList, .id n, .id "from".toList, .string s] =
        .ok (ctx1, .parseRoot ⟨.initial, lineState .mjs (c.insert n v), false⟩) := by
      have h6 : pushAll env self ctx (.parseRoot ⟨.initial, lineState k c, true⟩)
        [.id "import".toList, .id n, .id "from".toList, .string s] =
        jsonPush env self ctx (.parseRoot ⟨.importIdFrom n, lineState .mjs c, false⟩) (.string s) >>=
          fun x => .ok x := by
        cases k <;> first | exact absurd rfl hk | rfl
      rw [h6]
      change (importModule env self ctx s >>= _) >>= _ = _
      rw [h1]
      rfl
    rw [this]
    exact h5
  | exportDefault b k ts k' hk hv =>
    intro ctx c hi hb
    obtain ⟨ctx', v, h1, h2⟩ := val hv ctx c hi hb
    refine ⟨ctx', v, h1, ?_⟩
    rw [← h2]
    cases k <;> first | exact absurd rfl hk | rfl
  | moduleExports b k ts k' hk hv =>
    intro ctx c hi hb
    obtain ⟨ctx', v, h1, h2⟩ := val hv ctx c hi hb
    refine ⟨ctx', v, h1, ?_⟩
    rw [← h2]
    cases k <;> first | exact absurd rfl hk | rfl
  | value b k ts k' hw hv =>
    intro ctx c hi hb
    obtain ⟨ctx', v, h1, h2⟩ := val hv ctx c hi hb
    refine ⟨ctx', v, h1, ?_⟩
    rw [← h2]
    have hne := accepted_ne_nil hv
    clear h2 hv
    induction ts with
    | nil => simp at hne
    | cons t ts ih =>
      by_cases ht : t = .newLine
      · subst ht
        exact ih hw hne
      · simp only [pushAll]
        rw [line_value ctx ht (hw t (by simp [ht]))]

/-! ## Accepted modules are in the grammar -/

theorem not_result_error {ctx ctx' : Ctx} {e : ParseError} {ts : List Token} {k : DataType} {v : Val}
    (h : pushAll env self ctx (.error e) ts = .ok (ctx', .result k v)) : False := by
  rw [pushAll_error] at h; cases h

theorem after_result {ts : List Token} : ∀ {ctx ctx' : Ctx} {k k' : DataType} {v v' : Val},
    pushAll env self ctx (.result k v) ts = .ok (ctx', .result k' v') →
    nl ts = [] ∧ ctx' = ctx ∧ k' = k ∧ v' = v := by
  induction ts with
  | nil => intro ctx ctx' k k' v v' h; cases h; simp [nl]
  | cons t ts ih =>
    intro ctx ctx' k k' v v' h
    by_cases ht : t = .newLine
    · subst ht
      exact ih h
    · rw [pushAll, jsonPush_eq ht] at h
      exact (not_result_error h).elim

theorem module_read {ts : List Token} : ∀ {ctx ctx' : Ctx} {st : AnyState} {k : DataType} {v : Val},
    pushAll env self ctx (.parseModule st) ts = .ok (ctx', .result k v) →
    ∃ st', anyRun env self ctx st (nl ts) = .ok (ctx', .success st' v) ∧ k = st'.dataType := by
  induction ts with
  | nil => intro ctx ctx' st k v h; cases h
  | cons t ts ih =>
    intro ctx ctx' st k v h
    by_cases ht : t = .newLine
    · subst ht
      exact ih h
    · have : nl (t :: ts) = t :: nl ts := by simp [nl, ht]
      rw [this, anyRun_cons]
      rw [pushAll, jsonPush_eq ht] at h
      change (anyParse env self ctx st t >>= _) >>= _ = _ at h
      cases hp : anyParse env self ctx st t with
      | error e => rw [hp] at h; cases h
      | ok x =>
        rw [hp] at h
        obtain ⟨ctx1, r1⟩ := x
        change pushAll env self ctx1 (forModule r1) ts = _ at h
        change ∃ st', after env self ctx1 r1 (nl ts) = _ ∧ _
        cases r1 with
        | cont st1 => rw [after_cont]; exact ih h
        | success st1 v1 =>
          obtain ⟨h1, rfl, rfl, rfl⟩ := after_result h
          rw [h1, after_success]
          exact ⟨_, rfl, rfl⟩
        | error e => exact (not_result_error h).elim

theorem const_read {key : Text} {ts : List Token} :
    ∀ {ctx ctx' : Ctx} {st : AnyState} {k : DataType} {v : Val},
    pushAll env self ctx (.parseConst key st) ts = .ok (ctx', .result k v) →
    ∃ pre post ctx1 st1 v1, ts = pre ++ post ∧
      anyRun env self ctx st (nl pre) = .ok (ctx1, .success st1 v1) ∧
      pushAll env self ctx1
        (.parseRoot ⟨.initial, { st1 with consts := st1.consts.insert key v1 }, false⟩) post =
        .ok (ctx', .result k v) := by
  induction ts with
  | nil => intro ctx ctx' st k v h; cases h
  | cons t ts ih =>
    intro ctx ctx' st k v h
    by_cases ht : t = .newLine
    · subst ht
      obtain ⟨pre, post, ctx1, st1, v1, h1, h2, h3⟩ := ih h
      exact ⟨.newLine :: pre, post, ctx1, st1, v1, by rw [h1]; rfl, h2, h3⟩
    · rw [pushAll, jsonPush_eq ht] at h
      by_cases hs : t = .semicolon
      · subst hs; cases h
      simp only [constStateParse_eq hs] at h
      change (anyParse env self ctx st t >>= _) >>= _ = _ at h
      cases hp : anyParse env self ctx st t with
      | error e => rw [hp] at h; cases h
      | ok x =>
        rw [hp] at h
        obtain ⟨ctx1, r1⟩ := x
        change pushAll env self ctx1 (constResult key r1) ts = _ at h
        cases r1 with
        | cont st1 =>
          obtain ⟨pre, post, ctx2, st2, v2, h1, h2, h3⟩ := ih h
          refine ⟨t :: pre, post, ctx2, st2, v2, by rw [h1]; rfl, ?_, h3⟩
          have : nl (t :: pre) = t :: nl pre := by simp [nl, ht]
          rw [this, anyRun_cons, hp]
          change after env self ctx1 (.cont st1) _ = _
          rw [after_cont, h2]
        | success st1 v1 =>
          refine ⟨[t], ts, ctx1, st1, v1, rfl, ?_, h⟩
          have : nl [t] = [t] := by simp [nl, ht]
          rw [this, anyRun_cons, hp]
          exact after_success _ _ _
        | error e => exact (not_result_error h).elim

/-- one token of a line of which the first word is known -/
theorem root_token {r : RootState} {t : Token} {ts : List Token} {ctx ctx' : Ctx} {k : DataType}
    {v : Val} {e : ParseError} (ht : r.parse ctx.next t = .ok ((.error e, none), ctx.next))
    (h : pushAll env self ctx (.parseRoot r) (t :: ts) = .ok (ctx', .result k v)) : False := by
  have : jsonPush env self ctx (.parseRoot r) t = .ok (ctx, .error e) := by
    have h1 : jsonPush env self ctx (.parseRoot r) t = rootParse env self ctx r t := by
      cases t <;> rfl
    rw [h1, rootParse, ht]
    rfl
  rw [pushAll, this] at h
  exact not_result_error h

/-- a line break is needed -/
theorem line_end {st : AnyState} {ts : List Token} {ctx ctx' : Ctx} {k : DataType} {v : Val}
    (h : pushAll env self ctx (.parseRoot ⟨.initial, st, false⟩) ts = .ok (ctx', .result k v)) :
    ∃ rest, ts = .newLine :: rest ∧
      pushAll env self ctx (.parseRoot ⟨.initial, st, true⟩) rest = .ok (ctx', .result k v) := by
  cases ts with
  | nil => cases h
  | cons t ts =>
    by_cases ht : t = .newLine
    · subst ht
      exact ⟨ts, rfl, h⟩
    · refine (root_token (e := .newLineExpected) ?_ h).elim
      cases t <;> first | rfl | exact absurd rfl ht

theorem export_read {st : AnyState} {b : Bool} {ts : List Token} {ctx ctx' : Ctx} {k : DataType}
    {v : Val}
    (h : pushAll env self ctx (.parseRoot ⟨.export_, st, b⟩) ts = .ok (ctx', .result k v)) :
    ∃ rest, ts = .id "default".toList :: rest ∧
      pushAll env self ctx (.parseModule st) rest = .ok (ctx', .result k v) := by
  cases ts with
  | nil => cases h
  | cons t ts =>
    by_cases ht : t = .id "default".toList
    · subst ht
      exact ⟨ts, rfl, h⟩
    · refine (root_token (e := .wrongExportStatement) ?_ h).elim
      cases t with
      | id s =>
        simp only [RootState.parse]
        rw [if_neg (fun e => ht (by rw [e]))]
      | _ => rfl

theorem module_head_read {st : AnyState} {b : Bool} {ts : List Token} {ctx ctx' : Ctx} {k : DataType}
    {v : Val}
    (h : pushAll env self ctx (.parseRoot ⟨.module, st, b⟩) ts = .ok (ctx', .result k v)) :
    ∃ rest, ts = .dot :: .id "exports".toList :: .equals :: rest ∧
      pushAll env self ctx (.parseModule st) rest = .ok (ctx', .result k v) := by
  cases ts with
  | nil => cases h
  | cons t ts =>
    by_cases ht : t = .dot
    · subst ht
      replace h : pushAll env self ctx (.parseRoot ⟨.moduleDot, st, false⟩) ts = _ := h
      cases ts with
      | nil => cases h
      | cons t ts =>
        by_cases ht : t = .id "exports".toList
        · subst ht
          replace h : pushAll env self ctx (.parseRoot ⟨.moduleDotExports, st, false⟩) ts = _ := h
          cases ts with
          | nil => cases h
          | cons t ts =>
            by_cases ht : t = .equals
            · subst ht
              exact ⟨ts, rfl, h⟩
            · refine (root_token (e := .wrongExportStatement) ?_ h).elim
              cases t <;> first | rfl | exact absurd rfl ht
        · refine (root_token (e := .wrongExportStatement) ?_ h).elim
          cases t with
          | id s =>
            simp only [RootState.parse]
            rw [if_neg (fun e => ht (by rw [e]))]
          | _ => rfl
    · refine (root_token (e := .wrongExportStatement) ?_ h).elim
      cases t <;> first | rfl | exact absurd rfl ht

theorem const_head_read {st : AnyState} {b : Bool} {ts : List Token} {ctx ctx' : Ctx} {k : DataType}
    {v : Val}
    (h : pushAll env self ctx (.parseRoot ⟨.const_, st, b⟩) ts = .ok (ctx', .result k v)) :
    ∃ n rest, ts = .id n :: .equals :: rest ∧
      pushAll env self ctx (.parseConst n st) rest = .ok (ctx', .result k v) := by
  cases ts with
  | nil => cases h
  | cons t ts =>
    cases t with
    | id n =>
      replace h : pushAll env self ctx (.parseRoot ⟨.constId n, st, false⟩) ts = _ := h
      cases ts with
      | nil => cases h
      | cons t ts =>
        by_cases ht : t = .equals
        · subst ht
          exact ⟨n, ts, rfl, h⟩
        · refine (root_token (e := .wrongConstStatement) ?_ h).elim
          cases t <;> first | rfl | exact absurd rfl ht
    | _ => exact (root_token (e := .wrongConstStatement) rfl h).elim

theorem import_read {st : AnyState} {b : Bool} {ts : List Token} {ctx ctx' : Ctx} {k : DataType}
    {v : Val}
    (h : pushAll env self ctx (.parseRoot ⟨.import_, st, b⟩) ts = .ok (ctx', .result k v)) :
    ∃ n s rest ctx1 v1, ts = .id n :: .id "from".toList :: .string s :: rest ∧
      importModule env self ctx s = .ok (ctx1, .ok v1) ∧
      pushAll env self ctx1
        (.parseRoot ⟨.initial, { st with consts := st.consts.insert n v1 }, false⟩) rest =
        .ok (ctx', .result k v) := by
  cases ts with
  | nil => cases h
  | cons t ts =>
    cases t with
    | id n =>
      replace h : pushAll env self ctx (.parseRoot ⟨.importId n, st, false⟩) ts = _ := h
      cases ts with
      | nil => cases h
      | cons t ts =>
        by_cases ht : t = .id "from".toList
        · subst ht
          replace h : pushAll env self ctx (.parseRoot ⟨.importIdFrom n, st, false⟩) ts = _ := h
          cases ts with
          | nil => cases h
          | cons t ts =>
            cases t with
            | string s =>
              rw [pushAll] at h
              change ((importModule env self ctx s) >>= _) >>= _ = _ at h
              cases hm : importModule env self ctx s with
              | error e => rw [hm] at h; cases h
              | ok x =>
                obtain ⟨ctx1, r⟩ := x
                rw [hm] at h
                cases r with
                | error e => exact (not_result_error h).elim
                | ok v1 => exact ⟨n, s, ts, ctx1, v1, rfl, hm, h⟩
            | _ => exact (root_token (e := .wrongImportStatement) rfl h).elim
        · refine (root_token (e := .wrongImportStatement) ?_ h).elim
          cases t with
          | id s =>
            simp only [RootState.parse]
            rw [if_neg (fun e => ht (by rw [e]))]
          | _ => rfl
    | _ => exact (root_token (e := .wrongImportStatement) rfl h).elim

theorem module_in_grammar (hI : OnlyLoad env self X I) (n : Nat) :
    ∀ ts : List Token, ts.length ≤ n → ∀ ctx ctx' k c k' v, I ctx →
      pushAll env self ctx (.parseRoot ⟨.initial, lineState k c, true⟩) ts =
        .ok (ctx', .result k' v) → AcceptedModule X (Names c) k ts k' ∧ I ctx' := by
  have val : ∀ {k k' : DataType} {c : TMap Val} {ts : List Token} {ctx ctx' : Ctx} {v : Val}, I ctx →
      pushAll env self ctx (.parseModule (lineState k c)) ts = .ok (ctx', .result k' v) →
      AcceptedValue X (Names c) k ts k' ∧ I ctx' := by
    intro k k' c ts ctx ctx' v hi h
    obtain ⟨st', h1, rfl⟩ := module_read h
    obtain ⟨k1, h2, h3, rfl⟩ := idle_decompose hI (lineState_idle k c) hi h1
    exact ⟨h2, h3⟩
  induction n with
  | zero =>
    intro ts hl ctx ctx' k c k' v hi h
    rw [List.length_eq_zero_iff.1 (Nat.le_zero.1 hl)] at h
    cases h
  | succ n ih =>
    intro ts hl ctx ctx' k c k' v hi h
    cases ts with
    | nil => cases h
    | cons t ts =>
      simp only [List.length_cons] at hl
      by_cases ht : t = .newLine
      · subst ht
        obtain ⟨h1, h2⟩ := ih ts (by omega) ctx ctx' k c k' v hi h
        exact ⟨.newLine _ _ _ _ h1, h2⟩
      by_cases hw : BeginsLine k t
      · rcases hw with rfl | ⟨rfl, hk⟩ | ⟨rfl, hk⟩ | ⟨rfl, hk⟩
        · replace h : pushAll env self ctx (.parseRoot ⟨.const_, lineState .djs c, false⟩) ts =
              .ok (ctx', .result k' v) := by
            rw [← h]; cases k <;> rfl
          obtain ⟨m, rest, rfl, h1⟩ := const_head_read h
          obtain ⟨pre, post, ctx1, st1, v1, rfl, h2, h3⟩ := const_read h1
          obtain ⟨k1, h4, h5, rfl⟩ := idle_decompose hI (lineState_idle _ c) hi h2
          obtain ⟨rest, rfl, h6⟩ := line_end h3
          obtain ⟨h7, h8⟩ := ih rest (by simp at hl; omega) ctx1 ctx' k1 (c.insert m v1) k' v h5 h6
          rw [names_insert] at h7
          exact ⟨.const_ _ _ _ _ _ _ _ h4 h7, h8⟩
        · replace h : pushAll env self ctx (.parseRoot ⟨.export_, lineState .mjs c, false⟩) ts =
              .ok (ctx', .result k' v) := by
            rw [← h]; cases k <;> first | exact absurd rfl hk | rfl
          obtain ⟨rest, rfl, h1⟩ := export_read h
          obtain ⟨h2, h3⟩ := val hi h1
          exact ⟨.exportDefault _ _ _ _ hk h2, h3⟩
        · replace h : pushAll env self ctx (.parseRoot ⟨.module, lineState .cjs c, false⟩) ts =
              .ok (ctx', .result k' v) := by
            rw [← h]; cases k <;> first | exact absurd rfl hk | rfl
          obtain ⟨rest, rfl, h1⟩ := module_head_read h
          obtain ⟨h2, h3⟩ := val hi h1
          exact ⟨.moduleExports _ _ _ _ hk h2, h3⟩
        · replace h : pushAll env self ctx (.parseRoot ⟨.import_, lineState .mjs c, false⟩) ts =
              .ok (ctx', .result k' v) := by
            rw [← h]; cases k <;> first | exact absurd rfl hk | rfl
          obtain ⟨m, s, rest, ctx1, v1, rfl, h1, h2⟩ := import_read h
          obtain ⟨hx, hi1⟩ := hI.sound _ _ _ _ hi h1
          obtain ⟨rest, rfl, h3⟩ := line_end h2
          obtain ⟨h7, h8⟩ := ih rest (by simp at hl; omega) ctx1 ctx' .mjs (c.insert m v1) k' v hi1 h3
          rw [names_insert] at h7
          exact ⟨.import_ _ _ _ _ _ _ hk hx h7, h8⟩
      · have : pushAll env self ctx (.parseModule (lineState k c)) (t :: ts) =
            .ok (ctx', .result k' v) := by
          rw [← h]
          simp only [pushAll]
          rw [line_value ctx ht hw]
        obtain ⟨h1, h2⟩ := val hi this
        refine ⟨.value _ _ _ _ ?_ h1, h2⟩
        intro t' ht'
        simp [ht] at ht'
        rw [← ht']
        exact hw

end Parser
end Nanvm
