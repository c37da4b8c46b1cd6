import Verif.Lemmas.ParserComplete
/-!
# Programs: constants and a final value
-/
namespace Nanvm
namespace Grammar
open Tok

/-- the words of the language that cannot be used as the name of a constant in a value -/
def keywords : List Text :=
  reserved ++ ["require".toList, "const".toList, "export".toList, "module".toList, "import".toList]

/-- every name used is defined before its use; `bound` are the names defined so far -/
def Scoped (x : Src) : List Text → List Stmt → Prop
  | bound, [] => ∀ n, x.Uses n → n ∈ bound
  | bound, s :: ss => (∀ n, s.value.Uses n → n ∈ bound) ∧ Scoped x (s.name :: bound) ss

end Grammar

namespace Parser
open Tok Grammar

/-- the data type of the result -/
def finalType : Final → List Stmt → DataType
  | .plain, [] => .json
  | .plain, _ => .djs
  | .exportDefault, _ => .mjs
  | .moduleExports, _ => .cjs

variable {env : Env} {self : ParseTokens}

theorem after_success (ctx : Ctx) (st : AnyState) (v : Val) :
    after env self ctx (.success st v) [] = .ok (ctx, .success st v) := by
  rw [after]; rfl

theorem root_value {st : AnyState} (hst : Idle st) (ctx : Ctx) {t : Token} (h0 : t ≠ .newLine)
    (h : ∀ n, t = .id n → n ∉ ["const".toList, "export".toList, "module".toList, "import".toList]) :
    jsonPush env self ctx (.parseRoot ⟨.initial, st, true⟩) t =
      jsonPush env self ctx (.parseModule st) t := by
  rw [jsonPush_eq h0, jsonPush_eq h0]
  simp only
  have hm : moduleParse env self ctx st t =
      parseValue ctx.next st t >>= fun r => .ok ({ ctx with next := r.2 }, forModule r.1) := by
    simp only [moduleParse, anyParse, dispatch, hst.1]
    cases parseValue ctx.next st t <;> rfl
  have hr : RootState.parse ctx.next ⟨.initial, st, true⟩ t =
      parseValue ctx.next st t >>= fun r => .ok ((forModule r.1, none), r.2) := by
    have hv : (do
        let ((j, _), n) ← parseForModule ctx.next st t
        return ((j, (none : Option (Text × Text))), n)) =
        (parseValue ctx.next st t >>= fun r => .ok ((forModule r.1, none), r.2) :
          Res ((JState × Option (Text × Text)) × Nat)) := by
      simp only [parseForModule, AnyState.parse, dispatch, hst.1]
      cases parseValue ctx.next st t <;> rfl
    rw [← hv]
    cases t <;> simp only [RootState.parse, if_true] <;> try rfl
    · rename_i s
      have hs := h s rfl
      simp only [List.mem_cons, List.not_mem_nil, or_false, not_or] at hs
      rw [if_neg hs.1, if_neg (fun h => hs.2.1 h.1), if_neg (fun h => hs.2.2.1 h.1),
        if_neg (fun h => hs.2.2.2 h.1)]
    · exact absurd rfl h0
  rw [hm, rootParse, hr]
  cases parseValue ctx.next st t <;> rfl

/-- a plain value -/
theorem plain_run {st : AnyState} (hst : Idle st) (ctx : Ctx) {ts : List Token}
    (h : ∀ t rest, nl ts = t :: rest → ∀ n, t = .id n →
      n ∉ ["const".toList, "export".toList, "module".toList, "import".toList])
    (hne : nl ts ≠ []) :
    pushAll env self ctx (.parseRoot ⟨.initial, st, true⟩) ts =
      pushAll env self ctx (.parseModule st) ts := by
  induction ts with
  | nil => simp [nl] at hne
  | cons t ts ih =>
    by_cases ht : t = .newLine
    · subst ht
      exact ih h hne
    · simp only [pushAll]
      rw [root_value hst ctx ht (h t (nl ts) (by simp [nl, ht]))]

theorem tokens_first (x : Src) : ∃ t rest, x.tokens = t :: rest ∧
    ∀ n, t = .id n → n ∈ ["null".toList, "true".toList, "false".toList] ∨ x = .ref n := by
  cases x with
  | bool b => rw [Src.tokens]; refine ⟨_, _, rfl, ?_⟩; cases b <;> simp
  | ref n => rw [Src.tokens]; refine ⟨_, _, rfl, ?_⟩; simp
  | _ => rw [Src.tokens]; refine ⟨_, _, rfl, ?_⟩; simp

/-- the names used are fine -/
def Fine (x : Src) : Prop := ∀ n, x.Uses n → n ∉ keywords

theorem Fine.namesOk {x : Src} (h : Fine x) : NamesOk x := by
  intro n hn
  have := h n hn
  simp only [keywords, List.mem_append, not_or, List.mem_cons] at this
  exact ⟨this.1, this.2.1⟩

theorem export_run (ctx : Ctx) (c : TMap Val) (ts : List Token) {dt : DataType}
    (h : dt = .json ∨ dt = .djs) :
    pushAll env self ctx (.parseRoot ⟨.initial, ⟨dt, .initial, .none, [], c⟩, true⟩)
      (Final.exportDefault.tokens ++ ts) =
    pushAll env self ctx (.parseModule ⟨.mjs, .initial, .none, [], c⟩) ts := by
  rcases h with rfl | rfl <;> rfl

theorem module_head_run (ctx : Ctx) (c : TMap Val) (ts : List Token) {dt : DataType}
    (h : dt = .json ∨ dt = .djs) :
    pushAll env self ctx (.parseRoot ⟨.initial, ⟨dt, .initial, .none, [], c⟩, true⟩)
      (Final.moduleExports.tokens ++ ts) =
    pushAll env self ctx (.parseModule ⟨.cjs, .initial, .none, [], c⟩) ts := by
  rcases h with rfl | rfl <;> rfl

theorem const_head_run (ctx : Ctx) (c : TMap Val) (s : Stmt) (ts : List Token) {dt : DataType}
    (h : dt = .json ∨ dt = .djs) :
    pushAll env self ctx (.parseRoot ⟨.initial, ⟨dt, .initial, .none, [], c⟩, true⟩)
      (s.head ++ ts) =
    pushAll env self ctx (.parseConst s.name ⟨.djs, .initial, .none, [], c⟩) ts := by
  rcases h with rfl | rfl <;> rfl

theorem program_run {f : Final} {x : Src} {ss : List Stmt} {ts : List Token}
    (h : Written f x ss ts) : Fine x → (∀ s ∈ ss, Fine s.value) →
    ∀ ctx c dt bound, dt = .json ∨ dt = .djs → (∀ n, n ∈ bound ↔ ∃ v, TMap.get c n = some v) →
    (Scoped x bound ss → ∃ ctx' v c' m,
      pushAll env self ctx (.parseRoot ⟨.initial, ⟨dt, .initial, .none, [], c⟩, true⟩) ts =
        .ok (ctx', .result (if ss = [] ∧ f.tokens = [] then dt else finalType f ss) v) ∧
      Builds c.get ctx.next ss c' m ∧ x.Makes c' m v ctx'.next) ∧
    (¬ Scoped x bound ss → ∃ ctx',
      pushAll env self ctx (.parseRoot ⟨.initial, ⟨dt, .initial, .none, [], c⟩, true⟩) ts =
        .ok (ctx', .error .unexpectedToken)) := by
  induction h with
  | newLine ss ts _ ih =>
    intro hx hss ctx c dt bound hdt hb
    exact ih hx hss ctx c dt bound hdt hb
  | final ts hts =>
    change nl ts = x.tokens at hts
    intro hx _ ctx c dt bound hdt hb
    obtain ⟨dt', hrun, hdt'⟩ : ∃ dt', pushAll env self ctx
        (.parseRoot ⟨.initial, ⟨dt, .initial, .none, [], c⟩, true⟩) (f.tokens ++ ts) =
        pushAll env self ctx (.parseModule ⟨dt', .initial, .none, [], c⟩) ts ∧
        dt' = if f.tokens = [] then dt else finalType f [] := by
      cases f with
      | plain =>
        refine ⟨dt, ?_, by simp [Final.tokens]⟩
        obtain ⟨t, rest, ht, hn⟩ := tokens_first x
        rw [show Final.plain.tokens ++ ts = ts from rfl]
        refine plain_run ⟨rfl, rfl, rfl⟩ ctx ?_ (by rw [hts, ht]; simp)
        intro t' rest' ht' n hid
        rw [hts, ht] at ht'
        cases ht'
        rcases hn n hid with h | rfl
        · simp only [List.mem_cons, List.not_mem_nil, or_false] at h
          rcases h with rfl | rfl | rfl <;> decide
        · have := hx n (.ref n)
          simp only [keywords, List.mem_append, not_or] at this
          exact fun h => this.2 (List.mem_cons_of_mem _ h)
      | exportDefault =>
        refine ⟨.mjs, ?_, by simp [Final.tokens, finalType]⟩
        exact export_run ctx c ts hdt
      | moduleExports =>
        refine ⟨.cjs, ?_, by simp [Final.tokens, finalType]⟩
        exact module_head_run ctx c ts hdt
    have hpos : Pos ⟨dt', .initial, .none, [], c⟩ := ⟨.inl rfl, .inl ⟨rfl, rfl⟩⟩
    have hbound : Scoped x bound [] ↔ Bound c x :=
      forall_congr' fun n => forall_congr' fun _ => hb n
    rw [hrun, hbound]
    constructor
    · intro hs
      obtain ⟨v, n, hv, hp⟩ := run_src (env := env) (self := self) c x hx.namesOk hs ctx _ hpos rfl
      refine ⟨{ ctx with next := n }, v, c.get, _, ?_, .nil _ _, hv⟩
      have hp := hp []
      rw [List.append_nil, ← hts] at hp
      have := module_run (ts := ts) (hp.trans (after_success _ _ _))
      rw [this]
      simp only [forModule, hdt']
      simp
    · intro hs
      obtain ⟨ctx', hf⟩ := fail_src (env := env) (self := self) c x hx.namesOk hs ctx _ hpos rfl []
      rw [List.append_nil, ← hts] at hf
      exact ⟨ctx', module_run hf⟩
  | const_ s ss ts rest hts _ ih =>
    intro hx hss ctx c dt bound hdt hb
    have hrun : pushAll env self ctx
        (.parseRoot ⟨.initial, ⟨dt, .initial, .none, [], c⟩, true⟩)
        (s.head ++ ts ++ .newLine :: rest) =
        pushAll env self ctx (.parseConst s.name ⟨.djs, .initial, .none, [], c⟩) ts >>= fun x =>
          pushAll env self x.1 x.2 (.newLine :: rest) := by
      rw [← pushAll_append, List.append_assoc]
      exact const_head_run ctx c _ _ hdt
    have hpos : Pos ⟨.djs, .initial, .none, [], c⟩ := ⟨.inl rfl, .inl ⟨rfl, rfl⟩⟩
    have hfine := hss s (by simp)
    have hbound : (∀ n, s.value.Uses n → n ∈ bound) ↔ Bound c s.value :=
      forall_congr' fun n => forall_congr' fun _ => hb n
    rw [hrun, Scoped, hbound]
    by_cases hs : Bound c s.value
    · obtain ⟨v, n, hv, hp⟩ := run_src (env := env) (self := self) c s.value hfine.namesOk hs ctx _
        hpos rfl
      have hp := hp []
      rw [List.append_nil, ← hts] at hp
      obtain ⟨b, hc⟩ := (const_run (key := s.name) (no_semicolon_nl hts) (hp.trans (after_success _ _ _))).1 _ _ rfl
      rw [hc]
      obtain ⟨h1, h2⟩ := ih hx (fun s hs => hss s (by simp [hs])) { ctx with next := n }
        (c.insert s.name v) .djs (s.name :: bound) (.inr rfl) (by
          intro m
          rw [TMap.get_insert, List.mem_cons, hb]
          by_cases hm : m = s.name <;> simp [hm])
      have hget : (c.insert s.name v).get = withConst c.get s.name v := by
        funext m
        rw [TMap.get_insert]
        rfl
      rw [hget] at h1
      constructor
      · rintro ⟨-, hsc⟩
        obtain ⟨ctx', w, c', m, h3, h4, h5⟩ := h1 hsc
        refine ⟨ctx', w, c', m, h3.trans ?_, .cons _ _ _ _ _ _ _ _ hv h4, h5⟩
        have hne : ¬ (s :: ss = [] ∧ f.tokens = []) := by simp
        rw [if_neg hne]
        cases ss <;> cases f <;> simp [Final.tokens, finalType]
      · intro hsc
        exact h2 (fun h => hsc ⟨hs, h⟩)
    · refine ⟨fun h => absurd h.1 hs, fun _ => ?_⟩
      obtain ⟨ctx', hf⟩ := fail_src (env := env) (self := self) c s.value hfine.namesOk hs ctx _ hpos
        rfl []
      rw [List.append_nil, ← hts] at hf
      refine ⟨ctx', ?_⟩
      rw [(const_run (key := s.name) (no_semicolon_nl hts) hf).2 _ rfl]
      exact pushAll_error _ _ _ _ _

end Parser
end Nanvm
