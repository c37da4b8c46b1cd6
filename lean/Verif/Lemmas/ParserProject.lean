import Verif.Spec.Project
import Verif.Lemmas.ParserProgram
import Verif.Lemmas.ParserTotal
/-!
# Running the parser over the modules of a project
-/
namespace Nanvm
namespace Parser
open Tok Grammar

variable {env : Env} {self : ParseTokens}

/-- the data types with which a module of this style can go on -/
def StyleType : Style → DataType → Prop
  | .es, dt => dt ≠ .cjs
  | .cjs, dt => dt ≠ .mjs

/-- what importing does: it gives a value `M s` and keeps the invariant `I` -/
def ImportsOk (env : Env) (self : ParseTokens) (I : Ctx → Prop) (M : Text → Val → Prop)
    (s : Text) : Prop :=
  ∀ ctx, I ctx → ∃ ctx' v, importModule env self ctx s = .ok (ctx', .ok v) ∧ I ctx' ∧ M s v

theorem fine_of_words {x : Src} (h : ∀ n, x.Uses n → n ∉ modWords) : Fine x := by
  intro n hn
  have := h n hn
  have e : keywords = modWords := rfl
  rwa [e]

theorem require_run {I : Ctx → Prop} {M : Text → Val → Prop} {s : Text} (hs : ImportsOk env self I M s) (ctx : Ctx) (hctx : I ctx) (c : TMap Val) :
    ∃ ctx' v, I ctx' ∧ M s v ∧
      anyRun env self ctx ⟨.djs, .initial, .none, [], c⟩
        [.id "require".toList, .openingParenthesis, .string s, .closingParenthesis] =
      .ok (ctx', .success ⟨.cjs, .initial, .none, [], c⟩ v) := by
  obtain ⟨ctx', v, h1, h2, h3⟩ := hs { ctx with next := ctx.next } hctx
  refine ⟨{ ctx' with next := ctx'.next }, v, h2, h3, ?_⟩
  rw [anyRun_cons]
  change after env self _ (.cont ⟨.cjs, .importBegin, .none, [], c⟩) _ = _
  rw [after_cont, anyRun_cons]
  change after env self _ (.cont ⟨.cjs, .importValue, .none, [], c⟩) _ = _
  rw [after_cont, anyRun_cons]
  have : anyParse env self { ctx with next := ctx.next } ⟨.cjs, .importValue, .none, [], c⟩ (.string s) =
      .ok (ctx', .cont ⟨.cjs, .importEnd, .any v, [], c⟩) := by
    simp only [anyParse, dispatch, importValue, h1, bind, Except.bind, pure, Except.pure]
  rw [this]
  change after env self _ _ _ = _
  rw [after_cont, anyRun_cons]
  exact after_success _ _ _

theorem project_run {style : Style} {I : Ctx → Prop} {M : Text → Val → Prop}
    (hI : ∀ ctx n, I ctx → I { ctx with next := n })
    {f : Final} (hf : f.In style) {x : Src} {ls : List Line} {ts : List Token}
    (h : LinesText f x ls ts) : Fine x →
    (∀ l ∈ ls, l.In style ∧ (∀ n, l.Uses n → n ∉ modWords) ∧ ∀ s ∈ l.modules, ImportsOk env self I M s) →
    ∀ ctx c dt bound, I ctx → StyleType style dt →
    (∀ n, n ∈ bound ↔ ∃ v, TMap.get c n = some v) → ScopedLines x bound ls →
    ∃ ctx' dt' v c',
      pushAll env self ctx (.parseRoot ⟨.initial, ⟨dt, .initial, .none, [], c⟩, true⟩) ts =
        .ok (ctx', .result dt' v) ∧ I ctx' ∧
      LinesDefine M c.get ls c' ∧ x.Is c' v := by
  have hget : ∀ (c : TMap Val) n v, (c.insert n v).get = withConst c.get n v := by
    intro c n v
    funext m
    rw [TMap.get_insert]
    rfl
  have hbound : ∀ {bound : List Text} {c : TMap Val} (n : Text) (v : Val),
      (∀ n, n ∈ bound ↔ ∃ v, TMap.get c n = some v) →
      ∀ m, m ∈ n :: bound ↔ ∃ w, TMap.get (c.insert n v) m = some w := by
    intro bound c n v hb m
    rw [TMap.get_insert, List.mem_cons, hb]
    by_cases hm : m = n <;> simp [hm]
  induction h with
  | newLine ls ts _ ih =>
    intro hx hls ctx c dt bound hc hdt hb hsc
    exact ih hx hls ctx c dt bound hc hdt hb hsc
  | final ts hts =>
    change nl ts = x.tokens at hts
    intro hx _ ctx c dt bound hc hdt hb hsc
    obtain ⟨dt', hrun⟩ : ∃ dt', pushAll env self ctx
        (.parseRoot ⟨.initial, ⟨dt, .initial, .none, [], c⟩, true⟩) (f.tokens ++ ts) =
        pushAll env self ctx (.parseModule ⟨dt', .initial, .none, [], c⟩) ts := by
      cases f with
      | plain =>
        refine ⟨dt, ?_⟩
        obtain ⟨t, rest, ht, hn⟩ := tokens_first x
        rw [show Final.plain.tokens ++ ts = ts from rfl]
        refine plain_run ⟨rfl, rfl, rfl⟩ ctx ?_ (by rw [hts, ht]; simp)
        intro t' rest' ht' n hid
        rw [hts, ht] at ht'
        cases ht'
        rcases hn n hid with h | rfl
        · simp only [List.mem_cons, List.not_mem_nil, or_false] at h
          rcases h with rfl | rfl | rfl <;> decide
        · have := hx n (.ref n)
          simp only [keywords, List.mem_append, not_or] at this
          exact fun h => this.2 (List.mem_cons_of_mem _ h)
      | exportDefault =>
        refine ⟨.mjs, ?_⟩
        cases style
        · cases dt <;> first | rfl | exact absurd rfl hdt
        · cases hf
      | moduleExports =>
        refine ⟨.cjs, ?_⟩
        cases style
        · cases hf
        · cases dt <;> first | rfl | exact absurd rfl hdt
    have hpos : Pos ⟨dt', .initial, .none, [], c⟩ := ⟨.inl rfl, .inl ⟨rfl, rfl⟩⟩
    have hbd : Bound c x := fun n hn => (hb n).1 (hsc n hn)
    obtain ⟨v, n, hv, hp⟩ := run_src (env := env) (self := self) c x hx.namesOk hbd ctx _ hpos rfl
    have hp := hp []
    rw [List.append_nil, ← hts] at hp
    refine ⟨{ ctx with next := n }, dt', v, c.get, ?_, hI _ _ hc, .nil _, makes_is hv⟩
    rw [hrun, module_run (ts := ts) (hp.trans (after_success _ _ _))]
    rfl
  | const_ n y ls ts rest hts _ ih =>
    intro hx hls ctx c dt bound hc hdt hb hsc
    have hrun : pushAll env self ctx
        (.parseRoot ⟨.initial, ⟨dt, .initial, .none, [], c⟩, true⟩)
        ([.id "const".toList, .id n, .equals] ++ ts ++ .newLine :: rest) =
        pushAll env self ctx (.parseConst n ⟨.djs, .initial, .none, [], c⟩) ts >>= fun x =>
          pushAll env self x.1 x.2 (.newLine :: rest) := by
      rw [← pushAll_append, List.append_assoc]
      rfl
    have hpos : Pos ⟨.djs, .initial, .none, [], c⟩ := ⟨.inl rfl, .inl ⟨rfl, rfl⟩⟩
    have hfine : Fine y := fine_of_words (hls (.const_ n y) (by simp)).2.1
    have hs : Bound c y := fun m hm => (hb m).1 (hsc.1 m hm)
    obtain ⟨v, k, hv, hp⟩ := run_src (env := env) (self := self) c y hfine.namesOk hs ctx _
      hpos rfl
    have hp := hp []
    rw [List.append_nil, ← hts] at hp
    obtain ⟨b, hcr⟩ := (const_run (key := n) (no_semicolon_nl hts)
      (hp.trans (after_success _ _ _))).1 _ _ rfl
    rw [hrun, hcr]
    obtain ⟨ctx', dt', w, c', h1, h2, h3, h4⟩ := ih hx (fun l hl => hls l (by simp [hl]))
      { ctx with next := k } (c.insert n v) .djs (n :: bound) (hI _ _ hc) (by cases style <;> simp [StyleType])
      (hbound n v hb) hsc.2
    rw [hget] at h3
    exact ⟨ctx', dt', w, c', h1, h2, .const_ _ _ _ _ _ _ (makes_is hv) h3, h4⟩
  | import_ n s ls rest _ ih =>
    intro hx hls ctx c dt bound hc hdt hb hsc
    obtain ⟨hin, -, hm⟩ := hls (.import_ n s) (by simp)
    obtain ⟨ctx1, v, hi, h1, hM⟩ := hm s (by simp [Line.modules]) ctx hc
    have hrun : pushAll env self ctx
        (.parseRoot ⟨.initial, ⟨dt, .initial, .none, [], c⟩, true⟩)
        ([.id "import".toList, .id n, .id "from".toList, .string s] ++ .newLine :: rest) =
        pushAll env self ctx1 (.parseRoot ⟨.initial, ⟨.mjs, .initial, .none, [], c.insert n v⟩, true⟩)
          rest := by
      have hd : ∀ dt, dt ≠ DataType.cjs → pushAll env self ctx
        (.parseRoot ⟨.initial, ⟨dt, .initial, .none, [], c⟩, true⟩)
        ([.id "import".toList, .id n, .id "from".toList, .string s] ++ .newLine :: rest) =
        pushAll env self ctx (.parseRoot ⟨.importIdFrom n, ⟨.mjs, .initial, .none, [], c⟩, false⟩)
          (.string s :: .newLine :: rest) := by
        intro dt h
        cases dt <;> first | rfl | exact absurd rfl h
      have hdt' : dt ≠ .cjs := by
        cases style
        · exact hdt
        · cases hin
      rw [hd dt hdt']
      simp only [pushAll, jsonPush, rootParse, RootState.parse, bind, Except.bind, hi, pure,
        Except.pure]
    rw [hrun]
    obtain ⟨ctx', dt', w, c', g1, g2, g3, g4⟩ := ih hx (fun l hl => hls l (by simp [hl]))
      ctx1 (c.insert n v) .mjs (n :: bound) h1 (by
        cases style
        · simp [StyleType]
        · cases hin)
      (hbound n v hb) hsc.2
    rw [hget] at g3
    exact ⟨ctx', dt', w, c', g1, g2, .import_ _ _ _ _ _ _ hM g3, g4⟩
  | require_ n s ls ts rest hts _ ih =>
    intro hx hls ctx c dt bound hc hdt hb hsc
    obtain ⟨hin, -, hm⟩ := hls (.require_ n s) (by simp)
    have hrun : pushAll env self ctx
        (.parseRoot ⟨.initial, ⟨dt, .initial, .none, [], c⟩, true⟩)
        ([.id "const".toList, .id n, .equals] ++ ts ++ .newLine :: rest) =
        pushAll env self ctx (.parseConst n ⟨.djs, .initial, .none, [], c⟩) ts >>= fun x =>
          pushAll env self x.1 x.2 (.newLine :: rest) := by
      rw [← pushAll_append, List.append_assoc]
      rfl
    obtain ⟨ctx1, v, h1, hM, hp⟩ := require_run (hm s (by simp [Line.modules])) ctx hc c
    have hsemi : .semicolon ∉ ts := by
      intro hmem
      have : Token.semicolon ∈ ts.filter (· ≠ .newLine) := by
        rw [List.mem_filter]; exact ⟨hmem, by decide⟩
      rw [hts] at this
      simp at this
    rw [← hts] at hp
    obtain ⟨b, hcr⟩ := (const_run (key := n) hsemi hp).1 _ _ rfl
    rw [hrun, hcr]
    obtain ⟨ctx', dt', w, c', g1, g2, g3, g4⟩ := ih hx (fun l hl => hls l (by simp [hl]))
      ctx1 (c.insert n v) .cjs (n :: bound) h1 (by
        cases style
        · cases hin
        · simp [StyleType])
      (hbound n v hb) hsc.2
    rw [hget] at g3
    exact ⟨ctx', dt', w, c', g1, g2, .require_ _ _ _ _ _ _ hM g3, g4⟩

/-! ## Loading the modules of a project -/

/-- the values in the cache are the values of the modules -/
def CacheIs (env : Env) (P : Text → Option Mod) (ctx : Ctx) : Prop :=
  ∀ q v, ctx.complete.get q = some v → ModIs P env.resolve q v

theorem uniform {α : Type} {l : List α} {p : α → Nat → Prop}
    (hmono : ∀ a n m, n ≤ m → p a n → p a m) (h : ∀ a ∈ l, ∃ n, p a n) : ∃ n, ∀ a ∈ l, p a n := by
  induction l with
  | nil => exact ⟨0, by simp⟩
  | cons a l ih =>
    obtain ⟨n, hn⟩ := ih (fun b hb => h b (by simp [hb]))
    obtain ⟨m, hm⟩ := h a (by simp)
    refine ⟨max n m, fun b hb => ?_⟩
    rcases List.mem_cons.1 hb with rfl | hb
    · exact hmono _ _ _ (Nat.le_max_right _ _) hm
    · exact hmono _ _ _ (Nat.le_max_left _ _) (hn b hb)

/-- the module at `q` is loaded from every context in which nothing it needs is in progress -/
def Loads (env : Env) (P : Text → Option Mod) (q : Text) (F : Nat) : Prop :=
  ∀ fuel ≥ F, ∀ ctx ts, env.read q = some ts → CacheIs env P ctx →
    (∀ r ∈ ctx.progress, ¬ Relation.TransGen (Needs P env.resolve) q r) →
    ∃ ctx' dt v, parseWithTokens env fuel ctx ts = .ok (ctx', .ok (dt, v)) ∧
      ctx'.progress = ctx.progress ∧ CacheIs env P ctx' ∧ ModIs P env.resolve q v

theorem read_cases {p : Text} {ts : List Token} (h : env.read p = some ts) :
    ∃ text, env.fs p = some text ∧ tokenize env.conv text = .ok ts := by
  unfold Env.read at h
  split at h
  next text hf =>
    split at h
    next ts' ht => cases h; exact ⟨text, hf, ht⟩
    next => cases h
  next => cases h

theorem loads {P : Text → Option Mod}
    (hP : ∀ p m, P p = some m → m.Ok ∧ ∃ ts, env.read p = some ts ∧ m.Text ts)
    (hclosed : ∀ p q, Needs P env.resolve p q → ∃ m, P q = some m)
    (hacyc : ∀ p, ¬ Relation.TransGen (Needs P env.resolve) p p) {p : Text} {m : Mod}
    (hacc : Acc (fun q p => Needs P env.resolve p q) p) (hm : P p = some m) :
    ∃ F, Loads env P p F := by
  induction hacc generalizing m with
  | intro p _ ih =>
    obtain ⟨F, hF⟩ := uniform (l := m.lines.flatMap Line.modules)
      (p := fun s F => Loads env P (env.resolve s) F)
      (fun a n k hnk h fuel hfuel => h fuel (Nat.le_trans hnk hfuel)) (by
        intro s hs
        obtain ⟨l, hl, hs⟩ := List.mem_flatMap.1 hs
        have hn : Needs P env.resolve p (env.resolve s) := ⟨m, l, s, hm, hl, hs, rfl⟩
        obtain ⟨m', hm'⟩ := hclosed _ _ hn
        exact ih _ hn hm')
    refine ⟨F + 1, fun fuel hfuel ctx ts hread hcache hprog => ?_⟩
    obtain ⟨fuel, rfl⟩ : ∃ k, fuel = k + 1 := ⟨fuel - 1, by omega⟩
    obtain ⟨⟨⟨style, hst, hfin⟩, hsc, hx, hls⟩, ts', hr', htext⟩ := hP p m hm
    rw [hread] at hr'
    cases hr'
    have himp : ∀ l ∈ m.lines, ∀ s ∈ l.modules, ImportsOk env (parseWithTokens env fuel)
        (fun c => c.progress = ctx.progress ∧ CacheIs env P c)
        (fun s w => ModIs P env.resolve (env.resolve s) w) s := by
      intro l hl s hs c ⟨hc1, hc2⟩
      have hn : Needs P env.resolve p (env.resolve s) := ⟨m, l, s, hm, hl, hs, rfl⟩
      unfold importModule
      cases hget : c.complete.get (env.resolve s) with
      | some v => exact ⟨c, v, by simp only [hget], ⟨hc1, hc2⟩, hc2 _ _ hget⟩
      | none =>
        have hnp : env.resolve s ∉ c.progress := by
          rw [hc1]; exact fun h => hprog _ h (.single hn)
        obtain ⟨m', hm'⟩ := hclosed _ _ hn
        obtain ⟨-, ts', hr', -⟩ := hP _ _ hm'
        obtain ⟨text, hfs, htok⟩ := read_cases hr'
        obtain ⟨c', dt, v, h1, h2, h3, h4⟩ := hF s (List.mem_flatMap.2 ⟨l, hl, hs⟩) fuel (by omega)
          { c with
            progress := setInsert c.progress (env.resolve s)
            reads := env.resolve s :: c.reads } ts' hr' hc2 (by
            intro r hr
            simp only [setInsert, if_neg hnp, List.mem_cons] at hr
            rcases hr with rfl | hr
            · exact hacyc _
            · rw [hc1] at hr
              exact fun h => hprog r hr (.head hn h))
        refine ⟨{ c' with
          progress := setRemove c'.progress (env.resolve s)
          complete := c'.complete.insert (env.resolve s) v }, v, ?_, ?_, h4⟩
        · simp only [hget, if_neg hnp, hfs, htok, bind, Except.bind, h1, pure, Except.pure]
        · refine ⟨?_, ?_⟩
          · simp only [h2, setInsert, if_neg hnp, setRemove]
            rw [List.filter_cons_of_neg (by simp), List.filter_eq_self.2, hc1]
            intro a ha
            simp only [ne_eq, decide_not, Bool.not_eq_eq_eq_not, Bool.not_true, decide_eq_false_iff_not]
            rintro rfl
            exact hnp ha
          · intro q w hq
            simp only [TMap.get_insert] at hq
            split at hq
            · cases hq; subst q; exact h4
            · exact h3 q w hq
    obtain ⟨ctx', dt, v, c', h1, ⟨h2, h3⟩, h4, h5⟩ := project_run
      (I := fun c => c.progress = ctx.progress ∧ CacheIs env P c)
      (fun c n h => h) hfin htext (fine_of_words hx)
      (fun l hl => ⟨hst l hl, hls l hl, himp l hl⟩) ctx [] .json [] ⟨rfl, hcache⟩
      (by cases style <;> simp [StyleType]) (by simp [TMap.get]) hsc
    refine ⟨ctx', dt, v, ?_, h2, h3, .mk p m _ c' v hm (fun _ _ h => h) h4 h5⟩
    simp only [parseWithTokens]
    change (pushAll env (parseWithTokens env fuel) ctx
      (.parseRoot ⟨.initial, ⟨.json, .initial, .none, [], []⟩, true⟩) ts >>= _) = _
    rw [h1]
    rfl

end Parser
end Nanvm
