import Verif.Lemmas.ParserCtx
/-!
# Why the parser stops without a result
-/
namespace Nanvm
namespace Parser
open Tok Grammar

variable {env : Env} {self : ParseTokens}

theorem anyParse_err {M : Text → Val → Prop} {st : AnyState} {T : List Token} (h : St M st T)
    {ctx : Ctx} {t : Token} {e : Err} (hp : anyParse env self ctx st t = .error e) :
    ∃ s, importModule env self ctx s = .error e := by
  by_cases hs : st.status = .importValue
  · rw [anyParse_import hs] at hp
    unfold importValue at hp
    split at hp
    next s =>
      refine ⟨s, ?_⟩
      cases hi : importModule env self ctx s with
      | error e' => rw [hi] at hp; cases hp; rfl
      | ok x =>
        obtain ⟨ctx1, x⟩ := x
        rw [hi] at hp
        cases x <;> cases hp
    next => cases hp
  · obtain ⟨r', n, hr, -⟩ := anyParse_plain (env := env) (self := self) h hs ctx t
    rw [hr] at hp
    cases hp

theorem rootParse_err {r : RootState} (h : Idle r.state) {ctx : Ctx} {t : Token} {e : Err}
    (hp : rootParse env self ctx r t = .error e) :
    ∃ s, importModule env self ctx s = .error e := by
  obtain ⟨j, imp, n', hr, hcase⟩ := root_parse_step (M := fun _ _ => True) h ctx.next t
  simp only [rootParse, hr] at hp
  rcases hcase with ⟨rfl, hstep⟩ | ⟨id, s, rfl, rfl, hst, rfl, rfl⟩
  · cases hp
  · change (importModule env self ctx s >>= _) = _ at hp
    refine ⟨s, ?_⟩
    cases hi : importModule env self ctx s with
    | error e' => rw [hi] at hp; cases hp; rfl
    | ok x =>
      obtain ⟨ctx1, x⟩ := x
      rw [hi] at hp
      cases x <;> cases hp

/-- a step stops only at a semicolon in a definition or in an imported module -/
theorem jsonPush_err {M : Text → Val → Prop} {j : JState} (h : JInv M j) {ctx : Ctx} {t : Token}
    {e : Err} (hp : jsonPush env self ctx j t = .error e) :
    (t = .semicolon ∧ (∃ k st, j = .parseConst k st) ∧ e = .panic .todo) ∨
      ∃ s, importModule env self ctx s = .error e := by
  by_cases hnl : t = .newLine
  · subst hnl
    cases j with
    | parseRoot r => exact .inr (rootParse_err h hp)
    | _ => cases hp
  · rw [jsonPush_eq hnl] at hp
    cases j with
    | parseRoot r => exact .inr (rootParse_err h hp)
    | result dt v => cases hp
    | error e => cases hp
    | parseModule st =>
      simp only [moduleParse] at hp
      obtain ⟨T, hT⟩ := h
      cases ha : anyParse env self ctx st t with
      | error e' =>
        rw [ha] at hp; cases hp
        exact .inr (anyParse_err hT ha)
      | ok x => rw [ha] at hp; cases hp
    | parseConst k st =>
      by_cases hsc : t = .semicolon
      · subst hsc; cases hp; exact .inl ⟨rfl, ⟨k, st, rfl⟩, rfl⟩
      · simp only [constStateParse_eq hsc] at hp
        obtain ⟨T, hT⟩ := h
        cases ha : anyParse env self ctx st t with
        | error e' =>
          rw [ha] at hp; cases hp
          exact .inr (anyParse_err hT ha)
        | ok x => rw [ha] at hp; cases hp

/-- one step: an error or more of the same -/
theorem jsonPush_ok (hself : SelfOk env self) {ctx ctx' : Ctx} {j j' : JState} {t : Token}
    (hj : jsonPush env self ctx j t = .ok (ctx', j')) (hc : CacheOk env ctx)
    (hi : JInv (fun _ _ => True) j) :
    (∃ e, j' = .error e) ∨
      (Ext ctx ctx' ∧ CacheOk env ctx' ∧ JInv (fun _ _ => True) j') := by
  obtain ⟨s1, e1⟩ := jsonPush_step hi hj (fun _ _ _ => trivial)
  cases e1 with
  | plain n h =>
    subst h
    exact .inr ⟨Ext.plain ctx n, fun q v hq => (hc q v hq).mono fun _ _ h => h, s1.1⟩
  | loaded s v h =>
    obtain ⟨a, b, c⟩ := importModule_ok hself h hc
    exact .inr ⟨a, b, s1.1⟩
  | failed s e h he => exact .inl ⟨e, he⟩

theorem pushAll_err (hself : SelfOk env self) {ctx : Ctx} {j : JState} {ts : List Token} {e : Err}
    (hp : pushAll env self ctx j ts = .error e) (hc : CacheOk env ctx)
    (hi : JInv (fun _ _ => True) j) :
    (.semicolon ∈ ts ∧ e = .panic .todo) ∨
      ∃ ctx1 s, Ext ctx ctx1 ∧ CacheOk env ctx1 ∧ importModule env self ctx1 s = .error e := by
  induction ts generalizing ctx j with
  | nil => cases hp
  | cons t ts ih =>
    simp only [pushAll] at hp
    cases hj : jsonPush env self ctx j t with
    | error e' =>
      rw [hj] at hp
      cases hp
      rcases jsonPush_err hi hj with ⟨rfl, -, rfl⟩ | ⟨s, hs⟩
      · exact .inl ⟨List.mem_cons_self, rfl⟩
      · exact .inr ⟨ctx, s, Ext.plain ctx ctx.next, hc, hs⟩
    | ok x =>
      obtain ⟨ctx1, j1⟩ := x
      rw [hj] at hp
      change pushAll env self ctx1 j1 ts = _ at hp
      rcases jsonPush_ok hself hj hc hi with ⟨e', rfl⟩ | ⟨h1, h2, h3⟩
      · rw [pushAll_error] at hp; cases hp
      · rcases ih hp h2 h3 with ⟨h, rfl⟩ | ⟨ctx2, s, h4, h5, h6⟩
        · exact .inl ⟨List.mem_cons_of_mem _ h, rfl⟩
        · exact .inr ⟨ctx2, s, h1.trans h4, h5, h6⟩

/-- the files that are not being parsed -/
def remaining (files progress : List Text) : Nat := (files.filter (· ∉ progress)).length

theorem remaining_lt {files progress : List Text} {p : Text} (h : p ∈ files) (hp : p ∉ progress) :
    remaining files (p :: progress) < remaining files progress := by
  unfold remaining
  induction files with
  | nil => simp at h
  | cons f files ih =>
    have le : (files.filter (· ∉ p :: progress)).length ≤
        (files.filter (· ∉ progress)).length := by
      rw [← List.countP_eq_length_filter, ← List.countP_eq_length_filter]
      apply List.countP_mono_left
      intro a _
      simp only [List.mem_cons, not_or, decide_eq_true_eq]
      exact fun h => h.2
    by_cases hf : f = p
    · subst hf
      simp only [List.filter_cons, List.mem_cons, true_or, not_true_eq_false, decide_false,
        Bool.false_eq_true, if_false, hp, not_false_eq_true, decide_true, if_true,
        List.length_cons]
      simp only [List.mem_cons] at le
      omega
    · have hm : p ∈ files := by
        rcases List.mem_cons.1 h with h | h
        · exact absurd h.symm hf
        · exact h
      have := ih hm
      by_cases hpr : f ∈ progress
      · simpa [List.filter_cons, hpr] using this
      · simpa [List.filter_cons, hpr, hf] using this

/-- why parsing the tokens `ts` stopped: a semicolon, or tokens that could not be obtained -/
inductive Reason (env : Env) (ts : List Token) (e : Err) : Prop
  | semicolon : .semicolon ∈ ts → e = .panic .todo → Reason env ts e
  | nested (p : Text) (ts' : List Token) : env.read p = some ts' → .semicolon ∈ ts' →
    e = .panic .todo → Reason env ts e
  | tokens (p text : Text) : env.fs p = some text → tokenize env.conv text = .error e →
    Reason env ts e

theorem parseWithTokens_err {files : List Text} (hfin : ∀ p text, env.fs p = some text → p ∈ files)
    (fuel : Nat) : ∀ (ctx : Ctx) (ts : List Token) (e : Err), CacheOk env ctx →
      parseWithTokens env fuel ctx ts = .error e → remaining files ctx.progress < fuel →
      Reason env ts e := by
  induction fuel with
  | zero => intro _ _ _ _ _ h; omega
  | succ fuel ih =>
    intro ctx ts e hc h hlt
    simp only [parseWithTokens] at h
    cases hp : pushAll env (parseWithTokens env fuel) ctx JState.start ts with
    | ok x => rw [hp] at h; cases h
    | error e' =>
      rw [hp] at h
      cases h
      rcases pushAll_err (parseWithTokens_ok env fuel) hp hc (start_inv _) with
        ⟨h1, h2⟩ | ⟨ctx1, s, hE, hc1, hi⟩
      · exact .semicolon h1 h2
      · rcases importModule_cases ctx1 s hi with ⟨w, hw, he⟩ | ⟨hn, ⟨hp, he⟩ | ⟨hp, ⟨hf, he⟩ |
          ⟨text, hf, ⟨e, ht, he⟩ | ⟨ts', ht, ⟨e, hs, he⟩ | ⟨ctx1, e, hs, he⟩ |
          ⟨ctx1, dt, w, hs, he⟩⟩⟩⟩⟩
        all_goals cases he
        · exact .tokens _ _ hf ht
        · have hlt' : remaining files (enter ctx1 (env.resolve s)).progress < fuel := by
            have := remaining_lt (hfin _ _ hf) hp
            simp only [enter, setInsert_new hp]
            rw [hE.progress] at this ⊢
            omega
          cases ih _ _ _ (enter_ok hc1 _) hs hlt' with
          | semicolon h1 h2 => exact .nested _ _ (read_eq hf ht) h1 h2
          | nested p ts' h1 h2 h3 => exact .nested p ts' h1 h2 h3
          | tokens p text h1 h2 => exact .tokens p text h1 h2

/-! ## More fuel does not matter -/

theorem importModule_agree {self' : ParseTokens}
    (h : ∀ ctx ts, self ctx ts ≠ .error .fuel → self' ctx ts = self ctx ts) (ctx : Ctx) (s : Text)
    (hf : importModule env self ctx s ≠ .error .fuel) :
    importModule env self' ctx s = importModule env self ctx s := by
  rcases importModule_cases (env := env) (self := self) ctx s rfl with
    ⟨w, hw, he⟩ | ⟨hn, ⟨hp, he⟩ | ⟨hp, ⟨hfs, he⟩ |
    ⟨text, hfs, ⟨e, ht, he⟩ | ⟨ts, ht, hs⟩⟩⟩⟩
  · rw [he]; simp [importModule, hw]
  · rw [he]; simp [importModule, hn, hp]
  · rw [he]; simp [importModule, hn, hp, hfs, enter]
  · rw [he]; simp only [importModule, hn, hp, hfs, ht, if_false]; rfl
  · have e1 (self : ParseTokens) : importModule env self ctx s = (do
        let (ctx, r) ← self (enter ctx (env.resolve s)) ts
        match r with
        | .ok (_, v) => return (leave ctx (env.resolve s) v, .ok v)
        | .error e => return (ctx, .error e)) := by
      simp only [importModule, hn, hp, hfs, ht, if_false]
      rfl
    rw [e1 self', e1 self]
    rw [e1 self] at hf
    by_cases hfu : self (enter ctx (env.resolve s)) ts = .error .fuel
    · rw [hfu] at hf; exact absurd rfl hf
    · rw [h _ _ hfu]

theorem importValue_agree {self' : ParseTokens}
    (h : ∀ ctx ts, self ctx ts ≠ .error .fuel → self' ctx ts = self ctx ts) (ctx : Ctx)
    (st : AnyState) (t : Token) (hf : importValue env self ctx st t ≠ .error .fuel) :
    importValue env self' ctx st t = importValue env self ctx st t := by
  unfold importValue at hf ⊢
  split
  next s =>
    have : importModule env self ctx s ≠ .error .fuel := by
      intro he; simp only [he] at hf; exact hf rfl
    rw [importModule_agree h ctx s this]
  next => rfl

theorem anyParse_agree {self' : ParseTokens}
    (h : ∀ ctx ts, self ctx ts ≠ .error .fuel → self' ctx ts = self ctx ts) (ctx : Ctx)
    (st : AnyState) (t : Token) (hf : anyParse env self ctx st t ≠ .error .fuel) :
    anyParse env self' ctx st t = anyParse env self ctx st t := by
  by_cases hs : st.status = .importValue
  · rw [anyParse_import hs] at hf
    rw [anyParse_import hs, anyParse_import hs, importValue_agree h ctx st t hf]
  · unfold anyParse dispatch
    split <;> first | rfl | (rename_i h; exact absurd h hs)

theorem rootParse_agree {self' : ParseTokens}
    (h : ∀ ctx ts, self ctx ts ≠ .error .fuel → self' ctx ts = self ctx ts) (ctx : Ctx)
    (r : RootState) (t : Token) (hf : rootParse env self ctx r t ≠ .error .fuel) :
    rootParse env self' ctx r t = rootParse env self ctx r t := by
  unfold rootParse at hf ⊢
  cases hr : r.parse ctx.next t with
  | error e => rfl
  | ok x =>
    obtain ⟨⟨j, imp⟩, n⟩ := x
    rw [hr] at hf
    cases imp with
    | none => rfl
    | some im =>
      obtain ⟨id, m⟩ := im
      cases j with
      | parseRoot r' =>
        change (importModule env self _ m >>= _) ≠ _ at hf
        change (importModule env self' _ m >>= _) = (importModule env self _ m >>= _)
        have : importModule env self { ctx with next := n } m ≠ .error .fuel := by
          intro he; rw [he] at hf; exact hf rfl
        rw [importModule_agree h _ m this]
      | _ => rfl

theorem jsonPush_agree {self' : ParseTokens}
    (h : ∀ ctx ts, self ctx ts ≠ .error .fuel → self' ctx ts = self ctx ts) (ctx : Ctx)
    (j : JState) (t : Token) (hf : jsonPush env self ctx j t ≠ .error .fuel) :
    jsonPush env self' ctx j t = jsonPush env self ctx j t := by
  by_cases hnl : t = .newLine
  · subst hnl
    cases j with
    | parseRoot r => exact rootParse_agree h ctx r _ hf
    | _ => rfl
  · rw [jsonPush_eq hnl] at hf ⊢
    rw [jsonPush_eq hnl]
    cases j with
    | parseRoot r => exact rootParse_agree h ctx r _ hf
    | parseModule st =>
      simp only [moduleParse] at hf ⊢
      rw [anyParse_agree h ctx st t (by intro he; rw [he] at hf; exact hf rfl)]
    | parseConst k st =>
      by_cases hsc : t = .semicolon
      · subst hsc; rfl
      · simp only [constStateParse_eq hsc] at hf ⊢
        rw [anyParse_agree h ctx st t (by intro he; rw [he] at hf; exact hf rfl)]
    | _ => rfl

theorem pushAll_agree {self' : ParseTokens}
    (h : ∀ ctx ts, self ctx ts ≠ .error .fuel → self' ctx ts = self ctx ts) (ctx : Ctx)
    (j : JState) (ts : List Token) (hf : pushAll env self ctx j ts ≠ .error .fuel) :
    pushAll env self' ctx j ts = pushAll env self ctx j ts := by
  induction ts generalizing ctx j with
  | nil => rfl
  | cons t ts ih =>
    simp only [pushAll] at hf ⊢
    rw [jsonPush_agree h ctx j t (by intro he; rw [he] at hf; exact hf rfl)]
    cases hj : jsonPush env self ctx j t with
    | error e => rfl
    | ok x =>
      rw [hj] at hf
      exact ih _ _ hf

theorem parseWithTokens_fuel (fuel : Nat) (ctx : Ctx) (ts : List Token)
    (hf : parseWithTokens env fuel ctx ts ≠ .error .fuel) :
    parseWithTokens env (fuel + 1) ctx ts = parseWithTokens env fuel ctx ts := by
  induction fuel generalizing ctx ts with
  | zero => exact absurd rfl hf
  | succ fuel ih =>
    have e (fuel : Nat) : parseWithTokens env (fuel + 1) ctx ts =
        (pushAll env (parseWithTokens env fuel) ctx JState.start ts >>= fun x =>
          pure (x.1, x.2.end_)) := rfl
    rw [e] at hf
    rw [e, e, pushAll_agree ih ctx JState.start ts (by intro he; rw [he] at hf; exact hf rfl)]

theorem parseWithTokens_more {fuel fuel' : Nat} (hle : fuel ≤ fuel') (ctx : Ctx) (ts : List Token)
    (hf : parseWithTokens env fuel ctx ts ≠ .error .fuel) :
    parseWithTokens env fuel' ctx ts = parseWithTokens env fuel ctx ts := by
  induction hle with
  | refl => rfl
  | step _ ih => rw [parseWithTokens_fuel _ _ _ (by rw [ih]; exact hf), ih]

end Parser
end Nanvm
