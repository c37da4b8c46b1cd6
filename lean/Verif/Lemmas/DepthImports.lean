import Verif.Lemmas.ParserTotal
import Verif.Spec.DepthImports
/-!
# How many modules are being parsed at the same time
-/
namespace Nanvm
namespace Parser
open Tok Grammar

variable {env : Env} {self : ParseTokens}

theorem anyParse_err_string {M : Text → Val → Prop} {st : AnyState} {T : List Token}
    (h : St M st T) {ctx : Ctx} {t : Token} {e : Err}
    (hp : anyParse env self ctx st t = .error e) :
    ∃ s, t = .string s ∧ importModule env self ctx s = .error e := by
  by_cases hs : st.status = .importValue
  · rw [anyParse_import hs] at hp
    unfold importValue at hp
    split at hp
    next s =>
      refine ⟨s, rfl, ?_⟩
      cases hi : importModule env self ctx s with
      | error e' => rw [hi] at hp; cases hp; rfl
      | ok x =>
        obtain ⟨ctx1, x⟩ := x
        rw [hi] at hp
        cases x <;> cases hp
    next => cases hp
  · obtain ⟨r', n, hr, -⟩ := anyParse_plain (env := env) (self := self) h hs ctx t
    rw [hr] at hp
    cases hp

theorem rootParse_err_string {r : RootState} (h : Idle r.state) {ctx : Ctx} {t : Token} {e : Err}
    (hp : rootParse env self ctx r t = .error e) :
    ∃ s, t = .string s ∧ importModule env self ctx s = .error e := by
  obtain ⟨j, imp, n', hr, hcase⟩ := root_parse_step (M := fun _ _ => True) h ctx.next t
  simp only [rootParse, hr] at hp
  rcases hcase with ⟨rfl, hstep⟩ | ⟨id, s, rfl, rfl, hst, rfl, rfl⟩
  · cases hp
  · change (importModule env self ctx s >>= _) = _ at hp
    refine ⟨s, rfl, ?_⟩
    cases hi : importModule env self ctx s with
    | error e' => rw [hi] at hp; cases hp; rfl
    | ok x =>
      obtain ⟨ctx1, x⟩ := x
      rw [hi] at hp
      cases x <;> cases hp

theorem jsonPush_fuel_string {M : Text → Val → Prop} {j : JState} (h : JInv M j) {ctx : Ctx}
    {t : Token} (hp : jsonPush env self ctx j t = .error .fuel) :
    ∃ s, t = .string s ∧ importModule env self ctx s = .error .fuel := by
  by_cases hnl : t = .newLine
  · subst hnl
    cases j with
    | parseRoot r => exact rootParse_err_string h hp
    | _ => cases hp
  · rw [jsonPush_eq hnl] at hp
    cases j with
    | parseRoot r => exact rootParse_err_string h hp
    | result dt v => cases hp
    | error e => cases hp
    | parseModule st =>
      simp only [moduleParse] at hp
      obtain ⟨T, hT⟩ := h
      cases ha : anyParse env self ctx st t with
      | error e' =>
        rw [ha] at hp; cases hp
        exact anyParse_err_string hT ha
      | ok x => rw [ha] at hp; cases hp
    | parseConst k st =>
      by_cases hsc : t = .semicolon
      · subst hsc; cases hp
      · simp only [constStateParse_eq hsc] at hp
        obtain ⟨T, hT⟩ := h
        cases ha : anyParse env self ctx st t with
        | error e' =>
          rw [ha] at hp; cases hp
          exact anyParse_err_string hT ha
        | ok x => rw [ha] at hp; cases hp

theorem pushAll_fuel_string (hself : SelfOk env self) {ctx : Ctx} {j : JState} {ts : List Token}
    (hp : pushAll env self ctx j ts = .error .fuel) (hc : CacheOk env ctx)
    (hi : JInv (fun _ _ => True) j) :
    ∃ ctx1 s, .string s ∈ ts ∧ Ext ctx ctx1 ∧ CacheOk env ctx1 ∧
      importModule env self ctx1 s = .error .fuel := by
  induction ts generalizing ctx j with
  | nil => cases hp
  | cons t ts ih =>
    simp only [pushAll] at hp
    cases hj : jsonPush env self ctx j t with
    | error e' =>
      rw [hj] at hp
      cases hp
      obtain ⟨s, rfl, hs⟩ := jsonPush_fuel_string hi hj
      exact ⟨ctx, s, List.mem_cons_self, Ext.plain ctx ctx.next, hc, hs⟩
    | ok x =>
      obtain ⟨ctx1, j1⟩ := x
      rw [hj] at hp
      change pushAll env self ctx1 j1 ts = _ at hp
      rcases jsonPush_ok hself hj hc hi with ⟨e', rfl⟩ | ⟨h1, h2, h3⟩
      · rw [pushAll_error] at hp; cases hp
      · obtain ⟨ctx2, s, h0, h4, h5, h6⟩ := ih hp h2 h3
        exact ⟨ctx2, s, List.mem_cons_of_mem _ h0, h1.trans h4, h5, h6⟩

/-- if the nesting does not suffice then there is a longer chain of modules -/
theorem parseWithTokens_chain (htok : ∀ p text, env.fs p = some text →
      tokenize env.conv text ≠ .error .fuel) (fuel : Nat) :
    ∀ (ctx : Ctx) (p : Text) (l : List Text) (ts : List Token), CacheOk env ctx →
      env.read p = some ts → parseWithTokens env fuel ctx ts = .error .fuel →
      NamedChain env.read env.resolve (p :: l) → (∀ q, q ∈ p :: l → q ∈ ctx.progress) →
      ∃ l', NamedChain env.read env.resolve (l' ++ p :: l) ∧ fuel ≤ l'.length := by
  induction fuel with
  | zero => intro _ p l _ _ _ _ h _; exact ⟨[], h, Nat.le_refl _⟩
  | succ fuel ih =>
    intro ctx p l ts hc hr h hl hsub
    simp only [parseWithTokens] at h
    cases hp : pushAll env (parseWithTokens env fuel) ctx JState.start ts with
    | ok x => rw [hp] at h; cases h
    | error e' =>
      rw [hp] at h
      cases h
      obtain ⟨ctx1, s, hm, hE, hc1, hi⟩ :=
        pushAll_fuel_string (parseWithTokens_ok env fuel) hp hc (start_inv _)
      rcases importModule_cases ctx1 s hi with ⟨w, hw, he⟩ | ⟨hn, ⟨hp, he⟩ | ⟨hp, ⟨hf, he⟩ |
          ⟨text, hf, ⟨e, ht, he⟩ | ⟨ts', ht, ⟨e, hs, he⟩ | ⟨ctx1, e, hs, he⟩ |
          ⟨ctx1, dt, w, hs, he⟩⟩⟩⟩⟩
      all_goals cases he
      · exact absurd ht (htok _ _ hf)
      · have hnew : env.resolve s ∉ p :: l := fun hx => hp (hE.progress ▸ hsub _ hx)
        obtain ⟨l', h1, h2⟩ := ih _ (env.resolve s) (p :: l) ts' (enter_ok hc1 _)
          (read_eq hf ht) hs (.next _ _ _ _ _ (read_eq hf ht) hr hm hnew hl) (by
            intro q hq
            simp only [enter, setInsert_new hp]
            rcases List.mem_cons.1 hq with rfl | hq
            · exact List.mem_cons_self
            · exact List.mem_cons_of_mem _ (hE.progress ▸ hsub _ hq))
        exact ⟨l' ++ [env.resolve s], by simpa using h1, by simp; omega⟩

end Parser
end Nanvm
