import Verif.Lemmas.ParserAcceptModule
import Verif.Lemmas.ParserProject
/-!
# The parser accepts exactly the projects of `Spec/Accepts.lean`
-/
namespace Nanvm
namespace Grammar
open Tok
open Parser (DataType)

theorem Accepted.mono {X Y b : Text → Prop} (hX : ∀ s, X s → Y s) {part : Part} {k k' : DataType}
    {ts : List Token} (h : Accepted X b part k ts k') : Accepted Y b part k ts k' := by
  induction h with
  | literal p k n h => exact .literal p k n h
  | num p k x => exact .num p k x
  | str p k x => exact .str p k x
  | big p k x => exact .big p k x
  | name p k n h1 h2 h3 => exact .name p k n h1 h2 h3
  | require p k s h1 h2 => exact .require p k s h1 (hX s h2)
  | array p k ts k' _ ih => exact .array p k ts k' ih
  | object p k ts k' _ ih => exact .object p k ts k' ih
  | noElement p k => exact .noElement p k
  | lastElement p k x k' _ ih => exact .lastElement p k x k' ih
  | element p k x k1 ts k' _ _ ih1 ih2 => exact .element p k x k1 ts k' ih1 ih2
  | noMember f k => exact .noMember f k
  | lastMember f k t x k' h _ ih => exact .lastMember f k t x k' h ih
  | member f k t x k1 ts k' h _ _ ih1 ih2 => exact .member f k t x k1 ts k' h ih1 ih2

theorem AcceptedModule.mono {X Y : Text → Prop} (hX : ∀ s, X s → Y s) {b : Text → Prop}
    {k k' : DataType} {ts : List Token} (h : AcceptedModule X b k ts k') :
    AcceptedModule Y b k ts k' := by
  induction h with
  | newLine b k ts k' _ ih => exact .newLine b k ts k' ih
  | const_ b k n ts k1 rest k' h _ ih => exact .const_ b k n ts k1 rest k' (h.mono hX) ih
  | import_ b k n s rest k' h1 h2 _ ih => exact .import_ b k n s rest k' h1 (hX s h2) ih
  | exportDefault b k ts k' h1 h2 => exact .exportDefault b k ts k' h1 (h2.mono hX)
  | moduleExports b k ts k' h1 h2 => exact .moduleExports b k ts k' h1 (h2.mono hX)
  | value b k ts k' h1 h2 => exact .value b k ts k' h1 (h2.mono hX)

theorem Accepted.limit {X b : Text → Prop} {Y : Nat → Text → Prop}
    (hY : ∀ n m s, n ≤ m → Y n s → Y m s) (hX : ∀ s, X s → ∃ n, Y n s) {part : Part}
    {k k' : DataType} {ts : List Token} (h : Accepted X b part k ts k') :
    ∃ n, Accepted (Y n) b part k ts k' := by
  induction h with
  | literal p k n h => exact ⟨0, .literal p k n h⟩
  | num p k x => exact ⟨0, .num p k x⟩
  | str p k x => exact ⟨0, .str p k x⟩
  | big p k x => exact ⟨0, .big p k x⟩
  | name p k n h1 h2 h3 => exact ⟨0, .name p k n h1 h2 h3⟩
  | require p k s h1 h2 =>
    obtain ⟨n, hn⟩ := hX s h2
    exact ⟨n, .require p k s h1 hn⟩
  | array p k ts k' _ ih => obtain ⟨n, ih⟩ := ih; exact ⟨n, .array p k ts k' ih⟩
  | object p k ts k' _ ih => obtain ⟨n, ih⟩ := ih; exact ⟨n, .object p k ts k' ih⟩
  | noElement p k => exact ⟨0, .noElement p k⟩
  | lastElement p k x k' _ ih => obtain ⟨n, ih⟩ := ih; exact ⟨n, .lastElement p k x k' ih⟩
  | element p k x k1 ts k' _ _ ih1 ih2 =>
    obtain ⟨n, ih1⟩ := ih1
    obtain ⟨m, ih2⟩ := ih2
    exact ⟨max n m, .element p k x k1 ts k'
      (ih1.mono (fun s => hY _ _ s (Nat.le_max_left n m)))
      (ih2.mono (fun s => hY _ _ s (Nat.le_max_right n m)))⟩
  | noMember f k => exact ⟨0, .noMember f k⟩
  | lastMember f k t x k' h _ ih => obtain ⟨n, ih⟩ := ih; exact ⟨n, .lastMember f k t x k' h ih⟩
  | member f k t x k1 ts k' h _ _ ih1 ih2 =>
    obtain ⟨n, ih1⟩ := ih1
    obtain ⟨m, ih2⟩ := ih2
    exact ⟨max n m, .member f k t x k1 ts k' h
      (ih1.mono (fun s => hY _ _ s (Nat.le_max_left n m)))
      (ih2.mono (fun s => hY _ _ s (Nat.le_max_right n m)))⟩

theorem AcceptedModule.limit {X : Text → Prop} {Y : Nat → Text → Prop}
    (hY : ∀ n m s, n ≤ m → Y n s → Y m s) (hX : ∀ s, X s → ∃ n, Y n s) {b : Text → Prop}
    {k k' : DataType} {ts : List Token} (h : AcceptedModule X b k ts k') :
    ∃ n, AcceptedModule (Y n) b k ts k' := by
  induction h with
  | newLine b k ts k' _ ih => obtain ⟨n, ih⟩ := ih; exact ⟨n, .newLine b k ts k' ih⟩
  | const_ b k n ts k1 rest k' h _ ih2 =>
    obtain ⟨i, ih1⟩ := Accepted.limit hY hX h
    obtain ⟨m, ih2⟩ := ih2
    exact ⟨max i m, .const_ b k n ts k1 rest k'
      (ih1.mono (fun s => hY _ _ s (Nat.le_max_left i m)))
      (ih2.mono (fun s => hY _ _ s (Nat.le_max_right i m)))⟩
  | import_ b k n s rest k' h1 h2 _ ih2 =>
    obtain ⟨i, ih1⟩ := hX s h2
    obtain ⟨m, ih2⟩ := ih2
    exact ⟨max i m, .import_ b k n s rest k' h1 (hY _ _ s (Nat.le_max_left i m) ih1)
      (ih2.mono (fun s => hY _ _ s (Nat.le_max_right i m)))⟩
  | exportDefault b k ts k' h1 h2 =>
    obtain ⟨n, h⟩ := Accepted.limit hY hX h2
    exact ⟨n, .exportDefault b k ts k' h1 h⟩
  | moduleExports b k ts k' h1 h2 =>
    obtain ⟨n, h⟩ := Accepted.limit hY hX h2
    exact ⟨n, .moduleExports b k ts k' h1 h⟩
  | value b k ts k' h1 h2 =>
    obtain ⟨n, h⟩ := Accepted.limit hY hX h2
    exact ⟨n, .value b k ts k' h1 h⟩

/-- as `LoadsAs`, with at most this many modules importing one another -/
def LoadsBy (read : Text → Option (List Token)) (resolve : Text → Text) :
    Nat → Text → DataType → Prop
  | 0, _, _ => False
  | n + 1, p, k => ∃ ts, read p = some ts ∧
    AcceptedModule (fun s => ∃ k, LoadsBy read resolve n (resolve s) k) (fun _ => False) .json ts k

variable {read : Text → Option (List Token)} {resolve : Text → Text}

theorem LoadsBy.succ {n : Nat} : ∀ {p : Text} {k : DataType}, LoadsBy read resolve n p k →
    LoadsBy read resolve (n + 1) p k := by
  induction n with
  | zero => intro p k h; cases h
  | succ n ih =>
    rintro p k ⟨ts, h1, h2⟩
    exact ⟨ts, h1, h2.mono (fun s ⟨k, h⟩ => ⟨k, ih h⟩)⟩

theorem LoadsBy.mono {n m : Nat} (hle : n ≤ m) {p : Text} {k : DataType}
    (h : LoadsBy read resolve n p k) : LoadsBy read resolve m p k := by
  induction hle with
  | refl => exact h
  | step _ ih => exact ih.succ

theorem LoadsAs.by_ {p : Text} {k : DataType} (h : LoadsAs read resolve p k) :
    ∃ n, LoadsBy read resolve n p k := by
  induction h with
  | mk p ts X kind k hr hm _ ih =>
    obtain ⟨n, hn⟩ := hm.limit (Y := fun n s => ∃ k, LoadsBy read resolve n (resolve s) k)
      (fun n m s hle ⟨k, h⟩ => ⟨k, h.mono hle⟩)
      (fun s hs => by obtain ⟨n, hn⟩ := ih s hs; exact ⟨n, _, hn⟩)
    exact ⟨n + 1, ts, hr, hn⟩

end Grammar

namespace Parser
open Tok Grammar
open Ser (bind_eq_ok)

variable {env : Env}

theorem names_empty : Names [] = fun _ => False := by
  funext n
  simp only [Names, eq_iff_iff, iff_false]
  rintro ⟨v, h⟩
  cases h

theorem start_eq : JState.start = .parseRoot ⟨.initial, lineState .json [], true⟩ := rfl

theorem end_ok {j : JState} {k : DataType} {v : Val} (h : j.end_ = .ok (k, v)) : j = .result k v := by
  cases j <;> cases h
  rfl

theorem loadsAs_of {p : Text} {ts : List Token} {k : DataType} (hr : env.read p = some ts)
    (h : AcceptedModule (fun s => ∃ k, LoadsAs env.read env.resolve (env.resolve s) k)
      (fun _ => False) .json ts k) : LoadsAs env.read env.resolve p k := by
  classical
  refine .mk p ts _ (fun s => if h : ∃ k, LoadsAs env.read env.resolve (env.resolve s) k then
    h.choose else .json) k hr h ?_
  intro s hs
  simp only [dif_pos hs]
  exact hs.choose_spec

/-- every module in the cache is accepted -/
def CacheLoads (env : Env) (ctx : Ctx) : Prop :=
  ∀ p v, ctx.complete.get p = some v → ∃ k, LoadsAs env.read env.resolve p k

theorem tokens_loads (fuel : Nat) : ∀ {ctx ctx' : Ctx} {ts : List Token} {k : DataType} {v : Val},
    CacheLoads env ctx → parseWithTokens env fuel ctx ts = .ok (ctx', .ok (k, v)) →
    AcceptedModule (fun s => ∃ k, LoadsAs env.read env.resolve (env.resolve s) k)
      (fun _ => False) .json ts k ∧ CacheLoads env ctx' := by
  induction fuel with
  | zero => intro ctx ctx' ts k v _ h; cases h
  | succ fuel ih =>
    intro ctx ctx' ts k v hi h
    have hI : OnlyLoad env (parseWithTokens env fuel)
        (fun s => ∃ k, LoadsAs env.read env.resolve (env.resolve s) k) (CacheLoads env) := by
      refine ⟨fun ctx n h => h, ?_⟩
      intro ctx s ctx' v hi h
      rcases importModule_cases ctx s rfl with ⟨v', h1, h2⟩ | ⟨h0, ⟨h1, h2⟩ | ⟨h1, ⟨h3, h2⟩ |
          ⟨text, h3, ⟨e, h4, h2⟩ | ⟨ts, h4, ⟨e, h5, h2⟩ | ⟨ctx1, e, h5, h2⟩ |
            ⟨ctx1, dt, v1, h5, h2⟩⟩⟩⟩⟩ <;> rw [h2] at h <;> cases h
      · exact ⟨hi _ _ h1, hi⟩
      · obtain ⟨h6, h7⟩ := ih (ctx := enter ctx (env.resolve s)) hi h5
        have hl : LoadsAs env.read env.resolve (env.resolve s) dt :=
          loadsAs_of (by simp [Env.read, h3, h4]) h6
        refine ⟨⟨dt, hl⟩, ?_⟩
        intro p w hp
        simp only [leave] at hp
        rw [TMap.get_insert] at hp
        split at hp
        · rename_i e; rw [e]; exact ⟨dt, hl⟩
        · exact h7 p w hp
    simp only [parseWithTokens] at h
    obtain ⟨⟨ctx1, j⟩, h1, h2⟩ := bind_eq_ok.1 h
    have h3 : ctx1 = ctx' ∧ j.end_ = .ok (k, v) := by
      have := Except.ok.inj h2
      exact ⟨congrArg Prod.fst this, congrArg Prod.snd this⟩
    obtain ⟨rfl, h3⟩ := h3
    rw [end_ok h3, start_eq] at h1
    have := module_in_grammar hI ts.length ts (Nat.le_refl _) _ _ _ _ _ _ hi h1
    rw [names_empty] at this
    exact this

theorem tokens_accepted (n : Nat) : ∀ {ctx : Ctx} {ts : List Token} {k : DataType} {fuel : Nat},
    n < fuel → AcceptedModule (fun s => ∃ k, LoadsBy env.read env.resolve n (env.resolve s) k)
      (fun _ => False) .json ts k →
    (∀ q ∈ ctx.progress, ∀ k, ¬ LoadsBy env.read env.resolve n q k) →
    ∃ ctx' v, parseWithTokens env fuel ctx ts = .ok (ctx', .ok (k, v)) ∧
      ctx'.progress = ctx.progress := by
  classical
  induction n using Nat.strongRecOn with
  | _ n ih =>
    intro ctx ts k fuel hf h hq
    obtain ⟨fuel, rfl⟩ : ∃ f, fuel = f + 1 := ⟨fuel - 1, by omega⟩
    have hI : CanLoad env (parseWithTokens env fuel)
        (fun s => ∃ k, LoadsBy env.read env.resolve n (env.resolve s) k)
        (fun c => c.progress = ctx.progress) := by
      refine ⟨fun ctx n h => h, ?_⟩
      intro c s hc hs
      generalize hx : importModule env (parseWithTokens env fuel) c s = x
      have key : env.resolve s ∉ c.progress → ∃ ts, env.read (env.resolve s) = some ts ∧
          ∃ ctx' dt v, parseWithTokens env fuel (enter c (env.resolve s)) ts =
            .ok (ctx', .ok (dt, v)) ∧ ctx'.progress = (enter c (env.resolve s)).progress := by
        intro hn
        have hex : ∃ r, ∃ k, LoadsBy env.read env.resolve r (env.resolve s) k := ⟨n, hs⟩
        obtain ⟨k1, hk1⟩ := Nat.find_spec hex
        have hmin := fun m (hm : m < Nat.find hex) => Nat.find_min hex hm
        have hle : Nat.find hex ≤ n := Nat.find_min' hex hs
        generalize Nat.find hex = r at *
        cases r with
        | zero => cases hk1
        | succ r =>
          obtain ⟨ts, h1, h2⟩ := hk1
          refine ⟨ts, h1, ?_⟩
          obtain ⟨ctx', v, h3, h4⟩ := ih r (by omega) (ctx := enter c (env.resolve s)) (fuel := fuel)
            (by omega) h2 (by
              intro q hq' k hk
              simp only [enter] at hq'
              rw [setInsert_new hn] at hq'
              rcases List.mem_cons.1 hq' with rfl | hq'
              · exact hmin r (by omega) ⟨k, hk⟩
              · rw [hc] at hq'
                exact hq q hq' k (hk.mono (by omega)))
          exact ⟨ctx', k1, v, h3, h4⟩
      rcases importModule_cases c s hx with ⟨v', h1, h2⟩ | ⟨h0, ⟨h1, h2⟩ | ⟨h1, h2⟩⟩
      · exact ⟨c, v', h2, hc⟩
      · rw [hc] at h1
        obtain ⟨k, hk⟩ := hs
        exact absurd hk (hq _ h1 k)
      · obtain ⟨ts, hr, ctx', dt, v, h5, h6⟩ := key h1
        obtain ⟨text, hfs, htok⟩ := read_cases hr
        rcases h2 with ⟨h3, -⟩ | ⟨text', h3, h2⟩
        · rw [hfs] at h3; cases h3
        · rw [hfs] at h3
          obtain rfl := Option.some.inj h3
          rcases h2 with ⟨e, h4, -⟩ | ⟨ts', h4, h2⟩
          · rw [htok] at h4; cases h4
          · rw [htok] at h4
            obtain rfl := Except.ok.inj h4
            rcases h2 with ⟨e, h7, -⟩ | ⟨c1, e, h7, -⟩ | ⟨c1, dt1, v1, h7, h2⟩
            · rw [h5] at h7; cases h7
            · rw [h5] at h7; cases h7
            · rw [h5] at h7
              obtain ⟨rfl, h8⟩ := Prod.mk.inj (Except.ok.inj h7)
              refine ⟨_, _, h2, ?_⟩
              simp only [leave]
              rw [h6]
              simp only [enter]
              rw [setInsert_new h1, setRemove_new h1, hc]
    obtain ⟨ctx', v, h1, h2⟩ := module_accepted hI h ctx [] rfl (fun n h => h.elim)
    refine ⟨ctx', v, ?_, h1⟩
    simp only [parseWithTokens]
    rw [start_eq, h2]
    rfl

/-- all files are there -/
def anyFile : Env := ⟨fun _ => some [], fun _ => .ok 0, []⟩

theorem kindLoads : CanLoad anyFile (fun ctx _ => .ok (ctx, .ok (.json, .null))) (fun _ => True)
    (fun c => c.progress = []) := by
  refine ⟨fun ctx n h => h, ?_⟩
  intro c s hc _
  cases hg : c.complete.get (anyFile.resolve s) with
  | some v => exact ⟨c, v, by simp [importModule, hg], hc⟩
  | none =>
    refine ⟨leave (enter c (anyFile.resolve s)) (anyFile.resolve s) .null, .null, ?_, ?_⟩
    · simp only [importModule, hg, hc, List.not_mem_nil, if_false]
      have : tokenize anyFile.conv [] = .ok [] := by decide +kernel
      simp only [anyFile] at this ⊢
      simp only [this, enter, hc]
      rfl
    · simp [leave, enter, hc, setInsert, setRemove]

/-- the kind of a module is a function of its tokens -/
theorem kind_unique {X Y : Text → Prop} {ts : List Token} {k k1 k2 : DataType}
    (h1 : AcceptedModule X (fun _ => False) k ts k1) (h2 : AcceptedModule Y (fun _ => False) k ts k2) :
    k1 = k2 := by
  have hI := kindLoads
  obtain ⟨c1, v1, -, h3⟩ := module_accepted hI (h1.mono (fun _ _ => trivial)) ⟨[], [], 0, []⟩ [] rfl
    (fun n h => h.elim)
  obtain ⟨c2, v2, -, h4⟩ := module_accepted hI (h2.mono (fun _ _ => trivial)) ⟨[], [], 0, []⟩ [] rfl
    (fun n h => h.elim)
  rw [h3] at h4
  cases h4
  rfl

theorem LoadsBy_unique {n m : Nat} {p : Text} {k1 k2 : DataType}
    (h1 : LoadsBy env.read env.resolve n p k1) (h2 : LoadsBy env.read env.resolve m p k2) : k1 = k2 := by
  cases n with
  | zero => cases h1
  | succ n =>
    cases m with
    | zero => cases h2
    | succ m =>
      obtain ⟨ts, hr, h1⟩ := h1
      obtain ⟨ts', hr', h2⟩ := h2
      rw [hr] at hr'
      obtain rfl := Option.some.inj hr'
      exact kind_unique h1 h2

end Parser
end Nanvm
