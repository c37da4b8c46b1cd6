import Verif.Spec.Source
import Verif.Lemmas.ParserCtx
/-!
# The parser accepts every written value

`run_src`: from any state in which a value may begin, the tokens of a value have the effect of
`pushValue` with that value.
-/
namespace Nanvm
namespace Parser
open Tok Grammar

variable {env : Env} {self : ParseTokens}

mutual
/-- `any_state_parse` for a sequence of tokens without line breaks, for values that end with the last
token -/
def anyRun (env : Env) (self : ParseTokens) (ctx : Ctx) (st : AnyState) : List Token → Res (Ctx × AnyResult)
  | [] => .ok (ctx, .cont st)
  | t :: ts => anyParse env self ctx st t >>= fun x => after env self x.1 x.2 ts
termination_by ts => (ts.length, 0)
/-- the rest of the tokens after one step -/
def after (env : Env) (self : ParseTokens) (ctx : Ctx) (r : AnyResult) (ts : List Token) :
    Res (Ctx × AnyResult) :=
  match r with
  | .cont st => anyRun env self ctx st ts
  | .success st v => if ts = [] then .ok (ctx, .success st v) else .error .fuel
  | .error e => .ok (ctx, .error e)
termination_by (ts.length, 1)
end

theorem anyRun_nil (ctx : Ctx) (st : AnyState) : anyRun env self ctx st [] = .ok (ctx, .cont st) := by
  rw [anyRun]

theorem anyRun_cons (ctx : Ctx) (st : AnyState) (t : Token) (ts : List Token) :
    anyRun env self ctx st (t :: ts) =
      anyParse env self ctx st t >>= fun x => after env self x.1 x.2 ts := by
  rw [anyRun]

theorem after_cont (ctx : Ctx) (st : AnyState) (ts : List Token) :
    after env self ctx (.cont st) ts = anyRun env self ctx st ts := by
  rw [after]

/-- a value may begin -/
structure Pos (st : AnyState) : Prop where
  status : st.status = .initial ∨ st.status = .objectColon ∨ st.status = .arrayBegin ∨
    st.status = .arrayComma
  current : (st.current = .none ∧ st.stack = []) ∨ ∃ f, st.current = .stack f

theorem pos_step {st : AnyState} (h : Pos st) (ctx : Ctx) {t : Token} (ht : t ≠ .arrayEnd)
    (hr : t ≠ .id "require".toList) (h1 : t ≠ .arrayBegin) (h2 : t ≠ .objectBegin) :
    anyParse env self ctx st t =
      pushToken ctx.next st t >>= fun r => .ok ({ ctx with next := r.2 }, r.1) := by
  rcases h.status with hs | hs | hs | hs <;> simp only [anyParse, dispatch, hs]
  · cases t <;> simp_all [parseValue] <;> rfl
  · cases t <;> simp_all [parseValue] <;> rfl
  · cases t <;> simp_all [parseArrayBegin] <;> rfl
  · cases t <;> simp_all [parseArrayComma] <;> rfl

theorem pos_array {st : AnyState} (h : Pos st) (ctx : Ctx) :
    anyParse env self ctx st .arrayBegin = .ok (ctx, beginArray st) := by
  rcases h.status with hs | hs | hs | hs <;> simp only [anyParse, dispatch, hs] <;> rfl

theorem pos_object {st : AnyState} (h : Pos st) (ctx : Ctx) :
    anyParse env self ctx st .objectBegin = .ok (ctx, beginObject st) := by
  rcases h.status with hs | hs | hs | hs <;> simp only [anyParse, dispatch, hs] <;> rfl

theorem restore {st : AnyState} (h : Pos st) (x : Status) (y : Elem) (v : Val) :
    pushValue (popTop { st with status := x, current := y, stack := saveTop st }) v =
      pushValue st v := by
  obtain ⟨dt, s, cur, stk, c⟩ := st
  rcases h.current with ⟨h1, h2⟩ | ⟨f, h1⟩
  · simp only at h1 h2
    subst h1 h2
    rfl
  · simp only at h1
    subst h1
    cases f <;> rfl

/-- the tokens have the effect of `pushValue st v` -/
def Pushes (env : Env) (self : ParseTokens) (ctx : Ctx) (st : AnyState) (ts : List Token) (v : Val)
    (n : Nat) : Prop :=
  ∀ rest, anyRun env self ctx st (ts ++ rest) =
    pushValue st v >>= fun r => after env self { ctx with next := n } r rest

theorem pushes_token {st : AnyState} (h : Pos st) (ctx : Ctx) {t : Token} {v : Val} {n : Nat}
    (hr : t ≠ .id "require".toList) (ht : tryToAny ctx.next t st.consts = some (v, n)) :
    Pushes env self ctx st [t] v n := by
  intro rest
  have h0 : t ≠ .arrayEnd ∧ t ≠ .arrayBegin ∧ t ≠ .objectBegin := by
    refine ⟨?_, ?_, ?_⟩ <;> rintro rfl <;> cases ht
  rw [List.singleton_append, anyRun_cons, pos_step h ctx h0.1 hr h0.2.1 h0.2.2, pushToken, ht]
  dsimp only
  cases pushValue st v <;> rfl

/-- the state after a value in an array -/
def inArray (st : AnyState) (l : List Val) : AnyState :=
  { st with status := .arrayValue, current := .stack (.array l) }

/-- the state after a member of an object -/
def inObject (st : AnyState) (m : TMap Val) : AnyState :=
  { st with status := .objectValue, current := .stack (.object m []) }

theorem makes_is {c : Text → Option Val} {x : Src} {n m : Nat} {v : Val} (h : x.Makes c n v m) :
    x.Is c v := by
  induction h with
  | null => exact .null
  | bool b => exact .bool b
  | num b => exact .num b
  | str t n => exact .str n t
  | big b n => exact .big n b
  | ref x v _ h => exact .ref x v h
  | arr l vs ns hl _ ih =>
    refine .arr _ l vs hl fun p hp => ?_
    obtain ⟨i, hi, hget⟩ := List.mem_iff_getElem.1 hp
    rw [List.getElem_zip] at hget
    rw [List.length_zip] at hi
    rw [← hget]
    exact ih i _ _ (List.getElem?_eq_getElem (by omega)) (List.getElem?_eq_getElem (by omega))
  | obj l vs kvs ns hl _ hk ih =>
    refine .obj _ l vs kvs hl (fun p hp => ?_) hk
    obtain ⟨i, hi, hget⟩ := List.mem_iff_getElem.1 hp
    rw [List.getElem_zip] at hget
    rw [List.length_zip] at hi
    rw [← hget]
    exact ih i _ _ (List.getElem?_eq_getElem (by omega)) (List.getElem?_eq_getElem (by omega))

theorem builds_defines {c c' : Text → Option Val} {n m : Nat} {ss : List Stmt}
    (h : Builds c n ss c' m) : Defines c ss c' := by
  induction h with
  | nil => exact .nil _
  | cons c n s ss v k c' m hv _ ih => exact .cons _ _ _ _ _ (makes_is hv) ih

/-- `n` before the numbers `ns` -/
def steps (n : Nat) (ns : Nat → Nat) : Nat → Nat
  | 0 => n
  | i + 1 => ns i

theorem run_items {c : TMap Val} (l : List Src) (hne : l ≠ [])
    (ih : ∀ x ∈ l, ∀ ctx st, Pos st → st.consts = c →
      ∃ v n, x.Makes c.get ctx.next v n ∧ Pushes env self ctx st x.tokens v n) :
    ∀ ctx st acc, (st.status = .arrayBegin ∨ st.status = .arrayComma) →
      st.current = .stack (.array acc) → st.consts = c →
      ∃ vs, ∃ ns : Nat → Nat, l.length = vs.length ∧ ns 0 = ctx.next ∧
        (∀ (i : Nat) (x : Src) (v : Val), l[i]? = some x → vs[i]? = some v →
          x.Makes c.get (ns i) v (ns (i + 1))) ∧
        ∀ rest, anyRun env self ctx st (commas (l.map Src.tokens) ++ rest) =
          anyRun env self { ctx with next := ns l.length } (inArray st (acc ++ vs)) rest := by
  induction l with
  | nil => exact absurd rfl hne
  | cons x l ihl =>
    intro ctx st acc hs hc hk
    have hpos : Pos st := ⟨by rcases hs with h | h <;> simp [h], .inr ⟨_, hc⟩⟩
    obtain ⟨v, n, hv, hp⟩ := ih x (by simp) ctx st hpos hk
    have hpv : pushValue st v = .ok (.cont (inArray st (acc ++ [v]))) := by
      simp only [pushValue, hc]
      rfl
    cases l with
    | nil =>
      refine ⟨[v], steps ctx.next fun _ => n, rfl, rfl, ?_, fun rest => ?_⟩
      · intro i x' v' h1 h2
        match i with
        | 0 => cases h1; cases h2; exact hv
        | i + 1 => cases h1
      · simp only [List.map, commas]
        rw [hp, hpv]
        exact after_cont _ _ _
    | cons y l =>
      have hcomma : ∀ rest, anyRun env self { ctx with next := n } (inArray st (acc ++ [v]))
          (.comma :: rest) = anyRun env self { ctx with next := n }
            { inArray st (acc ++ [v]) with status := .arrayComma } rest := by
        intro rest
        rw [anyRun_cons, ← after_cont]
        rfl
      obtain ⟨vs, ns, h1, h0, h2, h3⟩ := ihl (by simp) (fun z hz => ih z (by simp [hz]))
        { ctx with next := n } { inArray st (acc ++ [v]) with status := .arrayComma } (acc ++ [v])
        (.inr rfl) rfl hk
      refine ⟨v :: vs, steps ctx.next ns, by simpa using h1, rfl, ?_, fun rest => ?_⟩
      · intro i x' v' e1 e2
        match i with
        | 0 =>
          cases e1
          cases e2
          change Src.Makes _ _ ctx.next _ (ns 0)
          rw [h0]
          exact hv
        | i + 1 => exact h2 i x' v' e1 e2
      · simp only [List.map, commas] at h3 ⊢
        rw [List.append_assoc, hp, hpv]
        refine (after_cont _ _ _).trans ?_
        rw [List.cons_append, hcomma, h3]
        simp only [inArray, List.append_assoc, List.singleton_append]
        rfl

theorem run_members {c : TMap Val} (l : List (Text × Src)) (hne : l ≠ [])
    (ih : ∀ x ∈ l, ∀ ctx st, Pos st → st.consts = c →
      ∃ v n, x.2.Makes c.get ctx.next v n ∧ Pushes env self ctx st x.2.tokens v n) :
    ∀ ctx st pairs k, (st.status = .objectBegin ∨ st.status = .objectComma) →
      st.current = .stack (.object (TMap.ofPairs pairs) k) → st.consts = c →
      ∃ vs, ∃ ns : Nat → Nat, l.length = vs.length ∧ ns 0 = ctx.next ∧
        (∀ (i : Nat) (x : Text × Src) (v : Val), l[i]? = some x → vs[i]? = some v →
          x.2.Makes c.get (ns i) v (ns (i + 1))) ∧
        ∀ rest, anyRun env self ctx st
          (commas (l.map fun m => .string m.1 :: .colon :: m.2.tokens) ++ rest) =
          anyRun env self { ctx with next := ns l.length }
            (inObject st (TMap.ofPairs (pairs ++ (l.map (·.1)).zip vs))) rest := by
  induction l with
  | nil => exact absurd rfl hne
  | cons x l ihl =>
    intro ctx st pairs k hs hc hk
    have hkey : ∀ rest, anyRun env self ctx st (.string x.1 :: .colon :: rest) =
        anyRun env self ctx { st with
          status := .objectColon, current := .stack (.object (TMap.ofPairs pairs) x.1) } rest := by
      intro rest
      have h1 : anyParse env self ctx st (.string x.1) = .ok (ctx, .cont { st with
          status := .objectKey, current := .stack (.object (TMap.ofPairs pairs) x.1) }) := by
        rcases hs with hs | hs <;> simp only [anyParse, dispatch, hs, parseObjectBegin,
          parseObjectComma, pushKey, hc] <;> rfl
      rw [anyRun_cons, h1]
      change after _ _ _ _ _ = _
      rw [after_cont, anyRun_cons, ← after_cont]
      rfl
    obtain ⟨v, n, hv, hp⟩ := ih x (by simp) ctx { st with
      status := .objectColon, current := .stack (.object (TMap.ofPairs pairs) x.1) }
      ⟨by simp, .inr ⟨_, rfl⟩⟩ hk
    have hpv : pushValue { st with
        status := .objectColon, current := .stack (.object (TMap.ofPairs pairs) x.1) } v =
        .ok (.cont (inObject st (TMap.ofPairs (pairs ++ [(x.1, v)])))) := by
      rw [TMap.ofPairs_snoc]
      rfl
    cases l with
    | nil =>
      refine ⟨[v], steps ctx.next fun _ => n, rfl, rfl, ?_, fun rest => ?_⟩
      · intro i x' v' h1 h2
        match i with
        | 0 => cases h1; cases h2; exact hv
        | i + 1 => cases h1
      · simp only [List.map, commas]
        rw [List.cons_append, List.cons_append, hkey, hp, hpv]
        exact after_cont _ _ _
    | cons y l =>
      have hcomma : ∀ rest, anyRun env self { ctx with next := n }
          (inObject st (TMap.ofPairs (pairs ++ [(x.1, v)])))
          (.comma :: rest) = anyRun env self { ctx with next := n }
            { inObject st (TMap.ofPairs (pairs ++ [(x.1, v)])) with status := .objectComma } rest := by
        intro rest
        rw [anyRun_cons, ← after_cont]
        rfl
      obtain ⟨vs, ns, h1, h0, h2, h3⟩ := ihl (by simp) (fun z hz => ih z (by simp [hz]))
        { ctx with next := n }
        { inObject st (TMap.ofPairs (pairs ++ [(x.1, v)])) with status := .objectComma }
        (pairs ++ [(x.1, v)]) [] (.inr rfl) rfl hk
      refine ⟨v :: vs, steps ctx.next ns, by simpa using h1, rfl, ?_, fun rest => ?_⟩
      · intro i x' v' e1 e2
        match i with
        | 0 =>
          cases e1
          cases e2
          change Src.Makes _ _ ctx.next _ (ns 0)
          rw [h0]
          exact hv
        | i + 1 => exact h2 i x' v' e1 e2
      · simp only [List.map, commas] at h3 ⊢
        rw [List.append_assoc, List.cons_append, List.cons_append, hkey, hp, hpv]
        refine (after_cont _ _ _).trans ?_
        rw [List.cons_append, hcomma, h3]
        simp only [inObject, List.append_assoc, List.singleton_append, List.zip_cons_cons]
        rfl

/-- the names used in a value are bound -/
def Bound (c : TMap Val) (x : Src) : Prop := ∀ n, x.Uses n → ∃ v, c.get n = some v

/-- the names used in a value are not words of the language -/
def NamesOk (x : Src) : Prop := ∀ n, x.Uses n → n ∉ reserved ∧ n ≠ "require".toList

theorem tryIdToAny_name {n : Text} (h : n ∉ reserved) (c : TMap Val) :
    tryIdToAny n c = c.get n := by
  simp only [reserved, List.mem_cons, List.not_mem_nil, or_false, not_or] at h
  rw [tryIdToAny, if_neg h.1, if_neg h.2.1, if_neg h.2.2]

theorem run_src (c : TMap Val) (x : Src) : NamesOk x → Bound c x → ∀ ctx st, Pos st → st.consts = c →
    ∃ v n, x.Makes c.get ctx.next v n ∧ Pushes env self ctx st x.tokens v n := by
  induction x using Src.ind with
  | null =>
    intro _ _ ctx st hp _
    rw [Src.tokens]
    exact ⟨_, _, .null _, pushes_token hp ctx (by decide) rfl⟩
  | bool b =>
    intro _ _ ctx st hp _
    rw [Src.tokens]
    cases b
    · exact ⟨_, _, .bool _ _, pushes_token hp ctx (by decide) rfl⟩
    · exact ⟨_, _, .bool _ _, pushes_token hp ctx (by decide) rfl⟩
  | num b =>
    intro _ _ ctx st hp _
    rw [Src.tokens]
    exact ⟨_, _, .num b _, pushes_token hp ctx (by simp) rfl⟩
  | str t =>
    intro _ _ ctx st hp _
    rw [Src.tokens]
    exact ⟨_, _, .str t _, pushes_token hp ctx (by simp) rfl⟩
  | big b =>
    intro _ _ ctx st hp _
    rw [Src.tokens]
    exact ⟨_, _, .big b _, pushes_token hp ctx (by simp) rfl⟩
  | ref n =>
    intro hn hb ctx st hp hk
    rw [Src.tokens]
    obtain ⟨v, hv⟩ := hb n (.ref n)
    obtain ⟨h1, h2⟩ := hn n (.ref n)
    exact ⟨v, _, .ref n v _ hv, pushes_token hp ctx (by simpa using h2) (by
      simp only [tryToAny, tryIdToAny_name h1, hk, hv]; rfl)⟩
  | arr l ih =>
    intro hn hb ctx st hp hk
    rw [Src.tokens]
    have hbegin : ∀ ts, anyRun env self ctx st (.arrayBegin :: ts) = anyRun env self ctx
        { st with status := .arrayBegin, current := .stack (.array []), stack := saveTop st } ts := by
      intro ts
      rw [anyRun_cons, pos_array hp, ← after_cont]
      rfl
    have hend : ∀ n s vs ts, s = .arrayBegin ∨ s = .arrayValue →
        anyRun env self { ctx with next := n }
        { st with status := s, current := .stack (.array vs), stack := saveTop st }
        (.arrayEnd :: ts) =
        pushValue st (.arr n vs) >>= fun r => after env self { ctx with next := n + 1 } r ts := by
      intro n s vs ts hs
      rw [anyRun_cons, ← restore hp s (.stack (.array vs))]
      rcases hs with rfl | rfl
      · simp only [anyParse, dispatch, parseArrayBegin, endArray]
        cases pushValue _ _ <;> rfl
      · simp only [anyParse, dispatch, parseArrayValue, endArray]
        cases pushValue _ _ <;> rfl
    by_cases hl : l = []
    · subst hl
      refine ⟨.arr ctx.next [], ctx.next + 1, .arr [] [] (fun _ => ctx.next) rfl (by simp),
        fun rest => ?_⟩
      simp only [List.map, commas, List.cons_append, List.nil_append]
      rw [hbegin]
      exact hend ctx.next _ [] rest (.inl rfl)
    · obtain ⟨vs, ns, h1, h0, h2, h3⟩ := run_items (env := env) (self := self) (c := c) l hl
        (fun x hx => ih x hx (fun n h => hn n (.arr l x n hx h)) (fun n h => hb n (.arr l x n hx h)))
        ctx { st with status := .arrayBegin, current := .stack (.array []), stack := saveTop st } []
        (.inl rfl) rfl hk
      refine ⟨.arr (ns l.length) vs, ns l.length + 1, h0 ▸ .arr l vs ns h1 h2, fun rest => ?_⟩
      rw [List.cons_append, List.cons_append, hbegin, List.append_assoc, h3]
      exact hend (ns l.length) _ vs rest (.inr rfl)
  | obj l ih =>
    intro hn hb ctx st hp hk
    rw [Src.tokens]
    have hbegin : ∀ ts, anyRun env self ctx st (.objectBegin :: ts) = anyRun env self ctx
        { st with
          status := .objectBegin, current := .stack (.object [] []), stack := saveTop st } ts := by
      intro ts
      rw [anyRun_cons, pos_object hp, ← after_cont]
      rfl
    have hend : ∀ n s m ts, s = .objectBegin ∨ s = .objectValue →
        anyRun env self { ctx with next := n }
        { st with status := s, current := .stack (.object m []), stack := saveTop st }
        (.objectEnd :: ts) =
        pushValue st (.obj n (stored m)) >>= fun r =>
          after env self { ctx with next := n + 1 } r ts := by
      intro n s m ts hs
      rw [anyRun_cons, ← restore hp s (.stack (.object m []))]
      rcases hs with rfl | rfl
      · simp only [anyParse, dispatch, parseObjectBegin, endObject, stored]
        cases pushValue _ _ <;> rfl
      · simp only [anyParse, dispatch, parseObjectNext, endObject, stored]
        cases pushValue _ _ <;> rfl
    by_cases hl : l = []
    · subst hl
      refine ⟨.obj ctx.next [], ctx.next + 1, .obj [] [] [] (fun _ => ctx.next) rfl (by simp)
        (TMap.keyed_ofPairs []), fun rest => ?_⟩
      simp only [List.map, commas, List.cons_append, List.nil_append]
      rw [hbegin]
      exact hend ctx.next _ [] rest (.inl rfl)
    · obtain ⟨vs, ns, h1, h0, h2, h3⟩ := run_members (env := env) (self := self) (c := c) l hl
        (fun x hx => ih x hx (fun n h => hn n (.obj l x n hx h)) (fun n h => hb n (.obj l x n hx h)))
        ctx { st with
          status := .objectBegin, current := .stack (.object [] []), stack := saveTop st } [] []
        (.inl rfl) rfl hk
      refine ⟨.obj (ns l.length) (stored _), ns l.length + 1,
        by rw [← h0]; exact .obj l vs _ ns h1 h2 (TMap.keyed_ofPairs _), fun rest => ?_⟩
      rw [List.cons_append, List.cons_append, hbegin, List.append_assoc, h3]
      exact hend (ns l.length) _ _ rest (.inr rfl)

/-! ## Names that are not bound -/

/-- the tokens are rejected -/
def Fails (env : Env) (self : ParseTokens) (ctx : Ctx) (st : AnyState) (ts : List Token) : Prop :=
  ∀ rest, ∃ ctx', anyRun env self ctx st (ts ++ rest) = .ok (ctx', .error .unexpectedToken)

theorem not_bound {c : TMap Val} {x : Src} (h : ¬ Bound c x) : ∃ n, x.Uses n ∧ c.get n = none := by
  simp only [Bound, not_forall] at h
  obtain ⟨n, h1, h2⟩ := h
  refine ⟨n, h1, ?_⟩
  cases hg : c.get n with
  | none => rfl
  | some v => exact absurd ⟨v, hg⟩ h2

theorem fail_items {c : TMap Val} (l : List Src) (hn : ∀ x ∈ l, NamesOk x)
    (hb : ∃ x ∈ l, ¬ Bound c x)
    (ih : ∀ x ∈ l, ¬ Bound c x → ∀ ctx st, Pos st → st.consts = c → Fails env self ctx st x.tokens) :
    ∀ ctx st acc, (st.status = .arrayBegin ∨ st.status = .arrayComma) →
      st.current = .stack (.array acc) → st.consts = c →
      Fails env self ctx st (commas (l.map Src.tokens)) := by
  induction l with
  | nil => simp at hb
  | cons x l ihl =>
    intro ctx st acc hs hc hk rest
    have hpos : Pos st := ⟨by rcases hs with h | h <;> simp [h], .inr ⟨_, hc⟩⟩
    by_cases hx : Bound c x
    · obtain ⟨v, n, hv, hp⟩ := run_src (env := env) (self := self) c x (hn x (by simp)) hx ctx st
        hpos hk
      have hpv : pushValue st v = .ok (.cont (inArray st (acc ++ [v]))) := by
        simp only [pushValue, hc]
        rfl
      cases l with
      | nil => simp [hx] at hb
      | cons y l =>
        obtain ⟨ctx', h'⟩ := ihl (fun z hz => hn z (by simp [hz]))
          (by obtain ⟨z, hz, hz'⟩ := hb
              rcases List.mem_cons.1 hz with rfl | hz
              · exact absurd hx hz'
              · exact ⟨z, hz, hz'⟩)
          (fun z hz => ih z (by simp [hz])) { ctx with next := n }
          { inArray st (acc ++ [v]) with status := .arrayComma } (acc ++ [v]) (.inr rfl) rfl hk rest
        refine ⟨ctx', ?_⟩
        simp only [List.map, commas] at h' ⊢
        rw [List.append_assoc, hp, hpv]
        refine (after_cont _ _ _).trans ?_
        rw [List.cons_append, anyRun_cons, ← h', ← after_cont]
        rfl
    · cases l with
      | nil => exact ih x (by simp) hx ctx st hpos hk rest
      | cons y l =>
        simp only [List.map, commas, List.append_assoc]
        exact ih x (by simp) hx ctx st hpos hk _

theorem fail_members {c : TMap Val} (l : List (Text × Src)) (hn : ∀ x ∈ l, NamesOk x.2)
    (hb : ∃ x ∈ l, ¬ Bound c x.2)
    (ih : ∀ x ∈ l, ¬ Bound c x.2 → ∀ ctx st, Pos st → st.consts = c →
      Fails env self ctx st x.2.tokens) :
    ∀ ctx st map k, (st.status = .objectBegin ∨ st.status = .objectComma) →
      st.current = .stack (.object map k) → st.consts = c →
      Fails env self ctx st (commas (l.map fun m => .string m.1 :: .colon :: m.2.tokens)) := by
  induction l with
  | nil => simp at hb
  | cons x l ihl =>
    intro ctx st map k hs hc hk rest
    have hkey : ∀ rest, anyRun env self ctx st (.string x.1 :: .colon :: rest) =
        anyRun env self ctx { st with
          status := .objectColon, current := .stack (.object map x.1) } rest := by
      intro rest
      have h1 : anyParse env self ctx st (.string x.1) = .ok (ctx, .cont { st with
          status := .objectKey, current := .stack (.object map x.1) }) := by
        rcases hs with hs | hs <;> simp only [anyParse, dispatch, hs, parseObjectBegin,
          parseObjectComma, pushKey, hc] <;> rfl
      rw [anyRun_cons, h1]
      change after _ _ _ _ _ = _
      rw [after_cont, anyRun_cons, ← after_cont]
      rfl
    have hpos : Pos { st with status := .objectColon, current := .stack (.object map x.1) } :=
      ⟨by simp, .inr ⟨_, rfl⟩⟩
    by_cases hx : Bound c x.2
    · obtain ⟨v, n, hv, hp⟩ := run_src (env := env) (self := self) c x.2 (hn x (by simp)) hx ctx _
        hpos hk
      have hpv : pushValue { st with
          status := .objectColon, current := .stack (.object map x.1) } v =
          .ok (.cont (inObject st (map.insert x.1 v))) := rfl
      cases l with
      | nil => simp [hx] at hb
      | cons y l =>
        obtain ⟨ctx', h'⟩ := ihl (fun z hz => hn z (by simp [hz]))
          (by obtain ⟨z, hz, hz'⟩ := hb
              rcases List.mem_cons.1 hz with rfl | hz
              · exact absurd hx hz'
              · exact ⟨z, hz, hz'⟩)
          (fun z hz => ih z (by simp [hz])) { ctx with next := n }
          { inObject st (map.insert x.1 v) with status := .objectComma } (map.insert x.1 v) []
          (.inr rfl) rfl hk rest
        refine ⟨ctx', ?_⟩
        simp only [List.map, commas] at h' ⊢
        rw [List.append_assoc, List.cons_append, List.cons_append, hkey, hp, hpv]
        refine (after_cont _ _ _).trans ?_
        rw [List.cons_append, anyRun_cons, ← h', ← after_cont]
        rfl
    · cases l with
      | nil =>
        simp only [List.map, commas, List.cons_append]
        rw [hkey]
        exact ih x (by simp) hx ctx _ hpos hk rest
      | cons y l =>
        simp only [List.map, commas, List.append_assoc, List.cons_append]
        rw [hkey]
        exact ih x (by simp) hx ctx _ hpos hk _

theorem fail_src (c : TMap Val) (x : Src) : NamesOk x → ¬ Bound c x → ∀ ctx st, Pos st →
    st.consts = c → Fails env self ctx st x.tokens := by
  have none : ∀ {x : Src}, (∀ n, ¬ x.Uses n) → ¬ Bound c x → False := fun h hb =>
    hb fun n hu => absurd hu (h n)
  induction x using Src.ind with
  | null => intro _ hb; exact (none (fun n h => by cases h) hb).elim
  | bool b => intro _ hb; exact (none (fun n h => by cases h) hb).elim
  | num b => intro _ hb; exact (none (fun n h => by cases h) hb).elim
  | str t => intro _ hb; exact (none (fun n h => by cases h) hb).elim
  | big b => intro _ hb; exact (none (fun n h => by cases h) hb).elim
  | ref n =>
    intro hn hb ctx st hp hk rest
    obtain ⟨m, hm, hg⟩ := not_bound hb
    cases hm
    obtain ⟨h1, h2⟩ := hn n (.ref n)
    refine ⟨ctx, ?_⟩
    rw [Src.tokens, List.singleton_append, anyRun_cons, pos_step hp ctx (by simp) (by simpa using h2)
      (by simp) (by simp), pushToken]
    have : tryToAny ctx.next (.id n) st.consts = Option.none := by
      simp only [tryToAny, tryIdToAny_name h1, hk, hg]; rfl
    rw [this]
    change after _ _ _ _ _ = _
    rw [after]
  | arr l ih =>
    intro hn hb ctx st hp hk rest
    obtain ⟨m, hm, hg⟩ := not_bound hb
    obtain ⟨x, hx, hu⟩ : ∃ x ∈ l, x.Uses m := by
      cases hm with
      | arr _ x _ hx hu => exact ⟨x, hx, hu⟩
    obtain ⟨ctx', h'⟩ := fail_items (env := env) (self := self) (c := c) l
      (fun x hx n h => hn n (.arr l x n hx h))
      ⟨x, hx, fun h => by obtain ⟨v, hv⟩ := h m hu; rw [hg] at hv; cases hv⟩
      (fun x hx => ih x hx (fun n h => hn n (.arr l x n hx h)))
      ctx { st with status := .arrayBegin, current := .stack (.array []), stack := saveTop st } []
      (.inl rfl) rfl hk (.arrayEnd :: rest)
    refine ⟨ctx', ?_⟩
    rw [Src.tokens, List.cons_append, List.cons_append, anyRun_cons, pos_array hp,
      List.append_assoc, List.singleton_append, ← h', ← after_cont]
    rfl
  | obj l ih =>
    intro hn hb ctx st hp hk rest
    obtain ⟨m, hm, hg⟩ := not_bound hb
    obtain ⟨x, hx, hu⟩ : ∃ x ∈ l, x.2.Uses m := by
      cases hm with
      | obj _ x _ hx hu => exact ⟨x, hx, hu⟩
    obtain ⟨ctx', h'⟩ := fail_members (env := env) (self := self) (c := c) l
      (fun x hx n h => hn n (.obj l x n hx h))
      ⟨x, hx, fun h => by obtain ⟨v, hv⟩ := h m hu; rw [hg] at hv; cases hv⟩
      (fun x hx => ih x hx (fun n h => hn n (.obj l x n hx h)))
      ctx { st with
        status := .objectBegin, current := .stack (.object [] []), stack := saveTop st } [] []
      (.inl rfl) rfl hk (.objectEnd :: rest)
    refine ⟨ctx', ?_⟩
    rw [Src.tokens, List.cons_append, List.cons_append, anyRun_cons, pos_object hp,
      List.append_assoc, List.singleton_append, ← h', ← after_cont]
    rfl

/-! ## From values to modules -/

/-- a value at the end of a module, with line breaks -/
theorem module_run {ts : List Token} : ∀ {ctx ctx' : Ctx} {st : AnyState} {r : AnyResult},
    anyRun env self ctx st (nl ts) = .ok (ctx', r) →
    pushAll env self ctx (.parseModule st) ts = .ok (ctx', forModule r) := by
  have res : ∀ (ts : List Token) (ctx : Ctx) (dt : DataType) (v : Val), nl ts = [] →
      pushAll env self ctx (.result dt v) ts = .ok (ctx, .result dt v) := by
    intro ts
    induction ts with
    | nil => intro ctx st v _; rfl
    | cons t ts ih =>
      intro ctx st v h
      by_cases ht : t = .newLine
      · subst ht
        exact ih ctx st v h
      · simp [nl, ht] at h
  induction ts with
  | nil =>
    intro ctx ctx' st r h
    simp only [nl, List.filter_nil] at h
    rw [anyRun_nil] at h
    cases h
    rfl
  | cons t ts ih =>
    intro ctx ctx' st r h
    by_cases ht : t = .newLine
    · subst ht
      exact ih h
    · have : nl (t :: ts) = t :: nl ts := by simp [nl, ht]
      rw [this, anyRun_cons] at h
      simp only [pushAll]
      rw [jsonPush_eq ht]
      change (anyParse env self ctx st t >>= _) >>= _ = _
      cases hp : anyParse env self ctx st t with
      | error e => rw [hp] at h; cases h
      | ok x =>
        rw [hp] at h
        obtain ⟨ctx1, r1⟩ := x
        change after env self ctx1 r1 (nl ts) = _ at h
        change pushAll env self ctx1 (forModule r1) ts = _
        cases r1 with
        | cont st1 => rw [after_cont] at h; exact ih h
        | success st1 v =>
          rw [after] at h
          split at h
          next hnil => cases h; exact res ts _ _ v hnil
          next => cases h
        | error e =>
          rw [after] at h
          cases h
          exact pushAll_error _ _ _ _ _

theorem root_newLines {ts : List Token} (h : nl ts = []) (ctx : Ctx) (st : AnyState) (b : Bool) :
    pushAll env self ctx (.parseRoot ⟨.initial, st, b⟩) ts =
      .ok (ctx, .parseRoot ⟨.initial, st, b || !ts.isEmpty⟩) := by
  induction ts generalizing b with
  | nil => simp [pushAll]
  | cons t ts ih =>
    by_cases ht : t = .newLine
    · subst ht
      have := ih h true
      simp only [Bool.true_or] at this
      simp only [List.isEmpty_cons, Bool.not_false, Bool.or_true]
      exact this
    · simp [nl, ht] at h

/-- the value of a constant, with line breaks -/
theorem const_run {key : Text} {ts : List Token} (hsemi : .semicolon ∉ ts) :
    ∀ {ctx ctx' : Ctx} {st : AnyState} {r : AnyResult},
    anyRun env self ctx st (nl ts) = .ok (ctx', r) →
    (∀ st' v, r = .success st' v → ∃ b, pushAll env self ctx (.parseConst key st) ts =
      .ok (ctx', .parseRoot ⟨.initial, { st' with consts := st'.consts.insert key v }, b⟩)) ∧
    (∀ e, r = .error e → pushAll env self ctx (.parseConst key st) ts = .ok (ctx', .error e)) := by
  induction ts with
  | nil =>
    intro ctx ctx' st r h
    simp only [nl, List.filter_nil] at h
    rw [anyRun_nil] at h
    cases h
    exact ⟨fun _ _ h => (by cases h), fun _ h => (by cases h)⟩
  | cons t ts ih =>
    intro ctx ctx' st r h
    have hsemi' : .semicolon ∉ ts := fun h => hsemi (by simp [h])
    by_cases ht : t = .newLine
    · subst ht
      exact ih hsemi' h
    · have : nl (t :: ts) = t :: nl ts := by simp [nl, ht]
      rw [this, anyRun_cons] at h
      simp only [pushAll]
      rw [jsonPush_eq ht]
      simp only
      rw [constStateParse_eq (fun h => hsemi (by simp [h]))]
      change (∀ _ _, _ → ∃ b, (anyParse env self ctx st t >>= _) >>= _ = _) ∧
        (∀ _, _ → (anyParse env self ctx st t >>= _) >>= _ = _)
      cases hp : anyParse env self ctx st t with
      | error e => rw [hp] at h; cases h
      | ok x =>
        rw [hp] at h
        obtain ⟨ctx1, r1⟩ := x
        change after env self ctx1 r1 (nl ts) = _ at h
        change (∀ _ _, _ → ∃ b, pushAll env self ctx1 (constResult key r1) ts = _) ∧
          (∀ _, _ → pushAll env self ctx1 (constResult key r1) ts = _)
        cases r1 with
        | cont st1 => rw [after_cont] at h; exact ih hsemi' h
        | success st1 v =>
          rw [after] at h
          split at h
          next hnil =>
            cases h
            refine ⟨?_, fun _ h => by cases h⟩
            rintro st' v' he
            cases he
            exact ⟨_, root_newLines hnil _ _ _⟩
          next => cases h
        | error e =>
          rw [after] at h
          cases h
          refine ⟨fun _ _ h => (by cases h), ?_⟩
          rintro e' he
          cases he
          exact pushAll_error _ _ _ _ _

theorem pushAll_append (ctx : Ctx) (j : JState) (a b : List Token) :
    pushAll env self ctx j (a ++ b) =
      pushAll env self ctx j a >>= fun x => pushAll env self x.1 x.2 b := by
  induction a generalizing ctx j with
  | nil => rfl
  | cons t a ih =>
    simp only [List.cons_append, pushAll]
    cases jsonPush env self ctx j t with
    | error e => rfl
    | ok x => exact ih x.1 x.2

theorem mem_commas {t : Token} {l : List (List Token)} (h : t ∈ commas l) :
    t = .comma ∨ ∃ x ∈ l, t ∈ x := by
  induction l with
  | nil => simp [commas] at h
  | cons x l ih =>
    cases l with
    | nil => exact .inr ⟨x, by simp, h⟩
    | cons y l =>
      simp only [commas, List.mem_append, List.mem_cons] at h
      rcases h with h | h | h
      · exact .inr ⟨x, by simp, h⟩
      · exact .inl h
      · rcases ih h with h | ⟨z, hz, h⟩
        · exact .inl h
        · exact .inr ⟨z, by simp [hz], h⟩

theorem no_semicolon (x : Src) : .semicolon ∉ x.tokens := by
  induction x using Src.ind with
  | arr l ih =>
    rw [Src.tokens]
    intro h
    simp only [List.mem_append, List.mem_cons, List.not_mem_nil, or_false, reduceCtorEq,
      false_or] at h
    rcases mem_commas h with h | ⟨y, hy, h⟩
    · cases h
    · obtain ⟨x, hx, rfl⟩ := List.mem_map.1 hy
      exact ih x hx h
  | obj l ih =>
    rw [Src.tokens]
    intro h
    simp only [List.mem_append, List.mem_cons, List.not_mem_nil, or_false, reduceCtorEq,
      false_or] at h
    rcases mem_commas h with h | ⟨y, hy, h⟩
    · cases h
    · obtain ⟨x, hx, rfl⟩ := List.mem_map.1 hy
      simp only [List.mem_cons, reduceCtorEq, false_or] at h
      exact ih x hx h
  | _ => rw [Src.tokens]; simp

theorem no_semicolon_nl {x : Src} {ts : List Token} (h : nl ts = x.tokens) : .semicolon ∉ ts :=
  fun hs => no_semicolon x (by rw [← h]; simp [hs])

end Parser
end Nanvm
