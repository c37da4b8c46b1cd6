import Verif.Lemmas.ParserRun
/-!
# Module types

The data type of the state tells which kind of constructs has been seen since the last `const`.
-/
namespace Nanvm
namespace Parser
open Tok Grammar

/-- two identifiers in a row; this happens only in `import` and `export` -/
def Two (P : List Token) : Prop := ∃ a b, [.id a, .id b] <:+: P

/-- the tokens that occur only in `require(..)` and `module.exports` -/
def Cj (P : List Token) : Prop := .dot ∈ P ∨ .openingParenthesis ∈ P

/-- the data type admits the constructs seen so far -/
def Clean (d : DataType) (P : List Token) : Prop := (d ≠ .mjs → ¬ Two P) ∧ (d ≠ .cjs → ¬ Cj P)

/-- the last token is an identifier -/
def EndsId (P : List Token) : Prop := ∃ n, P.getLast? = some (.id n)

/-- the states after an identifier -/
def afterId : List Status := [.objectKey, .arrayValue, .objectValue, .importBegin]

/-- the states within `require(..)` -/
def inImport : List Status := [.importBegin, .importValue, .importEnd]

theorem two_snoc {P : List Token} {t : Token} (h : Two (P ++ [t])) :
    Two P ∨ (EndsId P ∧ ∃ n, t = .id n) := by
  obtain ⟨a, b, x, y, h⟩ := h
  rcases List.eq_nil_or_concat y with rfl | ⟨y, z, rfl⟩
  · rw [List.append_nil] at h
    have : x ++ [.id a] ++ [.id b] = P ++ [t] := by simpa using h
    obtain ⟨h1, h2⟩ := List.append_inj' this rfl
    cases h2
    exact .inr ⟨⟨a, by rw [← h1]; simp⟩, b, rfl⟩
  · rw [List.concat_eq_append, ← List.append_assoc] at h
    obtain ⟨h1, h2⟩ := List.append_inj' h rfl
    exact .inl ⟨a, b, x, y, h1⟩

theorem endsId_snoc {P : List Token} {t : Token} : EndsId (P ++ [t]) ↔ ∃ n, t = .id n := by
  simp [EndsId]

theorem cj_snoc {P : List Token} {t : Token} :
    Cj (P ++ [t]) ↔ Cj P ∨ t = .dot ∨ t = .openingParenthesis := by
  simp only [Cj, List.mem_append, List.mem_singleton]
  constructor
  · rintro ((h | h) | (h | h))
    · exact .inl (.inl h)
    · exact .inr (.inl h.symm)
    · exact .inl (.inr h)
    · exact .inr (.inr h.symm)
  · rintro ((h | h) | (h | h))
    · exact .inl (.inl h)
    · exact .inr (.inl h)
    · exact .inl (.inr h.symm)
    · exact .inr (.inr h.symm)

/-- what a step within a value does to the data type -/
structure Mixed (st st' : AnyState) (t : Token) (goes : Prop) : Prop where
  type : st'.dataType = st.dataType ∨ (st'.dataType = .cjs ∧ st.dataType ≠ .mjs)
  dot : t ≠ .dot
  paren : t = .openingParenthesis → st'.dataType = .cjs
  id : ∀ n, t = .id n → st.status ∉ afterId ∧ (goes → st'.status ∈ afterId)
  imp : st'.status ∈ inImport → st'.dataType = .cjs

/-- the results of a step -/
def MixedR (st : AnyState) (t : Token) (r : AnyResult) : Prop :=
  match r with
  | .cont st' => Mixed st st' t True
  | .success st' _ => Mixed st st' t False ∧ st'.status = .initial
  | .error _ => True

theorem mixed_pushValue {st st0 : AnyState} {v : Val} {r : AnyResult} {t : Token}
    (h : pushValue st v = .ok r) (hd : st.dataType = st0.dataType) (h1 : t ≠ .dot)
    (h2 : t ≠ .openingParenthesis) (h3 : ∀ n, t = .id n → st0.status ∉ afterId) :
    MixedR st0 t r := by
  unfold pushValue at h
  split at h <;> cases h
  · exact ⟨⟨.inl hd, h1, fun h => absurd h h2, fun n h => ⟨h3 n h, False.elim⟩,
      fun h => by simp [inImport] at h⟩, rfl⟩
  · exact ⟨.inl hd, h1, fun h => absurd h h2, fun n h => ⟨h3 n h, fun _ => by simp [afterId]⟩,
      fun h => by simp [inImport] at h⟩
  · exact ⟨.inl hd, h1, fun h => absurd h h2, fun n h => ⟨h3 n h, fun _ => by simp [afterId]⟩,
      fun h => by simp [inImport] at h⟩

theorem mixed_pushToken {st : AnyState} {n n' : Nat} {r : AnyResult} {t : Token}
    (h : pushToken n st t = .ok (r, n')) (h3 : st.status ∉ afterId) : MixedR st t r := by
  unfold pushToken at h
  split at h
  next v n1 ht =>
    cases hp : pushValue st v with
    | error e => rw [hp] at h; cases h
    | ok r1 =>
      rw [hp] at h
      cases h
      exact mixed_pushValue hp rfl (by rintro rfl; cases ht) (by rintro rfl; cases ht)
        (fun _ _ => h3)
  next => cases h; trivial

theorem popTop_dt (st : AnyState) : (popTop st).dataType = st.dataType := by
  unfold popTop; split <;> rfl

theorem mixed_endArray {st : AnyState} {n n' : Nat} {r : AnyResult}
    (h : endArray n st = .ok (r, n')) : MixedR st .arrayEnd r := by
  unfold endArray at h
  split at h
  next l _ =>
    cases hp : pushValue (popTop st) (.arr n l) with
    | error e => rw [hp] at h; cases h
    | ok r1 =>
      rw [hp] at h
      cases h
      exact mixed_pushValue hp (popTop_dt st) (by simp) (by simp) (by simp)
  next => cases h

theorem mixed_endObject {st : AnyState} {n n' : Nat} {r : AnyResult}
    (h : endObject n st = .ok (r, n')) : MixedR st .objectEnd r := by
  unfold endObject at h
  split at h
  next map _ _ =>
    cases hp : pushValue (popTop st) (.obj n (map.map fun kv => (toJsString kv.1, kv.2))) with
    | error e => rw [hp] at h; cases h
    | ok r1 =>
      rw [hp] at h
      cases h
      exact mixed_pushValue hp (popTop_dt st) (by simp) (by simp) (by simp)
  next => cases h

theorem mixed_plain {st st' : AnyState} {t : Token} {goes : Prop} (hd : st'.dataType = st.dataType)
    (h1 : t ≠ .dot) (h2 : t ≠ .openingParenthesis) (h3 : ∀ n, t ≠ .id n)
    (h4 : st'.status ∉ inImport) : Mixed st st' t goes :=
  ⟨.inl hd, h1, fun h => absurd h h2, fun n h => absurd h (h3 n), fun h => absurd h h4⟩

theorem mixed_beginImport {st : AnyState} {s : Text} (h : st.dataType ≠ .mjs)
    (h3 : st.status ∉ afterId) : MixedR st (.id s) (beginImport st) :=
  ⟨.inr ⟨rfl, h⟩, by simp, fun h => (by cases h), fun _ _ => ⟨h3, fun _ => by simp [afterId]⟩,
    fun _ => rfl⟩

theorem mixed_pushKey {st : AnyState} {s : Text} {t : Token} (ht : t = .string s ∨ t = .id s)
    (h3 : st.status ∉ afterId) : MixedR st t (pushKey st s) := by
  unfold pushKey
  split
  · refine ⟨.inl rfl, ?_, ?_, fun _ _ => ⟨h3, fun _ => by simp [afterId]⟩, fun h => by
      simp [inImport] at h⟩
    · rcases ht with rfl | rfl <;> simp
    · rcases ht with rfl | rfl <;> simp
  · trivial

theorem anyParse_mixed {env : Env} {self : ParseTokens} {ctx ctx' : Ctx} {st : AnyState} {t : Token}
    {r : AnyResult} (himp : st.status ∈ inImport → st.dataType = .cjs)
    (h : anyParse env self ctx st t = .ok (ctx', r)) : MixedR st t r := by
  have bindok : ∀ {x : Res (AnyResult × Nat)},
      (x >>= fun r => Except.ok (({ ctx with next := r.2 } : Ctx), r.1)) = .ok (ctx', r) →
      ∃ n', x = .ok (r, n') := by
    intro x hx
    cases x with
    | error e => cases hx
    | ok y => cases hx; exact ⟨y.2, rfl⟩
  have hval : ∀ {n n'}, st.status ∉ afterId → parseValue n st t = .ok (r, n') → MixedR st t r := by
    intro n n' hs h
    unfold parseValue at h
    split at h
    · cases h; exact mixed_plain rfl (by simp) (by simp) (by simp) (by simp [inImport])
    · cases h; exact mixed_plain rfl (by simp) (by simp) (by simp) (by simp [inImport])
    · split at h
      next hc =>
        cases h
        refine mixed_beginImport (fun h => ?_) hs
        rw [h] at hc
        simp [DataType.cjsCompatible] at hc
      next => exact mixed_pushToken h hs
    · exact mixed_pushToken h hs
  unfold anyParse dispatch at h
  cases hs : st.status <;> rw [hs] at h
  · -- initial
    obtain ⟨n', h⟩ := bindok h
    exact hval (by rw [hs]; decide) h
  · -- arrayBegin
    obtain ⟨n', h⟩ := bindok h
    have h3 : st.status ∉ afterId := by rw [hs]; decide
    unfold parseArrayBegin at h
    split at h
    · cases h; exact mixed_plain rfl (by simp) (by simp) (by simp) (by simp [inImport])
    · exact mixed_endArray h
    · cases h; exact mixed_plain rfl (by simp) (by simp) (by simp) (by simp [inImport])
    · exact mixed_pushToken h h3
  · -- arrayValue
    obtain ⟨n', h⟩ := bindok h
    unfold parseArrayValue at h
    split at h
    · exact mixed_endArray h
    · cases h; exact mixed_plain rfl (by simp) (by simp) (by simp) (by simp [inImport])
    · cases h; trivial
  · -- arrayComma
    obtain ⟨n', h⟩ := bindok h
    have h3 : st.status ∉ afterId := by rw [hs]; decide
    unfold parseArrayComma at h
    split at h
    · cases h; exact mixed_plain rfl (by simp) (by simp) (by simp) (by simp [inImport])
    · cases h; exact mixed_plain rfl (by simp) (by simp) (by simp) (by simp [inImport])
    · split at h
      next hc => cases h; exact mixed_beginImport (by rw [hc.1]; simp) h3
      next => exact mixed_pushToken h h3
    · exact mixed_endArray h
    · exact mixed_pushToken h h3
  · -- objectBegin
    obtain ⟨n', h⟩ := bindok h
    have h3 : st.status ∉ afterId := by rw [hs]; decide
    unfold parseObjectBegin at h
    split at h
    · cases h; exact mixed_pushKey (.inl rfl) h3
    · split at h
      · cases h; exact mixed_pushKey (.inr rfl) h3
      · cases h; trivial
    · exact mixed_endObject h
    · cases h; trivial
  · -- objectKey
    cases h
    unfold parseObjectKey
    split
    · exact mixed_plain rfl (by simp) (by simp) (by simp) (by simp [inImport])
    · trivial
  · -- objectColon
    obtain ⟨n', h⟩ := bindok h
    exact hval (by rw [hs]; decide) h
  · -- objectValue
    obtain ⟨n', h⟩ := bindok h
    unfold parseObjectNext at h
    split at h
    · exact mixed_endObject h
    · cases h; exact mixed_plain rfl (by simp) (by simp) (by simp) (by simp [inImport])
    · cases h; trivial
  · -- objectComma
    obtain ⟨n', h⟩ := bindok h
    have h3 : st.status ∉ afterId := by rw [hs]; decide
    unfold parseObjectComma at h
    split at h
    · cases h; exact mixed_pushKey (.inl rfl) h3
    · exact mixed_endObject h
    · cases h; trivial
  · -- importBegin
    have hcjs := himp (by rw [hs]; decide)
    cases h
    unfold parseImportBegin
    split
    · exact ⟨.inl rfl, by simp, fun _ => hcjs, fun n h => (by cases h), fun _ => hcjs⟩
    · trivial
  · -- importValue
    have hcjs := himp (by rw [hs]; decide)
    change importValue env self ctx st t = _ at h
    unfold importValue at h
    split at h
    next s =>
      cases hi : importModule env self ctx s with
      | error e => rw [hi] at h; cases h
      | ok x =>
        rw [hi] at h
        obtain ⟨c1, x⟩ := x
        cases x with
        | ok v =>
          cases h
          exact ⟨.inl rfl, by simp, fun h => (by cases h), fun n h => (by cases h), fun _ => hcjs⟩
        | error e => cases h; trivial
    next => cases h; trivial
  · -- importEnd
    have hcjs := himp (by rw [hs]; decide)
    cases hp : parseImportEnd st t with
    | error e => rw [hp] at h; cases h
    | ok r1 =>
      rw [hp] at h
      cases h
      unfold parseImportEnd at hp
      split at hp
      · unfold endImport at hp
        split at hp
        · exact mixed_pushValue hp (popTop_dt st) (by simp) (by simp) (by simp)
        · cases hp
      · cases hp; trivial

theorem Clean.step {d d' : DataType} {P : List Token} {t : Token} (h : Clean d P)
    (hd : d' = d ∨ (d' = .cjs ∧ d ≠ .mjs)) (h1 : EndsId P → (∃ n, t = .id n) → d' = .mjs)
    (h2 : t = .dot → d' = .cjs) (h3 : t = .openingParenthesis → d' = .cjs) :
    Clean d' (P ++ [t]) := by
  constructor
  · intro hm ht
    rcases two_snoc ht with ht | ⟨ht, hn⟩
    · refine h.1 ?_ ht
      rcases hd with rfl | hd
      · exact hm
      · exact hd.2
    · exact hm (h1 ht hn)
  · intro hm ht
    rcases cj_snoc.1 ht with ht | ht | ht
    · refine h.2 ?_ ht
      rcases hd with rfl | hd
      · exact hm
      · exact absurd hd.1 hm
    · exact hm (h2 ht)
    · exact hm (h3 ht)

theorem Clean.mjs {d : DataType} {P : List Token} {t : Token} (h : Clean d P) (hd : d ≠ .cjs)
    (h2 : t ≠ .dot) (h3 : t ≠ .openingParenthesis) : Clean .mjs (P ++ [t]) := by
  refine ⟨fun h => absurd rfl h, fun _ ht => ?_⟩
  rcases cj_snoc.1 ht with ht | ht | ht
  · exact h.2 hd ht
  · exact h2 ht
  · exact h3 ht

/-- the invariant: the state knows what kind of constructs the tokens `P` contain -/
def MixInv (P : List Token) : JState → Prop
  | .parseRoot r => Clean r.state.dataType P ∧ r.state.status = .initial ∧
    match r.status with
    | .initial => r.newLine = true → ¬ EndsId P
    | .export_ | .import_ | .importId _ | .importIdFrom _ => r.state.dataType = .mjs
    | .module | .moduleDotExports => r.state.dataType = .cjs
    | .moduleDot => r.state.dataType = .cjs ∧ ¬ EndsId P
    | .const_ => ¬ EndsId P
    | .constId _ => True
  | .parseConst _ st | .parseModule st => Clean st.dataType P ∧
    (EndsId P → st.dataType = .mjs ∨ st.status ∈ afterId) ∧
    (st.status ∈ inImport → st.dataType = .cjs)
  | .result dt _ => Clean dt P
  | .error _ => True

theorem not_endsId_nil : ¬ EndsId [] := fun ⟨n, h⟩ => by simp at h

theorem clean_nil (d : DataType) : Clean d [] := by
  refine ⟨fun _ h => ?_, fun _ h => ?_⟩
  · obtain ⟨a, b, h⟩ := h
    simp at h
  · simp [Cj] at h

/-- the invariant holds for no tokens if it holds for some -/
theorem MixInv.forget {P : List Token} {j : JState} (h : MixInv P j) : MixInv [] j := by
  cases j with
  | parseRoot r =>
    obtain ⟨-, hst, hs⟩ := h
    refine ⟨clean_nil _, hst, ?_⟩
    cases hr : r.status <;> rw [hr] at hs <;> first | exact hs | skip
    · exact fun _ => not_endsId_nil
    · exact ⟨hs.1, not_endsId_nil⟩
    · exact not_endsId_nil
  | parseConst k st => exact ⟨clean_nil _, fun h => absurd h not_endsId_nil, h.2.2⟩
  | parseModule st => exact ⟨clean_nil _, fun h => absurd h not_endsId_nil, h.2.2⟩
  | result dt v => exact clean_nil _
  | error e => trivial

theorem clean_mixed {P : List Token} {st st' : AnyState} {t : Token} {goes : Prop}
    (hc : Clean st.dataType P) (he : EndsId P → st.dataType = .mjs ∨ st.status ∈ afterId)
    (hm : Mixed st st' t goes) : Clean st'.dataType (P ++ [t]) := by
  refine hc.step hm.type (fun h1 h2 => ?_) (fun h => absurd h hm.dot) hm.paren
  obtain ⟨n, hn⟩ := h2
  rcases he h1 with h | h
  · rcases hm.type with h' | h'
    · rw [h', h]
    · exact absurd h h'.2
  · exact absurd h (hm.id n hn).1

theorem forModule_mix {P : List Token} {st : AnyState} {t : Token} {r : AnyResult}
    (hc : Clean st.dataType P) (he : EndsId P → st.dataType = .mjs ∨ st.status ∈ afterId)
    (h : MixedR st t r) : MixInv (P ++ [t]) (forModule r) := by
  cases r with
  | error e => trivial
  | success st' v => exact clean_mixed hc he h.1
  | cont st' =>
    refine ⟨clean_mixed hc he h, fun hend => ?_, h.imp⟩
    obtain ⟨n, hn⟩ := endsId_snoc.1 hend
    exact .inr ((h.id n hn).2 trivial)

theorem constResult_mix {P : List Token} {st : AnyState} {k : Text} {t : Token} {r : AnyResult}
    (hc : Clean st.dataType P) (he : EndsId P → st.dataType = .mjs ∨ st.status ∈ afterId)
    (h : MixedR st t r) : MixInv (P ++ [t]) (constResult k r) := by
  cases r with
  | error e => trivial
  | success st' v => exact ⟨(clean_mixed hc he h.1 :), h.2, fun h => by cases h⟩
  | cont st' =>
    refine ⟨clean_mixed hc he h, fun hend => ?_, h.imp⟩
    obtain ⟨n, hn⟩ := endsId_snoc.1 hend
    exact .inr ((h.id n hn).2 trivial)

theorem value_branch {st : AnyState} (hst : st.status = .initial) (n : Nat) (t : Token) :
    (do
        let ((j, _), n) ← parseForModule n st t
        return ((j, (none : Option (Text × Text))), n)) =
        (parseValue n st t >>= fun r => .ok ((forModule r.1, none), r.2) :
          Res ((JState × Option (Text × Text)) × Nat)) := by
  simp only [parseForModule, AnyState.parse, dispatch, hst]
  cases parseValue n st t <;> rfl

theorem value_mix {env : Env} {self : ParseTokens} {ctx ctx' : Ctx} {P : List Token} {st : AnyState}
    {t : Token} {j' : JState} (hst : st.status = .initial) (hc : Clean st.dataType P)
    (he : ¬ EndsId P)
    (hp : ((do
        let ((j, _), n) ← parseForModule ctx.next st t
        return ((j, (none : Option (Text × Text))), n)) >>= fun x =>
        (.ok ({ ctx with next := x.2 }, x.1.1) : Res (Ctx × JState))) = .ok (ctx', j')) :
    MixInv (P ++ [t]) j' := by
  rw [value_branch hst] at hp
  have ha : anyParse env self ctx st t =
      parseValue ctx.next st t >>= fun r => .ok ({ ctx with next := r.2 }, r.1) := by
    simp only [anyParse, dispatch, hst]
    cases parseValue ctx.next st t <;> rfl
  cases hv : parseValue ctx.next st t with
  | error e => rw [hv] at hp; cases hp
  | ok x =>
    rw [hv] at hp ha
    cases hp
    exact forModule_mix hc (fun h => absurd h he)
      (anyParse_mixed (fun h => by rw [hst] at h; simp [inImport] at h) ha)

theorem root_mix {env : Env} {self : ParseTokens} {ctx ctx' : Ctx} {P : List Token} {r : RootState}
    {t : Token} {j' : JState} (h : MixInv P (.parseRoot r))
    (hp : rootParse env self ctx r t = .ok (ctx', j')) :
    MixInv (P ++ [t]) j' ∨ (t = .id "const".toList ∧ MixInv [] j') := by
  obtain ⟨status, st, b⟩ := r
  obtain ⟨hc, hst, hs⟩ := h
  simp only at hc hst hs
  by_cases hk : status = .initial ∧ b = true ∧ t = .id "const".toList
  · obtain ⟨rfl, rfl, rfl⟩ := hk
    cases hp
    exact .inr ⟨rfl, clean_nil _, hst, not_endsId_nil⟩
  refine .inl ?_
  have noEnd : ∀ {t : Token}, (∀ n, t ≠ .id n) → ¬ EndsId (P ++ [t]) := by
    intro t ht h
    obtain ⟨n, hn⟩ := endsId_snoc.1 h
    exact ht n hn
  cases status with
  | initial =>
    have value : b = true → rootParse env self ctx ⟨.initial, st, b⟩ t =
        ((do
          let ((j, _), n) ← parseForModule ctx.next st t
          return ((j, (none : Option (Text × Text))), n)) >>= fun x =>
          (.ok ({ ctx with next := x.2 }, x.1.1) : Res (Ctx × JState))) → MixInv (P ++ [t]) j' :=
      fun hb he => value_mix (env := env) (self := self) hst hc (hs hb) (he ▸ hp)
    have vb : ∀ t', RootState.parse ctx.next ⟨.initial, st, b⟩ t' = (do
          let ((j, _), n) ← parseForModule ctx.next st t'
          return ((j, (none : Option (Text × Text))), n)) →
        rootParse env self ctx ⟨.initial, st, b⟩ t' =
        ((do
          let ((j, _), n) ← parseForModule ctx.next st t'
          return ((j, (none : Option (Text × Text))), n)) >>= fun x =>
          (.ok ({ ctx with next := x.2 }, x.1.1) : Res (Ctx × JState))) := by
      intro t' he
      rw [rootParse, he, value_branch hst]
      cases parseValue ctx.next st t' <;> rfl
    cases t with
    | newLine =>
      cases hp
      exact ⟨hc.step (.inl rfl) (fun _ h => by obtain ⟨n, h⟩ := h; cases h) (fun h => by cases h)
        (fun h => by cases h), hst, fun _ => noEnd (by simp)⟩
    | id s =>
      cases b with
      | false => cases hp; trivial
      | true =>
        by_cases h1 : s = "const".toList
        · subst h1
          exact absurd ⟨rfl, rfl, rfl⟩ hk
        by_cases h2 : s = "export".toList ∧ st.dataType.mjsCompatible
        · have : rootParse env self ctx ⟨.initial, st, true⟩ (.id s) =
              .ok (ctx, .parseRoot ⟨.export_, { st with dataType := .mjs }, false⟩) := by
            simp only [rootParse, RootState.parse, if_true, if_neg h1, if_pos h2]
            rfl
          rw [this] at hp
          cases hp
          refine ⟨hc.mjs ?_ (by simp) (by simp), hst, rfl⟩
          intro hd
          rw [hd] at h2
          simp [DataType.mjsCompatible] at h2
        by_cases h3 : s = "module".toList ∧ st.dataType.cjsCompatible
        · have : rootParse env self ctx ⟨.initial, st, true⟩ (.id s) =
              .ok (ctx, .parseRoot ⟨.module, { st with dataType := .cjs }, false⟩) := by
            simp only [rootParse, RootState.parse, if_true, if_neg h1, if_neg h2, if_pos h3]
            rfl
          rw [this] at hp
          cases hp
          refine ⟨hc.step (.inr ⟨rfl, ?_⟩) (fun h => absurd h (hs rfl)) (fun _ => rfl) (fun _ => rfl),
            hst, rfl⟩
          intro hd
          rw [hd] at h3
          simp [DataType.cjsCompatible] at h3
        by_cases h4 : s = "import".toList ∧ st.dataType.mjsCompatible
        · have : rootParse env self ctx ⟨.initial, st, true⟩ (.id s) =
              .ok (ctx, .parseRoot ⟨.import_, { st with dataType := .mjs }, false⟩) := by
            simp only [rootParse, RootState.parse, if_true, if_neg h1, if_neg h2, if_neg h3,
              if_pos h4]
            rfl
          rw [this] at hp
          cases hp
          refine ⟨hc.mjs ?_ (by simp) (by simp), hst, rfl⟩
          intro hd
          rw [hd] at h4
          simp [DataType.mjsCompatible] at h4
        · refine value rfl (vb _ ?_)
          simp only [RootState.parse, if_true, if_neg h1, if_neg h2, if_neg h3, if_neg h4]
    | _ =>
      cases b with
      | false => cases hp; trivial
      | true => exact value rfl (vb _ rfl)
  | export_ =>
    cases t <;> try (cases hp; trivial)
    rename_i s
    by_cases h1 : s = "default".toList
    · subst h1
      cases hp
      exact ⟨hc.step (.inl rfl) (fun _ _ => hs) (fun h => by cases h) (fun h => by cases h),
        fun _ => .inl hs, fun h => by rw [hst] at h; simp [inImport] at h⟩
    · simp only [rootParse, RootState.parse, if_neg h1] at hp
      cases hp; trivial
  | module =>
    cases t <;> try (cases hp; trivial)
    cases hp
    exact ⟨hc.step (.inl rfl) (fun _ h => by obtain ⟨n, h⟩ := h; cases h) (fun _ => hs)
      (fun _ => hs), hst, hs, noEnd (by simp)⟩
  | moduleDot =>
    cases t <;> try (cases hp; trivial)
    rename_i s
    by_cases h1 : s = "exports".toList
    · subst h1
      cases hp
      exact ⟨hc.step (.inl rfl) (fun h => absurd h hs.2) (fun h => by cases h)
        (fun h => by cases h), hst, hs.1⟩
    · simp only [rootParse, RootState.parse, if_neg h1] at hp
      cases hp; trivial
  | moduleDotExports =>
    cases t <;> try (cases hp; trivial)
    cases hp
    exact ⟨hc.step (.inl rfl) (fun _ h => by obtain ⟨n, h⟩ := h; cases h) (fun h => by cases h)
      (fun h => by cases h), fun h => absurd h (noEnd (by simp)),
      fun h => by rw [hst] at h; simp [inImport] at h⟩
  | const_ =>
    cases t <;> try (cases hp; trivial)
    cases hp
    exact ⟨hc.step (.inl rfl) (fun h => absurd h hs) (fun h => by cases h) (fun h => by cases h), hst,
      trivial⟩
  | constId s =>
    cases t <;> try (cases hp; trivial)
    cases hp
    exact ⟨hc.step (.inl rfl) (fun _ h => by obtain ⟨n, h⟩ := h; cases h) (fun h => by cases h)
      (fun h => by cases h), fun h => absurd h (noEnd (by simp)),
      fun h => by rw [hst] at h; simp [inImport] at h⟩
  | import_ =>
    cases t <;> try (cases hp; trivial)
    cases hp
    exact ⟨hc.step (.inl rfl) (fun _ _ => hs) (fun h => by cases h) (fun h => by cases h), hst, hs⟩
  | importId m =>
    cases t <;> try (cases hp; trivial)
    rename_i s
    by_cases h1 : s = "from".toList
    · subst h1
      cases hp
      exact ⟨hc.step (.inl rfl) (fun _ _ => hs) (fun h => by cases h) (fun h => by cases h), hst, hs⟩
    · simp only [rootParse, RootState.parse, if_neg h1] at hp
      cases hp; trivial
  | importIdFrom m =>
    cases t <;> try (cases hp; trivial)
    rename_i s
    change (importModule env self ctx s >>= _) = _ at hp
    cases hi : importModule env self ctx s with
    | error e => rw [hi] at hp; cases hp
    | ok x =>
      rw [hi] at hp
      obtain ⟨c1, x⟩ := x
      cases x with
      | error e => cases hp; trivial
      | ok v =>
        cases hp
        exact ⟨hc.step (.inl rfl) (fun _ h => by obtain ⟨n, h⟩ := h; cases h) (fun h => by cases h)
          (fun h => by cases h), hst, fun _ => noEnd (by simp)⟩

theorem mix_step {env : Env} {self : ParseTokens} {ctx ctx' : Ctx} {P : List Token} {j j' : JState}
    {t : Token} (h : MixInv P j) (hp : jsonPush env self ctx j t = .ok (ctx', j')) :
    MixInv (P ++ [t]) j' ∨ (t = .id "const".toList ∧ MixInv [] j') := by
  by_cases ht : t = .newLine
  · subst ht
    have noEnd : ¬ EndsId (P ++ [.newLine]) := fun h => by
      obtain ⟨n, hn⟩ := endsId_snoc.1 h
      cases hn
    have step : ∀ {d : DataType}, Clean d P → Clean d (P ++ [.newLine]) := fun hc =>
      hc.step (.inl rfl) (fun _ h => by obtain ⟨n, h⟩ := h; cases h) (fun h => by cases h)
        (fun h => by cases h)
    cases j with
    | parseRoot r => exact root_mix h hp
    | parseConst k st => cases hp; exact .inl ⟨step h.1, fun h => absurd h noEnd, h.2.2⟩
    | parseModule st => cases hp; exact .inl ⟨step h.1, fun h => absurd h noEnd, h.2.2⟩
    | result dt v => cases hp; exact .inl (step h)
    | error e => cases hp; exact .inl trivial
  · rw [jsonPush_eq ht] at hp
    cases j with
    | parseRoot r => exact root_mix h hp
    | parseConst k st =>
      by_cases hsc : t = .semicolon
      · subst hsc; cases hp
      change constStateParse env self ctx k st t = _ at hp
      rw [constStateParse_eq hsc] at hp
      cases ha : anyParse env self ctx st t with
      | error e => rw [ha] at hp; cases hp
      | ok x =>
        rw [ha] at hp
        cases hp
        exact .inl (constResult_mix h.1 h.2.1 (anyParse_mixed h.2.2 ha))
    | parseModule st =>
      change (anyParse env self ctx st t >>= _) = _ at hp
      cases ha : anyParse env self ctx st t with
      | error e => rw [ha] at hp; cases hp
      | ok x =>
        rw [ha] at hp
        cases hp
        exact .inl (forModule_mix h.1 h.2.1 (anyParse_mixed h.2.2 ha))
    | result dt v => cases hp; exact .inl trivial
    | error e => cases hp; exact .inl trivial

theorem mix_any {env : Env} {self : ParseTokens} : ∀ {ts : List Token} {ctx ctx' : Ctx} {j j' : JState},
    MixInv [] j → pushAll env self ctx j ts = .ok (ctx', j') → MixInv [] j' := by
  intro ts
  induction ts with
  | nil => intro ctx ctx' j j' h hp; cases hp; exact h
  | cons t ts ih =>
    intro ctx ctx' j j' h hp
    simp only [pushAll] at hp
    cases hj : jsonPush env self ctx j t with
    | error e => rw [hj] at hp; cases hp
    | ok x =>
      rw [hj] at hp
      rcases mix_step h hj with h1 | h1
      · exact ih h1.forget hp
      · exact ih h1.2 hp

theorem mix_run {env : Env} {self : ParseTokens} {ts : List Token} (hcst : .id "const".toList ∉ ts) :
    ∀ {ctx ctx' : Ctx} {P : List Token} {j j' : JState}, MixInv P j →
    pushAll env self ctx j ts = .ok (ctx', j') → MixInv (P ++ ts) j' := by
  induction ts with
  | nil => intro ctx ctx' P j j' h hp; cases hp; simpa using h
  | cons t ts ih =>
    intro ctx ctx' P j j' h hp
    simp only [pushAll] at hp
    cases hj : jsonPush env self ctx j t with
    | error e => rw [hj] at hp; cases hp
    | ok x =>
      rw [hj] at hp
      rcases mix_step h hj with h1 | h1
      · have := ih (fun h => hcst (List.mem_cons_of_mem _ h)) h1 hp
        simpa using this
      · exact absurd (h1.1 ▸ List.mem_cons_self) hcst

theorem mix_start : MixInv [] JState.start := ⟨clean_nil _, rfl, fun _ => not_endsId_nil⟩

end Parser
end Nanvm
