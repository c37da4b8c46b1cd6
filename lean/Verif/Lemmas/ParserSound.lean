import Verif.Lemmas.ParserMap
/-!
# Parser states and the tokens read

`St M st T`: the state `st` is what remains of the unfinished value with the tokens `T`.
-/
namespace Nanvm
namespace Parser
open Tok Grammar

section
variable (M : Text → Val → Prop)

/-- the tokens of elements that are followed by commas -/
def itemToks (items : List (List Token × Val)) : List Token :=
  items.flatMap fun x => x.1 ++ [.comma]

/-- the tokens of members that are followed by commas -/
def memberToks (ms : List Member) : List Token :=
  ms.flatMap fun m => m.keyToken :: .colon :: m.tokens ++ [.comma]

/-- the pairs of members -/
def memberPairs (ms : List Member) : List (Text × Val) := ms.map fun m => (m.key, m.value)

/-- elements are values -/
def ItemsOk (c : Text → Option Val) (items : List (List Token × Val)) : Prop :=
  ∀ x ∈ items, Value M c x.1 x.2

/-- members have keys and values -/
def MembersOk (c : Text → Option Val) (ms : List Member) : Prop :=
  ∀ m ∈ ms, m.KeyOk ∧ Value M c m.tokens m.value

/-- a token that is the key `k` -/
def KeyTok (t : Token) (k : Text) : Prop := t = .string k ∨ t = .id k

/-- an unfinished array or object that waits for a value -/
def Pend (c : Text → Option Val) : Frame → List Token → Prop
  | .array l, T => ∃ items, ItemsOk M c items ∧ l = items.map (·.2) ∧
      T = .arrayBegin :: itemToks items
  | .object map key, T => ∃ ms kt, MembersOk M c ms ∧ map = TMap.ofPairs (memberPairs ms) ∧
      KeyTok kt key ∧ T = .objectBegin :: memberToks ms ++ [kt, .colon]

/-- unfinished arrays and objects within each other -/
def Pends (c : Text → Option Val) : List Frame → List Token → Prop
  | [], T => T = []
  | f :: fs, T => ∃ T1 T2, Pends c fs T1 ∧ Pend M c f T2 ∧ T = T1 ++ T2

/-- the tokens that led to a state -/
def St (st : AnyState) (T : List Token) : Prop :=
  let c := st.consts.get
  match st.status with
  | .initial => st.current = .none ∧ st.stack = [] ∧ T = []
  | .arrayBegin => st.current = .stack (.array []) ∧
      ∃ T1, Pends M c st.stack T1 ∧ T = T1 ++ [.arrayBegin]
  | .arrayComma => ∃ items T1, items ≠ [] ∧ st.current = .stack (.array (items.map (·.2))) ∧
      ItemsOk M c items ∧ Pends M c st.stack T1 ∧ T = T1 ++ .arrayBegin :: itemToks items
  | .arrayValue => ∃ items x T1, st.current = .stack (.array ((items ++ [x]).map (·.2))) ∧
      ItemsOk M c (items ++ [x]) ∧ Pends M c st.stack T1 ∧
      T = T1 ++ .arrayBegin :: itemToks items ++ x.1
  | .objectBegin => ∃ k T1, st.current = .stack (.object [] k) ∧ Pends M c st.stack T1 ∧
      T = T1 ++ [.objectBegin]
  | .objectKey => ∃ ms kt k T1, st.current = .stack (.object (TMap.ofPairs (memberPairs ms)) k) ∧
      MembersOk M c ms ∧ KeyTok kt k ∧ Pends M c st.stack T1 ∧
      T = T1 ++ .objectBegin :: memberToks ms ++ [kt]
  | .objectColon => ∃ ms kt k T1, st.current = .stack (.object (TMap.ofPairs (memberPairs ms)) k) ∧
      MembersOk M c ms ∧ KeyTok kt k ∧ Pends M c st.stack T1 ∧
      T = T1 ++ .objectBegin :: memberToks ms ++ [kt, .colon]
  | .objectValue => ∃ ms m k T1,
      st.current = .stack (.object (TMap.ofPairs (memberPairs (ms ++ [m]))) k) ∧
      MembersOk M c (ms ++ [m]) ∧ Pends M c st.stack T1 ∧
      T = T1 ++ .objectBegin :: memberToks ms ++ m.keyToken :: .colon :: m.tokens
  | .objectComma => ∃ ms k T1, ms ≠ [] ∧
      st.current = .stack (.object (TMap.ofPairs (memberPairs ms)) k) ∧
      MembersOk M c ms ∧ Pends M c st.stack T1 ∧ T = T1 ++ .objectBegin :: memberToks ms
  | .importBegin => st.current = .none ∧ ∃ T1, Pends M c st.stack T1 ∧
      T = T1 ++ [.id "require".toList]
  | .importValue => st.current = .none ∧ ∃ T1, Pends M c st.stack T1 ∧
      T = T1 ++ [.id "require".toList, .openingParenthesis]
  | .importEnd => ∃ s v T1, st.current = .any v ∧ M s v ∧ Pends M c st.stack T1 ∧
      T = T1 ++ [.id "require".toList, .openingParenthesis, .string s]

/-- ready for a value that is not part of another -/
def Idle (st : AnyState) : Prop := st.status = .initial ∧ st.current = .none ∧ st.stack = []

/-- what a step may lead to; the module type changes only to CommonJS -/
def Good (st : AnyState) (T : List Token) : AnyResult → Prop
  | .cont st' => St M st' T ∧ st'.consts = st.consts ∧
      (st'.dataType = st.dataType ∨ st'.dataType = .cjs ∧ st.dataType.cjsCompatible)
  | .success st' v => Value M st.consts.get T v ∧ Idle st' ∧ st'.consts = st.consts ∧
      st'.dataType = st.dataType
  | .error _ => True

end

variable {M : Text → Val → Prop}

theorem commas_snoc (l : List (List Token)) (x : List Token) :
    commas (l ++ [x]) = (l.flatMap fun y => y ++ [.comma]) ++ x := by
  induction l with
  | nil => simp [commas]
  | cons y l ih =>
    have : commas (y :: (l ++ [x])) = y ++ .comma :: commas (l ++ [x]) := by
      cases h : l ++ [x] with
      | nil => simp at h
      | cons a b => rfl
    rw [List.cons_append, this, ih]
    simp

theorem commas_trailing (l : List (List Token)) (h : l ≠ []) :
    commas l ++ [.comma] = l.flatMap fun y => y ++ [.comma] := by
  rcases List.eq_nil_or_concat l with rfl | ⟨l, x, rfl⟩
  · exact absurd rfl h
  · rw [List.concat_eq_append, commas_snoc]
    simp

theorem itemToks_eq (items : List (List Token × Val)) :
    itemToks items = (items.map (·.1)).flatMap fun y => y ++ [.comma] := by
  simp [itemToks, List.flatMap_map]

theorem memberToks_eq (ms : List Member) :
    memberToks ms =
      (ms.map fun m => m.keyToken :: .colon :: m.tokens).flatMap fun y => y ++ [.comma] := by
  simp [memberToks, List.flatMap_map]

theorem itemToks_snoc (items : List (List Token × Val)) (x : List Token × Val) :
    itemToks (items ++ [x]) = itemToks items ++ x.1 ++ [.comma] := by
  simp [itemToks]

theorem memberToks_snoc (ms : List Member) (m : Member) :
    memberToks (ms ++ [m]) = memberToks ms ++ (m.keyToken :: .colon :: m.tokens) ++ [.comma] := by
  simp [memberToks]

theorem value_arr {c : Text → Option Val} (i : Nat) {items : List (List Token × Val)}
    {x : List Token × Val} (h : ItemsOk M c (items ++ [x])) :
    Value M c (.arrayBegin :: itemToks items ++ x.1 ++ [.arrayEnd])
      (.arr i ((items ++ [x]).map (·.2))) := by
  have := Value.arr (M := M) (c := c) i (items ++ [x]) false h (by simp)
  simpa [commas_snoc, itemToks_eq, trailing] using this

theorem value_arr_trailing {c : Text → Option Val} (i : Nat) {items : List (List Token × Val)}
    (hne : items ≠ []) (h : ItemsOk M c items) :
    Value M c (.arrayBegin :: itemToks items ++ [.arrayEnd]) (.arr i (items.map (·.2))) := by
  have := Value.arr (M := M) (c := c) i items true h (by simp [hne])
  rwa [List.cons_append (a := Token.arrayBegin), trailing, commas_trailing _ (by simpa using hne),
    ← itemToks_eq] at this

theorem value_arr_nil {c : Text → Option Val} (i : Nat) :
    Value M c [.arrayBegin, .arrayEnd] (.arr i []) :=
  Value.arr i [] false (by simp) (by simp)

theorem value_obj {c : Text → Option Val} (i : Nat) {ms : List Member} {m : Member}
    (h : MembersOk M c (ms ++ [m])) :
    Value M c (.objectBegin :: memberToks ms ++ (m.keyToken :: .colon :: m.tokens) ++ [.objectEnd])
      (.obj i (stored (TMap.ofPairs (memberPairs (ms ++ [m]))))) := by
  have := Value.obj (M := M) (c := c) i (ms ++ [m]) false _ (fun x hx => (h x hx).1)
    (fun x hx => (h x hx).2) (by simp) (TMap.keyed_ofPairs _)
  rw [List.map_append, List.map_singleton, commas_snoc, ← memberToks_eq] at this
  simpa [trailing, memberPairs] using this

theorem value_obj_trailing {c : Text → Option Val} (i : Nat) {ms : List Member} (hne : ms ≠ [])
    (h : MembersOk M c ms) :
    Value M c (.objectBegin :: memberToks ms ++ [.objectEnd])
      (.obj i (stored (TMap.ofPairs (memberPairs ms)))) := by
  have := Value.obj (M := M) (c := c) i ms true _ (fun x hx => (h x hx).1)
    (fun x hx => (h x hx).2) (by simp [hne]) (TMap.keyed_ofPairs _)
  rwa [List.cons_append (a := Token.objectBegin), trailing, commas_trailing _ (by simpa using hne),
    ← memberToks_eq] at this

theorem value_obj_nil {c : Text → Option Val} (i : Nat) :
    Value M c [.objectBegin, .objectEnd] (.obj i []) := by
  have := Value.obj (M := M) (c := c) i [] false _ (by simp) (by simp) (by simp)
    (TMap.keyed_ofPairs _)
  simpa [commas, trailing, TMap.ofPairs, stored] using this

theorem saveTop_popTop (st : AnyState) : saveTop (popTop st) = st.stack := by
  unfold popTop
  split <;> simp [saveTop, *]

theorem popTop_none {st : AnyState} (h : (popTop st).current = .none) : (popTop st).stack = [] := by
  unfold popTop at h ⊢
  split <;> simp_all

theorem popTop_any {st : AnyState} (v : Val) : (popTop st).current ≠ .any v := by
  unfold popTop
  split <;> simp

theorem popTop_consts (st : AnyState) : (popTop st).consts = st.consts := by
  unfold popTop
  split <;> rfl

theorem popTop_dataType (st : AnyState) : (popTop st).dataType = st.dataType := by
  unfold popTop
  split <;> rfl

/-- ready for a value -/
structure Ready (M : Text → Val → Prop) (st : AnyState) (T : List Token) : Prop where
  pends : Pends M st.consts.get (saveTop st) T
  none : st.current = .none → st.stack = []
  any : ∀ v, st.current ≠ .any v

theorem pushValue_good {st : AnyState} {T ts : List Token} {v : Val} (h : Ready M st T)
    (hv : Value M st.consts.get ts v) :
    ∃ r, pushValue st v = .ok r ∧ Good M st (T ++ ts) r := by
  have hp := h.pends
  unfold pushValue
  split
  next hc =>
    have hs := h.none hc
    simp only [saveTop, hc, hs, Pends] at hp
    exact ⟨_, rfl, by simpa [hp] using hv, ⟨rfl, hc, hs⟩, rfl, rfl⟩
  next l hc =>
    simp only [saveTop, hc, Pends, Pend] at hp
    obtain ⟨T1, T2, h1, ⟨items, hi, rfl, rfl⟩, rfl⟩ := hp
    refine ⟨_, rfl, ⟨items, (ts, v), T1, by simp, ?_, h1, by simp⟩, rfl, .inl rfl⟩
    intro x hx
    rcases List.mem_append.1 hx with hx | hx
    · exact hi x hx
    · simp only [List.mem_singleton] at hx; subst hx; exact hv
  next map key hc =>
    simp only [saveTop, hc, Pends, Pend] at hp
    obtain ⟨T1, T2, h1, ⟨ms, kt, hi, rfl, hk, rfl⟩, rfl⟩ := hp
    refine ⟨_, rfl, ⟨ms, ⟨kt, key, ts, v⟩, [], T1, ?_, ?_, h1, by simp⟩, rfl, .inl rfl⟩
    · simp [memberPairs, TMap.ofPairs_snoc]
    · intro x hx
      rcases List.mem_append.1 hx with hx | hx
      · exact hi x hx
      · simp only [List.mem_singleton] at hx; subst hx; exact ⟨hk, hv⟩
  next v' hc => exact absurd hc (h.any v')

theorem tryToAny_good {c : TMap Val} {n n' : Nat} {t : Token} {v : Val}
    (h : tryToAny n t c = some (v, n')) : Value M c.get [t] v := by
  unfold tryToAny at h
  split at h
  · cases h; exact .num _
  · cases h; exact .str _ _
  · rename_i s
    simp only [tryIdToAny] at h
    split at h
    · cases h; subst_vars; exact .null
    · split at h
      · cases h; subst_vars; exact .true
      · split at h
        · cases h; subst_vars; exact .false
        · cases hg : c.get s with
          | none => simp [hg] at h
          | some w =>
            simp only [hg, Option.map_some, Option.some.injEq, Prod.mk.injEq] at h
            rw [← h.1]
            refine .ref _ _ ?_ hg
            simp only [reserved, List.mem_cons, List.not_mem_nil, or_false, not_or]
            exact ⟨by assumption, by assumption, by assumption⟩
  · cases h; exact .big _ _
  · cases h

theorem pushToken_good {st : AnyState} {T : List Token} (n : Nat) (h : Ready M st T) (t : Token) :
    ∃ r n', pushToken n st t = .ok (r, n') ∧ Good M st (T ++ [t]) r := by
  unfold pushToken
  split
  next v n' hv =>
    obtain ⟨r, hr, hg⟩ := pushValue_good h (tryToAny_good hv)
    exact ⟨r, n', by rw [hr]; rfl, hg⟩
  next => exact ⟨_, _, rfl, trivial⟩

theorem beginArray_good {st : AnyState} {T : List Token} (h : Ready M st T) :
    Good M st (T ++ [.arrayBegin]) (beginArray st) :=
  ⟨⟨rfl, T, h.pends, rfl⟩, rfl, .inl rfl⟩

theorem beginObject_good {st : AnyState} {T : List Token} (h : Ready M st T) :
    Good M st (T ++ [.objectBegin]) (beginObject st) :=
  ⟨⟨[], T, rfl, h.pends, rfl⟩, rfl, .inl rfl⟩

theorem beginImport_good {st : AnyState} {T : List Token} (h : Ready M st T)
    (hd : st.dataType.cjsCompatible = true) :
    Good M st (T ++ [.id "require".toList]) (beginImport st) :=
  ⟨⟨rfl, T, h.pends, rfl⟩, rfl, .inr ⟨rfl, hd⟩⟩

theorem ready_popTop {st : AnyState} {T : List Token} (h : Pends M st.consts.get st.stack T) :
    Ready M (popTop st) T :=
  ⟨by rw [saveTop_popTop, popTop_consts]; exact h, popTop_none, popTop_any⟩

theorem Good.popTop {st : AnyState} {T : List Token} {r : AnyResult} (h : Good M (popTop st) T r) :
    Good M st T r := by
  cases r with
  | cont st' => simpa only [Good, popTop_consts, popTop_dataType] using h
  | success st' v => simpa only [Good, popTop_consts, popTop_dataType] using h
  | error e => trivial

theorem endArray_good {st : AnyState} {T1 ts : List Token} {l : List Val} (n : Nat)
    (hc : st.current = .stack (.array l)) (hp : Pends M st.consts.get st.stack T1)
    (hv : Value M st.consts.get ts (.arr n l)) :
    ∃ r n', endArray n st = .ok (r, n') ∧ Good M st (T1 ++ ts) r := by
  obtain ⟨r, hr, hg⟩ := pushValue_good (ready_popTop hp) (by rw [popTop_consts]; exact hv)
  refine ⟨r, n + 1, ?_, hg.popTop⟩
  simp only [endArray, hc, hr]
  rfl

theorem endObject_good {st : AnyState} {T1 ts : List Token} {map : TMap Val} {k : Text} (n : Nat)
    (hc : st.current = .stack (.object map k)) (hp : Pends M st.consts.get st.stack T1)
    (hv : Value M st.consts.get ts (.obj n (stored map))) :
    ∃ r n', endObject n st = .ok (r, n') ∧ Good M st (T1 ++ ts) r := by
  obtain ⟨r, hr, hg⟩ := pushValue_good (ready_popTop hp) (by rw [popTop_consts]; exact hv)
  refine ⟨r, n + 1, ?_, hg.popTop⟩
  simp only [stored] at hr
  simp only [endObject, hc, hr]
  rfl

theorem ready_initial {st : AnyState} {T : List Token} (h : St M st T) (hs : st.status = .initial) :
    Ready M st T := by
  simp only [St, hs] at h
  obtain ⟨hc, hst, rfl⟩ := h
  exact ⟨by simp [saveTop, hc, hst, Pends], fun _ => hst, by simp [hc]⟩

theorem ready_arrayBegin {st : AnyState} {T : List Token} (h : St M st T)
    (hs : st.status = .arrayBegin) : Ready M st T := by
  simp only [St, hs] at h
  obtain ⟨hc, T1, hp, rfl⟩ := h
  refine ⟨?_, by simp [hc], by simp [hc]⟩
  simp only [saveTop, hc, Pends, Pend]
  exact ⟨T1, _, hp, ⟨[], by simp [ItemsOk], rfl, rfl⟩, by simp [itemToks]⟩

theorem ready_arrayComma {st : AnyState} {T : List Token} (h : St M st T)
    (hs : st.status = .arrayComma) : Ready M st T := by
  simp only [St, hs] at h
  obtain ⟨items, T1, hne, hc, hi, hp, rfl⟩ := h
  refine ⟨?_, by simp [hc], by simp [hc]⟩
  simp only [saveTop, hc, Pends, Pend]
  exact ⟨T1, _, hp, ⟨items, hi, rfl, rfl⟩, rfl⟩

theorem ready_objectColon {st : AnyState} {T : List Token} (h : St M st T)
    (hs : st.status = .objectColon) : Ready M st T := by
  simp only [St, hs] at h
  obtain ⟨ms, kt, k, T1, hc, hi, hk, hp, rfl⟩ := h
  refine ⟨?_, by simp [hc], by simp [hc]⟩
  simp only [saveTop, hc, Pends, Pend]
  exact ⟨T1, _, hp, ⟨ms, kt, hi, rfl, hk, rfl⟩, by simp⟩

theorem parseValue_good {st : AnyState} {T : List Token} (n : Nat) (h : Ready M st T) (t : Token) :
    ∃ r n', parseValue n st t = .ok (r, n') ∧ Good M st (T ++ [t]) r := by
  unfold parseValue
  split
  · exact ⟨_, _, rfl, beginArray_good h⟩
  · exact ⟨_, _, rfl, beginObject_good h⟩
  · split
    next hr => obtain ⟨hd, rfl⟩ := hr; exact ⟨_, _, rfl, beginImport_good h hd⟩
    next => exact pushToken_good n h _
  · exact pushToken_good n h _

theorem parseArrayBegin_good {st : AnyState} {T : List Token} (n : Nat) (h : St M st T)
    (hs : st.status = .arrayBegin) (t : Token) :
    ∃ r n', parseArrayBegin n st t = .ok (r, n') ∧ Good M st (T ++ [t]) r := by
  have hr := ready_arrayBegin h hs
  unfold parseArrayBegin
  split
  · exact ⟨_, _, rfl, beginArray_good hr⟩
  · simp only [St, hs] at h
    obtain ⟨hc, T1, hp, rfl⟩ := h
    simpa using endArray_good n hc hp (value_arr_nil n)
  · exact ⟨_, _, rfl, beginObject_good hr⟩
  · exact pushToken_good n hr _

theorem parseArrayComma_good {st : AnyState} {T : List Token} (n : Nat) (h : St M st T)
    (hs : st.status = .arrayComma) (t : Token) :
    ∃ r n', parseArrayComma n st t = .ok (r, n') ∧ Good M st (T ++ [t]) r := by
  have hr := ready_arrayComma h hs
  unfold parseArrayComma
  split
  · exact ⟨_, _, rfl, beginArray_good hr⟩
  · exact ⟨_, _, rfl, beginObject_good hr⟩
  · split
    next hr' => obtain ⟨hd, rfl⟩ := hr'; exact ⟨_, _, rfl, beginImport_good hr (by rw [hd]; rfl)⟩
    next => exact pushToken_good n hr _
  · simp only [St, hs] at h
    obtain ⟨items, T1, hne, hc, hi, hp, rfl⟩ := h
    simpa using endArray_good n hc hp (value_arr_trailing n hne hi)
  · exact pushToken_good n hr _

theorem parseArrayValue_good {st : AnyState} {T : List Token} (n : Nat) (h : St M st T)
    (hs : st.status = .arrayValue) (t : Token) :
    ∃ r n', parseArrayValue n st t = .ok (r, n') ∧ Good M st (T ++ [t]) r := by
  simp only [St, hs] at h
  obtain ⟨items, x, T1, hc, hi, hp, rfl⟩ := h
  unfold parseArrayValue
  split
  · simpa using endArray_good n hc hp (value_arr n hi)
  · exact ⟨_, _, rfl, ⟨items ++ [x], T1, by simp, hc, hi, hp, by simp [itemToks_snoc]⟩, rfl, .inl rfl⟩
  · exact ⟨_, _, rfl, trivial⟩

theorem pushKey_good {st : AnyState} {T1 : List Token} {ms : List Member} {k k' : Text} {t : Token}
    (hc : st.current = .stack (.object (TMap.ofPairs (memberPairs ms)) k))
    (hi : MembersOk M st.consts.get ms) (hp : Pends M st.consts.get st.stack T1)
    (hk : KeyTok t k') :
    Good M st (T1 ++ .objectBegin :: memberToks ms ++ [t]) (pushKey st k') := by
  simp only [pushKey, hc]
  exact ⟨⟨ms, t, k', T1, rfl, hi, hk, hp, rfl⟩, rfl, .inl rfl⟩

theorem parseObjectBegin_good {st : AnyState} {T : List Token} (n : Nat) (h : St M st T)
    (hs : st.status = .objectBegin) (t : Token) :
    ∃ r n', parseObjectBegin n st t = .ok (r, n') ∧ Good M st (T ++ [t]) r := by
  simp only [St, hs] at h
  obtain ⟨k, T1, hc, hp, rfl⟩ := h
  have key : ∀ (t : Token) (k' : Text), KeyTok t k' →
      Good M st (T1 ++ [.objectBegin] ++ [t]) (pushKey st k') := fun t k' hk => by
    simpa [memberToks] using pushKey_good (ms := []) hc (by simp [MembersOk]) hp hk
  unfold parseObjectBegin
  split
  · exact ⟨_, _, rfl, key _ _ (.inl rfl)⟩
  · split
    · exact ⟨_, _, rfl, key _ _ (.inr rfl)⟩
    · exact ⟨_, _, rfl, trivial⟩
  · simpa using endObject_good n hc hp (value_obj_nil n)
  · exact ⟨_, _, rfl, trivial⟩

theorem parseObjectNext_good {st : AnyState} {T : List Token} (n : Nat) (h : St M st T)
    (hs : st.status = .objectValue) (t : Token) :
    ∃ r n', parseObjectNext n st t = .ok (r, n') ∧ Good M st (T ++ [t]) r := by
  simp only [St, hs] at h
  obtain ⟨ms, m, k, T1, hc, hi, hp, rfl⟩ := h
  unfold parseObjectNext
  split
  · simpa using endObject_good n hc hp (value_obj n hi)
  · exact ⟨_, _, rfl, ⟨ms ++ [m], k, T1, by simp, hc, hi, hp, by simp [memberToks_snoc]⟩, rfl,
      .inl rfl⟩
  · exact ⟨_, _, rfl, trivial⟩

theorem parseObjectComma_good {st : AnyState} {T : List Token} (n : Nat) (h : St M st T)
    (hs : st.status = .objectComma) (t : Token) :
    ∃ r n', parseObjectComma n st t = .ok (r, n') ∧ Good M st (T ++ [t]) r := by
  simp only [St, hs] at h
  obtain ⟨ms, k, T1, hne, hc, hi, hp, rfl⟩ := h
  unfold parseObjectComma
  split
  · exact ⟨_, _, rfl, pushKey_good hc hi hp (.inl rfl)⟩
  · simpa using endObject_good n hc hp (value_obj_trailing n hne hi)
  · exact ⟨_, _, rfl, trivial⟩

theorem parseObjectKey_good {st : AnyState} {T : List Token} (h : St M st T)
    (hs : st.status = .objectKey) (t : Token) : Good M st (T ++ [t]) (parseObjectKey st t) := by
  simp only [St, hs] at h
  obtain ⟨ms, kt, k, T1, hc, hi, hk, hp, rfl⟩ := h
  unfold parseObjectKey
  split
  · exact ⟨⟨ms, kt, k, T1, hc, hi, hk, hp, by simp⟩, rfl, .inl rfl⟩
  · trivial

theorem parseImportBegin_good {st : AnyState} {T : List Token} (h : St M st T)
    (hs : st.status = .importBegin) (t : Token) : Good M st (T ++ [t]) (parseImportBegin st t) := by
  simp only [St, hs] at h
  obtain ⟨hc, T1, hp, rfl⟩ := h
  unfold parseImportBegin
  split
  · exact ⟨⟨hc, T1, hp, by simp⟩, rfl, .inl rfl⟩
  · trivial

theorem parseImportEnd_good {st : AnyState} {T : List Token} (h : St M st T)
    (hs : st.status = .importEnd) (t : Token) :
    ∃ r, parseImportEnd st t = .ok r ∧ Good M st (T ++ [t]) r := by
  simp only [St, hs] at h
  obtain ⟨s, v, T1, hc, hm, hp, rfl⟩ := h
  unfold parseImportEnd
  split
  · have hr : Ready M { popTop st with status := .initial } T1 := by
      have := ready_popTop hp
      exact ⟨this.pends, this.none, this.any⟩
    obtain ⟨r, hr, hg⟩ := pushValue_good hr (.require s v hm)
    refine ⟨r, by simp only [endImport, hc]; exact hr, ?_⟩
    rw [List.append_assoc]
    have : Good M (popTop st) (T1 ++ ([.id "require".toList, .openingParenthesis, .string s] ++
        [.closingParenthesis])) r := by
      cases r <;> exact hg
    exact this.popTop
  · exact ⟨_, rfl, trivial⟩

/-- a token outside `require(..)` never panics and keeps the link to the tokens read -/
theorem dispatch_good {α : Type} {st : AnyState} {T : List Token} (n : Nat) (h : St M st T)
    (hs : st.status ≠ .importValue) (t : Token) (f : AnyResult × Nat → α) (i : Res α) :
    ∃ r n', dispatch n st t f i = .ok (f (r, n')) ∧ Good M st (T ++ [t]) r := by
  unfold dispatch
  split
  next hst =>
    obtain ⟨r, n', hr, hg⟩ := parseValue_good n (ready_initial h hst) t
    exact ⟨r, n', by rw [hr]; rfl, hg⟩
  next hst =>
    obtain ⟨r, n', hr, hg⟩ := parseValue_good n (ready_objectColon h hst) t
    exact ⟨r, n', by rw [hr]; rfl, hg⟩
  next hst =>
    obtain ⟨r, n', hr, hg⟩ := parseArrayBegin_good n h hst t
    exact ⟨r, n', by rw [hr]; rfl, hg⟩
  next hst =>
    obtain ⟨r, n', hr, hg⟩ := parseArrayValue_good n h hst t
    exact ⟨r, n', by rw [hr]; rfl, hg⟩
  next hst =>
    obtain ⟨r, n', hr, hg⟩ := parseArrayComma_good n h hst t
    exact ⟨r, n', by rw [hr]; rfl, hg⟩
  next hst =>
    obtain ⟨r, n', hr, hg⟩ := parseObjectBegin_good n h hst t
    exact ⟨r, n', by rw [hr]; rfl, hg⟩
  next hst => exact ⟨_, n, rfl, parseObjectKey_good h hst t⟩
  next hst =>
    obtain ⟨r, n', hr, hg⟩ := parseObjectNext_good n h hst t
    exact ⟨r, n', by rw [hr]; rfl, hg⟩
  next hst =>
    obtain ⟨r, n', hr, hg⟩ := parseObjectComma_good n h hst t
    exact ⟨r, n', by rw [hr]; rfl, hg⟩
  next hst => exact ⟨_, n, rfl, parseImportBegin_good h hst t⟩
  next hst => exact absurd hst hs
  next hst =>
    obtain ⟨r, hr, hg⟩ := parseImportEnd_good h hst t
    exact ⟨r, n, by rw [hr]; rfl, hg⟩

end Parser
end Nanvm
