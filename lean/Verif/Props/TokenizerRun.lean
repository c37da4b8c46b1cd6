import Verif.Lemmas.TokRun
/-!
# Property theorems C32 (tables), C36 (incremental)
-/
namespace Nanvm
open Tok RangeMap

/-! ## C32: the tables -/

/-- Building the tables never panics. -/
theorem C32_tables_built :
    initialMap.isOk ∧ idMap.isOk ∧ stringMap.isOk ∧ escapeMap.isOk ∧ unicodeMap.isOk ∧
    zeroMap.isOk ∧ intMap.isOk ∧ fracBeginMap.isOk ∧ fracMap.isOk ∧ minusMap.isOk ∧
    expBeginMap.isOk ∧ expMap.isOk ∧ bigIntMap.isOk ∧ newLineMap.isOk ∧ commentStartMap.isOk ∧
    singlelineMap.isOk ∧ multilineMap.isOk ∧ asterixMap.isOk ∧ operatorMap.isOk := by
  decide +kernel

/-- Every character has the intended transition in each table (`…Class`,
`Lemmas/TokTables.lean`, over the classes of `Spec/Chars.lean`). -/
theorem C32_tables_correct (c : Char) :
    lookup initialMap c = .ok (initialClass c) ∧
    lookup idMap c = .ok (idClass c) ∧
    lookup stringMap c = .ok (stringClass c) ∧
    lookup escapeMap c = .ok (escapeClass c) ∧
    lookup unicodeMap c = .ok (unicodeClass c) ∧
    lookup zeroMap c = .ok (zeroClass c) ∧
    lookup intMap c = .ok (intClass c) ∧
    lookup fracBeginMap c = .ok (fracBeginClass c) ∧
    lookup fracMap c = .ok (fracClass c) ∧
    lookup minusMap c = .ok (minusClass c) ∧
    lookup expBeginMap c = .ok (expBeginClass c) ∧
    lookup expMap c = .ok (expClass c) ∧
    lookup bigIntMap c = .ok (bigIntClass c) ∧
    lookup newLineMap c = .ok (newLineClass c) ∧
    lookup commentStartMap c = .ok (commentStartClass c) ∧
    lookup singlelineMap c = .ok (singlelineClass c) ∧
    lookup multilineMap c = .ok (multilineClass c) ∧
    lookup asterixMap c = .ok (asterixClass c) ∧
    lookup operatorMap c = .ok (operatorClass c) :=
  ⟨lookup_initial c, lookup_id c, lookup_string c, lookup_escape c, lookup_unicode c,
   lookup_zero c, lookup_int c, lookup_fracBegin c, lookup_frac c, lookup_minus c,
   lookup_expBegin c, lookup_exp c, lookup_bigInt c, lookup_newLine c, lookup_commentStart c,
   lookup_singleline c, lookup_multiline c, lookup_asterix c, lookup_operator c⟩

example : lookup initialMap 'é' = .ok none ∧ lookup initialMap '$' = .ok (some .id) :=
  ⟨lookup_initial _, lookup_initial _⟩

/-! ## C36: tokenizing is incremental -/

variable {conv : BigFloat → Res Nat}

theorem bind_ok {α β : Type} {x : Res α} {f : α → Res β} {b : β} (h : x.bind f = .ok b) :
    ∃ a, x = .ok a ∧ f a = .ok b := by
  cases x with
  | error e => cases h
  | ok a => exact ⟨a, rfl, h⟩

theorem stepInitial_length (c : Char) : (stepInitial c).1.length ≤ 1 := by
  unfold stepInitial; repeat' split
  all_goals simp

theorem stepString_length (s : Text) (c : Char) : (stepString s c).1.length ≤ 1 := by
  unfold stepString; repeat' split
  all_goals simp

theorem andInitial_length (ts : List Token) (c : Char) :
    (andInitial ts c).1.length ≤ ts.length + 1 := by
  have := stepInitial_length c
  simp [andInitial]; omega

/-- Every character adds at most two tokens. -/
theorem C36_two_tokens (st st' : State) (c : Char) (ts : List Token)
    (h : push conv st c = .ok (ts, st')) : ts.length ≤ 2 := by
  rw [push_eq_step] at h
  have hI : ∀ t : Token, (andInitial [t] c).1.length ≤ 2 := fun t => andInitial_length [t] c
  have hb : (badNumber c).1.length ≤ 2 := hI _
  have ok : ∀ {p : Out}, (.ok p : Res Out) = .ok (ts, st') → p.1.length ≤ 2 → ts.length ≤ 2 := by
    intro p hp hl; cases hp; exact hl
  have one : ∀ {x : Res Token}, (x.bind fun t => .ok (andInitial [t] c)) = .ok (ts, st') →
      ts.length ≤ 2 := by
    intro x hx
    obtain ⟨t, -, hx⟩ := bind_ok hx
    exact ok hx (hI t)
  have nil : ∀ {α : Type} {x : Res α} {f : α → State},
      (x.bind fun t => (.ok ([], f t) : Res Out)) = .ok (ts, st') → ts.length ≤ 2 := by
    intro α x f hx
    obtain ⟨t, -, hx⟩ := bind_ok hx
    exact ok hx (by simp)
  cases st <;> dsimp only [step] at h
  case initial => exact ok h (Nat.le_succ_of_le (stepInitial_length c))
  case parseString s => exact ok h (Nat.le_succ_of_le (stepString_length s c))
  case parseEscapeChar s =>
    refine ok h ?_
    have := stepString_length s c
    unfold stepEscape; repeat' split
    all_goals simp
    omega
  case parseUnicodeChar u =>
    split at h
    · exact ok h (by have := stepString_length u.s c; simp; omega)
    · unfold UnicodeState.push at h
      obtain ⟨n, -, h⟩ := bind_ok h
      dsimp only at h
      repeat' split at h
      all_goals first | cases h | skip
      all_goals simp [continueString]
  case parseInt i =>
    repeat' split at h
    all_goals first | exact one h | exact nil (f := fun b => State.parseInt ⟨b, i.s⟩) h | exact ok h (by simp) | exact ok h hb
  case parseFracBegin i =>
    repeat' split at h
    all_goals first | exact nil (f := State.parseFrac) h | exact ok h hb
  case parseFrac i =>
    repeat' split at h
    all_goals first | exact one h | exact nil (f := State.parseFrac) h | exact ok h (by simp) | exact ok h hb
  case parseExpBegin x =>
    repeat' split at h
    all_goals first | exact one h | exact nil (f := State.parseExp) h | exact ok h (by simp) | exact ok h hb
  case parseExpSign x =>
    repeat' split at h
    all_goals first | exact one h | exact nil (f := State.parseExp) h | exact ok h (by simp) | exact ok h hb
  case parseExp x =>
    repeat' split at h
    all_goals first | exact one h | exact nil (f := State.parseExp) h | exact ok h (by simp) | exact ok h hb
  case parseOperator s =>
    split at h
    · exact ok h (by simp)
    · exact one h
  all_goals
    refine ok h ?_
    repeat' split
    all_goals first | exact hI _ | exact hb | simp

/-- two tokens do occur: an identifier followed by an illegal character -/
example : push conv (.parseId ['a']) '#' =
    .ok ([.id ['a'], .error .unexpectedCharacter], .initial) := by
  rw [push_eq_step]; rfl

/-- The end of the text adds at most one token. -/
theorem C36_end_one_token (st : State) (ts : List Token) (h : endTokens conv st = .ok ts) :
    ts.length ≤ 1 := by
  have one : ∀ {x : Res Token}, (x.bind fun t => (.ok [t] : Res (List Token))) = .ok ts →
      ts.length ≤ 1 := by
    intro x hx
    obtain ⟨t, -, hx⟩ := bind_ok hx
    cases hx; simp
  cases st <;> dsimp only [endTokens] at h
  all_goals first | exact one h | (cases h; simp)

/-- The tokens emitted while reading `a` come first, whatever text follows. -/
theorem C36_prefix (a b : Text) (ts r : List Token) (st : State)
    (ha : run conv .initial a = .ok (ts, st)) (hr : tokenize conv (a ++ b) = .ok r) :
    ts <+: r := by
  rw [tokenize_eq, finish_append ha] at hr
  obtain ⟨q, -, hq⟩ := bind_ok hr
  cases hq
  exact List.prefix_append _ _

/-- The same without reference to the tokenizer's state: of the tokens of `a` alone all but the
one that the end of `a` may have cut off are the first tokens of `a ++ b`. -/
theorem C36_incremental (a b : Text) (r1 r2 : List Token) (h1 : tokenize conv a = .ok r1)
    (h2 : tokenize conv (a ++ b) = .ok r2) : r1.dropLast <+: r2 := by
  rw [tokenize_eq] at h1
  obtain ⟨⟨ts, st⟩, hrun, h1⟩ := bind_ok h1
  obtain ⟨e, he, h1⟩ := bind_ok h1
  cases h1
  have hl := C36_end_one_token st e he
  have hp := C36_prefix a b ts r2 st hrun h2
  refine List.IsPrefix.trans ?_ hp
  rcases e with _ | ⟨x, _ | ⟨y, e⟩⟩
  · simp only [List.append_nil]; exact List.dropLast_prefix ts
  · simp
  · simp at hl

/-- the token at the cut may differ: `12` and `3` against `123` -/
example : tokenize (fun b => .ok (b.sig.items.headD 0)) "12".toList = .ok [.number 12] ∧
    tokenize (fun b => .ok (b.sig.items.headD 0)) ("12".toList ++ "3".toList) = .ok [.number 123] := by
  decide +kernel

/-- fuel for one `next`: one iteration per remaining character, one for the end, one to return -/
def Tok.Iter.size (it : Iter) : Nat := it.chars.length + (if it.done then 0 else 1)

/-- what an iterator will still return -/
def Tok.Iter.rest (conv : BigFloat → Res Nat) (it : Iter) : Res (List Token) :=
  if it.done then .ok it.cache
  else (finish conv it.state it.chars).bind fun q => .ok (it.cache ++ q)

theorem next_some (g : Nat) (it : Iter) (r : List Token) (hg : it.size + 1 ≤ g)
    (hd : it.done → it.chars = []) (hr : it.rest conv = .ok r) :
    (r = [] ∧ ∃ it', Iter.next conv g it = .ok (none, it')) ∨
    ∃ t it' r', r = t :: r' ∧ Iter.next conv g it = .ok (some t, it') ∧ it'.size ≤ it.size ∧
      (it'.done → it'.chars = []) ∧ it'.rest conv = .ok r' := by
  induction g generalizing it with
  | zero => omega
  | succ g ih =>
    obtain ⟨chars, cache, state, done⟩ := it
    cases cache with
    | cons t cache =>
      right
      simp only [Iter.rest] at hr
      cases done with
      | true =>
        simp only [if_true] at hr; cases hr
        refine ⟨t, _, cache, rfl, rfl, Nat.le_refl _, hd, ?_⟩
        simp [Iter.rest]
      | false =>
        simp only [Bool.false_eq_true, if_false] at hr
        obtain ⟨q, hq, hr⟩ := bind_ok hr
        cases hr
        refine ⟨t, _, cache ++ q, rfl, rfl, Nat.le_refl _, hd, ?_⟩
        simp [Iter.rest, hq, Except.bind]
    | nil =>
      cases done with
      | true =>
        left
        simp only [Iter.rest, if_true] at hr
        cases hr
        exact ⟨rfl, _, by simp only [Iter.next, if_true]; rfl⟩
      | false =>
        simp only [Iter.rest, Bool.false_eq_true, if_false] at hr
        obtain ⟨q, hq, hr⟩ := bind_ok hr
        cases hr
        cases chars with
        | nil =>
          rw [finish_nil] at hq
          simp only [Iter.next, Bool.false_eq_true, if_false, hq, bind, Except.bind]
          rcases ih ⟨[], q, .initial, true⟩ (by simp [Iter.size] at hg ⊢; omega) (by simp)
            (by simp [Iter.rest]) with h | ⟨t, it', r', h1, h2, h3, h4, h5⟩
          · exact Or.inl h
          · refine Or.inr ⟨t, it', r', h1, h2, ?_, h4, h5⟩
            simp only [Iter.size, List.length_nil, List.length_cons, Bool.false_eq_true, if_false, if_true] at h3 ⊢; omega
        | cons c chars =>
          obtain ⟨p, hp, hq'⟩ := bind_ok hq
          rw [run_cons] at hp
          obtain ⟨⟨ts, st'⟩, hstep, hp⟩ := bind_ok hp
          rw [finish_cons hstep] at hq
          have hpush : push conv state c = .ok (ts, st') := by rw [push_eq_step, hstep]
          simp only [Iter.next, Bool.false_eq_true, if_false, hpush, bind, Except.bind]
          rcases ih ⟨chars, ts, st', false⟩ (by simp [Iter.size] at hg ⊢; omega) (by simp)
            (by simpa [Iter.rest] using hq) with h | ⟨t, it', r', h1, h2, h3, h4, h5⟩
          · exact Or.inl h
          · refine Or.inr ⟨t, it', r', h1, h2, ?_, h4, h5⟩
            simp only [Iter.size, List.length_nil, List.length_cons, Bool.false_eq_true, if_false, if_true] at h3 ⊢; omega

theorem collect_rest (n g f : Nat) (it : Iter) (r : List Token) (hn : it.size ≤ n)
    (hg : n + 1 ≤ g) (hf : r.length + 1 ≤ f) (hd : it.done → it.chars = [])
    (hr : it.rest conv = .ok r) : Iter.collect conv g f it = .ok r := by
  induction f generalizing it r with
  | zero => omega
  | succ f ih =>
    rcases next_some g it r (by omega) hd hr with ⟨rfl, it', h⟩ | ⟨t, it', r', rfl, h, hs, hd', hr'⟩
    · simp only [Iter.collect, h, bind, Except.bind]; rfl
    · simp only [List.length_cons] at hf
      simp only [Iter.collect, h, bind, Except.bind, ih it' r' (by omega) (by omega) hd' hr']
      rfl

/-- The iterator, driven to its end, returns the tokens of `tokenize`. -/
theorem C36_iterator (t : Text) (r : List Token) (h : tokenize conv t = .ok r) (g f : Nat)
    (hg : t.length + 2 ≤ g) (hf : r.length + 1 ≤ f) :
    Iter.collect conv g f (Iter.new t) = .ok r := by
  refine collect_rest (t.length + 1) g f _ r (by simp [Iter.size, Iter.new]) (by omega) hf
    (by simp [Iter.new]) ?_
  simp only [Iter.rest, Iter.new]
  rw [tokenize_eq] at h
  simp [h, Except.bind]

example : Iter.collect (fun _ => .ok 0) 20 20 (Iter.new "a b".toList) =
    .ok [.id ['a'], .id ['b']] := by decide +kernel

end Nanvm
