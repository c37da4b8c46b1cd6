import Verif.Lemmas.ParserProgram
import Verif.Lemmas.ParserMix
import Verif.Lemmas.GrammarNames
import Verif.Lemmas.ParserTotal
import Verif.Props.Utf16
/-!
# C41 to C46: the language of the parser

`parseWithTokens env fuel ctx ts` parses the tokens of one module; imported modules are read from
`env`.
-/
namespace Nanvm
namespace Parser
open Tok Grammar

theorem parseWithTokens_succ (env : Env) (fuel : Nat) (ctx : Ctx) (ts : List Token) :
    parseWithTokens env (fuel + 1) ctx ts =
      pushAll env (parseWithTokens env fuel) ctx JState.start ts >>= fun x => .ok (x.1, x.2.end_) :=
  rfl

theorem parse_run {env : Env} {fuel : Nat} {ctx ctx' : Ctx} {ts : List Token} {o : Outcome}
    (h : parseWithTokens env fuel ctx ts = .ok (ctx', o)) :
    ∃ fuel' j, fuel = fuel' + 1 ∧
      pushAll env (parseWithTokens env fuel') ctx JState.start ts = .ok (ctx', j) ∧ j.end_ = o := by
  cases fuel with
  | zero => cases h
  | succ fuel =>
    rw [parseWithTokens_succ] at h
    cases hp : pushAll env (parseWithTokens env fuel) ctx JState.start ts with
    | error e => rw [hp] at h; cases h
    | ok x => rw [hp] at h; cases h; exact ⟨fuel, x.2, rfl, hp, rfl⟩

/-! ## C41 -/

/-- a CommonJS construct: `require(` or `module.` -/
def UsesCommonJs (ts : List Token) : Prop :=
  [.id "require".toList, .openingParenthesis] <:+: ts ∨ [.id "module".toList, .dot] <:+: ts

/-- an ES module construct: `import n from` or `export default` -/
def UsesEsModule (ts : List Token) : Prop :=
  (∃ n, [.id "import".toList, .id n, .id "from".toList] <:+: ts) ∨
  [.id "export".toList, .id "default".toList] <:+: ts

theorem UsesCommonJs.cj {ts : List Token} (h : UsesCommonJs ts) : Cj ts := by
  rcases h with ⟨a, b, h1⟩ | ⟨a, b, h1⟩
  · exact .inr (by rw [← h1]; simp)
  · exact .inl (by rw [← h1]; simp)

theorem UsesEsModule.two {ts : List Token} (h : UsesEsModule ts) : Two ts := by
  rcases h with ⟨n, a, b, h2⟩ | h2
  · exact ⟨"import".toList, n, a, .id "from".toList :: b, by simpa using h2⟩
  · exact ⟨_, _, h2⟩

theorem Clean.not_mixed {d : DataType} {ts : List Token} (h : Clean d ts) :
    ¬ (UsesCommonJs ts ∧ UsesEsModule ts) := by
  rintro ⟨h1, h2⟩
  by_cases hd : d = .mjs
  · exact h.2 (by rw [hd]; simp) h1.cj
  · exact h.1 hd h2.two

/-- **C41** (what holds): in a module that is accepted, no stretch without `const` uses both; so a
module that uses both is rejected unless a `const` stands between the constructs.
Missing: `const` makes the parser forget what it has seen, see `C41_violated`. -/
theorem C41_stretch_partial (env : Env) (fuel : Nat) (ctx ctx' : Ctx) (a ts b : List Token)
    (dt : DataType) (v : Val) (hc : .id "const".toList ∉ ts)
    (h : parseWithTokens env fuel ctx (a ++ ts ++ b) = .ok (ctx', .ok (dt, v))) :
    ¬ (UsesCommonJs ts ∧ UsesEsModule ts) := by
  obtain ⟨fuel, j, -, hp, he⟩ := parse_run h
  rw [pushAll_append, pushAll_append] at hp
  cases h1 : pushAll env (parseWithTokens env fuel) ctx JState.start a with
  | error e => rw [h1] at hp; cases hp
  | ok x =>
    rw [h1] at hp
    change (pushAll env _ x.1 x.2 ts >>= _) = _ at hp
    cases h2 : pushAll env (parseWithTokens env fuel) x.1 x.2 ts with
    | error e => rw [h2] at hp; cases hp
    | ok y =>
      obtain ⟨c2, j2⟩ := y
      rw [h2] at hp
      change pushAll env _ c2 j2 b = _ at hp
      have hm := mix_run hc (mix_any mix_start h1) h2
      rw [List.nil_append] at hm
      cases j2 with
      | parseRoot r => exact hm.1.not_mixed
      | parseConst k st => exact hm.1.not_mixed
      | parseModule st => exact hm.1.not_mixed
      | result dt v => exact Clean.not_mixed hm
      | error e =>
        rw [pushAll_error] at hp
        cases hp; cases he

/-- **C41** (what holds): the kind of a module is determined by what follows the last `const`: with
CommonJS constructs it is `Cjs`, with ES module constructs `Mjs`. -/
theorem C41_kind_partial (env : Env) (fuel : Nat) (ctx ctx' : Ctx) (a ts : List Token)
    (dt : DataType) (v : Val) (hc : .id "const".toList ∉ ts)
    (h : parseWithTokens env fuel ctx (a ++ ts) = .ok (ctx', .ok (dt, v))) :
    (UsesCommonJs ts → dt = .cjs) ∧ (UsesEsModule ts → dt = .mjs) := by
  obtain ⟨fuel, j, -, hp, he⟩ := parse_run h
  rw [pushAll_append] at hp
  cases h1 : pushAll env (parseWithTokens env fuel) ctx JState.start a with
  | error e => rw [h1] at hp; cases hp
  | ok x =>
    rw [h1] at hp
    have hm := mix_run hc (mix_any mix_start h1) hp
    rw [List.nil_append] at hm
    cases j with
    | result dt' v' =>
      cases he
      exact ⟨fun h1 => by_contra fun hd => hm.2 hd h1.cj, fun h2 => by_contra fun hd => hm.1 hd h2.two⟩
    | _ => cases he

/-- **C41** (what holds): a module without constants that uses both is rejected. -/
theorem C41_not_mixed_partial (env : Env) (fuel : Nat) (ctx ctx' : Ctx) (ts : List Token)
    (dt : DataType) (v : Val) (hc : .id "const".toList ∉ ts)
    (h : parseWithTokens env fuel ctx ts = .ok (ctx', .ok (dt, v))) :
    ¬ (UsesCommonJs ts ∧ UsesEsModule ts) :=
  C41_stretch_partial env fuel ctx ctx' [] ts [] dt v hc (by simpa using h)

/-- a file system with one file -/
def oneFile : Env where
  fs := fun p => if p = "x".toList then some "null".toList else none
  conv := fun _ => .ok 0
  path := "r".toList

/-- the data type of a successful parse -/
def typeOf : Res (Ctx × Outcome) → Option DataType
  | .ok (_, .ok (dt, _)) => some dt
  | _ => none

/-- `import a from "x"`, `const b = a`, `module.exports = b` -/
def mixedModule : List Token :=
  [.id "import".toList, .id "a".toList, .id "from".toList, .string "x".toList, .newLine,
   .id "const".toList, .id "b".toList, .equals, .id "a".toList, .newLine,
   .id "module".toList, .dot, .id "exports".toList, .equals, .id "b".toList]

/-- **C41** fails: a constant makes the parser forget that the module is an ES module. -/
theorem C41_violated :
    UsesCommonJs mixedModule ∧ UsesEsModule mixedModule ∧
    typeOf (parseWithTokens oneFile 2 Ctx.empty mixedModule) = some .cjs :=
  ⟨.inr ⟨_, _, (by decide : mixedModule.take 10 ++ _ ++ [.id "exports".toList, .equals,
      .id "b".toList] = mixedModule)⟩,
   .inl ⟨"a".toList, [], _, (by decide : _ ++ _ ++ mixedModule.drop 3 = mixedModule)⟩,
   by decide +kernel⟩

/-- the hypotheses of `C41_not_mixed_partial`: modules of both kinds are accepted -/
example : typeOf (parseWithTokens oneFile 2 Ctx.empty
      [.id "import".toList, .id "a".toList, .id "from".toList, .string "x".toList, .newLine,
        .id "export".toList, .id "default".toList, .arrayBegin, .id "a".toList, .arrayEnd]) =
      some .mjs ∧
    typeOf (parseWithTokens oneFile 2 Ctx.empty
      [.id "module".toList, .dot, .id "exports".toList, .equals, .id "require".toList,
        .openingParenthesis, .string "x".toList, .closingParenthesis]) = some .cjs := by
  decide +kernel

/-- the hypotheses of `C41_kind_partial` for a module with a constant -/
example : typeOf (parseWithTokens oneFile 2 Ctx.empty (mixedModule.take 6 ++ mixedModule.drop 6)) =
      some .cjs ∧ .id "const".toList ∉ mixedModule.drop 6 := by
  decide +kernel

/-- without a constant the mixed module is rejected -/
example : typeOf (parseWithTokens oneFile 2 Ctx.empty
    [.id "import".toList, .id "a".toList, .id "from".toList, .string "x".toList, .newLine,
      .id "module".toList, .dot, .id "exports".toList, .equals, .id "a".toList]) = none := by
  decide +kernel

/-! ## C42 -/

/-- **C42**: an error other than an unexpected end is final: no tokens that follow change it. -/
theorem C42_final (env : Env) (fuel : Nat) (ctx ctx' : Ctx) (pre rest : List Token) (e : ParseError)
    (he : e ≠ .unexpectedEnd)
    (h : parseWithTokens env fuel ctx pre = .ok (ctx', .error e)) :
    parseWithTokens env fuel ctx (pre ++ rest) = .ok (ctx', .error e) := by
  obtain ⟨fuel, j, rfl, hp, hj⟩ := parse_run h
  rw [parseWithTokens_succ, pushAll_append, hp]
  cases j with
  | error e' =>
    cases hj
    change (pushAll env (parseWithTokens env fuel) ctx' (.error e) rest >>= _) = _
    rw [pushAll_error]
    rfl
  | result dt v => cases hj
  | _ => cases hj; exact absurd rfl he

/-- **C42**: once the parser is in an error state, for whatever reason, that error is the result. -/
theorem C42_state (env : Env) (fuel : Nat) (ctx ctx' : Ctx) (pre rest : List Token) (e : ParseError)
    (h : pushAll env (parseWithTokens env fuel) ctx JState.start pre = .ok (ctx', .error e)) :
    parseWithTokens env (fuel + 1) ctx (pre ++ rest) = .ok (ctx', .error e) := by
  rw [parseWithTokens_succ, pushAll_append, h]
  change (pushAll env (parseWithTokens env fuel) ctx' (.error e) rest >>= _) = _
  rw [pushAll_error]
  rfl

theorem pushAll_result (env : Env) (self : ParseTokens) (ctx : Ctx) (dt : DataType) (v : Val)
    (ts : List Token) : pushAll env self ctx (.result dt v) ts =
      .ok (ctx, if ∀ t ∈ ts, t = .newLine then .result dt v else .error .unexpectedToken) := by
  induction ts with
  | nil => rfl
  | cons t ts ih =>
    simp only [pushAll]
    by_cases ht : t = .newLine
    · subst ht
      refine ih.trans ?_
      simp
    · rw [jsonPush_eq ht]
      refine (pushAll_error _ _ _ _ _).trans ?_
      rw [if_neg]
      intro h
      exact ht (h t (by simp))

/-- **C42**: after a complete module only line breaks may follow; anything else is an error. -/
theorem C42_complete (env : Env) (fuel : Nat) (ctx ctx' : Ctx) (pre rest : List Token)
    (dt : DataType) (v : Val) (h : parseWithTokens env fuel ctx pre = .ok (ctx', .ok (dt, v))) :
    parseWithTokens env fuel ctx (pre ++ rest) =
      .ok (ctx', if ∀ t ∈ rest, t = .newLine then .ok (dt, v) else .error .unexpectedToken) := by
  obtain ⟨fuel, j, rfl, hp, hj⟩ := parse_run h
  rw [parseWithTokens_succ, pushAll_append, hp]
  cases j with
  | result dt' v' =>
    cases hj
    change (pushAll env (parseWithTokens env fuel) ctx' (.result dt v) rest >>= _) = _
    rw [pushAll_result]
    split <;> rfl
  | _ => cases hj

/-- the hypotheses of `C42_final` and `C42_complete` -/
example : parseWithTokens oneFile 1 Ctx.empty [.arrayBegin, .comma] =
      .ok (Ctx.empty, .error .unexpectedToken) ∧
    parseWithTokens oneFile 1 Ctx.empty [.number 5] = .ok (Ctx.empty, .ok (.json, .num 5)) :=
  ⟨rfl, rfl⟩

/-! ## C43, C44, C45 -/

/-- **C72**: the blocks of the value of a module: every literal makes a new block, numbered from the
first free number on in the order in which the literals end, and a name stands for the block of its
constant. -/
theorem C72_blocks (env : Env) (fuel : Nat) (ctx : Ctx) (f : Final) (x : Src) (ss : List Stmt)
    (ts : List Token) (hw : Written f x ss ts)
    (hx : ∀ n, x.Uses n → n ∉ keywords) (hss : ∀ s ∈ ss, ∀ n, s.value.Uses n → n ∉ keywords)
    (hsc : Scoped x [] ss) :
    ∃ ctx' v c m, parseWithTokens env (fuel + 1) ctx ts = .ok (ctx', .ok (finalType f ss, v)) ∧
      Builds (fun _ => none) ctx.next ss c m ∧ x.Makes c m v ctx'.next := by
  obtain ⟨ctx', v, c, m, h1, h2, h3⟩ := (program_run (env := env)
    (self := parseWithTokens env fuel) hw hx hss ctx [] .json [] (.inl rfl) (by simp [TMap.get])).1 hsc
  refine ⟨ctx', v, c, m, ?_, h2, h3⟩
  rw [parseWithTokens_succ]
  change (pushAll env (parseWithTokens env fuel) ctx (.parseRoot ⟨.initial,
    ⟨.json, .initial, .none, [], []⟩, true⟩) ts >>= _) = _
  rw [h1]
  change Except.ok (ctx', Except.ok (_, v)) = _
  congr 4
  split
  next h => obtain ⟨rfl, hf⟩ := h; cases f <;> first | rfl | cases hf
  next => rfl

/-- **C45**: a module that consists of constants and a final value, with line breaks between the
constants and anywhere in the values, denotes the value of the final expression, where every name
stands for its definition; the module is accepted if every name is defined before it is used. -/
theorem C45_defined (env : Env) (fuel : Nat) (ctx : Ctx) (f : Final) (x : Src) (ss : List Stmt)
    (ts : List Token) (hw : Written f x ss ts)
    (hx : ∀ n, x.Uses n → n ∉ keywords) (hss : ∀ s ∈ ss, ∀ n, s.value.Uses n → n ∉ keywords)
    (hsc : Scoped x [] ss) :
    ∃ ctx' v c, parseWithTokens env (fuel + 1) ctx ts = .ok (ctx', .ok (finalType f ss, v)) ∧
      Defines (fun _ => none) ss c ∧ x.Is c v := by
  obtain ⟨ctx', v, c, m, h1, h2, h3⟩ := C72_blocks env fuel ctx f x ss ts hw hx hss hsc
  exact ⟨ctx', v, c, h1, builds_defines h2, makes_is h3⟩

/-- **C45**: otherwise it is rejected. -/
theorem C45_undefined (env : Env) (fuel : Nat) (ctx : Ctx) (f : Final) (x : Src) (ss : List Stmt)
    (ts : List Token) (hw : Written f x ss ts)
    (hx : ∀ n, x.Uses n → n ∉ keywords) (hss : ∀ s ∈ ss, ∀ n, s.value.Uses n → n ∉ keywords)
    (hsc : ¬ Scoped x [] ss) :
    ∃ ctx', parseWithTokens env (fuel + 1) ctx ts = .ok (ctx', .error .unexpectedToken) := by
  obtain ⟨ctx', h1⟩ := (program_run (env := env) (self := parseWithTokens env fuel)
    hw hx hss ctx [] .json [] (.inl rfl) (by simp [TMap.get])).2 hsc
  refine ⟨ctx', ?_⟩
  rw [parseWithTokens_succ]
  change (pushAll env (parseWithTokens env fuel) ctx (.parseRoot ⟨.initial,
    ⟨.json, .initial, .none, [], []⟩, true⟩) ts >>= _) = _
  rw [h1]
  rfl

/-- **C45**: whatever module is accepted, with constants, imports and `require` in any place, its
value is the one of the specification `Module`, in which a name stands for the latest preceding
binding and imports stand for the values of the modules. -/
theorem C45_sound (env : Env) (fuel : Nat) (ctx ctx' : Ctx) (ts : List Token) (dt : DataType)
    (v : Val) (hc : CacheOk env ctx)
    (h : parseWithTokens env fuel ctx ts = .ok (ctx', .ok (dt, v))) :
    Module (fun s w => ctx'.complete.get (env.resolve s) = some w) (fun _ => none) ts v :=
  ((parseWithTokens_ok env fuel).ok _ _ _ _ _ h hc).2.2

/-- **C45**: in a module that is accepted every identifier is a word of the language, a key (it is
followed by a colon), the name in a `const` or `import` statement, or was the name in such a
statement before. -/
theorem C45_bound (env : Env) (fuel : Nat) (ctx ctx' : Ctx) (ts : List Token) (dt : DataType)
    (v : Val) (hc : CacheOk env ctx)
    (h : parseWithTokens env fuel ctx ts = .ok (ctx', .ok (dt, v)))
    (pre post : List Token) (n : Text) (he : ts.filter (· ≠ .newLine) = pre ++ .id n :: post) :
    n ∈ words ∨ post.head? = some .colon ∨
    (pre.getLast? = some (.id "const".toList) ∨ pre.getLast? = some (.id "import".toList)) ∨
    [.id "const".toList, .id n] <:+: pre ∨ [.id "import".toList, .id n] <:+: pre := by
  rcases (C45_sound env fuel ctx ctx' ts dt v hc h).names pre n post he with h | h | h | h
  · exact .inl h
  · exact .inr (.inl h)
  · exact absurd rfl h
  · exact .inr (.inr h)

/-- **C43**: every JSON value, written with line breaks anywhere, is parsed to itself. -/
theorem C43_json (env : Env) (fuel : Nat) (ctx : Ctx) (x : Src) (ts : List Token)
    (hx : ∀ n, ¬ x.Uses n) (hts : ts.filter (· ≠ .newLine) = x.tokens) :
    ∃ ctx' v, parseWithTokens env (fuel + 1) ctx ts = .ok (ctx', .ok (.json, v)) ∧
      x.Is (fun _ => none) v := by
  obtain ⟨ctx', v, c, h1, h2, h3⟩ := C45_defined env fuel ctx .plain x [] ts (.final ts hts)
    (fun n h => absurd h (hx n)) (by simp) (fun n h => absurd h (hx n))
  cases h2
  exact ⟨ctx', v, h1, h3⟩

/-- **C44**: the members of a parsed object: every key once, with the value of its last occurrence,
in the order of the keys. -/
theorem C44_members (env : Env) (fuel : Nat) (ctx : Ctx) (l : List (Text × Src)) (ts : List Token)
    (hx : ∀ n, ¬ (Src.obj l).Uses n) (hts : ts.filter (· ≠ .newLine) = (Src.obj l).tokens) :
    ∃ ctx' i vs kvs, parseWithTokens env (fuel + 1) ctx ts =
        .ok (ctx', .ok (.json, .obj i (stored kvs))) ∧
      l.length = vs.length ∧ (∀ p ∈ l.zip vs, p.1.2.Is (fun _ => none) p.2) ∧
      (kvs.map (·.1)).Pairwise (· < ·) ∧
      ((stored kvs).map (·.1)).Nodup ∧
      ∀ k w, (k, w) ∈ kvs ↔ ∃ a b, (l.map (·.1)).zip vs = a ++ (k, w) :: b ∧ ∀ x ∈ b, x.1 ≠ k := by
  obtain ⟨ctx', v, h1, h2⟩ := C43_json env fuel ctx _ ts hx hts
  cases h2 with
  | obj i _ vs kvs h3 h4 h5 =>
    refine ⟨ctx', i, vs, kvs, h1, h3, h4, h5.1, ?_, h5.2⟩
    have : (stored kvs).map (·.1) = (kvs.map (·.1)).map toJsString := by simp [stored]
    rw [this]
    rw [List.Nodup, List.pairwise_map]
    refine h5.1.imp fun {a b} hab he => ?_
    rw [(C58_injective a b).1 he] at hab
    exact List.lt_irrefl b hab

/-- the hypotheses of `C43_json` and `C44_members`: `{"b":1,` line break `"a":[2],"b":3}` -/
example : ∃ ctx' v, parseWithTokens oneFile 1 Ctx.empty
    [.objectBegin, .string "b".toList, .colon, .number 1, .comma, .newLine, .string "a".toList,
      .colon, .arrayBegin, .number 2, .arrayEnd, .comma, .string "b".toList, .colon, .number 3,
      .objectEnd] = .ok (ctx', .ok (.json, v)) ∧
    (Src.obj [("b".toList, .num 1), ("a".toList, .arr [.num 2]), ("b".toList, .num 3)]).Is
      (fun _ => none) v := by
  refine C43_json oneFile 0 Ctx.empty _ _ ?_ ?_
  · intro n h
    cases h with
    | obj _ x _ hx hu =>
      simp only [List.mem_cons, List.not_mem_nil, or_false] at hx
      rcases hx with rfl | rfl | rfl
      · cases hu
      · cases hu with
        | arr _ y _ hy hu =>
          simp only [List.mem_cons, List.not_mem_nil, or_false] at hy
          subst hy
          cases hu
      · cases hu
  · simp [Src.tokens, commas]

/-- what the parser returns in this case -/
example : parseWithTokens oneFile 1 Ctx.empty
    [.objectBegin, .string "b".toList, .colon, .number 1, .comma, .newLine, .string "a".toList,
      .colon, .arrayBegin, .number 2, .arrayEnd, .comma, .string "b".toList, .colon, .number 3,
      .objectEnd] = .ok ({ Ctx.empty with next := 2 },
        .ok (.json, .obj 1 [(toJsString "a".toList, .arr 0 [.num 2]), (toJsString "b".toList, .num 3)])) :=
  rfl

/-- the hypotheses of `C45_defined`: `const a = [1]`, `const a = [a]`, `export default [a]` -/
example : ∃ ctx' v c, parseWithTokens oneFile 1 Ctx.empty
    [.id "const".toList, .id "a".toList, .equals, .arrayBegin, .number 1, .arrayEnd, .newLine,
     .id "const".toList, .id "a".toList, .equals, .arrayBegin, .id "a".toList, .arrayEnd, .newLine,
     .id "export".toList, .id "default".toList, .arrayBegin, .id "a".toList, .arrayEnd] =
      .ok (ctx', .ok (.mjs, v)) ∧
    Defines (fun _ => none) [⟨"a".toList, .arr [.num 1]⟩, ⟨"a".toList, .arr [.ref "a".toList]⟩] c ∧
    (Src.arr [.ref "a".toList]).Is c v := by
  have uses : ∀ n, (Src.arr [.ref "a".toList]).Uses n → n = "a".toList := by
    intro n h
    cases h with
    | arr _ y _ hy hu =>
      simp only [List.mem_cons, List.not_mem_nil, or_false] at hy
      subst hy
      cases hu
      rfl
  have none : ∀ n, ¬ (Src.arr [.num 1]).Uses n := by
    intro n h
    cases h with
    | arr _ y _ hy hu =>
      simp only [List.mem_cons, List.not_mem_nil, or_false] at hy
      subst hy
      cases hu
  refine C45_defined oneFile 0 Ctx.empty .exportDefault (.arr [.ref "a".toList])
    [⟨"a".toList, .arr [.num 1]⟩, ⟨"a".toList, .arr [.ref "a".toList]⟩] _
    (.const_ _ _ [.arrayBegin, .number 1, .arrayEnd] _ (by simp [Src.tokens, commas])
      (.const_ _ _ [.arrayBegin, .id "a".toList, .arrayEnd] _ (by simp [Src.tokens, commas])
        (.final _ (by simp [Src.tokens, commas])))) ?_ ?_ ?_
  · intro n h
    rw [uses n h]
    decide
  · intro s hs n h
    simp only [List.mem_cons, List.not_mem_nil, or_false] at hs
    rcases hs with rfl | rfl
    · exact absurd h (none n)
    · rw [uses n h]
      decide
  · refine ⟨fun n h => absurd h (none n), fun n h => ?_, fun n h => ?_⟩
    · rw [uses n h]; simp
    · rw [uses n h]; simp

/-- a case of `C45_undefined`: the constant is defined after its use -/
example : parseWithTokens oneFile 1 Ctx.empty
    [.id "const".toList, .id "a".toList, .equals, .id "b".toList, .newLine,
     .id "const".toList, .id "b".toList, .equals, .number 1, .newLine, .id "a".toList] =
    .ok (Ctx.empty, .error .unexpectedToken) := rfl

/-! ## C46 -/

/-- **C46** (what holds): with finitely many files, if every file is tokenized without a panic and
without semicolons, and the module has no semicolon, then the parser returns a value or an error.
Missing: semicolons, see `C46_violated`. -/
theorem C46_no_panic_partial (env : Env) (files : List Text)
    (hfin : ∀ p text, env.fs p = some text → p ∈ files)
    (htok : ∀ p text, env.fs p = some text → ∃ ts, tokenize env.conv text = .ok ts ∧
      .semicolon ∉ ts)
    (fuel : Nat) (hfuel : files.length < fuel) (ctx : Ctx) (hc : CacheOk env ctx)
    (ts : List Token) (hts : .semicolon ∉ ts) :
    ∃ ctx' o, parseWithTokens env fuel ctx ts = .ok (ctx', o) := by
  cases h : parseWithTokens env fuel ctx ts with
  | ok x => exact ⟨x.1, x.2, rfl⟩
  | error e =>
    exfalso
    have := parseWithTokens_err hfin fuel _ _ _ hc h
      (lt_of_le_of_lt (List.length_filter_le _ _) hfuel)
    cases this with
    | semicolon h1 h2 => exact hts h1
    | nested p ts' h1 h2 h3 =>
      unfold Env.read at h1
      split at h1
      next text hf =>
        obtain ⟨ts2, h4, h5⟩ := htok _ _ hf
        rw [h4] at h1
        cases h1
        exact h5 h2
      next => cases h1
    | tokens p text h1 h2 =>
      obtain ⟨ts2, h4, h5⟩ := htok _ _ h1
      rw [h4] at h2
      cases h2

/-- **C46** (what holds): every step of the parser panics only at a semicolon in the definition of
a constant, or where the parser of an imported module does. -/
theorem C46_step_partial (env : Env) (nested : ParseTokens) (ctx : Ctx) (j : JState) (t : Token)
    (e : Err) (hj : JInv (fun _ _ => True) j) (h : jsonPush env nested ctx j t = .error e) :
    (t = .semicolon ∧ (∃ k st, j = .parseConst k st) ∧ e = .panic .todo) ∨
      ∃ s, importModule env nested ctx s = .error e :=
  jsonPush_err hj h

/-- **C46** fails: `const a = ;` reaches `todo!()`. -/
theorem C46_violated (env : Env) (ctx : Ctx) :
    parseWithTokens env 1 ctx [.id "const".toList, .id "a".toList, .equals, .semicolon] =
      .error (.panic .todo) := rfl

/-- **C46** fails for the parser without files (`JsonState::push`) also without semicolons:
`require("x")` reaches `unreachable!()`. -/
theorem C46_pure_violated :
    (do
      let x ← JState.start.push 0 (.id "require".toList)
      let x ← x.1.1.push x.2 .openingParenthesis
      let x ← x.1.1.push x.2 (.string "x".toList)
      x.1.1.push x.2 .closingParenthesis) = .error (.panic .unreachable) := rfl

/-- the hypotheses of `C46_no_panic_partial` -/
example (ts : List Token) (hts : .semicolon ∉ ts) :
    ∃ ctx' o, parseWithTokens oneFile 2 Ctx.empty ts = .ok (ctx', o) := by
  refine C46_no_panic_partial oneFile ["x".toList] ?_ ?_ 2 (by decide) Ctx.empty
    (fun p v h => by simp [Ctx.empty, TMap.get] at h) ts hts
  · intro p text h
    by_cases hp : p = "x".toList
    · simp [hp]
    · simp only [oneFile, if_neg hp] at h
      cases h
  · intro p text h
    by_cases hp : p = "x".toList
    · simp only [oneFile, if_pos hp] at h
      cases h
      exact ⟨[.id "null".toList], by decide +kernel, by decide⟩
    · simp only [oneFile, if_neg hp] at h
      cases h

end Parser
end Nanvm
