import Verif.Model.App
import Verif.Lemmas.ParserHeap
import Verif.Props.SerializerDjsRead
/-!
# Property theorems C56, C57, C59, C60: the converter
-/
namespace Nanvm
open Tok hiding run
open Parser Grammar Ser App

/-! ## C57 -/

theorem endsWith_iff (s suffix : Text) : endsWith s suffix = true ↔ ∃ p, s = p ++ suffix := by
  unfold endsWith
  rw [List.isSuffixOf_iff_suffix]
  exact ⟨fun ⟨p, h⟩ => ⟨p, h.symm⟩, fun ⟨p, h⟩ => ⟨p, h.symm⟩⟩

/-- the path ends in one of the recognised suffixes, which stands for this kind of output -/
inductive OutputKind (s : Text) : DataType → Prop
  | json (p) : s = p ++ ".json".toList → OutputKind s .json
  | cjs (p) : s = p ++ ".d.cjs".toList → OutputKind s .cjs
  | mjs (p) : s = p ++ ".d.mjs".toList → OutputKind s .mjs

theorem last_six {p q a b : Text} (h : p ++ a = q ++ b) (hl : b.length ≤ a.length) :
    ∃ r, a = r ++ b := by
  have h1 : b <:+ p ++ a := ⟨q, h.symm⟩
  have h2 : a <:+ p ++ a := ⟨p, rfl⟩
  obtain ⟨r, hr⟩ := List.suffix_of_suffix_length_le h1 h2 hl
  exact ⟨r, hr.symm⟩

/-- **C57**: the suffix of a path decides the kind of output: `.json`, `.d.cjs` and `.d.mjs`, and
every other path is rejected. -/
theorem C57_suffix (s : Text) :
    (∀ k, fileToDataType s = .ok k ↔ OutputKind s k) ∧
    (fileToDataType s = .error .extension ↔ ∀ k, ¬ OutputKind s k) ∧
    (∀ e, fileToDataType s = .error e → e = .extension) := by
  have key : ∀ k, fileToDataType s = .ok k ↔ OutputKind s k := by
    intro k
    have a1 := endsWith_iff s ".json".toList
    have a2 := endsWith_iff s ".d.cjs".toList
    have a3 := endsWith_iff s ".d.mjs".toList
    have no : ∀ x y : Text, y.length ≤ x.length → x.drop (x.length - y.length) ≠ y →
        (∃ p, s = p ++ x) → (∃ p, s = p ++ y) → False := by
      rintro x y hl hne ⟨p, hp⟩ ⟨q, hq⟩
      obtain ⟨r, hr⟩ := last_six (hp.symm.trans hq) hl
      apply hne
      rw [hr]
      simp
    have n12 := no ".d.cjs".toList ".json".toList (by decide) (by decide)
    have n13 := no ".d.mjs".toList ".json".toList (by decide) (by decide)
    have n23 := no ".d.mjs".toList ".d.cjs".toList (by decide) (by decide)
    unfold fileToDataType
    constructor
    · intro h
      split at h
      · rename_i h1
        cases h
        obtain ⟨p, hp⟩ := a1.1 h1
        exact .json p hp
      split at h
      · rename_i h1
        cases h
        obtain ⟨p, hp⟩ := a2.1 h1
        exact .cjs p hp
      split at h
      · rename_i h1
        cases h
        obtain ⟨p, hp⟩ := a3.1 h1
        exact .mjs p hp
      · cases h
    · intro h
      cases h with
      | json p hp => rw [if_pos (a1.2 ⟨p, hp⟩)]
      | cjs p hp => rw [if_neg fun h => n12 ⟨p, hp⟩ (a1.1 h), if_pos (a2.2 ⟨p, hp⟩)]
      | mjs p hp =>
        rw [if_neg fun h => n13 ⟨p, hp⟩ (a1.1 h), if_neg fun h => n23 ⟨p, hp⟩ (a2.1 h),
          if_pos (a3.2 ⟨p, hp⟩)]
  have err : ∀ e, fileToDataType s = .error e → e = .extension := by
    intro e h
    cases e with
    | extension => rfl
    | parse e => unfold fileToDataType at h; (repeat' split at h) <;> cases h
    | write => unfold fileToDataType at h; (repeat' split at h) <;> cases h
  refine ⟨key, ?_, err⟩
  constructor
  · intro h k hk
    rw [(key k).2 hk] at h
    cases h
  · intro h
    cases he : fileToDataType s with
    | ok k => exact absurd ((key k).1 he) (h k)
    | error e => rw [err e he]

example : fileToDataType "out/a.d.cjs".toList = .ok .cjs ∧ fileToDataType ".json".toList = .ok .json ∧
    fileToDataType "a.cjs".toList = .error .extension ∧
    fileToDataType "a.json.txt".toList = .error .extension := by decide

/-! ## C56 -/

/-- the text of `v` in the format `k` -/
def Serialized (io : Io) (v : Val) : DataType → Text → Prop
  | .json, t => toJson io.sh v = .ok t
  | .cjs, t => toDjs io.sh io.pick io.fuelDjs v true = .ok t
  | .mjs, t => toDjs io.sh io.pick io.fuelDjs v false = .ok t
  | .djs, _ => False

/-- **C56**: either nothing is written and no file changes, and the run does not succeed; or `io.write`
is called exactly once, with the output path and the text of the parsed value, and then the result of
the run is the result of this call.  The latter happens only if there are three arguments, the
output path has a known suffix, and the input was parsed; and it happens whenever, in addition, the
value can be written. -/
theorem C56_writes (io : Io) (w : World) :
    ((run io w).2 = w ∧ (run io w).1 ≠ .ok (.ok ()) ∧
      ¬ ∃ program input output rest k ctx dt v text,
        io.args = program :: input :: output :: rest ∧ OutputKind output k ∧
        parse ⟨w.files, io.conv, input⟩ io.fuelParse Ctx.empty = .ok (ctx, .ok (dt, v)) ∧
        Serialized io v k text) ∨
    ∃ program input output rest k ctx dt v text,
      io.args = program :: input :: output :: rest ∧ OutputKind output k ∧
      parse ⟨w.files, io.conv, input⟩ io.fuelParse Ctx.empty = .ok (ctx, .ok (dt, v)) ∧
      Serialized io v k text ∧
      (run io w).2.writes = w.writes ++ [(output, text)] ∧
      ((io.canWrite output text = true ∧ (run io w).1 = .ok (.ok ()) ∧
          (run io w).2.files = fun p => if p = output then some text else w.files p) ∨
        (io.canWrite output text = false ∧ (run io w).1 = .ok (.error .write) ∧
          (run io w).2.files = w.files)) := by
  have written : ∀ (output : Text) (s : Res Text) (text : Text), s = .ok text →
      (writeResult io output s w).2.writes = w.writes ++ [(output, text)] ∧
      ((io.canWrite output text = true ∧ (writeResult io output s w).1 = .ok (.ok ()) ∧
          (writeResult io output s w).2.files = fun p => if p = output then some text else w.files p) ∨
        (io.canWrite output text = false ∧ (writeResult io output s w).1 = .ok (.error .write) ∧
          (writeResult io output s w).2.files = w.files)) := by
    intro output s text hs
    subst hs
    cases hc : io.canWrite output text <;> simp [writeResult, ioWrite, hc]
  match ha : io.args with
  | [] =>
    left
    simp [run, ha]
  | [_] =>
    left
    simp [run, ha]
  | [_, _] =>
    left
    simp [run, ha]
  | program :: input :: output :: rest =>
    have args : ∀ p i o r, program :: input :: output :: rest = p :: i :: o :: r →
        i = input ∧ o = output := by
      intro p i o r h
      simp only [List.cons.injEq] at h
      exact ⟨h.2.1.symm, h.2.2.1.symm⟩
    cases hk : fileToDataType output with
    | error e =>
      left
      refine ⟨by simp [run, ha, hk], by simp [run, ha, hk], ?_⟩
      rintro ⟨_, _, _, _, k, _, _, _, _, he, hk', -⟩
      obtain ⟨-, rfl⟩ := args _ _ _ _ he
      rw [((C57_suffix _).1 k).2 hk'] at hk
      cases hk
    | ok k =>
      have hkind := ((C57_suffix output).1 k).1 hk
      have kinds : ∀ k', OutputKind output k' → k' = k := fun k' h' => by
        have := ((C57_suffix output).1 k').2 h'
        rw [hk] at this
        exact (Except.ok.inj this).symm
      cases hp : parse ⟨w.files, io.conv, input⟩ io.fuelParse Ctx.empty with
      | error e =>
        left
        refine ⟨by simp [run, ha, hk, hp], by simp [run, ha, hk, hp], ?_⟩
        rintro ⟨_, _, _, _, _, _, _, _, _, he, -, hp', -⟩
        obtain ⟨rfl, -⟩ := args _ _ _ _ he
        rw [hp] at hp'
        cases hp'
      | ok x =>
        obtain ⟨ctx, o⟩ := x
        cases o with
        | error e =>
          left
          refine ⟨by simp [run, ha, hk, hp], by simp [run, ha, hk, hp], ?_⟩
          rintro ⟨_, _, _, _, _, _, _, _, _, he, -, hp', -⟩
          obtain ⟨rfl, -⟩ := args _ _ _ _ he
          rw [hp] at hp'
          have := congrArg Prod.snd (Except.ok.inj hp')
          cases this
        | ok y =>
          obtain ⟨dt, v⟩ := y
          have same : ∀ ctx' dt' v', parse ⟨w.files, io.conv, input⟩ io.fuelParse Ctx.empty =
              .ok (ctx', .ok (dt', v')) → v' = v := by
            intro ctx' dt' v' h
            rw [hp] at h
            have := congrArg Prod.snd (Except.ok.inj h)
            exact (congrArg Prod.snd (Except.ok.inj this)).symm
          have hser : ∃ s : Res Text, run io w = writeResult io output s w ∧
              ∀ text, Serialized io v k text ↔ s = .ok text := by
            cases hkind with
            | json p hp' => exact ⟨_, by simp [run, ha, hk, hp], fun text => Iff.rfl⟩
            | cjs p hp' => exact ⟨_, by simp [run, ha, hk, hp], fun text => Iff.rfl⟩
            | mjs p hp' => exact ⟨_, by simp [run, ha, hk, hp], fun text => Iff.rfl⟩
          obtain ⟨s, hr, hs⟩ := hser
          cases s with
          | error e =>
            refine Or.inl ⟨by rw [hr]; rfl, by rw [hr]; simp [writeResult], ?_⟩
            rintro ⟨_, _, _, _, _, _, _, _, text, he, hk', hp', hs'⟩
            obtain ⟨rfl, rfl⟩ := args _ _ _ _ he
            rw [kinds _ hk', same _ _ _ hp'] at hs'
            have := (hs text).1 hs'
            cases this
          | ok text =>
            have := written output (.ok text) text rfl
            rw [← hr] at this
            exact Or.inr ⟨program, input, output, rest, k, ctx, dt, v, text, rfl, hkind, hp,
              (hs text).2 rfl, this⟩

/-- a file system with one file -/
def onlyFile (path text : Text) : World := ⟨fun p => if p = path then some text else none, []⟩

/-- the converter with arguments -/
def ioOf (args : List Text) : Io :=
  ⟨args, fun _ _ => true, fun _ => .ok 0, showExact, fun _ _ => 0, 2, 10⟩

/-- both cases occur -/
example :
    let io := ioOf ["nanvm".toList, "a.json".toList, "b.d.cjs".toList]
    let w := onlyFile "a.json".toList "[true]".toList
    (run io w).1 = .ok (.ok ()) ∧
      (run io w).2.writes = [("b.d.cjs".toList, "module.exports=[true]".toList)] := by
  decide +kernel

example :
    let io := ioOf ["nanvm".toList, "a.json".toList, "b.d.cjs".toList]
    let w := onlyFile "a.json".toList "[true".toList
    (run io w).1 = .ok (.error (.parse .unexpectedEnd)) ∧ (run io w).2.writes = [] := by
  decide +kernel

/-- **C56**, last part, in full: the run always returns. -/
def AlwaysReturns : Prop := ∀ io w p, (run io w).1 ≠ .error (.panic p)

/-- **C56**: "otherwise it reports an error" does not hold if arguments are missing: the run panics
(without writing anything, `C56_writes`). -/
theorem C56_violated : ¬ AlwaysReturns := fun h =>
  h (ioOf ["nanvm".toList, "a.json".toList]) (onlyFile [] []) .unwrap rfl

/-- **C56** does not hold for an input with a bigint. -/
theorem C56_bigint_violated : (run (ioOf ["nanvm".toList, "a.json".toList, "b.json".toList])
    (onlyFile "a.json".toList "1n".toList)).1 = .error (.panic .todo) := by decide +kernel

/-- **C56** does not hold for the input `const a = ;`. -/
theorem C56_semicolon_violated : (run (ioOf ["nanvm".toList, "a.json".toList, "b.json".toList])
    (onlyFile "a.json".toList "const a = ;".toList)).1 = .error (.panic .todo) := by
  decide +kernel

/-! ## C59 -/

/-- **C59**: whatever the parser returns is a graph in which every array and object has one content;
all strings and keys are encodings of texts; and the keys of every object are in order, each once. -/
theorem C59_graph (env : Env) (fuel : Nat) (ctx' : Ctx) (dt : DataType) (v : Val)
    (h : parse env fuel Ctx.empty = .ok (ctx', .ok (dt, v))) :
    v.Consistent ∧ Ordered v ∧
    (∀ i s, (Val.str i s).Sub v → ∃ c : Text, s = toJsString c) ∧
    (∀ i l, (Val.obj i l).Sub v → ∀ m ∈ l, ∃ c : Text, m.1 = toJsString c) := by
  obtain ⟨H, hh⟩ := parse_held (L := ⟨fun _ => True, fun _ => True⟩) (env := env)
    (fun p text ts _ _ t _ => by cases t <;> trivial) h
  refine ⟨hh.consistent, hh.ordered, fun i s hs => hh _ hs, fun i l hs m hm => ?_⟩
  obtain ⟨-, kvs, rfl, -⟩ := hh _ hs
  obtain ⟨kv, -, rfl⟩ := List.mem_map.1 hm
  exact ⟨kv.1, rfl⟩

/-- **C59**: the numbers and bigints of the value occur as tokens in the files. -/
theorem C59_literals (env : Env) (fuel : Nat) (ctx' : Ctx) (dt : DataType) (v : Val)
    (h : parse env fuel Ctx.empty = .ok (ctx', .ok (dt, v))) :
    (∀ b, (Val.num b).Sub v → ∃ p text ts, env.fs p = some text ∧
      tokenize env.conv text = .ok ts ∧ .number b ∈ ts) ∧
    (∀ i b, (Val.big i b).Sub v → ∃ p text ts, env.fs p = some text ∧
      tokenize env.conv text = .ok ts ∧ .bigInt b ∈ ts) := by
  obtain ⟨H, hh⟩ := parse_held (L := ⟨fun b => ∃ p text ts, env.fs p = some text ∧
      tokenize env.conv text = .ok ts ∧ .number b ∈ ts, fun b => ∃ p text ts, env.fs p = some text ∧
      tokenize env.conv text = .ok ts ∧ .bigInt b ∈ ts⟩) (env := env)
    (fun p text ts h1 h2 t ht => by
      cases t
      case number b => exact ⟨p, text, ts, h1, h2, ht⟩
      case bigInt b => exact ⟨p, text, ts, h1, h2, ht⟩
      all_goals trivial) h
  exact ⟨fun b hs => hh _ hs, fun i b hs => hh _ hs⟩

/-- a parsed graph with a shared array -/
example : parse ⟨fun _ => some "const a=[]\n[a,a]".toList, fun _ => .ok 0, []⟩ 1 Ctx.empty =
    .ok (⟨[], [[]], 2, [[]]⟩, .ok (.djs, .arr 1 [.arr 0 [], .arr 0 []])) := by
  have ht : tokenize (fun _ => .ok 0) "const a=[]\n[a,a]".toList = .ok [.id "const".toList,
      .id ['a'], .equals, .arrayBegin, .arrayEnd, .newLine, .arrayBegin, .id ['a'], .comma,
      .id ['a'], .arrayEnd] := by decide +kernel
  simp only [parse, ht]
  rfl

theorem parsed_units {env : Env} {fuel : Nat} {ctx' : Ctx} {dt : DataType} {v : Val}
    (h : parse env fuel Ctx.empty = .ok (ctx', .ok (dt, v))) : v.Units16 := by
  obtain ⟨-, -, h3, h4⟩ := C59_graph env fuel ctx' dt v h
  constructor
  · intro i s hs
    obtain ⟨c, rfl⟩ := h3 i s hs
    exact C58_units c
  · intro i l hs m hm
    obtain ⟨c, hc⟩ := h4 i l hs m hm
    rw [hc]
    exact C58_units c

/-- **C56**, last part (what holds): if there are three arguments, and there are finitely many files,
all tokenized without a panic, without semicolons and without bigints, then the run returns: it
reports an error or has written the output.  Missing: see `C56_violated`, `C56_bigint_violated`,
`C56_semicolon_violated`. -/
theorem C56_returns_partial (io : Io) (w : World) (files : List Text)
    (hargs : 3 ≤ io.args.length) (hfin : ∀ p text, w.files p = some text → p ∈ files)
    (htok : ∀ p text, w.files p = some text → ∃ ts, tokenize io.conv text = .ok ts ∧
      .semicolon ∉ ts ∧ ∀ b, .bigInt b ∉ ts)
    (hfuel : files.length < io.fuelParse) :
    ∃ F, ∀ fuel, F ≤ fuel → ∃ r w', run { io with fuelDjs := fuel } w = (.ok r, w') := by
  match ha : io.args with
  | [] => rw [ha] at hargs; simp at hargs
  | [_] => rw [ha] at hargs; simp at hargs
  | [_, _] => rw [ha] at hargs; simp at hargs
  | program :: input :: output :: rest =>
    have toReturn : ∀ (io : Io) (s : Res Text), (∃ t, s = .ok t) →
        ∃ r w', writeResult io output s w = (.ok r, w') := by
      rintro io s ⟨t, rfl⟩
      exact ⟨_, _, rfl⟩
    cases hk : fileToDataType output with
    | error e => exact ⟨0, fun fuel _ => ⟨.error e, w, by simp [run, ha, hk]⟩⟩
    | ok k =>
      have hp : ∃ ctx' o, parse ⟨w.files, io.conv, input⟩ io.fuelParse Ctx.empty = .ok (ctx', o) := by
        unfold parse
        simp only
        cases hf : w.files input with
        | none => exact ⟨_, _, rfl⟩
        | some text =>
          obtain ⟨ts, h1, h2, -⟩ := htok _ _ hf
          obtain ⟨ctx', o, h⟩ := C46_no_panic_partial ⟨w.files, io.conv, input⟩ files hfin
            (fun p text h => by obtain ⟨ts, h1, h2, -⟩ := htok _ _ h; exact ⟨ts, h1, h2⟩)
            io.fuelParse hfuel { Ctx.empty with
              progress := setInsert Ctx.empty.progress input, reads := input :: Ctx.empty.reads }
            (enter_ok (empty_ok _) input) ts h2
          exact ⟨ctx', o, by simp only [h1]; exact h⟩
      obtain ⟨ctx', o, hp⟩ := hp
      cases o with
      | error e => exact ⟨0, fun fuel _ => ⟨_, w, by simp [run, ha, hk, hp]; rfl⟩⟩
      | ok y =>
        obtain ⟨dt, v⟩ := y
        have hu := parsed_units hp
        have hc := (C59_graph _ _ _ _ _ hp).1
        have hb : ¬ v.HasBig := by
          rintro ⟨i, b, h⟩
          obtain ⟨p, text, ts, h1, h2, h3⟩ := (C59_literals _ _ _ _ _ hp).2 i b h
          obtain ⟨ts', h4, -, h5⟩ := htok _ _ h1
          simp only at h2
          rw [h2] at h4
          obtain rfl := Except.ok.inj h4
          exact h5 b h3
        obtain ⟨t, ht, -⟩ := C53_total_partial (sh := io.sh) v hu hb
        obtain ⟨F, hF⟩ := C54_constants (sh := io.sh) v t hc ht
        refine ⟨F, fun fuel hfu => ?_⟩
        obtain ⟨_, _, _, h1, -⟩ := hF io.pick fuel hfu true
        obtain ⟨_, _, _, h2, -⟩ := hF io.pick fuel hfu false
        cases k with
        | djs =>
          have := ((C57_suffix output).1 .djs).1 hk
          cases this
        | json =>
          obtain ⟨r, w', h⟩ := toReturn { io with fuelDjs := fuel } _ ⟨t, ht⟩
          exact ⟨r, w', by simp [run, ha, hk, hp]; exact h⟩
        | cjs =>
          obtain ⟨r, w', h⟩ := toReturn { io with fuelDjs := fuel } _ ⟨_, h1⟩
          exact ⟨r, w', by simp [run, ha, hk, hp]; exact h⟩
        | mjs =>
          obtain ⟨r, w', h⟩ := toReturn { io with fuelDjs := fuel } _ ⟨_, h2⟩
          exact ⟨r, w', by simp [run, ha, hk, hp]; exact h⟩

/-- the hypotheses of `C56_returns_partial` for a file `[true]` -/
example : let w := onlyFile "a".toList "[true]".toList
    let io := ioOf ["nanvm".toList, "a".toList, "b.json".toList]
    3 ≤ io.args.length ∧ (∀ p text, w.files p = some text → p ∈ ["a".toList]) ∧
    (∀ p text, w.files p = some text → ∃ ts, tokenize io.conv text = .ok ts ∧
      .semicolon ∉ ts ∧ ∀ b, .bigInt b ∉ ts) ∧ ["a".toList].length < io.fuelParse := by
  have key : ∀ p text, (onlyFile "a".toList "[true]".toList).files p = some text →
      p = "a".toList ∧ text = "[true]".toList := by
    intro p text h
    simp only [onlyFile] at h
    split at h
    · rename_i e; exact ⟨e, (Option.some.inj h).symm⟩
    · cases h
  refine ⟨by decide, fun p text h => ?_, fun p text h => ?_, by decide⟩
  · rw [(key p text h).1]; simp
  · rw [(key p text h).2]
    exact ⟨[.arrayBegin, .id "true".toList, .arrayEnd], by rfl, by simp, by simp⟩

/-! ## C60 -/

/-- **C60** in full: after a successful conversion to JSON, the output file is parsed as the same
value as the input file. -/
def ConversionKeeps (conv : BigFloat → Res Nat) : Prop :=
  ∀ (io : Io) (w w' : World) program input output rest ctx dt v, io.conv = conv →
    PrintsDoubles io.sh → io.args = program :: input :: output :: rest → OutputKind output .json →
    parse ⟨w.files, conv, input⟩ io.fuelParse Ctx.empty = .ok (ctx, .ok (dt, v)) →
    v.FiniteNums → run io w = (.ok (.ok ()), w') →
    ∃ ctx' v', parse ⟨w'.files, conv, output⟩ 1 Ctx.empty = .ok (ctx', .ok (.json, v')) ∧ v.Same v'

/-- **C60** (what holds): the output file of a successful conversion to JSON is parsed as the value
of the input, if the strings contain no surrogates and the numbers are printed so that they are read
back.  Missing: as C51. -/
theorem C60_json_partial (io : Io) (w w' : World) (program input output : Text) (rest : List Text)
    (ctx : Ctx) (dt : DataType) (v : Val) (ha : io.args = program :: input :: output :: rest)
    (hk : OutputKind output .json)
    (hp : parse ⟨w.files, io.conv, input⟩ io.fuelParse Ctx.empty = .ok (ctx, .ok (dt, v)))
    (hr : Readable io.conv io.sh v) (h : run io w = (.ok (.ok ()), w')) :
    ∃ ctx' v', parse ⟨w'.files, io.conv, output⟩ 1 Ctx.empty = .ok (ctx', .ok (.json, v')) ∧
      v.Same v' := by
  obtain ⟨t, h1, h2⟩ := C51_read_back_partial (conv := io.conv) (sh := io.sh) v hr
  suffices hf : w'.files output = some t by
    obtain ⟨ctx', v', h3, -, h4⟩ := h2 ⟨w'.files, io.conv, output⟩ 0 Ctx.empty rfl hf
    exact ⟨ctx', v', h3, h4 (C59_graph _ _ _ _ _ hp).2.1⟩
  have hd := ((C57_suffix output).1 .json).2 hk
  simp only [run, ha, hd, hp, h1, writeResult, ioWrite] at h
  split at h
  · have := congrArg Prod.snd h
    simp only at this
    rw [← this]
    simp
  · have := congrArg Prod.fst h
    simp at this

/-- a conversion that meets the hypotheses of `C60_json_partial` -/
example : let io := ioOf ["nanvm".toList, "a".toList, "b.json".toList]
    OutputKind "b.json".toList .json ∧
    (∃ ctx, parse ⟨(onlyFile "a".toList "[true]".toList).files, io.conv, "a".toList⟩ io.fuelParse
      Ctx.empty = .ok (ctx, .ok (.json, .arr 0 [.bool true]))) ∧
    Readable io.conv io.sh (.arr 0 [.bool true]) ∧
    (run io (onlyFile "a".toList "[true]".toList)).1 = .ok (.ok ()) := by
  refine ⟨.json "b".toList rfl, ⟨_, rfl⟩, ?_, by decide +kernel⟩
  have hsub : ∀ x : Val, x.Sub (.arr 0 [.bool true]) → x = .arr 0 [.bool true] ∨ x = .bool true := by
    intro x hx
    cases hx with
    | refl => exact .inl rfl
    | arr _ _ y hy hx =>
      have : y = .bool true := by simpa using hy
      subst this
      cases hx
      exact .inr rfl
  refine ⟨?_, ?_, ?_, ?_⟩
  · intro i b h; rcases hsub _ h with e | e <;> cases e
  · intro i t h; rcases hsub _ h with e | e <;> cases e
  · intro i l h; rcases hsub _ h with e | e <;> cases e
  · intro b h; rcases hsub _ h with e | e <;> cases e

/-- **C60** does not hold: the file `"😀"` is converted to `"\\ud83d\\ude00"`, which the parser
rejects. -/
theorem C60_violated (conv : BigFloat → Res Nat) : ¬ ConversionKeeps conv := by
  intro h
  have hsmile : toJsString ['😀'] = [0xD83D, 0xDE00] := by decide
  have hu : Units [0xD83D, 0xDE00] := by unfold Units; decide
  obtain ⟨t, ht, hrej⟩ := C51_surrogates_rejected (sh := showExact) 0 [0xD83D, 0xDE00] hu
    ⟨0xD83D, by simp, by unfold SurrogateUnit; decide⟩
  have hkind : fileToDataType "b.json".toList = .ok .json := by decide
  have hk := ((C57_suffix "b.json".toList).1 .json).1 hkind
  let w : World := onlyFile "a.json".toList ['"', '😀', '"']
  let io : Io := { ioOf ["nanvm".toList, "a.json".toList, "b.json".toList] with conv := conv }
  have hparse : ∃ ctx, parse ⟨w.files, conv, "a.json".toList⟩ io.fuelParse Ctx.empty =
      .ok (ctx, .ok (.json, .str 0 [0xD83D, 0xDE00])) := by
    rw [← hsmile]
    exact ⟨_, rfl⟩
  obtain ⟨ctx, hparse⟩ := hparse
  let w' : World := ⟨fun p => if p = "b.json".toList then some t else w.files p,
    [("b.json".toList, t)]⟩
  have hrun : run io w = (.ok (.ok ()), w') := by
    unfold run
    simp only [io, ioOf] at hparse ⊢
    simp only [hkind, hparse, ht, writeResult, ioWrite]
    simp [w', w, onlyFile]
  obtain ⟨ctx', v', h1, -⟩ := h io w w' _ _ _ _ ctx _ _ rfl showExact_prints rfl hk hparse
    (fun b hb => by cases hb) hrun
  exact hrej ⟨w'.files, conv, "b.json".toList⟩ 1 Ctx.empty ctx' _ (by simp [w']) h1

end Nanvm
