import Verif.Lemmas.ParserCrashFiles
import Verif.Props.ParserAccept
/-!
# C46: exactly which modules make the parser panic
-/
namespace Nanvm
namespace Parser
open Tok Grammar

/-- **C46** (what holds): a parse panics exactly if the module is one of `Spec/Crashes.lean`: the
tokenizer panics on its text, or it has a semicolon in an unfinished constant, or a module that it
needs, where it is needed, panics; the modules before that all load. -/
theorem C46_exact_partial (env : Env) :
    (∃ F q, ∀ fuel ≥ F, parse env fuel Ctx.empty = .error (.panic q)) ↔
      Crashes env.read
        (fun p => ∃ text q, env.fs p = some text ∧ tokenize env.conv text = .error (.panic q))
        env.resolve env.path := by
  constructor
  · rintro ⟨F, q, h⟩
    replace h := h F (Nat.le_refl _)
    rcases parse_cases h with ⟨-, he⟩ | ⟨text, hf, ⟨e, ht, he⟩ | ⟨ts, ht, he⟩⟩
    · cases he
    · cases he
      exact .text _ ⟨text, q, hf, ht⟩
    · exact crashes_of (read_eq hf ht) (tokens_crash F (ctx := enter Ctx.empty env.path)
        (by intro p v h; cases h) he.symm)
  · intro h
    classical
    obtain ⟨m, hm⟩ := crashes_by (env := env) h
    have hex : ∃ n, CrashesBy env n env.path := ⟨m, hm⟩
    have hr := Nat.find_spec hex
    have hmin := fun m (hm : m < Nat.find hex) => Nat.find_min hex hm
    generalize Nat.find hex = r at *
    have hnl := fun k => crashes_not_loads (k := k) hr
    cases r with
    | zero => cases hr
    | succ r =>
      rcases hr with ⟨text, q, h1, h2⟩ | ⟨ts, h1, h2⟩
      · refine ⟨0, q, fun fuel _ => ?_⟩
        simp only [parse, h1, h2]
        rfl
      · obtain ⟨f, hf⟩ := crash_tokens r (crash_import r) h2
        obtain ⟨q, hq⟩ := hf f (Nat.le_refl _) (enter Ctx.empty env.path) ⟨fun p v h => (by cases h), by
          intro q hq
          simp only [enter, Ctx.empty, setInsert, List.not_mem_nil, if_false,
            List.mem_singleton] at hq
          subst hq
          exact ⟨hnl, hmin r (by omega)⟩⟩
        obtain ⟨text, h5, h6⟩ := read_cases h1
        have hp : parse env f Ctx.empty = .error (.panic q) := by
          simp only [parse, h5, h6]
          exact hq
        refine ⟨f, q, fun fuel hle => ?_⟩
        rw [C38_fuel env f fuel hle (by rw [hp]; simp), hp]

/-- **C46** (what holds): the three ways a parse can end, each with its exact condition. -/
theorem C46_ways_partial (env : Env) (fuel : Nat) (h : parse env fuel Ctx.empty ≠ .error .fuel) :
    let crashes := Crashes env.read
      (fun p => ∃ text q, env.fs p = some text ∧ tokenize env.conv text = .error (.panic q))
      env.resolve env.path
    let loads := ∃ k, LoadsAs env.read env.resolve env.path k
    ((∃ q, parse env fuel Ctx.empty = .error (.panic q)) ↔ crashes) ∧
    ((∃ ctx k v, parse env fuel Ctx.empty = .ok (ctx, .ok (k, v))) ↔ loads) ∧
    ((∃ ctx e, parse env fuel Ctx.empty = .ok (ctx, .error e)) ↔ ¬ crashes ∧ ¬ loads) := by
  intro crashes loads
  have h1 : (∃ q, parse env fuel Ctx.empty = .error (.panic q)) ↔ crashes := by
    refine Iff.trans ?_ (C46_exact_partial env)
    constructor
    · rintro ⟨q, hq⟩
      exact ⟨fuel, q, fun fuel' hle => by rw [C38_fuel env fuel fuel' hle h, hq]⟩
    · rintro ⟨F, q, hq⟩
      refine ⟨q, ?_⟩
      rw [← C38_fuel env fuel (max fuel F) (Nat.le_max_left _ _) h]
      exact hq _ (Nat.le_max_right _ _)
  have h2 : _ ↔ loads := C79_ends_partial env fuel h
  refine ⟨h1, h2, ?_⟩
  rw [← h1, ← h2]
  cases hp : parse env fuel Ctx.empty with
  | error e =>
    cases e with
    | fuel => exact absurd hp h
    | panic q => simp
  | ok x =>
    obtain ⟨ctx, o⟩ := x
    cases o with
    | ok x => obtain ⟨k, v⟩ := x; simp
    | error e => simp

/-- **C46** (what holds): no module both loads and panics. -/
theorem C46_not_both_partial (env : Env) (k : DataType)
    (hc : Crashes env.read
      (fun p => ∃ text q, env.fs p = some text ∧ tokenize env.conv text = .error (.panic q))
      env.resolve env.path) : ¬ LoadsAs env.read env.resolve env.path k := by
  obtain ⟨n, hn⟩ := crashes_by (env := env) hc
  exact crashes_not_loads hn

/-- two files: one needs the other, in which the value of a constant ends with a semicolon after an
unfinished array -/
def crashing : Env :=
  ⟨fun p => if p = ['m'] then some "module.exports=[1,require(\"b\")]".toList
    else if p = ['b'] then some "const a = [null,;".toList else none, fun _ => .ok 0, ['m']⟩

/-- the panic of the needed module -/
example : Crashes crashing.read
    (fun p => ∃ text q, crashing.fs p = some text ∧ tokenize crashing.conv text = .error (.panic q))
    crashing.resolve crashing.path := by
  refine .needed _ [.id "module".toList, .dot, .id "exports".toList, .equals, .arrayBegin, .number 0,
    .comma, .id "require".toList, .openingParenthesis, .string ['b']] [.closingParenthesis, .arrayEnd]
    ['b'] (fun _ => False) (by decide +kernel) ?_ (fun _ h => h.elim) ?_
  · refine .inModule _ _ [.arrayBegin, .number 0, .comma, .id "require".toList, .openingParenthesis,
      .string ['b']] _ (by decide) (.array _ _ _ _ ?_)
    exact .elements _ _ [.number 0] .cjs _ _ (.num _ _ _)
      (.element _ _ _ _ (.requireAsks _ _ _ rfl))
  · have : crashing.resolve ['b'] = ['b'] := by decide +kernel
    rw [this]
    refine .semicolon _ [.id "const".toList, .id ['a'], .equals, .arrayBegin, .id "null".toList, .comma]
      [] (fun _ => False) (by decide +kernel) ?_ (fun _ h => h.elim)
    refine .inConst _ _ _ [.arrayBegin, .id "null".toList, .comma] none (.array _ _ _ _ ?_)
    exact .elements _ _ [.id "null".toList] .djs [] _ (.literal _ _ _ (by decide)) (.nothing _ _)

/-- a semicolon elsewhere is an ordinary error -/
example : ¬ Crashes (fileOf "export default null;".toList).read
    (fun p => ∃ text q, (fileOf "export default null;".toList).fs p = some text ∧
      tokenize (fileOf "export default null;".toList).conv text = .error (.panic q))
    (fileOf "export default null;".toList).resolve (fileOf "export default null;".toList).path := by
  intro h
  have hok : (parse (fileOf "export default null;".toList) 1 Ctx.empty).isOk = true := by
    decide +kernel
  obtain ⟨q, hq⟩ := (C46_ways_partial _ 1 (fun h => by rw [h] at hok; cases hok)).1.2 h
  rw [hq] at hok
  cases hok

end Parser
end Nanvm
