import Verif.Props.App
import Verif.Props.ParserCrash
/-!
# C56: exactly when the converter panics
-/
namespace Nanvm
open Tok hiding run
open Parser Grammar Ser App

/-- **C56**, last part (what holds): the run panics exactly if arguments are missing, or the output
has a known suffix and the input is one of the modules of `Spec/Crashes.lean`, or its value contains
a bigint.  (The parse must end, which it does with finitely many files, and the fuel of the
serializer must suffice.) -/
theorem C56_panics_partial (io : Io) (w : World)
    (hend : ∀ input, parse ⟨w.files, io.conv, input⟩ io.fuelParse Ctx.empty ≠ .error .fuel) :
    ∃ F, ∀ fuel ≥ F,
      ((∃ q, (run { io with fuelDjs := fuel } w).1 = .error (.panic q)) ↔
        io.args.length < 3 ∨
        ∃ program input output rest k, io.args = program :: input :: output :: rest ∧
          OutputKind output k ∧
          (Crashes (Env.read ⟨w.files, io.conv, input⟩)
            (fun p => ∃ text q, w.files p = some text ∧ tokenize io.conv text = .error (.panic q))
            (Env.resolve ⟨w.files, io.conv, input⟩) input ∨
          ∃ ctx dt v, parse ⟨w.files, io.conv, input⟩ io.fuelParse Ctx.empty =
            .ok (ctx, .ok (dt, v)) ∧ v.HasBig)) := by
  match ha : io.args with
  | [] => exact ⟨0, fun fuel _ => ⟨fun _ => .inl (by simp), fun _ => ⟨.unwrap, by simp [run]⟩⟩⟩
  | [_] => exact ⟨0, fun fuel _ => ⟨fun _ => .inl (by simp), fun _ => ⟨.unwrap, by simp [run]⟩⟩⟩
  | [_, _] =>
    exact ⟨0, fun fuel _ => ⟨fun _ => .inl (by simp), fun _ => ⟨.unwrap, by simp [run]⟩⟩⟩
  | program :: input :: output :: rest =>
    have hlen : ¬ (program :: input :: output :: rest).length < 3 := by simp
    cases hk : fileToDataType output with
    | error e =>
      refine ⟨0, fun fuel _ => ⟨?_, ?_⟩⟩
      · rintro ⟨q, h⟩
        simp [run, ha, hk] at h
      · rintro (h | ⟨_, _, _, _, k, he, hk', -⟩)
        · exact absurd h hlen
        · simp only [List.cons.injEq] at he
          obtain ⟨-, -, rfl, -⟩ := he
          rw [((C57_suffix _).1 k).2 hk'] at hk
          cases hk
    | ok k =>
      have hkind := ((C57_suffix output).1 k).1 hk
      have ways := C46_ways_partial ⟨w.files, io.conv, input⟩ io.fuelParse (hend input)
      simp only at ways
      have toIff : ∀ {P : Prop} (fuel : Nat),
          (P ↔ (Crashes (Env.read ⟨w.files, io.conv, input⟩)
            (fun p => ∃ text q, w.files p = some text ∧ tokenize io.conv text = .error (.panic q))
            (Env.resolve ⟨w.files, io.conv, input⟩) input ∨
          ∃ ctx dt v, parse ⟨w.files, io.conv, input⟩ io.fuelParse Ctx.empty =
            .ok (ctx, .ok (dt, v)) ∧ v.HasBig)) →
          (P ↔ (program :: input :: output :: rest).length < 3 ∨
        ∃ program' input' output' rest' k', program :: input :: output :: rest =
            program' :: input' :: output' :: rest' ∧ OutputKind output' k' ∧
          (Crashes (Env.read ⟨w.files, io.conv, input'⟩)
            (fun p => ∃ text q, w.files p = some text ∧ tokenize io.conv text = .error (.panic q))
            (Env.resolve ⟨w.files, io.conv, input'⟩) input' ∨
          ∃ ctx dt v, parse ⟨w.files, io.conv, input'⟩ io.fuelParse Ctx.empty =
            .ok (ctx, .ok (dt, v)) ∧ v.HasBig)) := by
        intro P fuel h
        rw [h]
        constructor
        · exact fun h => .inr ⟨program, input, output, rest, k, rfl, hkind, h⟩
        · rintro (h | ⟨_, _, _, _, k, he, hk', h⟩)
          · exact absurd h hlen
          · simp only [List.cons.injEq] at he
            obtain ⟨-, rfl, -, -⟩ := he
            exact h
      cases hp : parse ⟨w.files, io.conv, input⟩ io.fuelParse Ctx.empty with
      | error e =>
        cases e with
        | fuel => exact absurd hp (hend input)
        | panic q =>
          refine ⟨0, fun fuel _ => toIff fuel ?_⟩
          refine iff_of_true ⟨q, by simp [run, hk, hp]⟩ (.inl (ways.1.1 ⟨q, hp⟩))
      | ok x =>
        obtain ⟨ctx, o⟩ := x
        have hnc : ¬ Crashes (Env.read ⟨w.files, io.conv, input⟩)
            (fun p => ∃ text q, w.files p = some text ∧ tokenize io.conv text = .error (.panic q))
            (Env.resolve ⟨w.files, io.conv, input⟩) input := by
          intro h
          obtain ⟨q, hq⟩ := ways.1.2 h
          rw [hp] at hq
          cases hq
        cases o with
        | error e =>
          refine ⟨0, fun fuel _ => toIff fuel (iff_of_false ?_ ?_)⟩
          · rintro ⟨q, h⟩
            simp [run, ha, hk, hp] at h
          · rintro (h | ⟨_, _, _, h, -⟩)
            · exact hnc h
            · rw [hp] at h
              cases h
        | ok y =>
          obtain ⟨dt, v⟩ := y
          have hu := parsed_units hp
          have hc := (C59_graph _ _ _ _ _ hp).1
          have hiff : ((Crashes (Env.read ⟨w.files, io.conv, input⟩)
              (fun p => ∃ text q, w.files p = some text ∧ tokenize io.conv text = .error (.panic q))
              (Env.resolve ⟨w.files, io.conv, input⟩) input ∨
            ∃ ctx dt v, parse ⟨w.files, io.conv, input⟩ io.fuelParse Ctx.empty =
              .ok (ctx, .ok (dt, v)) ∧ v.HasBig)) ↔ v.HasBig := by
            constructor
            · rintro (h | ⟨_, _, _, h, hb⟩)
              · exact absurd h hnc
              · rw [hp] at h
                cases h
                exact hb
            · exact fun h => .inr ⟨_, _, _, hp, h⟩
          suffices h : ∃ F, ∀ fuel ≥ F,
              ((∃ q, (run { io with fuelDjs := fuel } w).1 = .error (.panic q)) ↔ v.HasBig) by
            obtain ⟨F, h⟩ := h
            exact ⟨F, fun fuel hf => toIff fuel (by rw [← ha]; exact (h fuel hf).trans hiff.symm)⟩
          by_cases hb : v.HasBig
          · obtain ⟨F, hF⟩ := C54_bigint_panics (sh := io.sh) v hc hu hb
            refine ⟨F, fun fuel hfu => iff_of_true ⟨.todo, ?_⟩ hb⟩
            cases hkind with
            | json p h =>
              simp [run, ha, hk, hp, writeResult, C53_bigint_panics (sh := io.sh) v hu hb]
            | cjs p h => simp [run, ha, hk, hp, writeResult, hF io.pick fuel hfu true]
            | mjs p h => simp [run, ha, hk, hp, writeResult, hF io.pick fuel hfu false]
          · obtain ⟨t, ht, -⟩ := C53_total_partial (sh := io.sh) v hu hb
            obtain ⟨F, hF⟩ := C54_constants (sh := io.sh) v t hc ht
            refine ⟨F, fun fuel hfu => iff_of_false ?_ hb⟩
            rintro ⟨q, h⟩
            obtain ⟨_, _, _, h1, -⟩ := hF io.pick fuel hfu true
            obtain ⟨_, _, _, h2, -⟩ := hF io.pick fuel hfu false
            cases hkind with
            | json p h' => simp [run, ha, hk, hp, writeResult, ht] at h
            | cjs p h' => simp [run, ha, hk, hp, writeResult, h1] at h
            | mjs p h' => simp [run, ha, hk, hp, writeResult, h2] at h

/-- with enough fuel for the serializer the run ends -/
theorem run_ends (io : Io) (w : World)
    (hend : ∀ input, parse ⟨w.files, io.conv, input⟩ io.fuelParse Ctx.empty ≠ .error .fuel) :
    ∃ F, ∀ fuel ≥ F, (run { io with fuelDjs := fuel } w).1 ≠ .error .fuel := by
  match ha : io.args with
  | [] => exact ⟨0, fun fuel _ => by simp [run]⟩
  | [_] => exact ⟨0, fun fuel _ => by simp [run]⟩
  | [_, _] => exact ⟨0, fun fuel _ => by simp [run]⟩
  | program :: input :: output :: rest =>
    cases hk : fileToDataType output with
    | error e => exact ⟨0, fun fuel _ => by simp [run, hk]⟩
    | ok k =>
      have hkind := ((C57_suffix output).1 k).1 hk
      cases hp : parse ⟨w.files, io.conv, input⟩ io.fuelParse Ctx.empty with
      | error e =>
        cases e with
        | fuel => exact absurd hp (hend input)
        | panic q => exact ⟨0, fun fuel _ => by simp [run, hk, hp]⟩
      | ok x =>
        obtain ⟨ctx, o⟩ := x
        cases o with
        | error e => exact ⟨0, fun fuel _ => by simp [run, hk, hp]⟩
        | ok y =>
          obtain ⟨dt, v⟩ := y
          have hu := parsed_units hp
          have hc := (C59_graph _ _ _ _ _ hp).1
          by_cases hb : v.HasBig
          · obtain ⟨F, hF⟩ := C54_bigint_panics (sh := io.sh) v hc hu hb
            refine ⟨F, fun fuel hfu => ?_⟩
            cases hkind with
            | json p h => simp [run, hk, hp, writeResult, C53_bigint_panics (sh := io.sh) v hu hb]
            | cjs p h => simp [run, hk, hp, writeResult, hF io.pick fuel hfu true]
            | mjs p h => simp [run, hk, hp, writeResult, hF io.pick fuel hfu false]
          · obtain ⟨t, ht, -⟩ := C53_total_partial (sh := io.sh) v hu hb
            obtain ⟨F, hF⟩ := C54_constants (sh := io.sh) v t hc ht
            refine ⟨F, fun fuel hfu => ?_⟩
            obtain ⟨_, _, _, h1, -⟩ := hF io.pick fuel hfu true
            obtain ⟨_, _, _, h2, -⟩ := hF io.pick fuel hfu false
            cases hkind with
            | json p h' => simp [run, hk, hp, writeResult, ht]
            | cjs p h' => simp [run, hk, hp, writeResult, h1]
            | mjs p h' => simp [run, hk, hp, writeResult, h2]

/-- **C63**, exactly: the status is 101 if arguments are missing, or the output has a known suffix
and the input is one of the modules of `Spec/Crashes.lean` or has a value with a bigint; in all
other cases, successful or not, it is 0. -/
theorem C63_exact_partial (io : Io) (w : World)
    (hend : ∀ input, parse ⟨w.files, io.conv, input⟩ io.fuelParse Ctx.empty ≠ .error .fuel) :
    ∃ F, ∀ fuel ≥ F,
      (mainStatus { io with fuelDjs := fuel } w = some 101 ∨
        mainStatus { io with fuelDjs := fuel } w = some 0) ∧
      (mainStatus { io with fuelDjs := fuel } w = some 101 ↔
        io.args.length < 3 ∨
        ∃ program input output rest k, io.args = program :: input :: output :: rest ∧
          OutputKind output k ∧
          (Crashes (Env.read ⟨w.files, io.conv, input⟩)
            (fun p => ∃ text q, w.files p = some text ∧ tokenize io.conv text = .error (.panic q))
            (Env.resolve ⟨w.files, io.conv, input⟩) input ∨
          ∃ ctx dt v, parse ⟨w.files, io.conv, input⟩ io.fuelParse Ctx.empty =
            .ok (ctx, .ok (dt, v)) ∧ v.HasBig)) := by
  obtain ⟨F1, h1⟩ := C56_panics_partial io w hend
  obtain ⟨F2, h2⟩ := run_ends io w hend
  refine ⟨max F1 F2, fun fuel hf => ?_⟩
  have a1 := h1 fuel (le_trans (le_max_left _ _) hf)
  have a2 := h2 fuel (le_trans (le_max_right _ _) hf)
  rw [← a1]
  unfold mainStatus
  cases e : (run { io with fuelDjs := fuel } w).1 with
  | ok r => exact ⟨.inr rfl, ⟨fun h => (by cases h), fun ⟨q, h⟩ => (by cases h)⟩⟩
  | error x =>
    cases x with
    | fuel => exact absurd e a2
    | panic q => exact ⟨.inl rfl, ⟨fun _ => ⟨q, rfl⟩, fun _ => rfl⟩⟩

/-- the hypothesis, and each of the three causes -/
example :
    let w := onlyFile "a".toList "const a = {;".toList
    let io := ioOf ["nanvm".toList, "a".toList, "b.json".toList]
    (∀ input, parse ⟨w.files, io.conv, input⟩ io.fuelParse Ctx.empty ≠ .error .fuel) ∧
    (run io w).1 = .error (.panic .todo) ∧
    (run io (onlyFile "a".toList "[1n]".toList)).1 = .error (.panic .todo) ∧
    (run (ioOf ["nanvm".toList, "a".toList]) w).1 = .error (.panic .unwrap) ∧
    (run (ioOf ["nanvm".toList, "a".toList, "b.txt".toList]) w).1 = .ok (.error .extension) ∧
    mainStatus io w = some 101 ∧
    mainStatus (ioOf ["nanvm".toList, "a".toList, "b.txt".toList]) w = some 0 := by
  refine ⟨?_, by decide +kernel, by decide +kernel, by decide +kernel, by decide +kernel, by decide +kernel, by decide +kernel⟩
  intro input
  by_cases hi : input = "a".toList
  · subst hi
    intro h
    have : (match parse ⟨(onlyFile "a".toList "const a = {;".toList).files,
        (ioOf ["nanvm".toList, "a".toList, "b.json".toList]).conv, "a".toList⟩ 2 Ctx.empty with
      | .error .fuel => false
      | _ => true) = true := by decide +kernel
    rw [show (ioOf ["nanvm".toList, "a".toList, "b.json".toList]).fuelParse = 2 from rfl] at h
    rw [h] at this
    cases this
  · have hn : (onlyFile "a".toList "const a = {;".toList).files input = none := if_neg hi
    intro h
    simp only [parse, hn] at h
    cases h

end Nanvm
