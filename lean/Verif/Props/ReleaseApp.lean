import Verif.Lemmas.ReleaseApp
import Verif.Props.ReleaseFloat
import Verif.Props.App
/-!
# C90: the converter in a release build
-/
namespace Nanvm
open Tok hiding run runR
open Parser Ser App

/-- The parser of a release build, with its own conversion of numbers, gives what that of the debug
build gives (values, numbers of allocations, cache and files read), unless the debug build panics
for overflow, which it only does if it does so for the text of some file. -/
theorem C90_parse_partial (fs : Text → Option Text) (path : Text) (n fuel : Nat) (ctx : Ctx) :
    parseR ⟨fs, BigFloat.toF64R n, path⟩ fuel ctx = parse ⟨fs, BigFloat.toF64 n, path⟩ fuel ctx ∨
    (parse ⟨fs, BigFloat.toF64 n, path⟩ fuel ctx = .error (.panic .overflow) ∧
      ∃ p text, fs p = some text ∧
        tokenize (BigFloat.toF64 n) text = .error (.panic .overflow)) := by
  rcases unless_parse (env := ⟨fs, BigFloat.toF64 n, path⟩) (env' := ⟨fs, BigFloat.toF64R n, path⟩)
    ⟨rfl, rfl, BigFloat.unless_toF64 n⟩ fuel ctx with ⟨⟨p, text, h⟩, he⟩ | h
  · exact Or.inr ⟨he, p, text, h⟩
  · exact Or.inl h

/-- The converter of a release build has the result and the effects of the debug build, unless that
panics for overflow because of the text of some file; then the debug build writes nothing. -/
theorem C90_run_partial (io : Io) (n : Nat) (w : World) :
    runR { io with conv := BigFloat.toF64R n } w = run { io with conv := BigFloat.toF64 n } w ∨
    (run { io with conv := BigFloat.toF64 n } w = (.error (.panic .overflow), w) ∧
      ∃ p text, w.files p = some text ∧
        tokenize (BigFloat.toF64 n) text = .error (.panic .overflow)) := by
  unfold runR run
  rcases io.args with _ | ⟨a, _ | ⟨input, _ | ⟨output, rest⟩⟩⟩
  · exact Or.inl rfl
  · exact Or.inl rfl
  · exact Or.inl rfl
  · dsimp only
    cases fileToDataType output with
    | error e => exact Or.inl rfl
    | ok k =>
      dsimp only
      rcases C90_parse_partial w.files input n io.fuelParse Ctx.empty with h | ⟨h, h'⟩
      · left
        rw [h]
        rfl
      · right
        rw [h]
        exact ⟨rfl, h'⟩

/-- In a release build, too, at most one file is written, the output, and all else stays. -/
theorem C90_writes (io : Io) (w : World) :
    (runR io w).2 = w ∨
    ∃ program input output rest text, io.args = program :: input :: output :: rest ∧
      (runR io w).2.writes = w.writes ++ [(output, text)] ∧
      ∀ p, p ≠ output → (runR io w).2.files p = w.files p := by
  have key : ∀ (output : Text) (s : Res Text), (writeResult io output s w).2 = w ∨
      ∃ text, (writeResult io output s w).2.writes = w.writes ++ [(output, text)] ∧
        ∀ p, p ≠ output → (writeResult io output s w).2.files p = w.files p := by
    intro output s
    unfold writeResult ioWrite
    cases s with
    | error e => exact Or.inl rfl
    | ok t =>
      right
      refine ⟨t, ?_⟩
      by_cases hc : io.canWrite output t = true
      · simp only [hc, if_true]
        exact ⟨trivial, fun p hp => by simp [hp]⟩
      · simp only [hc]
        exact ⟨rfl, fun p _ => rfl⟩
  unfold runR
  rcases io.args with _ | ⟨a, _ | ⟨input, _ | ⟨output, rest⟩⟩⟩
  · exact Or.inl rfl
  · exact Or.inl rfl
  · exact Or.inl rfl
  · dsimp only
    cases fileToDataType output with
    | error e => exact Or.inl rfl
    | ok k =>
      dsimp only
      cases parseR ⟨w.files, io.conv, input⟩ io.fuelParse Ctx.empty with
      | error e => exact Or.inl rfl
      | ok x =>
        obtain ⟨c, r⟩ := x
        cases r with
        | error e => exact Or.inl rfl
        | ok y =>
          obtain ⟨dt, v⟩ := y
          cases k with
          | djs => exact Or.inl rfl
          | _ => exact (key output _).imp_right fun ⟨t, h⟩ => ⟨a, input, output, rest, t, rfl, h⟩

/-- Converting a file with the text `1e18446744073709551617` to JSON: the debug build panics and
writes nothing; the release build succeeds and writes the number 10. -/
theorem C90_run_violated (io : Io) (w : World) (program input p : Text) (rest : List Text)
    (ha : io.args = program :: input :: (p ++ ".json".toList) :: rest) (hf : io.fuelParse ≠ 0)
    (hw : ∀ t, io.canWrite (p ++ ".json".toList) t = true)
    (hi : w.files input = some "1e18446744073709551617".toList) :
    (∀ n, run { io with conv := BigFloat.toF64 n } w = (.error (.panic .overflow), w)) ∧
    ∃ bits, dval bits = 10 ∧ ∃ N, ∀ n ≥ N,
      (runR { io with conv := BigFloat.toF64R n } w).1 = .ok (.ok ()) ∧
      (runR { io with conv := BigFloat.toF64R n } w).2.files (p ++ ".json".toList) =
        some (io.sh bits) := by
  have hk : fileToDataType (p ++ ".json".toList) = .ok .json := by
    unfold fileToDataType
    rw [if_pos ((endsWith_iff _ _).2 ⟨p, rfl⟩)]
  obtain ⟨hd, bits, h10, ⟨N, hN⟩, -⟩ := C89_literal_violated
  refine ⟨fun n => ?_, bits, h10, N, fun n hn => ?_⟩
  · unfold run
    simp only [ha, hk]
    unfold parse
    simp only [hi]
    rw [hd]
    rfl
  · obtain ⟨f, hf'⟩ := Nat.exists_eq_succ_of_ne_zero hf
    have ht : tokenizeR (BigFloat.toF64R n) "1e18446744073709551617".toList = .ok [.number bits] := by
      rw [(C89_tokenizer_float_partial n _).2 (by rw [hN n hn]; simp), hN n hn]
    have hp : ∃ c dt, parseR ⟨w.files, BigFloat.toF64R n, input⟩ io.fuelParse Ctx.empty =
        .ok (c, .ok (dt, .num bits)) := by
      unfold parseR
      simp only [hi]
      rw [ht, hf']
      exact ⟨_, _, rfl⟩
    obtain ⟨c, dt, hp⟩ := hp
    have hr : runR { io with conv := BigFloat.toF64R n } w =
        writeResult io (p ++ ".json".toList) (.ok (io.sh bits)) w := by
      unfold runR
      simp only [ha, hk, hp]
      rfl
    rw [hr]
    unfold writeResult ioWrite
    simp only [hw, if_true, and_self]

/-- the hypotheses of `C90_run_violated` -/
example : let io := ioOf ["nanvm".toList, "a.json".toList, "b.json".toList]
    let w := onlyFile "a.json".toList "1e18446744073709551617".toList
    io.args = "nanvm".toList :: "a.json".toList :: ("b".toList ++ ".json".toList) :: [] ∧
      io.fuelParse ≠ 0 ∧ (∀ t, io.canWrite ("b".toList ++ ".json".toList) t = true) ∧
      w.files "a.json".toList = some "1e18446744073709551617".toList :=
  ⟨by decide, by decide, fun _ => rfl, by decide⟩

/-- both alternatives of `C90_run_partial` and of `C90_writes`: a file with a number is written by
both builds, a file of which the exponent overflows only by one of them -/
example : let io := { ioOf ["nanvm".toList, "a.json".toList, "b.json".toList] with
      sh := fun bits => if bits = 0x4024000000000000 then "10".toList else "?".toList }
    (∀ text ∈ ["10".toList, "1e18446744073709551617".toList],
      (runR { io with conv := BigFloat.toF64R 100 } (onlyFile "a.json".toList text)).2.writes =
        [("b.json".toList, "10".toList)]) ∧
    (run { io with conv := BigFloat.toF64 100 } (onlyFile "a.json".toList "10".toList)).2.writes =
      [("b.json".toList, "10".toList)] ∧
    (runR { io with conv := BigFloat.toF64R 100 } (onlyFile "a.json".toList "[".toList)).2.writes =
      [] := by
  decide +kernel

end Nanvm
