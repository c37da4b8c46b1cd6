import Verif.Lemmas.SerInjective
import Verif.Props.App
/-!
# Property theorems C73, C74: one text for each value, and conversions through other files
-/
namespace Nanvm
open Tok hiding run
open Ser Parser Grammar App

variable {sh : Nat → Text}

/-! ## C73 -/

theorem forall₂_of_zip {α β : Type} {R : α → β → Prop} {l : List α} {m : List β}
    (h1 : l.length = m.length) (h2 : ∀ p ∈ l.zip m, R p.1 p.2) : List.Forall₂ R l m :=
  List.forall₂_iff_zip.2 ⟨h1, fun {a b} h => h2 (a, b) h⟩

/-- **C73**: the text of a value depends on its contents only, not on which blocks are shared; this
holds for all values, and for all ways of printing numbers. -/
theorem C73_same_text (v w : Val) (h : v.Same w) : toJson sh v = toJson sh w := by
  unfold toJson
  induction h with
  | null => rfl
  | bool => rfl
  | num => rfl
  | str i j s => rw [writeJson, writeJson]
  | big i j b => rw [writeJson, writeJson]
  | arr i j l m h1 hz ih =>
    have key : jsonItems sh l = jsonItems sh m := by
      have h := forall₂_of_zip (R := fun x y => writeJson sh x = writeJson sh y) h1 ih
      clear h1 ih hz
      induction h with
      | nil => rfl
      | cons h1 _ ih => rw [jsonItems, jsonItems, h1, ih]
    rw [writeJson, writeJson, key]
  | obj i j l m h1 hz ih =>
    have key : jsonMembers sh l = jsonMembers sh m := by
      have h := forall₂_of_zip (R := fun (x y : JsStr × Val) => writeJson sh x.2 = writeJson sh y.2)
        (by simpa using congrArg List.length h1) ih
      clear ih hz
      induction h with
      | nil => rfl
      | @cons a b l m h2 _ ih =>
        simp only [List.map_cons, List.cons.injEq] at h1
        obtain ⟨k, x⟩ := a
        obtain ⟨k', y⟩ := b
        obtain ⟨rfl, h1⟩ := h1
        rw [jsonMembers, jsonMembers, h2, ih h1]
    rw [writeJson, writeJson, key]

/-- **C73**: values with different contents have different texts.  Strings may contain any units,
also surrogates; numbers are finite, because all NaNs have the same text. -/
theorem C73_injective (hp : PrintsDoubles sh) (v w : Val) (t : Text) (hv : v.Units16)
    (hw : w.Units16) (fv : v.FiniteNums) (fw : w.FiniteNums) (h1 : toJson sh v = .ok t)
    (h2 : toJson sh w = .ok t) : v.Same w :=
  (json_cut hp v w t t [] [] hv hw fv fw h1 h2 rfl (by simp [Ends]) (by simp [Ends])).1

/-- **C73**: a sequence of values can be written one after another with a comma or a line break
between them: no text of a value continues the text of another one. -/
theorem C73_prefix_free (hp : PrintsDoubles sh) (v w : Val) (t u r s : Text) (hv : v.Units16)
    (hw : w.Units16) (fv : v.FiniteNums) (fw : w.FiniteNums) (h1 : toJson sh v = .ok t)
    (h2 : toJson sh w = .ok u) (a b : Char) (ha : a ≠ '-' ∧ a ≠ '.' ∧ isDigit a = false)
    (hb : b ≠ '-' ∧ b ≠ '.' ∧ isDigit b = false) (e : t ++ a :: r = u ++ b :: s) :
    t = u ∧ v.Same w ∧ a :: r = b :: s := by
  have hn : ∀ {c : Char} {r : Text}, c ≠ '-' ∧ c ≠ '.' ∧ isDigit c = false →
      Ends NumChar (c :: r) := by
    rintro c r ⟨h1, h2, h3⟩ x hx
    simp only [List.head?_cons, Option.mem_some_iff] at hx
    subst hx
    rintro (h | h | h)
    · exact h1 h
    · exact h2 h
    · rw [h3] at h; cases h
  obtain ⟨h3, h4⟩ := json_cut hp v w t u _ _ hv hw fv fw h1 h2 e (hn ha) (hn hb)
  refine ⟨?_, h3, h4⟩
  have := C73_same_text (sh := sh) v w h3
  rw [h1, h2] at this
  exact Except.ok.inj this

/-- two values with the same text: the second shares an array, the first does not -/
example : (Val.arr 0 [.arr 1 [], .arr 2 []]).Same (.arr 5 [.arr 7 [], .arr 7 []]) ∧
    toJson sh (.arr 5 [.arr 7 [], .arr 7 []]) = .ok "[[],[]]".toList := by
  refine ⟨.arr _ _ _ _ rfl ?_, rfl⟩
  intro p hp
  have : p = (.arr 1 [], .arr 7 []) ∨ p = (.arr 2 [], .arr 7 []) := by simpa using hp
  rcases this with rfl | rfl <;> exact .arr _ _ _ _ rfl (by simp)

/-- two values that meet the hypotheses of `C73_injective` except for the last -/
example : (∃ t, toJson showExact (.str 0 [0xD83D]) = .ok t) ∧ (Val.str 0 [0xD83D]).Units16 ∧
    (Val.num 0).Units16 ∧ (Val.num 0).FiniteNums ∧ ¬ (Val.str 0 [0xD83D]).Same (.num 0) := by
  refine ⟨⟨_, rfl⟩, ⟨?_, ?_⟩, ⟨?_, ?_⟩, ?_, ?_⟩
  · intro i s h; cases h; unfold Units; decide
  · intro i l h; cases h
  · intro i s h; cases h
  · intro i l h; cases h
  · intro b h; cases h; unfold FiniteBits; decide
  · intro h; cases h

/-! ## C74 -/

/-- **C74** in full: converting a file to another one, and this one to JSON, gives the text that
converting the first to JSON gives. -/
def ThroughFiles (conv : BigFloat → Res Nat) : Prop :=
  ∀ (io : Io) (w w' : World) program input output output2 k ctx dt v, io.conv = conv →
    PrintsDoubles io.sh → OutputKind output k → OutputKind output2 .json →
    (∀ t, io.canWrite output2 t = true) →
    parse ⟨w.files, io.conv, input⟩ io.fuelParse Ctx.empty = .ok (ctx, .ok (dt, v)) →
    v.FiniteNums → run { io with args := [program, input, output] } w = (.ok (.ok ()), w') →
    ∃ t, (run { io with args := [program, input, output2] } w).1 = .ok (.ok ()) ∧
      (run { io with args := [program, input, output2] } w).2.files output2 = some t ∧
      (run { io with args := [program, output, output2] } w').1 = .ok (.ok ()) ∧
      (run { io with args := [program, output, output2] } w').2.files output2 = some t

theorem writeConsts_more {pick : HMap Seen → HMap Nat → Nat} {fuel fuel' : Nat} {st st' : St}
    (hf : fuel ≤ fuel') (h : writeConsts sh pick fuel st = .ok st') :
    writeConsts sh pick fuel' st = .ok st' := by
  induction fuel generalizing fuel' st with
  | zero => cases h
  | succ n ih =>
    obtain ⟨m, rfl⟩ : ∃ m, fuel' = m + 1 := ⟨fuel' - 1, by omega⟩
    rw [writeConsts] at h ⊢
    cases e : peek pick st with
    | none => rw [e] at h; exact h
    | some v =>
      rw [e] at h
      simp only at h ⊢
      cases e2 : writeConstsAndAny sh v st with
      | error x => rw [e2] at h; cases h
      | ok st1 => rw [e2] at h; exact ih (by omega) h

theorem toDjs_more {pick : HMap Seen → HMap Nat → Nat} {fuel fuel' : Nat} {v : Val} {c : Bool}
    {t : Text} (hf : fuel ≤ fuel') (h : toDjs sh pick fuel v c = .ok t) :
    toDjs sh pick fuel' v c = .ok t := by
  unfold toDjs at h ⊢
  cases e : writeConsts sh pick fuel
      ⟨[], (track [] v).filter fun x => x.2 = .repeatedly, []⟩ with
  | error x => simp only [e] at h; cases h
  | ok st => simp only [e, writeConsts_more hf e] at h ⊢; exact h

/-- the run with these paths, if the input can be parsed -/
theorem run_written {io : Io} {w : World} {program input output : Text} {k : DataType} {ctx : Ctx}
    {dt : DataType} {v : Val} {t : Text} (hk : OutputKind output k)
    (hp : parse ⟨w.files, io.conv, input⟩ io.fuelParse Ctx.empty = .ok (ctx, .ok (dt, v)))
    (hs : Serialized io v k t) (hw : io.canWrite output t = true) :
    (run { io with args := [program, input, output] } w).1 = .ok (.ok ()) ∧
    (run { io with args := [program, input, output] } w).2.files output = some t := by
  have hd := ((C57_suffix output).1 k).2 hk
  cases hk with
  | json p hk =>
    have hs : toJson io.sh v = .ok t := hs
    simp only [run, hd, hp, hs, writeResult, ioWrite, hw, if_true, and_self]
  | cjs p hk =>
    have hs : toDjs io.sh io.pick io.fuelDjs v true = .ok t := hs
    simp only [run, hd, hp, hs, writeResult, ioWrite, hw, if_true, and_self]
  | mjs p hk =>
    have hs : toDjs io.sh io.pick io.fuelDjs v false = .ok t := hs
    simp only [run, hd, hp, hs, writeResult, ioWrite, hw, if_true, and_self]

/-- what a successful run has written -/
theorem run_wrote {io : Io} {w w' : World} {program input output : Text} {k : DataType} {ctx : Ctx}
    {dt : DataType} {v : Val} (hk : OutputKind output k)
    (hp : parse ⟨w.files, io.conv, input⟩ io.fuelParse Ctx.empty = .ok (ctx, .ok (dt, v)))
    (h : run { io with args := [program, input, output] } w = (.ok (.ok ()), w')) :
    ∃ t, Serialized io v k t ∧ w'.files output = some t := by
  have hd := ((C57_suffix output).1 k).2 hk
  have fin : ∀ s : Res Text, writeResult { io with args := [program, input, output] } output s w =
      (.ok (.ok ()), w') → ∃ t, s = .ok t ∧ w'.files output = some t := by
    intro s h
    cases s with
    | error e => cases congrArg Prod.fst h
    | ok t =>
      refine ⟨t, rfl, ?_⟩
      simp only [writeResult, ioWrite] at h
      split at h
      · have := congrArg Prod.snd h
        simp only at this
        rw [← this]
        simp
      · have := congrArg Prod.fst h
        simp at this
  cases hk with
  | json p hk => simp only [run, hd, hp] at h; exact fin _ h
  | cjs p hk => simp only [run, hd, hp] at h; exact fin _ h
  | mjs p hk => simp only [run, hd, hp] at h; exact fin _ h

/-- **C74** (what holds): converting a file to another one, of any of the three formats, and this
one to JSON, gives the text that converting the first to JSON gives.  Missing: strings with
surrogates and numbers that are not read back (as C51), and shared arrays and objects if the file
between is a module (as C55). -/
theorem C74_through_partial (io : Io) (w w' : World) (program input output output2 : Text)
    (k : DataType) (ctx : Ctx) (dt : DataType) (v : Val) (hk : OutputKind output k)
    (hk2 : OutputKind output2 .json) (hw : ∀ t, io.canWrite output2 t = true)
    (hp : parse ⟨w.files, io.conv, input⟩ io.fuelParse Ctx.empty = .ok (ctx, .ok (dt, v)))
    (hr : Readable io.conv io.sh v) (hs : k = .json ∨ ∀ c, ¬ v.Shared c)
    (h : run { io with args := [program, input, output] } w = (.ok (.ok ()), w')) :
    ∃ t, (run { io with args := [program, input, output2] } w).1 = .ok (.ok ()) ∧
      (run { io with args := [program, input, output2] } w).2.files output2 = some t ∧
      (run { io with args := [program, output, output2] } w').1 = .ok (.ok ()) ∧
      (run { io with args := [program, output, output2] } w').2.files output2 = some t := by
  obtain ⟨hc, ho, -⟩ := C59_graph _ _ _ _ _ hp
  obtain ⟨n, hn⟩ : ∃ n, io.fuelParse = n + 1 := by
    cases e : io.fuelParse with
    | zero =>
      exfalso
      rw [e, parse] at hp
      split at hp
      · rename_i text _
        cases et : tokenize io.conv text with
        | error x => simp only [et] at hp; cases hp
        | ok ts => simp only [et] at hp; cases hp
      · cases congrArg Prod.snd (Except.ok.inj hp)
    | succ n => exact ⟨n, rfl⟩
  obtain ⟨u, hu, hread⟩ := C51_read_back_partial (conv := io.conv) (sh := io.sh) v hr
  obtain ⟨t, ht, hf⟩ := run_wrote hk hp h
  have hv' : ∃ ctx' dt' v', parse ⟨w'.files, io.conv, output⟩ io.fuelParse Ctx.empty =
      .ok (ctx', .ok (dt', v')) ∧ v.Same v' := by
    have djs : ∀ c, (∀ x, ¬ v.Shared x) → toDjs io.sh io.pick io.fuelDjs v c = .ok t →
        ∃ ctx' dt' v', parse ⟨w'.files, io.conv, output⟩ io.fuelParse Ctx.empty =
          .ok (ctx', .ok (dt', v')) ∧ v.Same v' := by
      intro c hs ht
      obtain ⟨F, hF⟩ := C55_read_back_partial v hc hr hs
      obtain ⟨t', h1, h2⟩ := hF io.pick (max F io.fuelDjs) (le_max_left _ _) c
      rw [toDjs_more (le_max_right _ _) ht] at h1
      obtain rfl := Except.ok.inj h1
      obtain ⟨ctx', v', h3, -, h4⟩ := h2 ⟨w'.files, io.conv, output⟩ n Ctx.empty rfl hf
      rw [hn]
      exact ⟨ctx', _, v', h3, h4 ho⟩
    cases hk with
    | json p hk =>
      have ht : toJson io.sh v = .ok t := ht
      rw [hu] at ht
      obtain rfl := Except.ok.inj ht
      obtain ⟨ctx', v', h3, -, h4⟩ := hread ⟨w'.files, io.conv, output⟩ n Ctx.empty rfl hf
      rw [hn]
      exact ⟨ctx', _, v', h3, h4 ho⟩
    | cjs p hk =>
      rcases hs with hs | hs
      · cases hs
      · exact djs true hs ht
    | mjs p hk =>
      rcases hs with hs | hs
      · cases hs
      · exact djs false hs ht
  obtain ⟨ctx', dt', v', hp', hsame⟩ := hv'
  obtain ⟨a1, a2⟩ := run_written (program := program) (t := u) hk2 hp hu (hw u)
  obtain ⟨b1, b2⟩ := run_written (program := program) (t := u) hk2 hp'
    ((C73_same_text v v' hsame).symm.trans hu) (hw u)
  exact ⟨u, a1, a2, b1, b2⟩

/-- **C74** (what holds): converting a JSON file that the converter has written changes nothing. -/
theorem C74_again_partial (io : Io) (w w' : World) (program input output output2 : Text)
    (ctx : Ctx) (dt : DataType) (v : Val) (hk : OutputKind output .json)
    (hk2 : OutputKind output2 .json) (hw : ∀ t, io.canWrite output2 t = true)
    (hp : parse ⟨w.files, io.conv, input⟩ io.fuelParse Ctx.empty = .ok (ctx, .ok (dt, v)))
    (hr : Readable io.conv io.sh v)
    (h : run { io with args := [program, input, output] } w = (.ok (.ok ()), w')) :
    (run { io with args := [program, output, output2] } w').1 = .ok (.ok ()) ∧
    (run { io with args := [program, output, output2] } w').2.files output2 = w'.files output := by
  obtain ⟨t, h1, h2, h3, h4⟩ := C74_through_partial io w w' program input output output2 .json ctx dt v
    hk hk2 hw hp hr (.inl rfl) h
  refine ⟨h3, ?_⟩
  obtain ⟨u, hu, hu'⟩ := run_wrote hk hp h
  obtain ⟨-, h5⟩ := run_written (program := program) (t := u) hk2 hp hu (hw u)
  rw [h4, hu', ← h2, h5]

/-- **C74** does not hold: the file `"😀"` can be converted to JSON, but the result cannot be
converted again. -/
theorem C74_violated (conv : BigFloat → Res Nat) : ¬ ThroughFiles conv := by
  intro h
  have hsmile : toJsString ['😀'] = [0xD83D, 0xDE00] := by decide
  have hu : Units [0xD83D, 0xDE00] := by unfold Units; decide
  obtain ⟨t, ht, hrej⟩ := C51_surrogates_rejected (sh := showExact) 0 [0xD83D, 0xDE00] hu
    ⟨0xD83D, by simp, by unfold SurrogateUnit; decide⟩
  have hk := ((C57_suffix "b.json".toList).1 .json).1 (by decide)
  let w : World := onlyFile "a.json".toList ['"', '😀', '"']
  let io : Io := { ioOf [] with conv := conv }
  have hparse : ∃ ctx, parse ⟨w.files, io.conv, "a.json".toList⟩ io.fuelParse Ctx.empty =
      .ok (ctx, .ok (.json, .str 0 [0xD83D, 0xDE00])) := by
    rw [← hsmile]
    exact ⟨_, rfl⟩
  obtain ⟨ctx, hparse⟩ := hparse
  obtain ⟨r1, r2⟩ := run_written (program := []) (io := io) (t := t) hk hparse ht rfl
  obtain ⟨_, -, -, h1, -⟩ := h io w _ [] "a.json".toList "b.json".toList "b.json".toList .json ctx _ _ rfl
    showExact_prints hk hk (fun _ => rfl) hparse (fun b hb => by cases hb) (Prod.ext r1 rfl)
  have hd := ((C57_suffix "b.json".toList).1 .json).2 hk
  simp only [run, hd] at h1
  split at h1
  · rename_i c d v' e
    exact hrej _ _ _ _ _ r2 e
  · cases h1
  · cases h1

/-- a conversion that meets the hypotheses of `C74_through_partial`, through a module -/
example : let io := ioOf []
    let w := onlyFile "a".toList "[true]".toList
    OutputKind "b.d.mjs".toList .mjs ∧ OutputKind "c.json".toList .json ∧
    (∃ ctx, parse ⟨w.files, io.conv, "a".toList⟩ io.fuelParse Ctx.empty =
      .ok (ctx, .ok (.json, .arr 0 [.bool true]))) ∧
    Readable io.conv io.sh (.arr 0 [.bool true]) ∧ (∀ c, ¬ (Val.arr 0 [.bool true]).Shared c) ∧
    (run { io with args := [[], "a".toList, "b.d.mjs".toList] } w).1 = .ok (.ok ()) ∧
    (run { io with args := [[], "a".toList, "b.d.mjs".toList] } w).2.files "b.d.mjs".toList =
      some "export default [true]".toList := by
  refine ⟨.mjs "b".toList rfl, .json "c".toList rfl, ⟨_, rfl⟩, ?_, ?_, by decide +kernel,
    by decide +kernel⟩
  all_goals
    have hsub : ∀ x : Val, x.Sub (.arr 0 [.bool true]) →
        x = .arr 0 [.bool true] ∨ x = .bool true := by
      intro x hx
      cases hx with
      | refl => exact .inl rfl
      | arr _ _ y hy hx =>
        have : y = .bool true := by simpa using hy
        subst this
        cases hx
        exact .inr rfl
  · refine ⟨?_, ?_, ?_, ?_⟩
    · intro i b h; rcases hsub _ h with e | e <;> cases e
    · intro i t h; rcases hsub _ h with e | e <;> cases e
    · intro i l h; rcases hsub _ h with e | e <;> cases e
    · intro b h; rcases hsub _ h with e | e <;> cases e
  · rintro c ⟨hc, r, r', hne, h1, h2⟩
    have place : ∀ r, (Val.arr 0 [.bool true]).At r c → r = none := by
      intro r h
      cases h with
      | root => rfl
      | kid p i _ hp hpc hi =>
        rcases hsub p hp with rfl | rfl
        · match i with
          | 0 => cases hi; cases hc
          | i + 1 => cases hi
        · cases hpc
    exact hne ((place r h1).trans (place r' h2).symm)

end Nanvm
