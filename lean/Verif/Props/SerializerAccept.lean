import Verif.Lemmas.SerReject
import Verif.Props.SourceText
import Verif.Props.SerializerCanonical
/-!
# Property theorems C51, C55, C60, C74: which written files are read again
-/
namespace Nanvm
open Tok hiding run
open Ser Parser Grammar App

variable {conv : BigFloat → Res Nat} {sh : Nat → Text}

/-- no string and no key contains half of a surrogate pair -/
structure Val.NoSurrogates (v : Val) : Prop where
  str : ∀ i s, (Val.str i s).Sub v → ∀ u ∈ s, ¬ SurrogateUnit u
  key : ∀ i l, (Val.obj i l).Sub v → ∀ m ∈ l, ∀ u ∈ m.1, ¬ SurrogateUnit u

theorem readable_iff {v : Val} (hu : v.Units16) (hb : ¬ v.HasBig)
    (hn : ∀ b, (Val.num b).Sub v → NumReads conv (sh b) b) :
    Readable conv sh v ↔ v.NoSurrogates :=
  ⟨fun h => ⟨fun i s hs => (h.str i s hs).2, fun i l hs m hm => (h.key i l hs m hm).2⟩,
    fun h => ⟨fun i b hs => hb ⟨i, b, hs⟩, fun i s hs => ⟨hu.str i s hs, h.str i s hs⟩,
      fun i l hs m hm => ⟨hu.key i l hs m hm, h.key i l hs m hm⟩, hn⟩⟩

theorem writable_of {v : Val} (hu : v.Units16) (hb : ¬ v.HasBig)
    (hn : ∀ b, (Val.num b).Sub v → NumReads conv (sh b) b) : Writable conv sh v :=
  ⟨fun i b hs => hb ⟨i, b, hs⟩, hu.str, hu.key, hn⟩

theorem Ser.Writable.sub {v x : Val} (h : Writable conv sh v) (hx : x.Sub v) :
    Writable conv sh x :=
  ⟨fun i b hs => h.big i b (hs.trans hx), fun i s hs => h.str i s (hs.trans hx),
    fun i l hs => h.key i l (hs.trans hx), fun b hs => h.num b (hs.trans hx)⟩

/-- a file with an error token is not parsed -/
theorem rejected {t : Text} (h : Rejects conv t) (env : Env) (fuel : Nat) (ctx' : Ctx)
    (r : DataType × Val) (hc : env.conv = conv) (hf : env.fs env.path = some t) :
    parse env fuel Ctx.empty ≠ .ok (ctx', .ok r) := by
  intro hp
  obtain ⟨dt, v⟩ := r
  cases C40_root_relative env fuel ctx' dt v hp with
  | module p ts M v hread hm _ =>
    obtain ⟨text, h1, h2⟩ := read_cases hread
    rw [hf] at h1
    cases h1
    rw [hc, tokenize_eq] at h2
    obtain ⟨e, he⟩ := h [] ts (by rw [List.append_nil]; exact h2)
    exact module_no_error hm e he

/-- **C51**, exactly when JSON output is accepted: for a value without bigints whose numbers are read
back, the parser accepts the text iff no string and no key contains half of a surrogate pair. -/
theorem C51_accepted (v : Val) (hu : v.Units16) (hb : ¬ v.HasBig)
    (hn : ∀ b, (Val.num b).Sub v → NumReads conv (sh b) b) :
    ∃ t, toJson sh v = .ok t ∧ ∀ (env : Env) fuel, env.conv = conv → env.fs env.path = some t →
      ((∃ ctx' r, parse env (fuel + 1) Ctx.empty = .ok (ctx', .ok r)) ↔ v.NoSurrogates) := by
  by_cases hr : Readable conv sh v
  · obtain ⟨t, h1, h2⟩ := C51_read_back_partial v hr
    refine ⟨t, h1, fun env fuel hc hf => ⟨fun _ => (readable_iff hu hb hn).1 hr, fun _ => ?_⟩⟩
    obtain ⟨ctx', w, h3, -⟩ := h2 env fuel Ctx.empty hc hf
    exact ⟨ctx', _, h3⟩
  · obtain ⟨t, h1, h2⟩ := write_rejects v (writable_of hu hb hn) hr
    refine ⟨t, h1, fun env fuel hc hf => ⟨fun ⟨ctx', r, hp⟩ => ?_, fun h => ?_⟩⟩
    · exact absurd hp (rejected h2 env _ _ _ hc hf)
    · exact absurd ((readable_iff hu hb hn).2 h) hr

/-! ## Modules -/

theorem const_rejects (n : Nat) {d : Text} (h : Rejects conv d) :
    Rejects conv ("const _".toList ++ Nat.toDigits 10 n ++ '=' :: d) := by
  intro rest r hr
  have e : "const _".toList ++ Nat.toDigits 10 n ++ '=' :: d ++ rest =
      'c' :: "onst".toList ++ ' ' :: ('_' :: decimal n ++ '=' :: (d ++ rest)) := by
    simp [decimal]
  have heq : (('=' : Char), Token.equals) ∈ opTokens := by simp [opTokens]
  rw [e, finish_id (by decide) (by decide) _ (fun d r e => by cases e; decide), finish_blank,
    finish_id (c := '_') (by decide) (digits_idChars (decimal_digits n)) _
      (fun d r e => by cases e; decide), finish_op heq] at hr
  cases hq : finish conv .initial (d ++ rest) with
  | error e => rw [hq] at hr; cases hr
  | ok q =>
    rw [hq] at hr
    cases hr
    obtain ⟨e, he⟩ := h rest q hq
    exact ⟨e, by simp [he]⟩

theorem export_rejects (commonJs : Bool) {d : Text} (h : Rejects conv d) :
    Rejects conv (exportText commonJs ++ d) := by
  intro rest r hr
  rw [List.append_assoc, reads_final] at hr
  cases hq : finish conv .initial (d ++ rest) with
  | error e => rw [hq] at hr; cases hr
  | ok q =>
    rw [hq] at hr
    cases hr
    obtain ⟨e, he⟩ := h rest q hq
    exact ⟨e, by simp [he]⟩

/-- the text of a document without references -/
theorem docOf_empty {v : Val} {t : Text} (h : writeJson sh v = .ok t) :
    (docOf sh (nameIn []) v).text = t := by
  have h1 := write_doc (sh := sh) [] v ⟨t, h⟩
  rw [noRefs, h] at h1
  exact (Except.ok.inj h1).symm

/-- **C55**, exactly when the output as a module is accepted: for a graph without bigints whose
numbers are read back, the parser accepts it iff no string and no key contains half of a surrogate
pair and no array or object is in two places. -/
theorem C55_accepted (v : Val) (hv : v.Consistent) (hu : v.Units16) (hb : ¬ v.HasBig)
    (hn : ∀ b, (Val.num b).Sub v → NumReads conv (sh b) b) :
    ∃ F, ∀ pick fuel, F ≤ fuel → ∀ commonJs, ∃ t, toDjs sh pick fuel v commonJs = .ok t ∧
      ∀ (env : Env) fuel', env.conv = conv → env.fs env.path = some t →
        ((∃ ctx' r, parse env (fuel' + 1) Ctx.empty = .ok (ctx', .ok r)) ↔
          v.NoSurrogates ∧ ∀ c, ¬ v.Shared c) := by
  by_cases hr : Readable conv sh v
  · have hns := (readable_iff hu hb hn).1 hr
    by_cases hs : ∃ c, v.Shared c
    · obtain ⟨F, hF⟩ := C55_shared_rejected v hv hr hs
      refine ⟨F, fun pick fuel hf commonJs => ?_⟩
      obtain ⟨t, h1, h2⟩ := hF pick fuel hf commonJs
      refine ⟨t, h1, fun env fuel' hc hfs => ⟨fun ⟨ctx', r, hp⟩ => ?_, fun h => ?_⟩⟩
      · exact absurd hp (h2 env _ _ _ hc hfs)
      · obtain ⟨c, hs⟩ := hs
        exact absurd hs (h.2 c)
    · push Not at hs
      obtain ⟨F, hF⟩ := C55_read_back_partial v hv hr hs
      refine ⟨F, fun pick fuel hf commonJs => ?_⟩
      obtain ⟨t, h1, h2⟩ := hF pick fuel hf commonJs
      refine ⟨t, h1, fun env fuel' hc hfs => ⟨fun _ => ⟨hns, hs⟩, fun _ => ?_⟩⟩
      obtain ⟨ctx', w, h3, -⟩ := h2 env fuel' Ctx.empty hc hfs
      exact ⟨ctx', _, h3⟩
  · have hw : Writable conv sh v := writable_of hu hb hn
    have hns : ¬ v.NoSurrogates := fun h => hr ((readable_iff hu hb hn).2 h)
    obtain ⟨t0, h0, hrej⟩ := write_rejects v hw hr
    refine ⟨(track [] v).length + 1, fun pick fuel hf commonJs => ?_⟩
    obtain ⟨cs, h1, h2, h3, h4⟩ := djs_text hv ⟨t0, h0⟩ pick fuel hf commonJs
    refine ⟨_, h1, fun env fuel' hc hfs => ⟨fun ⟨ctx', r, hp⟩ => ?_, fun h => absurd h.1 hns⟩⟩
    exfalso
    have names : Names v cs := ⟨hv, h2, h3, h4⟩
    cases cs with
    | nil =>
      refine rejected ?_ env _ _ _ hc hfs hp
      rw [docOf_empty h0]
      exact export_rejects commonJs hrej
    | cons c cs =>
      rw [docs_eq names [] _ rfl, docsFrom] at hfs
      have hcs : c.Sub v := shared_sub ((h3 c).1 (by simp))
      by_cases hcr : Readable conv sh c
      · -- the first constant is read, and the semicolon is not accepted
        have hread := docOf_reads (conv := conv) (sh := sh) [] c hcr
        obtain ⟨dt, w⟩ := r
        cases C40_root_relative env _ ctx' dt w hp with
        | module p ts M v' htoks hm _ =>
          obtain ⟨text, k1, k2⟩ := read_cases htoks
          rw [hfs] at k1
          have cons : ∀ n d l, constsText n (d :: l) =
            "const _".toList ++ Nat.toDigits 10 n ++ '=' :: d.text ++ ';' :: constsText (n + 1) l :=
            fun _ _ _ => rfl
          rw [← Option.some.inj k1, hc, tokenize_eq, cons] at k2
          generalize constsText (0 + 1) _ = more at k2
          generalize exportText commonJs ++ _ = tail at k2
          rw [show ∀ a : Text, a ++ ';' :: more ++ tail = a ++ ';' :: (more ++ tail) by simp,
            reads_const _ _ _ hread] at k2
          cases hq : finish conv .initial (more ++ tail) with
          | error e => rw [hq] at k2; cases k2
          | ok q =>
            rw [hq] at k2
            obtain rfl := Except.ok.inj k2
            exact module_no_semicolon hm (by simp)
      · obtain ⟨tc, hc1, hc2⟩ := write_rejects c (hw.sub hcs) hcr
        refine rejected ?_ env _ _ _ hc hfs hp
        have cons : ∀ n d l, constsText n (d :: l) =
          "const _".toList ++ Nat.toDigits 10 n ++ '=' :: d.text ++ ';' :: constsText (n + 1) l :=
          fun _ _ _ => rfl
        rw [cons, docOf_empty hc1]
        exact ((const_rejects 0 hc2).append _).append _

/-! ## Conversions -/

/-- the fuel of a successful parse -/
theorem parse_fuel {env : Env} {fuel : Nat} {ctx : Ctx} {r : DataType × Val}
    (h : parse env fuel Ctx.empty = .ok (ctx, .ok r)) : ∃ n, fuel = n + 1 := by
  cases fuel with
  | zero =>
    exfalso
    rw [parse] at h
    split at h
    · rename_i text _
      cases et : tokenize env.conv text with
      | error x => simp only [et] at h; cases h
      | ok ts => simp only [et] at h; cases h
    · cases congrArg Prod.snd (Except.ok.inj h)
  | succ n => exact ⟨n, rfl⟩

/-- a value that was written has no bigints -/
theorem written_no_big {io : Io} {v : Val} {k : DataType} {t : Text} (hv : v.Consistent)
    (hu : v.Units16) (h : Serialized io v k t) : ¬ v.HasBig := by
  intro hb
  have djs : ∀ c, toDjs io.sh io.pick io.fuelDjs v c ≠ .ok t := by
    intro c h
    obtain ⟨F, hF⟩ := C54_bigint_panics (sh := io.sh) v hv hu hb
    have := toDjs_more (le_max_right F _) h
    rw [hF _ _ (le_max_left F _)] at this
    cases this
  cases k with
  | json =>
    have h : toJson io.sh v = .ok t := h
    rw [C53_bigint_panics v hu hb] at h
    cases h
  | cjs => exact djs _ h
  | mjs => exact djs _ h
  | djs => exact h

/-- **C60**, exactly when the output of a conversion is accepted, in all three formats: iff no string
and no key contains half of a surrogate pair and, for modules, no array or object is in two places. -/
theorem C60_accepted (io : Io) (w w' : World) (program input output : Text) (k : DataType)
    (ctx : Ctx) (dt : DataType) (v : Val) (hk : OutputKind output k)
    (hp : parse ⟨w.files, io.conv, input⟩ io.fuelParse Ctx.empty = .ok (ctx, .ok (dt, v)))
    (hn : ∀ b, (Val.num b).Sub v → NumReads io.conv (io.sh b) b)
    (h : run { io with args := [program, input, output] } w = (.ok (.ok ()), w')) :
    (∃ ctx' r, parse ⟨w'.files, io.conv, output⟩ io.fuelParse Ctx.empty = .ok (ctx', .ok r)) ↔
      v.NoSurrogates ∧ (k = .json ∨ ∀ c, ¬ v.Shared c) := by
  obtain ⟨n, hfuel⟩ := parse_fuel hp
  obtain ⟨t, ht, hf⟩ := run_wrote hk hp h
  have hu := parsed_units hp
  have hv := (C59_graph _ _ _ _ _ hp).1
  have hb := written_no_big hv hu ht
  have djs : ∀ c, toDjs io.sh io.pick io.fuelDjs v c = .ok t →
      ((∃ ctx' r, parse ⟨w'.files, io.conv, output⟩ io.fuelParse Ctx.empty =
        .ok (ctx', .ok r)) ↔ v.NoSurrogates ∧ ∀ c, ¬ v.Shared c) := by
    intro c ht
    obtain ⟨F, hF⟩ := C55_accepted v hv hu hb hn
    obtain ⟨t', h1, h2⟩ := hF io.pick (max F io.fuelDjs) (le_max_left _ _) c
    rw [toDjs_more (le_max_right _ _) ht] at h1
    obtain rfl := Except.ok.inj h1
    rw [hfuel]
    exact h2 ⟨w'.files, io.conv, output⟩ n rfl hf
  cases hk with
  | json p hk =>
    have ht : toJson io.sh v = .ok t := ht
    obtain ⟨t', h1, h2⟩ := C51_accepted v hu hb hn
    rw [ht] at h1
    obtain rfl := Except.ok.inj h1
    rw [hfuel, h2 ⟨w'.files, io.conv, output⟩ n rfl hf]
    simp
  | cjs p hk => simpa using djs true ht
  | mjs p hk => simpa using djs false ht

/-- **C74**, exactly when a converted file can be converted again to JSON; then the text is the one
that converting the first file gives. -/
theorem C74_accepted (io : Io) (w w' : World) (program input output output2 : Text)
    (k : DataType) (ctx : Ctx) (dt : DataType) (v : Val) (hk : OutputKind output k)
    (hk2 : OutputKind output2 .json) (hw : ∀ t, io.canWrite output2 t = true)
    (hp : parse ⟨w.files, io.conv, input⟩ io.fuelParse Ctx.empty = .ok (ctx, .ok (dt, v)))
    (hn : ∀ b, (Val.num b).Sub v → NumReads io.conv (io.sh b) b)
    (h : run { io with args := [program, input, output] } w = (.ok (.ok ()), w')) :
    ((run { io with args := [program, output, output2] } w').1 = .ok (.ok ()) ↔
      v.NoSurrogates ∧ (k = .json ∨ ∀ c, ¬ v.Shared c)) ∧
    ((run { io with args := [program, output, output2] } w').1 = .ok (.ok ()) →
      ∃ t, (run { io with args := [program, input, output2] } w).1 = .ok (.ok ()) ∧
        (run { io with args := [program, input, output2] } w).2.files output2 = some t ∧
        (run { io with args := [program, output, output2] } w').2.files output2 = some t) := by
  obtain ⟨t, ht, hf⟩ := run_wrote hk hp h
  have hu := parsed_units hp
  have hv := (C59_graph _ _ _ _ _ hp).1
  have hb := written_no_big hv hu ht
  have key : (run { io with args := [program, output, output2] } w').1 = .ok (.ok ()) →
      v.NoSurrogates ∧ (k = .json ∨ ∀ c, ¬ v.Shared c) := by
    intro h2
    refine (C60_accepted io w w' program input output k ctx dt v hk hp hn h).1 ?_
    have hd := ((C57_suffix output2).1 .json).2 hk2
    simp only [run, hd] at h2
    split at h2
    · rename_i c d v' e
      exact ⟨_, _, e⟩
    · cases h2
    · cases h2
  have back : v.NoSurrogates ∧ (k = .json ∨ ∀ c, ¬ v.Shared c) → _ := fun hs =>
    C74_through_partial io w w' program input output output2 k ctx dt v hk hk2 hw hp
      ((readable_iff hu hb hn).2 hs.1) hs.2 h
  refine ⟨⟨key, fun hs => ?_⟩, fun h2 => ?_⟩
  · obtain ⟨_, -, -, h3, -⟩ := back hs
    exact h3
  · obtain ⟨t, h3, h4, -, h5⟩ := back (key h2)
    exact ⟨t, h3, h4, h5⟩

/-! ## Examples -/

theorem smile_parsed (conv : BigFloat → Res Nat) : ∃ ctx,
    parse ⟨(onlyFile "a.json".toList ['[', '"', '😀', '"', ']']).files, conv, "a.json".toList⟩ 10
      Ctx.empty = .ok (ctx, .ok (.json, .arr 1 [.str 0 [0xD83D, 0xDE00]])) := by
  have hsmile : toJsString ['😀'] = [0xD83D, 0xDE00] := by decide
  rw [← hsmile]
  exact ⟨_, rfl⟩

/-- `["😀"]` meets the hypotheses of `C51_accepted` and `C55_accepted`, and is not accepted -/
example : ∃ v, v = Val.arr 1 [.str 0 [0xD83D, 0xDE00]] ∧ v.Consistent ∧ v.Units16 ∧ ¬ v.HasBig ∧
    (∀ b, (Val.num b).Sub v → NumReads conv (sh b) b) ∧ ¬ v.NoSurrogates := by
  refine ⟨_, rfl, ?_⟩
  have hsub : ∀ x : Val, x.Sub (Val.arr 1 [.str 0 [0xD83D, 0xDE00]]) →
      x = .arr 1 [.str 0 [0xD83D, 0xDE00]] ∨ x = .str 0 [0xD83D, 0xDE00] := by
    intro x hx
    cases hx with
    | refl => exact .inl rfl
    | arr _ _ y hy hx =>
      have : y = .str 0 [0xD83D, 0xDE00] := by simpa using hy
      subst this
      cases hx
      exact .inr rfl
  obtain ⟨ctx, hp⟩ := smile_parsed conv
  refine ⟨(C59_graph _ _ _ _ _ hp).1, parsed_units hp, ?_, fun b h => ?_, fun h => ?_⟩
  · rintro ⟨i, b, h⟩
    rcases hsub _ h with e | e <;> cases e
  · rcases hsub _ h with e | e <;> cases e
  · exact h.str 0 [0xD83D, 0xDE00] (.arr _ _ _ (by simp) .refl) 0xD83D (by simp)
      (by unfold SurrogateUnit; decide)

/-- `[true]` meets them, and is accepted in all forms -/
example : ∃ v, v = Val.arr 0 [.bool true] ∧ v.Units16 ∧ ¬ v.HasBig ∧
    (∀ b, (Val.num b).Sub v → NumReads conv (sh b) b) ∧ v.NoSurrogates := by
  refine ⟨_, rfl, ?_⟩
  have hsub : ∀ x : Val, x.Sub (Val.arr 0 [.bool true]) →
      x = .arr 0 [.bool true] ∨ x = .bool true := by
    intro x hx
    cases hx with
    | refl => exact .inl rfl
    | arr _ _ y hy hx =>
      have : y = .bool true := by simpa using hy
      subst this
      cases hx
      exact .inr rfl
  refine ⟨⟨fun i s h => ?_, fun i l h => ?_⟩, fun ⟨i, b, h⟩ => ?_, fun b h => ?_, fun i s h => ?_,
    fun i l h => ?_⟩
  all_goals rcases hsub _ h with e | e <;> cases e

end Nanvm
