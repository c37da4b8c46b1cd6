import Verif.Lemmas.SerDjsRead
import Verif.Props.SerializerDjs
import Verif.Props.ParserFiles
/-!
# Property theorem C55: reading DJS output back
-/
namespace Nanvm
open Tok Parser Grammar Ser

variable {conv : BigFloat → Res Nat} {sh : Nat → Text}

/-- **C55** in full: for a reader `conv` of numbers, every graph of values, every order of the hash
map and both forms, the output is parsed as the same value. -/
def DjsReadsBack (conv : BigFloat → Res Nat) : Prop :=
  ∀ sh, PrintsDoubles sh → ∀ v : Val, v.Consistent → v.Units16 → ¬ v.HasBig → v.FiniteNums →
    Ordered v → ∃ F, ∀ pick fuel, F ≤ fuel → ∀ commonJs, ∃ t,
      toDjs sh pick fuel v commonJs = .ok t ∧
      ∀ (env : Env) fuel', env.conv = conv → env.fs env.path = some t →
        ∃ ctx' dt w, parse env (fuel' + 1) Ctx.empty = .ok (ctx', .ok (dt, w)) ∧ v.Same w

/-- the module kind of the output -/
def kindOf (commonJs : Bool) : DataType := if commonJs then .cjs else .mjs

/-- **C55**, proved part: a value in which no array or object occurs twice is parsed as the same
value, in both forms, for every order of the hash map (objects are read with their keys in order).
Missing: values with shared blocks, see
`C55_shared_rejected`, and what C51 lacks. -/
theorem C55_read_back_partial (v : Val) (hv : v.Consistent) (hr : Readable conv sh v)
    (hs : ∀ c, ¬ v.Shared c) :
    ∃ F, ∀ pick fuel, F ≤ fuel → ∀ commonJs, ∃ t, toDjs sh pick fuel v commonJs = .ok t ∧
      ∀ (env : Env) fuel' ctx, env.conv = conv → env.fs env.path = some t →
        ∃ ctx' w, parse env (fuel' + 1) ctx = .ok (ctx', .ok (kindOf commonJs, w)) ∧ v.ReadAs w ∧
          (Ordered v → v.Same w) := by
  refine ⟨(track [] v).length + 1, fun pick fuel hf commonJs => ?_⟩
  obtain ⟨cs, t, hn, h1, h2⟩ := djs_tokens (conv := conv) hv hr pick fuel hf commonJs
  refine ⟨t, h1, fun env fuel' ctx hc hfs => ?_⟩
  obtain rfl : cs = [] := by
    cases cs with
    | nil => rfl
    | cons c cs => exact absurd ((hn.shared c).1 (by simp)) (hs c)
  rw [stmts, constToks, List.nil_append] at h2
  have hw := written (finalOf commonJs) (v.src (nameIn [])) []
  rw [constToks, List.nil_append, List.map_append, lineBreak_id (Parser.no_semicolon _),
      lineBreak_id (by cases commonJs <;> simp [finalOf, Final.tokens])] at hw
  have hu : ∀ n, ¬ (v.src (nameIn [])).Uses n := fun n h => by
    obtain ⟨j, hj, -⟩ := uses_nameIn h
    simp at hj
  obtain ⟨ctx', w, c, h3, h4, h5⟩ := C45_defined env fuel' { ctx with
    progress := setInsert ctx.progress env.path, reads := env.path :: ctx.reads } _ _ _ _ hw
    (fun n h => absurd h (hu n)) (by simp) (fun n h => absurd h (hu n))
  have key := djs_parsed (conv := conv) (sh := sh) hn hr w c h4 h5
  refine ⟨ctx', w, ?_, key, readAs_same key⟩
  rw [parse, hfs]
  simp only
  rw [hc, h2]
  refine h3.trans ?_
  cases commonJs <;> rfl

/-- **C55**, proved part: for every graph, if the semicolons after the constants were line breaks,
the output would be parsed as the same value, in both forms, for every order of the hash map. -/
theorem C55_line_breaks_partial (v : Val) (hv : v.Consistent) (hr : Readable conv sh v) :
    ∃ F, ∀ pick fuel, F ≤ fuel → ∀ commonJs, ∃ t ts, toDjs sh pick fuel v commonJs = .ok t ∧
      tokenize conv t = .ok ts ∧
      ∀ (env : Env) fuel' ctx, ∃ ctx' w,
        parseWithTokens env (fuel' + 1) ctx
          (ts.map fun t => if t = .semicolon then .newLine else t) =
            .ok (ctx', .ok (kindOf commonJs, w)) ∧ v.ReadAs w ∧
          (Ordered v → v.Same w) := by
  refine ⟨(track [] v).length + 1, fun pick fuel hf commonJs => ?_⟩
  obtain ⟨cs, t, hn, h1, h2⟩ := djs_tokens (conv := conv) hv hr pick fuel hf commonJs
  refine ⟨t, _, h1, h2, fun env fuel' ctx => ?_⟩
  have e : (fun t : Token => if t = .semicolon then .newLine else t) = lineBreak := by
    funext t
    cases t <;> rfl
  rw [e]
  have hw := written (finalOf commonJs) (v.src (nameIn cs)) (stmts [] cs)
  obtain ⟨ctx', w, c, h3, h4, h5⟩ := C45_defined env fuel' ctx _ _ _ _ hw
    (fun n h => by obtain ⟨j, -, rfl⟩ := uses_nameIn h; exact constName_free j)
    (stmts_uses [] cs) (stmts_scoped v [] cs [] (by simp))
  have key := djs_parsed (conv := conv) (sh := sh) hn hr w c h4 h5
  refine ⟨ctx', w, ?_, key, readAs_same key⟩
  refine h3.trans ?_
  cases commonJs <;> rfl

/-- **C55**: the output for a graph with an array or object in two places is never accepted. -/
theorem C55_shared_rejected (v : Val) (hv : v.Consistent) (hr : Readable conv sh v)
    (hs : ∃ c, v.Shared c) :
    ∃ F, ∀ pick fuel, F ≤ fuel → ∀ commonJs, ∃ t, toDjs sh pick fuel v commonJs = .ok t ∧
      ∀ (env : Env) fuel' ctx' r, env.conv = conv → env.fs env.path = some t →
        parse env fuel' Ctx.empty ≠ .ok (ctx', .ok r) := by
  refine ⟨(track [] v).length + 1, fun pick fuel hf commonJs => ?_⟩
  obtain ⟨cs, t, hn, h1, h2⟩ := djs_tokens (conv := conv) hv hr pick fuel hf commonJs
  refine ⟨t, h1, fun env fuel' ctx' r hc hfs hp => ?_⟩
  rw [parse, hfs] at hp
  simp only at hp
  rw [hc, h2] at hp
  obtain ⟨c, hs⟩ := hs
  cases cs with
  | nil => exact absurd ((hn.shared c).2 hs) (by simp)
  | cons a cs =>
    have hm := C45_sound env fuel' _ ctx' _ r.1 r.2 (enter_ok (empty_ok env) env.path) hp
    refine module_no_semicolon hm ?_
    rw [stmts, constToks]
    simp

/-- `[[], []]` with the same array twice -/
def twice : Val := .arr 1 [.arr 0 [], .arr 0 []]

theorem twice_ok (conv : BigFloat → Res Nat) (sh : Nat → Text) :
    twice.Consistent ∧ Readable conv sh twice ∧ Ordered twice ∧ ∃ c, twice.Shared c := by
  have hsub : ∀ x : Val, x.Sub twice → x = twice ∨ x = .arr 0 [] := by
    intro x hx
    cases hx with
    | refl => exact .inl rfl
    | arr _ _ y hy hx =>
      have : y = .arr 0 [] := by simpa using hy
      subst this
      cases hx with
      | refl => exact .inr rfl
      | arr _ _ y hy => cases hy
  refine ⟨?_, ⟨?_, ?_, ?_, ?_⟩, ?_, .arr 0 [], trivial, some (.arr 1, 0), some (.arr 1, 1), by decide,
    .kid twice 0 _ .refl trivial rfl, .kid twice 1 _ .refl trivial rfl⟩
  · intro x y hx hy _ _ e
    rcases hsub x hx with rfl | rfl <;> rcases hsub y hy with rfl | rfl <;>
      first | rfl | (simp [twice, Val.word] at e)
  · intro i b h; rcases hsub _ h with e | e <;> cases e
  · intro i t h; rcases hsub _ h with e | e <;> cases e
  · intro i l h; rcases hsub _ h with e | e <;> cases e
  · intro b h; rcases hsub _ h with e | e <;> cases e
  · intro i l h; rcases hsub _ h with e | e <;> cases e

/-- **C55** does not hold: `[[], []]` with the same array twice is written as
`const _0=[];export default [_0,_0]`, and the parser rejects the semicolon. -/
theorem C55_violated : ¬ DjsReadsBack conv := by
  intro h
  obtain ⟨hv, hr, ho, hs⟩ := twice_ok conv showExact
  obtain ⟨F, hF⟩ := h showExact showExact_prints twice hv
    ⟨fun i s h => absurd h (by
        intro h; have := hr.str i s h; revert h
        intro h; cases h with
        | arr _ _ y hy h =>
          have : y = .arr 0 [] := by simpa using hy
          subst this
          cases h with
          | arr _ _ y hy => cases hy),
      fun i l h => by
        cases h with
        | arr _ _ y hy h =>
          have : y = .arr 0 [] := by simpa using hy
          subst this
          cases h with
          | arr _ _ y hy => cases hy⟩
    (fun ⟨i, b, h⟩ => hr.big i b h)
    (fun b h => by
        cases h with
        | arr _ _ y hy h =>
          have : y = .arr 0 [] := by simpa using hy
          subst this
          cases h with
          | arr _ _ y hy => cases hy) ho
  obtain ⟨G, hG⟩ := C55_shared_rejected (conv := conv) (sh := showExact) twice hv hr hs
  obtain ⟨t, h1, h2⟩ := hF (fun _ _ => 0) (max F G) (le_max_left _ _) false
  obtain ⟨t', h3, h4⟩ := hG (fun _ _ => 0) (max F G) (le_max_right _ _) false
  rw [h1] at h3
  obtain rfl := Except.ok.inj h3
  obtain ⟨ctx', dt, w, h5, -⟩ := h2 ⟨fun _ => some t, conv, []⟩ 0 rfl rfl
  exact h4 ⟨fun _ => some t, conv, []⟩ 1 ctx' (dt, w) rfl rfl h5

/-- the text that is rejected -/
example : toDjs showExact (fun _ _ => 0) 3 twice false =
    .ok "const _0=[];export default [_0,_0]".toList := by decide +kernel

/-- a value that meets the hypotheses of `C55_read_back_partial`, and its text -/
example : let v : Val := .arr 1 [.arr 0 [], .null]
    v.Consistent ∧ Readable conv sh v ∧ Ordered v ∧ (∀ c, ¬ v.Shared c) ∧
    toDjs sh (fun _ _ => 0) 3 v true = .ok "module.exports=[[],null]".toList := by
  intro v
  change (Val.arr 1 [.arr 0 [], .null]).Consistent ∧ Readable conv sh (.arr 1 [.arr 0 [], .null]) ∧
    Ordered (.arr 1 [.arr 0 [], .null]) ∧ (∀ c, ¬ (Val.arr 1 [.arr 0 [], .null]).Shared c) ∧ _
  have hsub : ∀ x : Val, x.Sub (.arr 1 [.arr 0 [], .null]) →
      x = .arr 1 [.arr 0 [], .null] ∨ x = .arr 0 [] ∨ x = .null := by
    intro x hx
    cases hx with
    | refl => exact .inl rfl
    | arr _ _ y hy hx =>
      simp only [List.mem_cons, List.not_mem_nil, or_false] at hy
      rcases hy with rfl | rfl
      · cases hx with
        | refl => exact .inr (.inl rfl)
        | arr _ _ y hy => cases hy
      · cases hx; exact .inr (.inr rfl)
  refine ⟨?_, ⟨?_, ?_, ?_, ?_⟩, ?_, ?_, rfl⟩
  · intro x y hx hy hxc hyc e
    rcases hsub x hx with rfl | rfl | rfl <;> rcases hsub y hy with rfl | rfl | rfl <;>
      first | rfl | (cases hxc; done) | (cases hyc; done) | (simp [Val.word] at e)
  · intro i b h; rcases hsub _ h with e | e | e <;> cases e
  · intro i t h; rcases hsub _ h with e | e | e <;> cases e
  · intro i l h; rcases hsub _ h with e | e | e <;> cases e
  · intro b h; rcases hsub _ h with e | e | e <;> cases e
  · intro i l h; rcases hsub _ h with e | e | e <;> cases e
  · rintro c ⟨hc, r, r', hne, h1, h2⟩
    have place : ∀ r, (Val.arr 1 [.arr 0 [], .null]).At r c → (r = none ∧ c = .arr 1 [.arr 0 [], .null]) ∨ (r = some (.arr 1, 0) ∧ c = .arr 0 []) := by
      intro r h
      cases h with
      | root => exact .inl ⟨rfl, rfl⟩
      | kid p i _ hp hpc hi =>
        rcases hsub p hp with rfl | rfl | rfl
        · match i with
          | 0 => cases hi; exact .inr ⟨rfl, rfl⟩
          | 1 => cases hi; cases hc
          | i + 2 => cases hi
        · cases hi
        · cases hpc
    rcases place r h1 with ⟨rfl, e⟩ | ⟨rfl, e⟩ <;> rcases place r' h2 with ⟨rfl, e'⟩ | ⟨rfl, e'⟩
    · exact hne rfl
    · rw [e] at e'; cases e'
    · rw [e] at e'; cases e'
    · exact hne rfl
end Nanvm
