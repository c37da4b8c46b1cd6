import Verif.Lemmas.SerSame
import Verif.Lemmas.ShowExact
import Verif.Props.ParserLang
/-!
# Property theorems C51, C53: writing JSON
-/
namespace Nanvm
open Tok Ser Parser Grammar

variable {conv : BigFloat → Res Nat} {sh : Nat → Text}

/-! ## Specification -/

/-- strings and keys are made of 16-bit units -/
structure Val.Units16 (v : Val) : Prop where
  str : ∀ i s, (Val.str i s).Sub v → Units s
  key : ∀ i l, (Val.obj i l).Sub v → ∀ m ∈ l, Units m.1

/-- some part of `v` is a bigint -/
def Val.HasBig (v : Val) : Prop := ∃ i b, (Val.big i b).Sub v

/-- all numbers in `v` are finite -/
def Val.FiniteNums (v : Val) : Prop := ∀ b, (Val.num b).Sub v → FiniteBits b

/-- C53: every value is written, as JSON if its numbers are finite -/
def JsonTotal : Prop := ∀ sh, PrintsDoubles sh → ∀ v : Val, v.Units16 → v.FiniteNums →
  ∃ t, toJson sh v = .ok t ∧ JsonText t

/-- C51: what is written for a value without bigints, with finite numbers and with keys in the
order of the parser, is parsed as the same value -/
def JsonReadsBack (conv : BigFloat → Res Nat) : Prop := ∀ sh, PrintsDoubles sh → ∀ v : Val,
  v.Units16 → ¬ v.HasBig → v.FiniteNums → Ordered v → ∃ t, toJson sh v = .ok t ∧
    ∀ (env : Env) fuel ctx, env.conv = conv → env.fs env.path = some t →
      ∃ ctx' w, parse env (fuel + 1) ctx = .ok (ctx', .ok (.json, w)) ∧ v.Same w

/-! ## C53 -/

theorem Val.Units16.item {i : Nat} {l : List Val} (h : (Val.arr i l).Units16) {x : Val}
    (hx : x ∈ l) : x.Units16 :=
  ⟨fun j s hs => h.str j s (.arr _ _ _ hx hs), fun j m hs => h.key j m (.arr _ _ _ hx hs)⟩

theorem Val.Units16.member {i : Nat} {l : List (JsStr × Val)} (h : (Val.obj i l).Units16)
    {x : JsStr × Val} (hx : x ∈ l) : x.2.Units16 :=
  ⟨fun j s hs => h.str j s (.obj _ _ _ hx hs), fun j m hs => h.key j m (.obj _ _ _ hx hs)⟩

/-- **C53**, proved part: every value without bigints is written, and if its numbers are finite, the
text is JSON.  Missing: bigints (`C53_bigint_panics`). -/
theorem C53_total_partial (v : Val) (hu : v.Units16) (hb : ¬ v.HasBig) :
    ∃ t, toJson sh v = .ok t ∧ (PrintsDoubles sh → v.FiniteNums → JsonText t) := by
  unfold toJson
  induction v using Val.ind with
  | null => exact ⟨_, rfl, fun _ _ => .null⟩
  | bool b =>
    refine ⟨_, rfl, fun _ _ => ?_⟩
    cases b
    · exact .false
    · exact .true
  | num b =>
    refine ⟨_, rfl, fun hp hf => ?_⟩
    obtain ⟨l, h1, -, -, h2, -⟩ := hp b (hf b .refl)
    rw [h2]
    exact .num l h1
  | str i s =>
    obtain ⟨t, ps, h1, rfl, h2, h3⟩ := C52_ascii s (hu.str i s .refl)
    exact ⟨_, h1, fun _ _ => .str ps h2 fun c hc => (h3 c hc).1⟩
  | big i b => exact absurd ⟨i, b, .refl⟩ hb
  | arr i l ih =>
    have key : ∃ ts, jsonItems sh l = .ok ts ∧
        (PrintsDoubles sh → (Val.arr i l).FiniteNums → ∀ t ∈ ts, JsonText t) := by
      have h1 : ∀ x ∈ l, ∃ t, writeJson sh x = .ok t ∧
          (PrintsDoubles sh → (Val.arr i l).FiniteNums → JsonText t) := fun x hx => by
        obtain ⟨t, h1, h2⟩ := ih x hx (hu.item hx) fun ⟨j, b, h⟩ => hb ⟨j, b, .arr _ _ _ hx h⟩
        exact ⟨t, h1, fun hp hf => h2 hp fun b hs => hf b (.arr _ _ _ hx hs)⟩
      generalize (Val.arr i l).FiniteNums = Q at *
      clear ih hu hb
      induction l with
      | nil => exact ⟨[], rfl, by simp⟩
      | cons x l ih =>
        obtain ⟨t, h2, h3⟩ := h1 x (by simp)
        obtain ⟨ts, h4, h5⟩ := ih fun y hy => h1 y (by simp [hy])
        refine ⟨t :: ts, by rw [jsonItems, h2, h4]; rfl, fun hp hf y hy => ?_⟩
        rcases List.mem_cons.1 hy with rfl | hy
        · exact h3 hp hf
        · exact h5 hp hf y hy
    obtain ⟨ts, h1, h2⟩ := key
    refine ⟨writeList '[' ']' ts, by rw [writeJson, h1]; rfl, fun hp hf => ?_⟩
    rw [writeList, loop_commaSep]
    exact .arr ts (h2 hp hf)
  | obj i l ih =>
    have key : ∃ ts, jsonMembers sh l = .ok ts ∧
        (PrintsDoubles sh → (Val.obj i l).FiniteNums → ∃ ms : List (List Piece × List Char),
          ts = ms.map (fun m => literal m.1 ++ ':' :: m.2) ∧ (∀ m ∈ ms, ∀ p ∈ m.1, p.Valid) ∧
          (∀ m ∈ ms, ∀ c ∈ literal m.1, 0x20 ≤ c.toNat) ∧ (∀ m ∈ ms, JsonText m.2)) := by
      have h1 : ∀ x ∈ l, ∃ t, writeJson sh x.2 = .ok t ∧
          (PrintsDoubles sh → (Val.obj i l).FiniteNums → JsonText t) := fun x hx => by
        obtain ⟨t, h1, h2⟩ := ih x hx (hu.member hx) fun ⟨j, b, h⟩ => hb ⟨j, b, .obj _ _ _ hx h⟩
        exact ⟨t, h1, fun hp hf => h2 hp fun b hs => hf b (.obj _ _ _ hx hs)⟩
      have hk := hu.key i l .refl
      generalize (Val.obj i l).FiniteNums = Q at *
      clear ih hu hb
      induction l with
      | nil => exact ⟨[], rfl, fun _ _ => ⟨[], rfl, by simp, by simp, by simp⟩⟩
      | cons x l ih =>
        obtain ⟨k, x⟩ := x
        obtain ⟨t, h2, h3⟩ := h1 (k, x) (by simp)
        obtain ⟨ts, h4, h5⟩ := ih (fun y hy => hk y (by simp [hy])) fun y hy => h1 y (by simp [hy])
        obtain ⟨a, ps, h6, rfl, h7, h8⟩ := C52_ascii k (hk (k, x) (by simp))
        simp only at h2
        refine ⟨(literal ps ++ ':' :: t) :: ts, by rw [jsonMembers, h6, h2, h4]; rfl,
          fun hp hf => ?_⟩
        obtain ⟨ms, rfl, m1, m2, m3⟩ := h5 hp hf
        refine ⟨(ps, t) :: ms, rfl, ?_, ?_, ?_⟩
        all_goals
          intro m hm
          rcases List.mem_cons.1 hm with rfl | hm
        · exact h7
        · exact m1 m hm
        · exact fun c hc => (h8 c hc).1
        · exact m2 m hm
        · exact h3 hp hf
        · exact m3 m hm
    obtain ⟨ts, h1, h2⟩ := key
    refine ⟨writeList '{' '}' ts, by rw [writeJson, h1]; rfl, fun hp hf => ?_⟩
    obtain ⟨ms, rfl, m1, m2, m3⟩ := h2 hp hf
    rw [writeList, loop_commaSep]
    exact .obj ms m1 m2 m3

/-- a value with an array, an object, a string and a number that meets the hypotheses -/
example : let v : Val := .arr 1 [.obj 2 [([97], .num 0)], .str 3 [0xD800]]
    v.Units16 ∧ ¬ v.HasBig ∧ v.FiniteNums ∧ PrintsDoubles showExact := by
  refine ⟨⟨?_, ?_⟩, ?_, ?_, showExact_prints⟩
  · intro i s h
    cases h with
    | arr _ _ y hy h =>
      simp only [List.mem_cons, List.not_mem_nil, or_false] at hy
      rcases hy with rfl | rfl
      · cases h with
        | obj _ _ m hm h =>
          rw [List.mem_singleton] at hm
          subst hm
          cases h
      · cases h
        unfold Units; decide
  · intro i l h
    cases h with
    | arr _ _ y hy h =>
      simp only [List.mem_cons, List.not_mem_nil, or_false] at hy
      rcases hy with rfl | rfl
      · cases h with
        | refl => intro m hm; rw [List.mem_singleton] at hm; subst hm; unfold Units; decide
        | obj _ _ m hm h =>
          rw [List.mem_singleton] at hm
          subst hm
          cases h
      · cases h
  · rintro ⟨i, b, h⟩
    cases h with
    | arr _ _ y hy h =>
      simp only [List.mem_cons, List.not_mem_nil, or_false] at hy
      rcases hy with rfl | rfl
      · cases h with
        | obj _ _ m hm h =>
          rw [List.mem_singleton] at hm
          subst hm
          cases h
      · cases h
  · intro b h
    cases h with
    | arr _ _ y hy h =>
      simp only [List.mem_cons, List.not_mem_nil, or_false] at hy
      rcases hy with rfl | rfl
      · cases h with
        | obj _ _ m hm h =>
          rw [List.mem_singleton] at hm
          subst hm
          cases h
          unfold FiniteBits INF; decide
      · cases h

/-- **C53**: a value with a bigint anywhere in it makes the serializer panic. -/
theorem C53_bigint_panics (v : Val) (hu : v.Units16) (hb : v.HasBig) :
    toJson sh v = .error (.panic .todo) := by
  obtain ⟨i, b, hs⟩ := hb
  unfold toJson
  -- parts before the bigint may be written or panic as well
  have total : ∀ x : Val, x.Units16 → (∃ t, writeJson sh x = .ok t) ∨
      writeJson sh x = .error (.panic .todo) := by
    intro x
    induction x using Val.ind with
    | null => exact fun _ => .inl ⟨_, rfl⟩
    | bool b => exact fun _ => .inl ⟨_, rfl⟩
    | num b => exact fun _ => .inl ⟨_, rfl⟩
    | str i s =>
      intro hu
      obtain ⟨t, ps, h1, -⟩ := C52_ascii s (hu.str i s .refl)
      exact .inl ⟨t, h1⟩
    | big i b => exact fun _ => .inr rfl
    | arr i l ih =>
      intro hu
      replace ih := fun x hx => ih x hx (hu.item hx)
      have key : (∃ ts, jsonItems sh l = .ok ts) ∨ jsonItems sh l = .error (.panic .todo) := by
        clear hu
        induction l with
        | nil => exact .inl ⟨[], rfl⟩
        | cons x l ih' =>
          rw [jsonItems]
          rcases ih x (by simp) with ⟨t, h1⟩ | h1
          · rcases ih' fun y hy => ih y (by simp [hy]) with ⟨ts, h2⟩ | h2
            · exact .inl ⟨t :: ts, by rw [h1, h2]; rfl⟩
            · exact .inr (by rw [h1, h2]; rfl)
          · exact .inr (by rw [h1]; rfl)
      rw [writeJson]
      rcases key with ⟨ts, h⟩ | h
      · exact .inl ⟨_, by rw [h]; rfl⟩
      · exact .inr (by rw [h]; rfl)
    | obj i l ih =>
      intro hu
      replace ih := fun x hx => ih x hx (hu.member hx)
      have hk := hu.key i l .refl
      have key : (∃ ts, jsonMembers sh l = .ok ts) ∨ jsonMembers sh l = .error (.panic .todo) := by
        clear hu
        induction l with
        | nil => exact .inl ⟨[], rfl⟩
        | cons x l ih' =>
          obtain ⟨k, x⟩ := x
          obtain ⟨a, ps, h6, -⟩ := C52_ascii k (hk (k, x) (by simp))
          rw [jsonMembers, h6]
          rcases ih (k, x) (by simp) with ⟨t, h1⟩ | h1
          · simp only at h1
            rcases ih' (fun y hy => ih y (by simp [hy])) (fun y hy => hk y (by simp [hy])) with
              ⟨ts, h2⟩ | h2
            · exact .inl ⟨_ :: ts, by rw [h1, h2]; rfl⟩
            · exact .inr (by rw [h1, h2]; rfl)
          · exact .inr (by simp only at h1; rw [h1]; rfl)
      rw [writeJson]
      rcases key with ⟨ts, h⟩ | h
      · exact .inl ⟨_, by rw [h]; rfl⟩
      · exact .inr (by rw [h]; rfl)
  -- no text is written
  have none : ∀ t, writeJson sh v ≠ .ok t := by
    clear hu
    induction hs with
    | refl => intro t h; cases h
    | arr j l y hy _ ih =>
      intro t h
      rw [writeJson] at h
      obtain ⟨ts, h1, -⟩ := bind_eq_ok.1 h
      rw [jsonItems_ok] at h1
      clear h
      induction h1 with
      | nil => cases hy
      | @cons x t' _ _ h1 _ ih' =>
        rcases List.mem_cons.1 hy with rfl | hy
        · exact ih _ h1
        · exact ih' hy
    | obj j l m hm _ ih =>
      intro t h
      rw [writeJson] at h
      obtain ⟨ts, h1, -⟩ := bind_eq_ok.1 h
      rw [jsonMembers_ok] at h1
      clear h
      induction h1 with
      | nil => cases hm
      | @cons x t' _ _ h1 _ ih' =>
        rcases List.mem_cons.1 hm with rfl | hm
        · obtain ⟨a, b, -, h2, -⟩ := h1
          exact ih _ h2
        · exact ih' hm
  rcases total v hu with ⟨t, h⟩ | h
  · exact absurd h (none t)
  · exact h

example : let v : Val := .arr 1 [.str 0 [97], .big 2 JsBig.zero]
    v.HasBig ∧ toJson showExact v = .error (.panic .todo) :=
  ⟨⟨2, JsBig.zero, .arr _ _ _ (by simp) .refl⟩, rfl⟩

/-- **C53** does not hold: `todo!()` for bigints. -/
theorem C53_violated : ¬ JsonTotal := by
  intro h
  have hu : (Val.big 0 JsBig.zero).Units16 :=
    ⟨fun i s h => (by cases h), fun i s h => (by cases h)⟩
  obtain ⟨t, h1, -⟩ := h showExact showExact_prints (.big 0 JsBig.zero) hu (fun b h => by cases h)
  rw [C53_bigint_panics _ hu ⟨0, _, .refl⟩] at h1
  cases h1

/-! ## C51 -/

/-- **C51**, proved part, for any reader and printer of numbers: JSON output is parsed as the same
value, if every number in the value is printed as a literal that is read as the same number.  The
members of the objects may be in any order: they are read in ascending order of the keys, and of
members with equal keys the last is read; with the keys in order the same value is read.
Missing: strings with surrogates, and numbers for which this does not hold (`C51_violated`,
`C51_negative_zero_violated`, `C51_infinity_violated`). -/
theorem C51_read_back_partial (v : Val) (hr : Readable conv sh v) :
    ∃ t, toJson sh v = .ok t ∧
    ∀ (env : Env) fuel ctx, env.conv = conv → env.fs env.path = some t →
      ∃ ctx' w, parse env (fuel + 1) ctx = .ok (ctx', .ok (.json, w)) ∧ v.ReadAs w ∧ (Ordered v → v.Same w) := by
  obtain ⟨t, h1, h2⟩ := write_reads (conv := conv) (sh := sh) [] v hr
  rw [noRefs] at h1
  refine ⟨t, h1, fun env fuel ctx hc hf => ?_⟩
  have htok : tokenize env.conv t = .ok (v.src (HMap.get [])).tokens := by
    have := h2 [] (fun c r h => by cases h)
    rw [List.append_nil, finish_nil] at this
    rw [hc, tokenize_eq, this]
    simp [endTokens, Except.bind]
  have huses : ∀ n, ¬ (v.src (HMap.get ([] : HMap Nat))).Uses n := by
    clear * -
    induction v using Val.ind with
    | null => intro n h; rw [Val.src] at h; cases h
    | bool b => intro n h; rw [Val.src] at h; cases h
    | num b => intro n h; rw [Val.src] at h; cases h
    | str i s => intro n h; rw [Val.src] at h; cases h
    | big i s => intro n h; rw [Val.src] at h; cases h
    | arr i l ih =>
      intro n h
      rw [Val.src] at h
      simp only [HMap.get] at h
      cases h with
      | arr _ x _ hx h =>
        obtain ⟨y, hy, rfl⟩ := List.mem_map.1 hx
        exact ih y hy n h
    | obj i l ih =>
      intro n h
      rw [Val.src] at h
      simp only [HMap.get] at h
      cases h with
      | obj _ x _ hx h =>
        obtain ⟨y, hy, rfl⟩ := List.mem_map.1 hx
        exact ih y hy n h
  have hnl : (v.src (HMap.get ([] : HMap Nat))).tokens.filter (· ≠ .newLine) =
      (v.src (HMap.get ([] : HMap Nat))).tokens := no_newLine _
  obtain ⟨ctx', w, h3, h4⟩ := C43_json env fuel { ctx with
    progress := setInsert ctx.progress env.path, reads := env.path :: ctx.reads } _ _ huses hnl
  have key := is_reads (conv := conv) (sh := sh) v hr (fun x n _ h => by simp [HMap.get] at h) w h4
  refine ⟨ctx', w, ?_, key, readAs_same key⟩
  · rw [parse, hf]
    simp only
    rw [htok]
    exact h3

/-- `{"b":null,"a":true,"b":false}` is read as `{"a":true,"b":false}` -/
example : let v : Val := .obj 0 [([98], .null), ([97], .bool true), ([98], .bool false)]
    toJson showExact v = .ok "{\"b\":null,\"a\":true,\"b\":false}".toList ∧
    v.ReadAs (.obj 5 [([97], .bool true), ([98], .bool false)]) := by
  refine ⟨by decide +kernel, ?_⟩
  refine .obj 0 5 _ [['b'], ['a'], ['b']] [.null, .bool true, .bool false]
    [(['a'], .bool true), (['b'], .bool false)] rfl rfl ?_ ⟨by decide, fun k w => ?_⟩
  · intro p hp
    simp only [List.zip_cons_cons, List.zip_nil_right, List.mem_cons, List.not_mem_nil, or_false] at hp
    rcases hp with rfl | rfl | rfl
    · exact .null
    · exact .bool true
    · exact .bool false
  · constructor
    · intro h
      simp only [List.mem_cons, List.not_mem_nil, or_false, Prod.mk.injEq] at h
      rcases h with ⟨rfl, rfl⟩ | ⟨rfl, rfl⟩
      · exact ⟨[(['b'], .null)], [(['b'], .bool false)], rfl, by simp⟩
      · exact ⟨[(['b'], .null), (['a'], .bool true)], [], rfl, by simp⟩
    · rintro ⟨a, b, h, hb⟩
      simp only [List.zip_cons_cons, List.zip_nil_right] at h
      match a, h with
      | [], h =>
        simp only [List.nil_append, List.cons.injEq, Prod.mk.injEq] at h
        obtain ⟨⟨rfl, rfl⟩, rfl⟩ := h
        exact absurd rfl (hb (['b'], .bool false) (by simp))
      | [_], h => simp at h; simp [← h.2.1.1, ← h.2.1.2]
      | [_, _], h => simp at h; simp [← h.2.2.1.1, ← h.2.2.1.2]
      | _ :: _ :: _ :: _, h => simp at h

/-- a property that holds eventually for each number in a value holds eventually for all of them -/
theorem eventually_all (P : Nat → Nat → Prop) (v : Val)
    (h : ∀ b, (Val.num b).Sub v → ∃ F, ∀ fuel ≥ F, P fuel b) :
    ∃ F, ∀ fuel ≥ F, ∀ b, (Val.num b).Sub v → P fuel b := by
  induction v using Val.ind with
  | null => exact ⟨0, fun _ _ b h => by cases h⟩
  | bool b => exact ⟨0, fun _ _ b h => by cases h⟩
  | str i s => exact ⟨0, fun _ _ b h => by cases h⟩
  | big i s => exact ⟨0, fun _ _ b h => by cases h⟩
  | num b =>
    obtain ⟨F, hF⟩ := h b .refl
    exact ⟨F, fun fuel hf b' hb => by cases hb; exact hF fuel hf⟩
  | arr i l ih =>
    have key : ∃ F, ∀ fuel ≥ F, ∀ x ∈ l, ∀ b, (Val.num b).Sub x → P fuel b := by
      replace ih := fun x hx => ih x hx fun b hb => h b (.arr _ _ _ hx hb)
      clear h
      induction l with
      | nil => exact ⟨0, fun _ _ x hx => by cases hx⟩
      | cons x l ih' =>
        obtain ⟨F, hF⟩ := ih x (by simp)
        obtain ⟨G, hG⟩ := ih' fun y hy => ih y (by simp [hy])
        refine ⟨max F G, fun fuel hf y hy => ?_⟩
        rcases List.mem_cons.1 hy with rfl | hy
        · exact hF fuel (le_trans (le_max_left _ _) hf)
        · exact hG fuel (le_trans (le_max_right _ _) hf) y hy
    obtain ⟨F, hF⟩ := key
    refine ⟨F, fun fuel hf b hb => ?_⟩
    cases hb with
    | arr _ _ y hy hb => exact hF fuel hf y hy b hb
  | obj i l ih =>
    have key : ∃ F, ∀ fuel ≥ F, ∀ x ∈ l, ∀ b, (Val.num b).Sub x.2 → P fuel b := by
      replace ih := fun x hx => ih x hx fun b hb => h b (.obj _ _ _ hx hb)
      clear h
      induction l with
      | nil => exact ⟨0, fun _ _ x hx => by cases hx⟩
      | cons x l ih' =>
        obtain ⟨F, hF⟩ := ih x (by simp)
        obtain ⟨G, hG⟩ := ih' fun y hy => ih y (by simp [hy])
        refine ⟨max F G, fun fuel hf y hy => ?_⟩
        rcases List.mem_cons.1 hy with rfl | hy
        · exact hF fuel (le_trans (le_max_left _ _) hf)
        · exact hG fuel (le_trans (le_max_right _ _) hf) y hy
    obtain ⟨F, hF⟩ := key
    refine ⟨F, fun fuel hf b hb => ?_⟩
    cases hb with
    | obj _ _ y hy hb => exact hF fuel hf y hy b hb

/-- at most 27 characters follow a dot -/
def FewPlaces (t : Text) : Prop := ∀ a b, t = a ++ '.' :: b → b.length ≤ 27

/-- a finite number other than `-0` that is printed with at most 27 fraction digits is read back -/
theorem number_reads (hp : PrintsDoubles sh) (b : Nat) (hf : FiniteBits b) (hz : b ≠ 2 ^ 63)
    (hd : FewPlaces (sh b)) : ∃ F, ∀ fuel ≥ F, NumReads (BigFloat.toF64 fuel) (sh b) b := by
  obtain ⟨l, h1, h2, h3, h4, h5⟩ := hp b hf
  have hexp : ∀ e, l.exp ≠ some e := by rw [h2]; simp
  have hlow : -27 ≤ l.expo := by
    unfold NumLit.expo
    rw [h2]
    cases hfr : l.frac with
    | none => simp
    | some ds =>
      have := hd (NumLit.signText l.neg ++ l.int) ds (by
        rw [h4, NumLit.text, hfr, h2]; simp [NumLit.fracText, NumLit.expText])
      simp; omega
  obtain ⟨bits, h6, F, h7⟩ := C16_literal_partial l h1 h3 (fun e he => absurd he (hexp e)) hlow (by
    intro hm
    by_contra hneg
    have hneg : l.neg = true := by simpa using hneg
    obtain ⟨m, hm1, hm2⟩ := h5
    have hv : l.value = dval 0 := by simp [NumLit.value, hm, dval, ulps]
    rw [hv] at hm1
    have := nearest_unique hm1 (nearest_self (Nat.zero_le _))
    rw [hm2, hneg, this] at hz
    simp at hz)
  obtain ⟨m1, e1, e1'⟩ := h5
  obtain ⟨m2, e2, e2'⟩ := h6
  have e : bits = b := by rw [e1', e2', nearest_unique e1 e2]
  subst e
  refine ⟨F, fun fuel hf => ⟨l, h1, by omega, fun e he => absurd he (hexp e), h4, (h7 fuel hf).1⟩⟩

/-- **C51**, proved part, for the code's own conversion of numbers and every printer that meets the
contract of `f64::to_string`.  Missing: strings with surrogates, infinities, `-0`, numbers printed
with more than 27 fraction digits (for these C16 is open or does not hold), bigints. -/
theorem C51_numbers_partial (hp : PrintsDoubles sh) (v : Val) (hb : ¬ v.HasBig)
    (hs : ∀ i s, (Val.str i s).Sub v → StrOk s)
    (hk : ∀ i l, (Val.obj i l).Sub v → ∀ m ∈ l, StrOk m.1)
    (hn : ∀ b, (Val.num b).Sub v → FiniteBits b ∧ b ≠ 2 ^ 63 ∧ FewPlaces (sh b)) :
    ∃ F, ∀ F' ≥ F, ∃ t, toJson sh v = .ok t ∧
    ∀ (env : Env) fuel ctx, env.conv = BigFloat.toF64 F' → env.fs env.path = some t →
      ∃ ctx' w, parse env (fuel + 1) ctx = .ok (ctx', .ok (.json, w)) ∧ v.ReadAs w ∧ (Ordered v → v.Same w) := by
  obtain ⟨F, hF⟩ := eventually_all (fun fuel b => NumReads (BigFloat.toF64 fuel) (sh b) b) v
    fun b h => number_reads hp b (hn b h).1 (hn b h).2.1 (hn b h).2.2
  exact ⟨F, fun F' hF' => C51_read_back_partial v
    ⟨fun i b h => hb ⟨i, b, h⟩, hs, hk, fun b h => hF F' hF' b h⟩⟩

/-- the value `{"a": 1.5}` meets the hypotheses -/
example : let v : Val := .obj 2 [([97], .num 0x3FF8000000000000)]
    ¬ v.HasBig ∧ Ordered v ∧ (∀ i l, (Val.obj i l).Sub v → ∀ m ∈ l, StrOk m.1) ∧
    (∀ b, (Val.num b).Sub v → FiniteBits b ∧ b ≠ 2 ^ 63 ∧ FewPlaces (showExact b)) ∧
    toJson showExact v = .ok "{\"a\":1.5}".toList := by
  have e : showExact 0x3FF8000000000000 = "1.5".toList := by decide +kernel
  refine ⟨?_, ?_, ?_, ?_, ?_⟩
  · rintro ⟨i, b, h⟩
    cases h with
    | obj _ _ m hm h => rw [List.mem_singleton] at hm; subst hm; cases h
  · intro i l h
    cases h with
    | refl => exact ⟨[(['a'], .num 0x3FF8000000000000)], rfl, by simp⟩
    | obj _ _ m hm h => rw [List.mem_singleton] at hm; subst hm; cases h
  · intro i l h
    cases h with
    | refl =>
      intro m hm
      rw [List.mem_singleton] at hm; subst hm
      unfold StrOk Units SurrogateUnit; decide
    | obj _ _ m hm h => rw [List.mem_singleton] at hm; subst hm; cases h
  · intro b h
    cases h with
    | obj _ _ m hm h =>
      rw [List.mem_singleton] at hm; subst hm
      cases h
      refine ⟨by unfold FiniteBits INF; decide, by decide, ?_⟩
      rw [e]
      intro x y h
      have := congrArg List.length h
      simp at this
      omega
  · decide +kernel

/-- the result of `parse` from the tokens of the file -/
theorem parse_tokens {env : Env} {fuel : Nat} {ctx : Ctx} {t : Text} {ts : List Token}
    {o : Outcome} (hf : env.fs env.path = some t) (ht : tokenize env.conv t = .ok ts)
    (h : ∀ ctx, ∃ ctx', parseWithTokens env fuel ctx ts = .ok (ctx', o)) :
    ∃ ctx', parse env fuel ctx = .ok (ctx', o) := by
  obtain ⟨ctx', h⟩ := h { ctx with
    progress := setInsert ctx.progress env.path, reads := env.path :: ctx.reads }
  refine ⟨ctx', ?_⟩
  simp only [parse, hf, ht]
  exact h

/-- **C51**: a string with a surrogate is written as a text that the parser never accepts. -/
theorem C51_surrogates_rejected (i : Nat) (s : JsStr) (h : Units s) (hs : ∃ u ∈ s, SurrogateUnit u) :
    ∃ t, toJson sh (.str i s) = .ok t ∧ ∀ (env : Env) fuel ctx ctx' r,
      env.fs env.path = some t → parse env fuel ctx ≠ .ok (ctx', .ok r) := by
  obtain ⟨t, h1, -⟩ := C50_surrogates_rejected (conv := fun _ => .ok 0) s h hs
  refine ⟨t, h1, fun env fuel ctx ctx' r hf hp => ?_⟩
  obtain ⟨t', h2, h3⟩ := C50_surrogates_rejected (conv := env.conv) s h hs
  rw [h1] at h2
  obtain rfl := Except.ok.inj h2
  cases ht : tokenize env.conv t with
  | error e =>
    simp only [parse, hf, ht] at hp
    cases hp
  | ok ts =>
    obtain ⟨ts', rfl⟩ := h3 ts ht
    cases fuel with
    | zero =>
      simp only [parse, hf, ht] at hp
      cases hp
    | succ fuel =>
      obtain ⟨ctx'', h4⟩ := parse_tokens (fuel := fuel + 1) (ctx := ctx)
        (o := .error .unexpectedToken) hf ht fun ctx =>
          ⟨_, C42_state env fuel ctx ctx [.error .invalidHex] ts' .unexpectedToken rfl⟩
      rw [h4] at hp
      have := congrArg Prod.snd (Except.ok.inj hp)
      cases this

/-- **C51** does not hold: `"😀"` is written as two escapes, and the parser rejects them. -/
theorem C51_violated : ¬ JsonReadsBack conv := by
  intro h
  have hu : Units [0xD83D, 0xDE00] := by unfold Units; decide
  obtain ⟨t, h1, h2⟩ := h showExact showExact_prints (.str 0 [0xD83D, 0xDE00])
    ⟨fun i s h => (by cases h; exact hu), fun i s h => (by cases h)⟩
    (fun ⟨i, b, h⟩ => by cases h) (fun b h => by cases h) (fun i l h => by cases h)
  obtain ⟨t', h3, h4⟩ := C51_surrogates_rejected (sh := showExact) 0 [0xD83D, 0xDE00] hu
    ⟨0xD83D, by simp, by unfold SurrogateUnit; decide⟩
  rw [h1] at h3
  obtain rfl := Except.ok.inj h3
  obtain ⟨ctx', w, h5, -⟩ := h2 ⟨fun _ => some t, conv, []⟩ 0 Ctx.empty rfl rfl
  exact h4 _ _ _ _ _ rfl h5

/-- **C51** does not hold for `-0`, printed as `-0`: it is read as `0`. -/
theorem C51_negative_zero_violated (hsh : sh (2 ^ 63) = "-0".toList) (env : Env) (fuel : Nat)
    (ctx : Ctx) (hf : env.fs env.path = some "-0".toList) :
    toJson sh (.num (2 ^ 63)) = .ok "-0".toList ∧
    ∃ ctx', parse env (fuel + 1) ctx = .ok (ctx', .ok (.json, .num 0)) ∧
      ¬ (Val.num (2 ^ 63)).Same (.num 0) := by
  refine ⟨by rw [toJson, writeJson, hsh], ?_⟩
  obtain ⟨ctx', h⟩ := parse_tokens (fuel := fuel + 1) (ctx := ctx) (o := .ok (.json, .num 0)) hf
    C18_negative_zero_violated.1 fun ctx => ⟨_, rfl⟩
  exact ⟨ctx', h, fun h => by cases h⟩

example : showExact (2 ^ 63) = "-0".toList := by decide +kernel

/-- **C51** does not hold for infinity, which the Rust library prints as `inf`: the text is no JSON
and is not accepted. -/
theorem C51_infinity_violated (hsh : sh INF = "inf".toList) (env : Env) (fuel : Nat) (ctx : Ctx)
    (hf : env.fs env.path = some "inf".toList) :
    toJson sh (.num INF) = .ok "inf".toList ∧
    ∃ ctx', parse env (fuel + 1) ctx = .ok (ctx', .error .unexpectedToken) := by
  refine ⟨by rw [toJson, writeJson, hsh], ?_⟩
  exact parse_tokens (ts := [.id "inf".toList]) hf rfl fun ctx => ⟨_, rfl⟩

end Nanvm
