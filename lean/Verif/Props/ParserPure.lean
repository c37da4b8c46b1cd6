import Verif.Model.Parser
import Verif.Lemmas.SerRead
/-!
# Property theorems C77: the parser without files
-/
namespace Nanvm
namespace Parser
open Tok
open Ser (bind_eq_ok)

/-- Giving tokens to `JsonState::push` one after the other, from the first state the parser with
files uses (parser.rs:243-247).  The imports it reports are dropped. -/
def pushTokens (n : Nat) (j : JState) : List Token → Res (JState × Nat)
  | [] => .ok (j, n)
  | t :: ts =>
    match j.push n t with
    | .ok ((j, _), n) => pushTokens n j ts
    | .error e => .error e

namespace NoFiles

/-- not in a `require` -/
def PlainStatus : Status → Prop
  | .importBegin | .importValue | .importEnd => False
  | _ => True

/-- not in an `import` -/
def PlainRoot : RootStatus → Prop
  | .import_ | .importId _ | .importIdFrom _ => False
  | _ => True

/-- neither in an `import` nor in a `require` -/
def Plain : JState → Prop
  | .parseRoot r => PlainRoot r.status ∧ PlainStatus r.state.status
  | .parseConst _ st => PlainStatus st.status
  | .parseModule st => PlainStatus st.status
  | _ => True

/-- the same for the result of a step -/
def PlainResult : AnyResult → Prop
  | .cont st => PlainStatus st.status
  | .success st _ => PlainStatus st.status
  | .error _ => True

theorem pushValue_plain {st : AnyState} {v : Val} {r : AnyResult} (h : pushValue st v = .ok r) :
    PlainResult r := by
  unfold pushValue at h
  split at h <;> cases h <;> trivial

theorem pushToken_plain {n : Nat} {st : AnyState} {t : Token} {r : AnyResult × Nat}
    (h : pushToken n st t = .ok r) : PlainResult r.1 := by
  unfold pushToken at h
  split at h
  · obtain ⟨a, ha, h⟩ := bind_eq_ok.1 h
    cases h
    exact pushValue_plain ha
  · cases h; trivial

theorem endArray_plain {n : Nat} {st : AnyState} {r : AnyResult × Nat}
    (h : endArray n st = .ok r) : PlainResult r.1 := by
  unfold endArray at h
  split at h
  · obtain ⟨a, ha, h⟩ := bind_eq_ok.1 h
    cases h
    exact pushValue_plain ha
  · cases h

theorem endObject_plain {n : Nat} {st : AnyState} {r : AnyResult × Nat}
    (h : endObject n st = .ok r) : PlainResult r.1 := by
  unfold endObject at h
  split at h
  · obtain ⟨a, ha, h⟩ := bind_eq_ok.1 h
    cases h
    exact pushValue_plain ha
  · cases h

theorem pushKey_plain (st : AnyState) (s : Text) : PlainResult (pushKey st s) := by
  unfold pushKey
  split <;> trivial

/-- outside of `require` the branch for imports is not reached, and not without `require` -/
theorem dispatch_plain {n : Nat} {st : AnyState} {t : Token} (hs : PlainStatus st.status)
    (ht : t ≠ .id "require".toList) : ∃ res : Res (AnyResult × Nat),
      (∀ {α : Type} (f : AnyResult × Nat → α) (iv : Res α),
        dispatch n st t f iv = res.map f) ∧ ∀ r, res = .ok r → PlainResult r.1 := by
  have hb : ∀ {α β : Type} (x : Res α) (f : α → β),
      (do return f (← x) : Res β) = x.map f := by
    intro α β x f
    cases x <;> rfl
  unfold dispatch
  cases e : st.status with
  | importBegin => rw [e] at hs; exact hs.elim
  | importValue => rw [e] at hs; exact hs.elim
  | importEnd => rw [e] at hs; exact hs.elim
  | initial | objectColon =>
    refine ⟨parseValue n st t, fun f iv => hb _ _, fun r hr => ?_⟩
    unfold parseValue at hr
    split at hr
    · cases hr; trivial
    · cases hr; trivial
    · split at hr
      next h => exact absurd (by rw [h.2]) ht
      next => exact pushToken_plain hr
    · exact pushToken_plain hr
  | arrayBegin =>
    refine ⟨parseArrayBegin n st t, fun f iv => hb _ _, fun r hr => ?_⟩
    unfold parseArrayBegin at hr
    split at hr
    · cases hr; trivial
    · exact endArray_plain hr
    · cases hr; trivial
    · exact pushToken_plain hr
  | arrayValue =>
    refine ⟨parseArrayValue n st t, fun f iv => hb _ _, fun r hr => ?_⟩
    unfold parseArrayValue at hr
    split at hr
    · exact endArray_plain hr
    · cases hr; trivial
    · cases hr; trivial
  | arrayComma =>
    refine ⟨parseArrayComma n st t, fun f iv => hb _ _, fun r hr => ?_⟩
    unfold parseArrayComma at hr
    split at hr
    · cases hr; trivial
    · cases hr; trivial
    · split at hr
      next h => exact absurd (by rw [h.2]) ht
      next => exact pushToken_plain hr
    · exact endArray_plain hr
    · exact pushToken_plain hr
  | objectBegin =>
    refine ⟨parseObjectBegin n st t, fun f iv => hb _ _, fun r hr => ?_⟩
    unfold parseObjectBegin at hr
    split at hr
    · cases hr; exact pushKey_plain _ _
    · split at hr
      · cases hr; exact pushKey_plain _ _
      · cases hr; trivial
    · exact endObject_plain hr
    · cases hr; trivial
  | objectKey =>
    refine ⟨.ok (parseObjectKey st t, n), fun f iv => rfl, fun r hr => ?_⟩
    cases hr
    unfold parseObjectKey
    simp only
    split <;> trivial
  | objectValue =>
    refine ⟨parseObjectNext n st t, fun f iv => hb _ _, fun r hr => ?_⟩
    unfold parseObjectNext at hr
    split at hr
    · exact endObject_plain hr
    · cases hr; trivial
    · cases hr; trivial
  | objectComma =>
    refine ⟨parseObjectComma n st t, fun f iv => hb _ _, fun r hr => ?_⟩
    unfold parseObjectComma at hr
    split at hr
    · cases hr; exact pushKey_plain _ _
    · exact endObject_plain hr
    · cases hr; trivial

theorem forModule_plain {r : AnyResult} (h : PlainResult r) : Plain (forModule r) := by
  cases r with
  | cont st => exact h
  | success => trivial
  | error => trivial

theorem constResult_plain {r : AnyResult} {k : Text} (h : PlainResult r) :
    Plain (constResult k r) := by
  cases r with
  | cont st => exact h
  | success => exact ⟨trivial, h⟩
  | error => trivial

/-- the parser without files for a module -/
theorem parseForModule_plain {n : Nat} {st : AnyState} {t : Token} (hs : PlainStatus st.status)
    (ht : t ≠ .id "require".toList) : ∃ res : Res (AnyResult × Nat),
      (∀ {α : Type} (f : AnyResult × Nat → α) (iv : Res α), dispatch n st t f iv = res.map f) ∧
      parseForModule n st t = res.map (fun r => ((forModule r.1, none), r.2)) ∧
      ∀ r, res = .ok r → PlainResult r.1 := by
  obtain ⟨res, h1, h2⟩ := dispatch_plain (n := n) hs ht
  refine ⟨res, h1, ?_, h2⟩
  rw [parseForModule, AnyState.parse, h1]
  cases res <;> rfl

/-- the root -/
theorem rootParse_plain {n : Nat} {r : RootState} {t : Token} (hr : PlainRoot r.status)
    (hs : PlainStatus r.state.status) (h1 : t ≠ .id "require".toList)
    (h2 : t ≠ .id "import".toList) {x} (h : r.parse n t = .ok x) :
    x.1.2 = none ∧ Plain x.1.1 := by
  have hval : ∀ x, (do
      let ((j, _), n) ← parseForModule n r.state t
      return ((j, (none : Option (Text × Text))), n)) = Except.ok x → x.1.2 = none ∧ Plain x.1.1 := by
    intro x hx
    obtain ⟨res, -, h3, h4⟩ := parseForModule_plain (n := n) hs h1
    rw [h3] at hx
    cases res with
    | error e => cases hx
    | ok a =>
      have := Except.ok.inj hx
      subst this
      exact ⟨rfl, forModule_plain (h4 a rfl)⟩
  unfold RootState.parse at h
  simp only at h
  cases e : r.status with
  | initial =>
    rw [e] at h
    simp only at h
    split at h
    · cases h; exact ⟨rfl, trivial, hs⟩
    · split at h
      · split at h
        · cases h; exact ⟨rfl, trivial, hs⟩
        · split at h
          · cases h; exact ⟨rfl, trivial, hs⟩
          · split at h
            · cases h; exact ⟨rfl, trivial, hs⟩
            · split at h
              next hi => exact absurd (by rw [hi.1]) h2
              next => exact hval x h
      · cases h; exact ⟨rfl, trivial⟩
    · split at h
      · exact hval x h
      · cases h; exact ⟨rfl, trivial⟩
  | export_ | module | moduleDot | moduleDotExports | const_ | constId =>
    rw [e] at h
    simp only at h
    repeat' split at h
    all_goals cases h
    all_goals first | exact ⟨rfl, trivial, hs⟩ | exact ⟨rfl, hs⟩ | exact ⟨rfl, trivial⟩
  | import_ | importId | importIdFrom => rw [e] at hr; exact hr.elim

/-- one step of both parsers -/
theorem push_plain (env : Env) (self : ParseTokens) (ctx : Ctx) {j : JState} {t : Token}
    (hj : Plain j) (h1 : t ≠ .id "require".toList) (h2 : t ≠ .id "import".toList) :
    jsonPush env self ctx j t =
      (j.push ctx.next t).map (fun x => ({ ctx with next := x.2 }, x.1.1)) ∧
    ∀ x, j.push ctx.next t = .ok x → Plain x.1.1 := by
  have hroot : ∀ r, j = .parseRoot r → rootParse env self ctx r t =
      (r.parse ctx.next t).map (fun x => ({ ctx with next := x.2 }, x.1.1)) ∧
      ∀ x, r.parse ctx.next t = .ok x → Plain x.1.1 := by
    rintro r rfl
    refine ⟨?_, fun x hx => (rootParse_plain hj.1 hj.2 h1 h2 hx).2⟩
    rw [rootParse]
    cases hx : r.parse ctx.next t with
    | error e => rfl
    | ok x =>
      have := (rootParse_plain hj.1 hj.2 h1 h2 hx).1
      obtain ⟨⟨j', imp⟩, n⟩ := x
      simp only at this
      subst this
      rfl
  have hmod : ∀ st, j = .parseModule st → moduleParse env self ctx st t =
      (do let ((j, _), n) ← parseForModule ctx.next st t
          return ((j, (none : Option (Text × Text))), n)).map
        (fun x : (JState × Option (Text × Text)) × Nat => ({ ctx with next := x.2 }, x.1.1)) ∧
      ∀ x, (do let ((j, _), n) ← parseForModule ctx.next st t
               return ((j, (none : Option (Text × Text))), n)) = Except.ok x → Plain x.1.1 := by
    rintro st rfl
    obtain ⟨res, h3, h4, h5⟩ := parseForModule_plain (n := ctx.next) hj h1
    rw [moduleParse, anyParse, h3, h4]
    cases res with
    | error e => exact ⟨rfl, by rintro x ⟨⟩⟩
    | ok a =>
      refine ⟨rfl, fun x hx => ?_⟩
      cases hx
      exact forModule_plain (h5 a rfl)
  have hconst : ∀ k st, j = .parseConst k st → constStateParse env self ctx k st t =
      (do let (j, n) ← constParse ctx.next k st t
          return ((j, (none : Option (Text × Text))), n)).map
        (fun x : (JState × Option (Text × Text)) × Nat => ({ ctx with next := x.2 }, x.1.1)) ∧
      ∀ x, (do let (j, n) ← constParse ctx.next k st t
               return ((j, (none : Option (Text × Text))), n)) = Except.ok x → Plain x.1.1 := by
    rintro k st rfl
    obtain ⟨res, h3, h5⟩ := dispatch_plain (n := ctx.next) hj h1
    unfold constStateParse constParse
    split
    · exact ⟨rfl, by rintro x ⟨⟩⟩
    · rw [anyParse, AnyState.parse, h3, h3]
      cases res with
      | error e => exact ⟨rfl, by rintro x ⟨⟩⟩
      | ok a =>
        refine ⟨rfl, fun x hx => ?_⟩
        cases hx
        exact constResult_plain (h5 a rfl)
  unfold jsonPush JState.push
  split
  · cases j with
    | parseRoot r => exact hroot r rfl
    | _ => exact ⟨rfl, by rintro x ⟨⟩; exact hj⟩
  · cases j with
    | parseRoot r => exact hroot r rfl
    | parseConst k st => exact hconst k st rfl
    | parseModule st => exact hmod st rfl
    | result | error => exact ⟨rfl, by rintro x ⟨⟩; trivial⟩

theorem pushAll_plain (env : Env) (self : ParseTokens) (ts : List Token)
    (h1 : .id "require".toList ∉ ts) (h2 : .id "import".toList ∉ ts) (ctx : Ctx) (j : JState)
    (hj : Plain j) : pushAll env self ctx j ts =
      (pushTokens ctx.next j ts).map (fun x => ({ ctx with next := x.2 }, x.1)) := by
  induction ts generalizing ctx j with
  | nil => rfl
  | cons t ts ih =>
    simp only [List.mem_cons, not_or] at h1 h2
    obtain ⟨h3, h4⟩ := push_plain env self ctx hj (Ne.symm h1.1) (Ne.symm h2.1)
    rw [pushAll, h3, pushTokens]
    cases hx : j.push ctx.next t with
    | error e => rfl
    | ok x =>
      have := h4 x hx
      obtain ⟨⟨j', imp⟩, n⟩ := x
      exact ih h1.2 h2.2 { ctx with next := n } j' this

end NoFiles

open NoFiles

/-- **C77**: without `import` and `require` the parser with files and the parser without files give
the same result for every sequence of tokens: the same value, error or panic, with the same
allocations, and no file is read. -/
theorem C77_agree (env : Env) (fuel : Nat) (ctx : Ctx) (ts : List Token)
    (h1 : .id "require".toList ∉ ts) (h2 : .id "import".toList ∉ ts) :
    parseWithTokens env (fuel + 1) ctx ts =
      (pushTokens ctx.next JState.start ts).map
        (fun x => ({ ctx with next := x.2 }, x.1.end_)) := by
  have h := pushAll_plain env (parseWithTokens env fuel) ts h1 h2 ctx JState.start ⟨trivial, trivial⟩
  rw [parseWithTokens]
  simp only [h]
  cases pushTokens ctx.next JState.start ts <;> rfl

/-- **C77**: an import is reported exactly at the string of an `import`, with the name before and
the module named by the string; the parser is then where it was before the first statement, but
needs a new line. -/
theorem C77_import (n : Nat) (j : JState) (t : Token) (id module : Text) (j' : JState) (n' : Nat) :
    j.push n t = .ok ((j', some (id, module)), n') ↔
      ∃ st nl, j = .parseRoot ⟨.importIdFrom id, st, nl⟩ ∧ t = .string module ∧ n' = n ∧
        j' = .parseRoot ⟨.initial, st, false⟩ := by
  have hval : ∀ st, (do
      let ((j, _), n) ← parseForModule n st t
      return ((j, (none : Option (Text × Text))), n)) ≠ Except.ok ((j', some (id, module)), n') := by
    intro st h
    obtain ⟨⟨⟨a, b⟩, c⟩, -, h⟩ := bind_eq_ok.1 h
    cases h
  have hroot : ∀ r : RootState, r.parse n t = .ok ((j', some (id, module)), n') ↔
      ∃ st nl, JState.parseRoot r = .parseRoot ⟨.importIdFrom id, st, nl⟩ ∧ t = .string module ∧
        n' = n ∧ j' = .parseRoot ⟨.initial, st, false⟩ := by
    intro r
    obtain ⟨status, st, nl⟩ := r
    constructor
    · intro h
      unfold RootState.parse at h
      simp only at h
      cases status with
      | initial =>
        simp only at h
        split at h
        · cases h
        · repeat' split at h
          all_goals first | cases h | exact absurd h (hval _)
        · split at h
          · exact absurd h (hval _)
          · cases h
      | importIdFrom s =>
        simp only at h
        split at h
        · cases h; exact ⟨_, _, rfl, rfl, rfl, rfl⟩
        · cases h
      | _ =>
        simp only at h
        repeat' split at h
        all_goals cases h
    · rintro ⟨st', nl', h1, rfl, rfl, rfl⟩
      cases h1
      rfl
  constructor
  · intro h
    unfold JState.push at h
    split at h
    · split at h
      · exact (hroot _).1 h
      · cases h
    · split at h
      · exact (hroot _).1 h
      · obtain ⟨a, -, h⟩ := bind_eq_ok.1 h; cases h
      · cases h
      · exact absurd h (hval _)
      · cases h
  · rintro ⟨st, nl, rfl, rfl, rfl, rfl⟩
    rfl

/-- the hypotheses of `C77_agree`: two statements on two lines; with the new line left out there is
an error -/
example : ∃ j n, pushTokens 0 JState.start [.id "const".toList, .id "a".toList, .equals,
      .string "x".toList, .newLine, .id "export".toList, .id "default".toList, .arrayBegin,
      .id "a".toList, .arrayEnd] = .ok (j, n) ∧
    j.end_ = .ok (.mjs, .arr 1 [.str 0 [120]]) ∧ n = 2 := ⟨_, _, rfl, rfl, rfl⟩

example : ∃ j n, pushTokens 0 JState.start [.id "const".toList, .id "a".toList, .equals,
      .string "x".toList, .id "export".toList, .id "default".toList, .arrayBegin,
      .id "a".toList, .arrayEnd] = .ok (j, n) ∧ j.end_ = .error .newLineExpected :=
  ⟨_, _, rfl, rfl⟩

end Parser
end Nanvm
