import Verif.Model.ReleaseApp
import Verif.Lemmas.ReleaseFloat
import Verif.Props.ParserFrame
/-!
# The parser of a release build gives what that of a debug build gives, unless that overflows
-/
namespace Nanvm
namespace Parser
open Tok Frame

/-- two environments that differ in the conversion of numbers only -/
structure ConvRel (env env' : Env) : Prop where
  fs : env'.fs = env.fs
  path : env'.path = env.path
  conv : ∀ b, Unless (env.conv b) (env'.conv b)

/-- some file has a text that overflows in a debug build -/
def Env.Overflows (env : Env) : Prop :=
  ∃ p text, env.fs p = some text ∧ tokenize env.conv text = .error (.panic .overflow)

/-- `r` is the debug result unless the debug build panics for overflow because of a file -/
def Due {α : Type} (env : Env) (d r : Res α) : Prop := (env.Overflows ∧ d = ovf) ∨ r = d

variable {env env' : Env} {self self' : ParseTokens}

theorem Due.rfl' {α : Type} {d : Res α} : Due env d d := Or.inr rfl

theorem Due.bind {α β : Type} {d r : Res α} {f g : α → Res β} (h : Due env d r)
    (hf : ∀ a, Due env (f a) (g a)) : Due env (d.bind f) (r.bind g) := by
  rcases h with ⟨h, rfl⟩ | rfl
  · exact Or.inl ⟨h, rfl⟩
  · cases r with
    | error e => exact Or.inr rfl
    | ok a => exact hf a

theorem ConvRel.tokenize (h : ConvRel env env') {p t : Text} (hp : env.fs p = some t) :
    Due env (tokenize env.conv t) (tokenizeR env'.conv t) :=
  (unless_conv h.conv t).imp_left fun e => ⟨⟨p, t, hp, e⟩, e⟩

theorem unless_importModule (hr : ConvRel env env')
    (hs : ∀ ctx ts, Due env (self ctx ts) (self' ctx ts)) (ctx : Ctx) (s : Text) :
    Due env (importModule env self ctx s) (importModuleR env' self' ctx s) := by
  have hres : env'.resolve s = env.resolve s := by rw [Env.resolve, Env.resolve, hr.path]
  unfold importModule importModuleR
  rw [hres, hr.fs]
  dsimp only
  cases ctx.complete.get (env.resolve s) with
  | some v => exact Due.rfl'
  | none =>
    dsimp only
    by_cases hin : env.resolve s ∈ ctx.progress
    · rw [if_pos hin, if_pos hin]; exact Due.rfl'
    · rw [if_neg hin, if_neg hin]
      cases hf : env.fs (env.resolve s) with
      | none => exact Due.rfl'
      | some text => exact (hr.tokenize hf).bind fun ts => (hs _ ts).bind fun x => Due.rfl'

theorem unless_anyParse (hr : ConvRel env env')
    (hs : ∀ ctx ts, Due env (self ctx ts) (self' ctx ts)) (ctx : Ctx) (st : AnyState) (t : Token) :
    Due env (anyParse env self ctx st t) (anyParseR env' self' ctx st t) := by
  unfold anyParse anyParseR
  rcases dispatch_cases ctx.next st t with ⟨-, h⟩ | ⟨res, h⟩
  · rw [h, h]
    unfold importValue importValueR
    cases t with
    | string s => exact (unless_importModule hr hs ctx _).bind fun x => Due.rfl'
    | _ => exact Due.rfl'
  · rw [h, h]; exact Due.rfl'

theorem unless_rootParse (hr : ConvRel env env')
    (hs : ∀ ctx ts, Due env (self ctx ts) (self' ctx ts)) (ctx : Ctx) (r : RootState) (t : Token) :
    Due env (rootParse env self ctx r t) (rootParseR env' self' ctx r t) := by
  unfold rootParse rootParseR
  refine Due.bind Due.rfl' fun x => ?_
  obtain ⟨⟨j, imp⟩, n⟩ := x
  cases imp with
  | none => exact Due.rfl'
  | some im =>
    cases j with
    | parseRoot r => exact (unless_importModule hr hs _ _).bind fun x => Due.rfl'
    | _ => exact Due.rfl'

theorem unless_jsonPush (hr : ConvRel env env')
    (hs : ∀ ctx ts, Due env (self ctx ts) (self' ctx ts)) (ctx : Ctx) (j : JState) (t : Token) :
    Due env (jsonPush env self ctx j t) (jsonPushR env' self' ctx j t) := by
  cases j with
  | parseRoot r =>
    have h1 : jsonPush env self ctx (.parseRoot r) t = rootParse env self ctx r t := by
      unfold jsonPush; cases t <;> rfl
    have h2 : jsonPushR env' self' ctx (.parseRoot r) t = rootParseR env' self' ctx r t := by
      unfold jsonPushR; cases t <;> rfl
    rw [h1, h2]
    exact unless_rootParse hr hs ctx _ _
  | parseModule st =>
    have h := (unless_anyParse hr hs ctx st t).bind (f := fun x => .ok (x.1, forModule x.2))
      fun x => Due.rfl'
    cases t <;> first | exact Due.rfl' | exact h
  | parseConst key st =>
    have h := (unless_anyParse hr hs ctx st t).bind (f := fun x => .ok (x.1, constResult key x.2))
      fun x => Due.rfl'
    cases t <;> first | exact Due.rfl' | exact h
  | _ => cases t <;> exact Due.rfl'

theorem unless_pushAll (hr : ConvRel env env')
    (hs : ∀ ctx ts, Due env (self ctx ts) (self' ctx ts)) (ts : List Token) :
    ∀ (ctx : Ctx) (j : JState), Due env (pushAll env self ctx j ts) (pushAllR env' self' ctx j ts) := by
  induction ts with
  | nil => exact fun _ _ => Due.rfl'
  | cons t ts ih => exact fun ctx j => (unless_jsonPush hr hs ctx j t).bind fun x => ih x.1 x.2

theorem unless_parseWithTokens (hr : ConvRel env env') (fuel : Nat) : ∀ (ctx : Ctx) (ts : List Token),
    Due env (parseWithTokens env fuel ctx ts) (parseWithTokensR env' fuel ctx ts) := by
  induction fuel with
  | zero => exact fun _ _ => Due.rfl'
  | succ fuel ih => exact fun ctx ts => (unless_pushAll hr ih ts ctx _).bind fun x => Due.rfl'

theorem unless_parse (hr : ConvRel env env') (fuel : Nat) (ctx : Ctx) :
    Due env (parse env fuel ctx) (parseR env' fuel ctx) := by
  unfold parse parseR
  rw [hr.path, hr.fs]
  cases hf : env.fs env.path with
  | none => exact Due.rfl'
  | some text => exact (hr.tokenize hf).bind fun ts => unless_parseWithTokens hr fuel _ ts

end Parser
end Nanvm
