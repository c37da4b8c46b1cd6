import Verif.Props.ParserProject
import Verif.Props.TokenizerGrammar
/-!
# Property theorems C70: from the texts of the files to the value

The lexical grammar (`Lexed`) and the grammar of modules (`Module`) put together: what a successful
parse says about the characters of the files.
-/
namespace Nanvm
namespace Parser
open Tok Grammar

/-! ## Specification -/

/-- `Means fs conv resolve p v`: the text of the file at `p` is a module with the value `v`; the modules
it names are texts of files as well. -/
inductive Means (fs : Text → Option Text) (conv : BigFloat → Res Nat) (resolve : Text → Text) :
    Text → Val → Prop
  | file (p text ts M v) : fs p = some text → Lexed conv LaxNumbers Complete text ts →
    Module M (fun _ => none) ts v → (∀ s w, M s w → Means fs conv resolve (resolve s) w) →
    Means fs conv resolve p v

/-! ## Lemmas -/

theorem value_no_error {M : Text → Val → Prop} {c : Text → Option Val} {ts : List Token}
    {v : Val} (h : Value M c ts v) (e : ErrorType) : .error e ∉ ts := by
  induction h with
  | arr i items comma _ _ ih =>
    intro h
    simp only [List.mem_append, List.mem_cons, List.not_mem_nil, or_false, reduceCtorEq,
      false_or] at h
    rcases h with h | h
    · rcases Parser.mem_commas h with h | ⟨y, hy, h⟩
      · cases h
      · obtain ⟨x, hx, rfl⟩ := List.mem_map.1 hy
        exact ih x hx h
    · cases comma <;> simp [trailing] at h
  | obj i members comma l hk _ _ _ ih =>
    intro h
    simp only [List.mem_append, List.mem_cons, List.not_mem_nil, or_false, reduceCtorEq,
      false_or] at h
    rcases h with h | h
    · rcases Parser.mem_commas h with h | ⟨y, hy, h⟩
      · cases h
      · obtain ⟨x, hx, rfl⟩ := List.mem_map.1 hy
        simp only [List.mem_cons, reduceCtorEq, false_or] at h
        rcases h with h | h
        · rcases hk x hx with e | e <;> rw [e] at h <;> cases h
        · exact ih x hx h
    · cases comma <;> simp [trailing] at h
  | _ => simp

theorem valueNl_no_error {M : Text → Val → Prop} {c : Text → Option Val} {ts : List Token}
    {v : Val} (h : ValueNl M c ts v) (e : ErrorType) : .error e ∉ ts := fun hs =>
  value_no_error h e (by simp [hs])

theorem module_no_error {M : Text → Val → Prop} {c : Text → Option Val} {ts : List Token}
    {v : Val} (h : Module M c ts v) : NoErrors ts := by
  intro e
  induction h with
  | newLine c ts v _ ih => simpa using ih
  | const_ c n ts w rest v h _ ih =>
    have := valueNl_no_error h e
    simp only [List.mem_cons, reduceCtorEq, false_or] at ih
    simp [this, ih]
  | import_ c n s w rest v _ _ ih => simpa using ih
  | exportDefault c ts v h => simpa using valueNl_no_error h e
  | moduleExports c ts v h => simpa using valueNl_no_error h e
  | value c ts v h => exact valueNl_no_error h e

theorem means_of_denotes {env : Env} {resolve : Text → Text} {p : Text} {v : Val}
    (h : Denotes env.read (fun _ => resolve) p v) : Means env.fs env.conv resolve p v := by
  induction h with
  | module p ts M v hr hm _ ih =>
    obtain ⟨text, hf, ht⟩ := read_cases hr
    exact .file p text ts M v hf (C66_sound text ts ht (module_no_error hm)) hm ih

/-! ## C70 -/

/-- If a parse succeeds, the text of the root file is a module of the two grammars, as are the texts of
all modules it names, and the result is its value. -/
theorem C70_sound (env : Env) (fuel : Nat) (ctx : Ctx) (dt : DataType) (v : Val)
    (h : parse env fuel Ctx.empty = .ok (ctx, .ok (dt, v))) :
    Means env.fs env.conv (relative env.path) env.path v :=
  means_of_denotes (C40_root_relative env fuel ctx dt v h)

/-- Every file that was read in a successful parse is free of lexical errors. -/
theorem C70_files (env : Env) (fuel : Nat) (ctx : Ctx) (dt : DataType) (v : Val)
    (h : parse env fuel Ctx.empty = .ok (ctx, .ok (dt, v))) (p : Text) (hp : p ∈ ctx.reads) :
    ∃ text ts, env.fs p = some text ∧ Lexed env.conv LaxNumbers Complete text ts := by
  have key : ∀ w, Means env.fs env.conv (relative env.path) p w →
      ∃ text ts, env.fs p = some text ∧ Lexed env.conv LaxNumbers Complete text ts := by
    intro w hw
    cases hw with
    | file _ text ts M _ hf hl => exact ⟨text, ts, hf, hl⟩
  rcases (C39_reads env fuel ctx dt v h p).1 hp with rfl | ⟨w, hw⟩
  · exact key v (C70_sound env fuel ctx dt v h)
  · exact key w (means_of_denotes ((parse_sound h).1 p w hw).2)

/-- A project whose files are texts of the lexical grammar (with numbers small enough), the tokens
being well-formed modules that do not import themselves, is loaded. -/
theorem C70_complete (env : Env) (P : Text → Option Mod) (files : List Text)
    (hfiles : ∀ p m, P p = some m → p ∈ files)
    (hP : ∀ p m, P p = some m → m.Ok ∧ ∃ text ts, env.fs p = some text ∧
      Lexed env.conv Numbers Complete text ts ∧ m.Text ts)
    (hclosed : ∀ p q, Needs P env.resolve p q → ∃ m, P q = some m)
    (hacyc : ∀ p, ¬ Relation.TransGen (Needs P env.resolve) p p)
    (hroot : ∃ m, P env.path = some m) :
    ∃ ctx dt v, (∃ F, ∀ fuel ≥ F, parse env fuel Ctx.empty = .ok (ctx, .ok (dt, v))) ∧
      ModIs P env.resolve env.path v := by
  refine C61_loads env P files hfiles (fun p m h => ?_) hclosed hacyc hroot
  obtain ⟨h1, text, ts, h2, h3, h4⟩ := hP p m h
  exact ⟨h1, text, ts, h2, C66_complete text ts h3, h4⟩

/-- One file: the text `[]` with white space and comments around it. -/
def commented : Env where
  fs := fun p => if p = "a".toList then some "/**/[ ]".toList else none
  conv := fun _ => .ok 0
  path := "a".toList

def onlyModule : Text → Option Grammar.Mod := fun p =>
  if p = "a".toList then some ⟨[], .plain, .arr []⟩ else none

theorem commented_lexed (P : Text → NumLit → Prop) :
    Lexed commented.conv P Complete "/**/[ ]".toList [.arrayBegin, .arrayEnd] :=
  .comment [] "[ ]".toList _ noClose_nil (.op '[' _ _ _ rfl (.blank ' ' _ _ rfl (.op ']' _ _ _ rfl
    (.finish _ _ ⟨rfl, rfl⟩))))

/-- the hypotheses of `C70_complete`, and with its conclusion those of the other theorems -/
example : ∃ ctx dt v, (∃ F, ∀ fuel ≥ F, parse commented fuel Ctx.empty = .ok (ctx, .ok (dt, v))) ∧
    Means commented.fs commented.conv (relative commented.path) commented.path v := by
  have hone : ∀ p m, onlyModule p = some m →
      p = "a".toList ∧ m = ⟨[], .plain, .arr []⟩ := by
    intro p m h
    unfold onlyModule at h
    split at h
    · cases h; exact ⟨‹_›, rfl⟩
    · cases h
  have hneeds : ∀ p q, ¬ Needs onlyModule
      commented.resolve p q := by
    rintro p q ⟨m, l, s, hm, hl, -⟩
    rw [(hone p m hm).2] at hl
    cases hl
  have hu : ∀ n, ¬ (Src.arr []).Uses n := by
    intro n h
    cases h with
    | arr _ x _ hx => cases hx
  obtain ⟨ctx, dt, v, ⟨F, hF⟩, -⟩ := C70_complete commented onlyModule ["a".toList]
    (fun p m h => by rw [(hone p m h).1]; simp) (fun p m h => by
      obtain ⟨rfl, rfl⟩ := hone p m h
      exact ⟨⟨⟨.es, by simp, trivial⟩, fun n h => absurd h (hu n), fun n h => absurd h (hu n), by simp⟩,
        _, _, rfl, commented_lexed _, .final [.arrayBegin, .arrayEnd] (by simp [Src.tokens, commas])⟩)
    (fun p q h => absurd h (hneeds p q))
    (fun p h => by obtain ⟨q, hq⟩ := (Relation.TransGen.head'_iff.1 h); exact hneeds _ _ hq.1)
    ⟨_, rfl⟩
  exact ⟨ctx, dt, v, ⟨F, hF⟩, C70_sound _ F _ _ _ (hF F (Nat.le_refl _))⟩

end Parser
end Nanvm
