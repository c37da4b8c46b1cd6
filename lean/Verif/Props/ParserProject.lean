import Mathlib.Order.WellFoundedSet
import Verif.Lemmas.ParserProject
import Verif.Lemmas.ProjectUnique
import Verif.Props.ParserFiles
/-!
# C61: projects load

The modules of a project are trees (`Spec/Project.lean`); the files hold any spelling of them.
-/
namespace Nanvm
namespace Parser
open Tok Grammar

theorem acc_of_acyclic {α : Type} {r : α → α → Prop} {l : List α}
    (hmem : ∀ p q, r p q → q ∈ l) (hacyc : ∀ p, ¬ Relation.TransGen r p p) (p : α) :
    Acc (fun q p => r p q) p := by
  have hstrict : IsStrictOrder α (fun q p => Relation.TransGen r p q) :=
    { irrefl := hacyc, trans := fun a b c h1 h2 => h2.trans h1 }
  have hwf : {q | q ∈ l}.WellFoundedOn (fun q p => Relation.TransGen r p q) :=
    (List.finite_toSet l).wellFoundedOn
  have hin : ∀ q, q ∈ l → Acc (fun q p => r p q) q := by
    intro q hq
    exact hwf.induction hq fun y hy ih => ⟨_, fun z hz => ih z (hmem y z hz) (.single hz)⟩
  exact ⟨_, fun q hq => hin q (hmem p q hq)⟩

/-- **C61**: a project of finitely many modules, each of which is well-formed and stored in its
file, in which every module that is named is part of the project and no module imports itself,
directly or through others, is loaded.  The result is the value of the root module. -/
theorem C61_loads (env : Env) (P : Text → Option Mod) (files : List Text)
    (hfiles : ∀ p m, P p = some m → p ∈ files)
    (hP : ∀ p m, P p = some m → m.Ok ∧ ∃ text ts, env.fs p = some text ∧
      tokenize env.conv text = .ok ts ∧ m.Text ts)
    (hclosed : ∀ p q, Needs P env.resolve p q → ∃ m, P q = some m)
    (hacyc : ∀ p, ¬ Relation.TransGen (Needs P env.resolve) p p)
    (hroot : ∃ m, P env.path = some m) :
    ∃ ctx dt v, (∃ F, ∀ fuel ≥ F, parse env fuel Ctx.empty = .ok (ctx, .ok (dt, v))) ∧
      ModIs P env.resolve env.path v := by
  obtain ⟨m, hm⟩ := hroot
  have hP' : ∀ p m, P p = some m → m.Ok ∧ ∃ ts, env.read p = some ts ∧ m.Text ts := by
    intro p m hp
    obtain ⟨h1, text, ts, h2, h3, h4⟩ := hP p m hp
    exact ⟨h1, ts, by simp [Env.read, h2, h3], h4⟩
  obtain ⟨F, hF⟩ := loads hP' hclosed hacyc
    (acc_of_acyclic (fun p q h => by obtain ⟨m, hm⟩ := hclosed p q h; exact hfiles q m hm) hacyc env.path) hm
  obtain ⟨-, ts, hread, -⟩ := hP' _ _ hm
  obtain ⟨text, hfs, htok⟩ := read_cases hread
  obtain ⟨ctx, dt, v, h1, -, -, h2⟩ := hF F (Nat.le_refl _) (enter Ctx.empty env.path) ts hread
    (by intro q v h; cases h) (by
      intro r hr
      simp only [enter, Ctx.empty, setInsert, List.not_mem_nil, if_false, List.mem_singleton] at hr
      subst hr
      exact hacyc _)
  refine ⟨ctx, dt, v, ⟨F, fun fuel hle => ?_⟩, h2⟩
  have hp : parse env F Ctx.empty = .ok (ctx, .ok (dt, v)) := by
    simp only [parse, hfs, htok]
    exact h1
  rw [C38_fuel env F fuel hle (by rw [hp]; simp), hp]

/-- **C61**: the value of a module of a project is unique, apart from the numbers of the blocks, so
that the result of every successful parse of the project is the one of `C61_loads`. -/
theorem C61_unique (P : Text → Option Mod) (resolve : Text → Text) (p : Text) (v w : Val)
    (h : ModIs P resolve p v) (h' : ModIs P resolve p w) : v.Same w := modIs_same h h'

/-! A project: `diamond` of `Props/ParserFiles.lean`. -/

def diamondMods : Text → Option Mod := fun p =>
  if p = "a".toList then some ⟨[.import_ "b".toList "b".toList, .import_ "c".toList "c".toList],
    .exportDefault, .arr [.ref "b".toList, .ref "c".toList]⟩
  else if p = "b".toList then some ⟨[.import_ "d".toList "d".toList], .exportDefault, .ref "d".toList⟩
  else if p = "c".toList then
    some ⟨[.import_ "d".toList "x/../d".toList], .exportDefault, .ref "d".toList⟩
  else if p = "d".toList then some ⟨[], .plain, .arr []⟩
  else none

theorem diamond_cases {p : Text} {m : Mod} (h : diamondMods p = some m) :
    (p = "a".toList ∧ m = ⟨[.import_ "b".toList "b".toList, .import_ "c".toList "c".toList],
      .exportDefault, .arr [.ref "b".toList, .ref "c".toList]⟩) ∨
    (p = "b".toList ∧ m = ⟨[.import_ "d".toList "d".toList], .exportDefault, .ref "d".toList⟩) ∨
    (p = "c".toList ∧ m = ⟨[.import_ "d".toList "x/../d".toList], .exportDefault, .ref "d".toList⟩) ∨
    (p = "d".toList ∧ m = ⟨[], .plain, .arr []⟩) := by
  unfold diamondMods at h
  split at h
  · cases h; exact .inl ⟨‹_›, rfl⟩
  · split at h
    · cases h; exact .inr (.inl ⟨‹_›, rfl⟩)
    · split at h
      · cases h; exact .inr (.inr (.inl ⟨‹_›, rfl⟩))
      · split at h
        · cases h; exact .inr (.inr (.inr ⟨‹_›, rfl⟩))
        · cases h

theorem diamond_needs {p q : Text} (h : Needs diamondMods diamond.resolve p q) :
    (p = "a".toList ∧ (q = "b".toList ∨ q = "c".toList)) ∨
    ((p = "b".toList ∨ p = "c".toList) ∧ q = "d".toList) := by
  obtain ⟨m, l, s, hm, hl, hs, rfl⟩ := h
  have e : diamond.resolve "b".toList = "b".toList ∧ diamond.resolve "c".toList = "c".toList ∧
    diamond.resolve "d".toList = "d".toList ∧ diamond.resolve "x/../d".toList = "d".toList := by
    decide +kernel
  obtain ⟨e1, e2, e3, e4⟩ := e
  rcases diamond_cases hm with ⟨rfl, rfl⟩ | ⟨rfl, rfl⟩ | ⟨rfl, rfl⟩ | ⟨rfl, rfl⟩
  · simp only [List.mem_cons, List.not_mem_nil, or_false] at hl
    rcases hl with rfl | rfl <;> simp only [Line.modules, List.mem_singleton] at hs <;> subst hs
    · exact .inl ⟨rfl, .inl e1⟩
    · exact .inl ⟨rfl, .inr e2⟩
  · simp only [List.mem_singleton] at hl
    subst hl; simp only [Line.modules, List.mem_singleton] at hs; subst hs
    exact .inr ⟨.inl rfl, e3⟩
  · simp only [List.mem_singleton] at hl
    subst hl; simp only [Line.modules, List.mem_singleton] at hs; subst hs
    exact .inr ⟨.inr rfl, e4⟩
  · cases hl

/-- the hypotheses of `C61_loads` hold for it -/
example : ∃ ctx dt v, (∃ F, ∀ fuel ≥ F, parse diamond fuel Ctx.empty = .ok (ctx, .ok (dt, v))) ∧
    ModIs diamondMods diamond.resolve "a".toList v := by
  have hab : "a".toList ≠ "b".toList ∧ "a".toList ≠ "c".toList ∧ "a".toList ≠ "d".toList ∧
    "b".toList ≠ "c".toList ∧ "b".toList ≠ "d".toList ∧ "c".toList ≠ "d".toList := by decide
  obtain ⟨n1, n2, n3, n4, n5, n6⟩ := hab
  refine C61_loads diamond diamondMods ["a".toList, "b".toList, "c".toList, "d".toList] ?_ ?_ ?_ ?_
    ⟨_, rfl⟩
  · intro p m h
    rcases diamond_cases h with ⟨rfl, -⟩ | ⟨rfl, -⟩ | ⟨rfl, -⟩ | ⟨rfl, -⟩ <;> simp
  · intro p m h
    have huse : ∀ {n a}, (Src.ref n).Uses a → a = n := fun h => by cases h; rfl
    have hd : "d".toList ∉ modWords ∧ "b".toList ∉ modWords ∧ "c".toList ∉ modWords := by decide
    rcases diamond_cases h with ⟨rfl, rfl⟩ | ⟨rfl, rfl⟩ | ⟨rfl, rfl⟩ | ⟨rfl, rfl⟩
    · have hu : ∀ n, (Src.arr [.ref "b".toList, .ref "c".toList]).Uses n → n = "b".toList ∨ n = "c".toList := by
        intro n hn
        cases hn with
        | arr _ x _ hx hu =>
          simp only [List.mem_cons, List.not_mem_nil, or_false] at hx
          rcases hx with rfl | rfl
          · exact .inl (huse hu)
          · exact .inr (huse hu)
      refine ⟨⟨⟨.es, by simp [Line.In], trivial⟩, ?_, ?_, by simp [Line.Uses]⟩,
        _, _, rfl, by decide +kernel, .import_ _ _ _ _ (.import_ _ _ _ _ (.final
          [.arrayBegin, .id "b".toList, .comma, .id "c".toList, .arrayEnd]
          (by simp [Src.tokens, commas])))⟩
      · refine ⟨by simp [Line.Uses], by simp [Line.Uses], fun n hn => ?_⟩
        rcases hu n hn with rfl | rfl <;> simp [Line.name]
      · intro n hn
        rcases hu n hn with rfl | rfl
        · exact hd.2.1
        · exact hd.2.2
    · refine ⟨⟨⟨.es, by simp [Line.In], trivial⟩, ⟨by simp [Line.Uses], fun n hn => ?_⟩, ?_,
        by simp [Line.Uses]⟩, _, _, rfl, by decide +kernel, .import_ _ _ _ _ (.final [.id "d".toList]
          (by simp [Src.tokens]))⟩
      · rw [huse hn]; simp [Line.name]
      · intro n hn; rw [huse hn]; exact hd.1
    · refine ⟨⟨⟨.es, by simp [Line.In], trivial⟩, ⟨by simp [Line.Uses], fun n hn => ?_⟩, ?_,
        by simp [Line.Uses]⟩, _, _, rfl, by decide +kernel, .import_ _ _ _ _ (.final [.id "d".toList]
          (by simp [Src.tokens]))⟩
      · rw [huse hn]; simp [Line.name]
      · intro n hn; rw [huse hn]; exact hd.1
    · have hu : ∀ n, ¬ (Src.arr []).Uses n := by
        intro n hn
        cases hn with
        | arr _ x _ hx hu => cases hx
      refine ⟨⟨⟨.es, by simp, trivial⟩, fun n hn => absurd hn (hu n), fun n hn => absurd hn (hu n),
        by simp⟩, _, _, rfl, by decide +kernel, .final [.arrayBegin, .arrayEnd] (by simp [Src.tokens, commas])⟩
  · intro p q h
    rcases diamond_needs h with ⟨-, rfl | rfl⟩ | ⟨-, rfl⟩ <;> exact ⟨_, rfl⟩
  · intro p h
    have rank : ∀ p q, Relation.TransGen (Needs diamondMods diamond.resolve) p q →
        (p = "a".toList ∧ q ≠ "a".toList) ∨ ((p = "b".toList ∨ p = "c".toList) ∧ q = "d".toList) := by
      intro p q h
      induction h with
      | single h =>
        rcases diamond_needs h with ⟨rfl, rfl | rfl⟩ | h
        · exact .inl ⟨rfl, n1.symm⟩
        · exact .inl ⟨rfl, n2.symm⟩
        · exact .inr h
      | tail _ h ih =>
        rcases diamond_needs h with ⟨rfl, h2⟩ | ⟨h1, rfl⟩
        · rcases ih with ⟨-, h⟩ | ⟨-, h⟩
          · exact absurd rfl h
          · exact absurd h n3
        · rcases ih with ⟨rfl, -⟩ | ⟨h3, h4⟩
          · exact .inl ⟨rfl, n3.symm⟩
          · exact .inr ⟨h3, rfl⟩
    rcases rank p p h with ⟨h1, h2⟩ | ⟨rfl | rfl, h⟩
    · exact h2 h1
    · exact n5 h
    · exact n6 h

end Parser
end Nanvm
