import Verif.Model.ReleaseFloat
import Verif.Lemmas.Release
import Verif.Lemmas.BigFloat
/-!
# Lemmas: conversion to doubles in a release build
-/
namespace Nanvm
namespace Tok

theorem Unless.trans {α : Type} {a b c : Res α} (h : Unless a b) (k : Unless b c) : Unless a c := by
  rcases h with rfl | rfl
  · exact Or.inl rfl
  · exact k

theorem unless_conv_exp {conv conv' : BigFloat → Res Nat} (h : ∀ b, Unless (conv b) (conv' b))
    (x : ExpState) : Unless (expToken conv x) (expToken conv' x) := by
  obtain ⟨b, s, fe, es, e⟩ := x
  cases es
  · show Unless ((i64 (fe + e)).bind fun n => (conv ⟨b, s, n, false⟩).bind fun v => .ok (Token.number v))
      ((i64 (fe + e)).bind fun n => (conv' ⟨b, s, n, false⟩).bind fun v => .ok (Token.number v))
    exact Unless.rfl'.bind fun n => (h _).bind fun _ => Unless.rfl'
  · show Unless ((i64 (-e)).bind fun m => (i64 (fe + m)).bind fun n =>
        (conv ⟨b, s, n, false⟩).bind fun v => .ok (Token.number v))
      ((i64 (-e)).bind fun m => (i64 (fe + m)).bind fun n =>
        (conv' ⟨b, s, n, false⟩).bind fun v => .ok (Token.number v))
    exact Unless.rfl'.bind fun m => Unless.rfl'.bind fun n => (h _).bind fun _ => Unless.rfl'

theorem unless_conv_push {conv conv' : BigFloat → Res Nat} (h : ∀ b, Unless (conv b) (conv' b))
    (st : State) (c : Char) : Unless (step conv st c) (step conv' st c) := by
  have hi : ∀ i, Unless (intToken conv i) (intToken conv' i) := fun i =>
    (h _).bind fun _ => Unless.rfl'
  have hf : ∀ i, Unless (floatToken conv i) (floatToken conv' i) := fun i =>
    (h _).bind fun _ => Unless.rfl'
  have he : ∀ i, Unless (expToken conv i) (expToken conv' i) := unless_conv_exp h
  cases st
  case parseInt i =>
    simp only [step]
    repeat' split
    any_goals exact Unless.rfl'
    exact (hi i).bind fun _ => Unless.rfl'
  case parseFrac f =>
    simp only [step]
    repeat' split
    any_goals exact Unless.rfl'
    exact (hf f).bind fun _ => Unless.rfl'
  case parseExpBegin x =>
    simp only [step]
    repeat' split
    any_goals exact Unless.rfl'
    exact (he x).bind fun _ => Unless.rfl'
  case parseExpSign x =>
    simp only [step]
    repeat' split
    any_goals exact Unless.rfl'
    exact (he x).bind fun _ => Unless.rfl'
  case parseExp x =>
    simp only [step]
    repeat' split
    any_goals exact Unless.rfl'
    exact (he x).bind fun _ => Unless.rfl'
  all_goals exact Unless.rfl'

theorem unless_conv_run {conv conv' : BigFloat → Res Nat} (h : ∀ b, Unless (conv b) (conv' b))
    (t : Text) : ∀ st, Unless (run conv st t) (run conv' st t) := by
  induction t with
  | nil => intro st; exact Unless.rfl'
  | cons c cs ih =>
    intro st
    rw [run_cons, run_cons]
    exact (unless_conv_push h st c).bind fun p => (ih p.2).bind fun _ => Unless.rfl'

theorem unless_conv_end {conv conv' : BigFloat → Res Nat} (h : ∀ b, Unless (conv b) (conv' b))
    (st : State) : Unless (endTokens conv st) (endTokens conv' st) := by
  cases st
  case parseInt i => exact Unless.bind ((h _).bind fun _ => Unless.rfl') fun _ => Unless.rfl'
  case parseFrac f => exact Unless.bind ((h _).bind fun _ => Unless.rfl') fun _ => Unless.rfl'
  case parseExp x =>
    exact (unless_conv_exp h x).bind fun _ => Unless.rfl'
  all_goals exact Unless.rfl'

theorem unless_conv {conv conv' : BigFloat → Res Nat} (h : ∀ b, Unless (conv b) (conv' b))
    (t : Text) : Unless (tokenize conv t) (tokenizeR conv' t) :=
  Unless.trans ((unless_conv_run h t .initial).bind fun p => (unless_conv_end h p.2).bind fun _ =>
    Unless.rfl') (unless_tokenize t)

theorem unless_convR_exp {conv conv' : BigFloat → Res Nat} (h : ∀ b, Unless (conv b) (conv' b))
    (x : ExpState) : Unless (expTokenR conv x) (expTokenR conv' x) :=
  (h _).bind fun _ => Unless.rfl'

theorem unless_convR_step {conv conv' : BigFloat → Res Nat} (h : ∀ b, Unless (conv b) (conv' b))
    (st : State) (c : Char) : Unless (stepR conv st c) (stepR conv' st c) := by
  cases st
  case parseFracBegin i => exact Unless.rfl'
  case parseFrac f =>
    simp only [stepR]
    repeat' split
    any_goals exact Unless.rfl'
    exact Unless.bind ((h _).bind fun _ => Unless.rfl') fun _ => Unless.rfl'
  case parseExpBegin x =>
    simp only [stepR]
    repeat' split
    any_goals exact Unless.rfl'
    exact (unless_convR_exp h x).bind fun _ => Unless.rfl'
  case parseExpSign x =>
    simp only [stepR]
    repeat' split
    any_goals exact Unless.rfl'
    exact (unless_convR_exp h x).bind fun _ => Unless.rfl'
  case parseExp x =>
    simp only [stepR]
    repeat' split
    any_goals exact Unless.rfl'
    exact (unless_convR_exp h x).bind fun _ => Unless.rfl'
  all_goals (simp only [stepR]; exact unless_conv_push h _ c)

theorem unless_convR_run {conv conv' : BigFloat → Res Nat} (h : ∀ b, Unless (conv b) (conv' b))
    (t : Text) : ∀ st, Unless (runR conv st t) (runR conv' st t) := by
  induction t with
  | nil => intro st; exact Unless.rfl'
  | cons c cs ih =>
    intro st
    rw [runR_cons, runR_cons]
    exact (unless_convR_step h st c).bind fun p => (ih p.2).bind fun _ => Unless.rfl'

theorem unless_convR_end {conv conv' : BigFloat → Res Nat} (h : ∀ b, Unless (conv b) (conv' b))
    (st : State) : Unless (endTokensR conv st) (endTokensR conv' st) := by
  cases st
  case parseExp x => exact (unless_convR_exp h x).bind fun _ => Unless.rfl'
  all_goals (simp only [endTokensR]; exact unless_conv_end h _)

theorem unless_convR {conv conv' : BigFloat → Res Nat} (h : ∀ b, Unless (conv b) (conv' b))
    (t : Text) : Unless (tokenizeR conv t) (tokenizeR conv' t) :=
  (unless_convR_run h t .initial).bind fun p => (unless_convR_end h p.2).bind fun _ => Unless.rfl'

end Tok

namespace BigFloat
open JsBig Tok

theorem unless_shl (a : JsBig) (n : Nat) : Unless (shlOnU64 a n) (shlOnU64R a n) := by
  unfold shlOnU64 shlOnU64R
  simp only
  split
  · exact Or.inl rfl
  · exact Or.inr rfl

theorem unless_incLoop (min : JsBig) : ∀ (fuel : Nat) (b : BigFloat),
    Unless (incLoop min fuel b) (incLoopR min fuel b) := by
  intro fuel
  induction fuel with
  | zero => intro b; exact Unless.rfl'
  | succ f ih =>
    intro b
    unfold incLoop incLoopR
    cases b.sig.compare min with
    | gt => exact Unless.rfl'
    | eq => exact Unless.rfl'
    | lt =>
      refine (unless_shl _ _).bind fun sig => ?_
      exact (unless_i64 _).bind (r := .ok (wrap64 (b.exp - 1)))
        (g := fun exp => incLoopR min f { b with sig, exp }) fun exp => ih _

theorem unless_increaseTo (fuel : Nat) (min : JsBig) (b : BigFloat) :
    Unless (increaseTo fuel min b) (increaseToR fuel min b) := by
  unfold increaseTo increaseToR
  split
  · exact Unless.rfl'
  · exact unless_incLoop min fuel b

theorem unless_increase (fuel p : Nat) (b : BigFloat) :
    Unless (increase fuel p b) (increaseR fuel p b) := by
  unfold increase increaseR
  split
  · exact Unless.rfl'
  · exact Unless.rfl'.bind fun m => unless_increaseTo fuel m b

theorem unless_decLoop (max : JsBig) : ∀ (fuel : Nat) (b : BigFloat),
    Unless (decLoop max fuel b) (decLoopR max fuel b) := by
  intro fuel
  induction fuel with
  | zero => intro b; exact Unless.rfl'
  | succ f ih =>
    intro b
    unfold decLoop decLoopR
    split
    · exact Unless.rfl'
    · exact (unless_i64 _).bind (r := .ok (wrap64 (b.exp + 1)))
        (g := fun exp => decLoopR max f { b with
          sig := shrOnU64 b.sig 1, exp, rem := if b.sig.getLastBit = 1 then true else b.rem })
        fun exp => ih _

theorem unless_decrease (fuel p : Nat) (b : BigFloat) :
    Unless (decrease fuel p b) (decreaseR fuel p b) := by
  unfold decrease decreaseR
  split
  · exact Unless.rfl'
  · exact Unless.rfl'.bind fun m => unless_decLoop m fuel b

theorem unless_toBin (fuel p : Nat) (b : BigFloat) : Unless (toBin fuel p b) (toBinR fuel p b) := by
  unfold toBin toBinR
  split
  · exact Unless.rfl'
  · split
    · exact (unless_increase fuel p b).bind fun r => unless_decrease fuel p r
    · simp only
      split
      · exact Unless.rfl'.bind fun q => Unless.rfl'.bind fun sig =>
          (unless_increase fuel p _).bind fun r => unless_decrease fuel p r
      · rename_i h0 h1
        by_cases hr : -2 ^ 63 ≤ -b.exp ∧ -b.exp < 2 ^ 63
        · have e : i64 (-b.exp) = .ok (-b.exp) := i64_ok hr.1 hr.2
          rw [e, wrap64_id hr.1 hr.2, Int.emod_eq_of_lt (by omega) (by omega)]
          exact Unless.bind (d := powU64 (fromU64 .pos 5) (-b.exp).toNat) Unless.rfl' fun q =>
            Unless.rfl'.bind fun m => Unless.rfl'.bind fun n =>
            (unless_increaseTo fuel n b).bind fun r => Unless.rfl'.bind fun s =>
            unless_decrease fuel p _
        · left
          have e : i64 (-b.exp) = ovf := by unfold i64; rw [if_neg hr]
          rw [e]; rfl

theorem unless_f64Bits (fuel : Nat) (b : BigFloat) :
    Unless (f64Bits fuel b) (f64BitsR fuel b) := by
  unfold f64Bits f64BitsR
  simp only
  split
  · exact Unless.rfl'
  · refine (unless_increase fuel _ b).bind fun v => (unless_decrease fuel _ v).bind fun v => ?_
    by_cases h1 : -2 ^ 63 ≤ v.exp + 52 ∧ v.exp + 52 < 2 ^ 63
    · rw [i64_ok h1.1 h1.2, wrap64_id h1.1 h1.2]
      simp only [bind, Except.bind]
      by_cases h2 : -2 ^ 63 ≤ v.exp + 52 + 1 ∧ v.exp + 52 + 1 < 2 ^ 63
      · rw [i64_ok h2.1 h2.2, wrap64_id h2.1 h2.2]
        simp only
        split
        · exact Unless.rfl'
        · split
          · exact (unless_decrease fuel _ v).bind fun v => Unless.rfl'
          · exact Unless.rfl'
      · left
        have e : i64 (v.exp + 52 + 1) = ovf := by unfold i64; rw [if_neg h2]
        rw [e]
    · left
      have e : i64 (v.exp + 52) = ovf := by unfold i64; rw [if_neg h1]
      rw [e]; rfl

theorem unless_toF64 (fuel : Nat) (b : BigFloat) : Unless (toF64 fuel b) (toF64R fuel b) :=
  (unless_toBin fuel 54 b).bind fun r => unless_f64Bits fuel r

end BigFloat
end Nanvm
