import Verif.Spec.Grammar
import Mathlib.Data.List.Chain
/-! # The imports of a module are needed -/
namespace Nanvm
namespace Grammar
open Tok

/-- neighbours: a string after `from` or a parenthesis is the name of a module with a value -/
def Nb (M : Text → Val → Prop) (a b : Token) : Prop :=
  ∀ s, b = .string s → (a = .openingParenthesis ∨ a = .id "from".toList) → ∃ w, M s w

variable {M : Text → Val → Prop}

theorem nb_right {a b : Token} (h : ∀ s, b ≠ .string s) : Nb M a b := fun s hs => absurd hs (h s)

theorem nb_left {a b : Token} (h : a ≠ .openingParenthesis) (h' : a ≠ .id "from".toList) : Nb M a b :=
  fun _ _ ha => by
    rcases ha with ha | ha
    · exact absurd ha h
    · exact absurd ha h'

theorem chain_append {l r : List Token} (hl : l.IsChain (Nb M)) (hr : r.IsChain (Nb M))
    (h : ∀ x ∈ l.getLast?, ∀ y ∈ r.head?, Nb M x y) : (l ++ r).IsChain (Nb M) :=
  List.isChain_append.2 ⟨hl, hr, h⟩

theorem chain_cons {a : Token} {l : List Token} (ha : a ≠ .openingParenthesis)
    (ha' : a ≠ .id "from".toList) (h : l.IsChain (Nb M)) : (a :: l).IsChain (Nb M) := by
  cases l with
  | nil => exact .singleton _
  | cons b l => exact .cons_cons (nb_left ha ha') h

theorem chain_snoc {a : Token} {l : List Token} (ha : ∀ s, a ≠ .string s)
    (h : l.IsChain (Nb M)) : (l ++ [a]).IsChain (Nb M) :=
  chain_append h (.singleton _) fun x _ y hy => by
    simp only [List.head?_cons, Option.mem_def, Option.some.injEq] at hy
    subst hy
    exact nb_right ha

theorem chain_commas {l : List (List Token)} (h : ∀ x ∈ l, x.IsChain (Nb M)) :
    (commas l).IsChain (Nb M) := by
  induction l with
  | nil => exact .nil
  | cons x xs ih =>
    cases xs with
    | nil => exact h x (by simp)
    | cons y ys =>
      refine chain_append (h x (by simp)) (chain_cons (by simp) (by simp) (ih fun z hz =>
        h z (List.mem_cons_of_mem _ hz))) fun a _ b hb => ?_
      simp only [List.head?_cons, Option.mem_def, Option.some.injEq] at hb
      subst hb
      exact nb_right (by simp)

theorem chain_trailing {l : List Token} (h : l.IsChain (Nb M)) (c : Bool) :
    (l ++ trailing c).IsChain (Nb M) := by
  cases c with
  | false => simpa [trailing] using h
  | true => exact chain_snoc (by simp) h

theorem Value.chain {c : Text → Option Val} {ts : List Token} {v : Val} (h : Value M c ts v) :
    ts.IsChain (Nb M) := by
  induction h with
  | null => exact .singleton _
  | true => exact .singleton _
  | false => exact .singleton _
  | num b => exact .singleton _
  | str i s => exact .singleton _
  | big i b => exact .singleton _
  | ref n v h1 h2 => exact .singleton _
  | require s v hm =>
    refine .cons_cons (nb_right (by simp)) (.cons_cons ?_ (.cons_cons (nb_right (by simp))
      (.singleton _)))
    intro s' hs _
    cases hs
    exact ⟨v, hm⟩
  | arr i items comma _ hc ih =>
    refine chain_snoc (by simp) (chain_trailing (chain_cons (by simp) (by simp) ?_) _)
    apply chain_commas
    intro x hx
    obtain ⟨y, hy, rfl⟩ := List.mem_map.1 hx
    exact ih y hy
  | obj i ms comma l hk _ hc hl ih =>
    refine chain_snoc (by simp) (chain_trailing (chain_cons (by simp) (by simp) ?_) _)
    apply chain_commas
    intro x hx
    obtain ⟨y, hy, rfl⟩ := List.mem_map.1 hx
    exact .cons_cons (nb_right (by simp)) (chain_cons (by simp) (by simp) (ih y hy))

theorem chain_filter {ts : List Token} (h : (ts.filter (· ≠ .newLine)).IsChain (Nb M)) :
    ts.IsChain (Nb M) := by
  induction ts with
  | nil => exact .nil
  | cons t ts ih =>
    by_cases ht : t = .newLine
    · subst ht
      exact chain_cons (by simp) (by simp) (ih (by simpa using h))
    · rw [List.filter_cons_of_pos (by simpa using ht)] at h
      have h2 := ih (List.IsChain.tail h)
      cases ts with
      | nil => exact .singleton _
      | cons u us =>
        refine .cons_cons ?_ h2
        by_cases hu : u = .newLine
        · subst hu; exact nb_right (by simp)
        · rw [List.filter_cons_of_pos (by simpa using hu)] at h
          exact (List.isChain_cons_cons.1 h).1

theorem Module.chain {c : Text → Option Val} {ts : List Token} {v : Val} (h : Module M c ts v) :
    ts.IsChain (Nb M) := by
  induction h with
  | newLine c ts v _ ih => exact chain_cons (by simp) (by simp) ih
  | const_ c n ts w rest v hv _ ih =>
    refine .cons_cons (nb_right (by simp)) (.cons_cons (nb_right (by simp)) ?_)
    refine chain_append (l := .equals :: ts)
      (chain_cons (by simp) (by simp) (chain_filter (Value.chain hv))) ih fun a _ b hb => ?_
    simp only [List.head?_cons, Option.mem_def, Option.some.injEq] at hb
    subst hb
    exact nb_right (by simp)
  | import_ c n s w rest v hv _ ih =>
    refine .cons_cons (nb_right (by simp)) (.cons_cons (nb_right (by simp)) (.cons_cons ?_
      (chain_cons (by simp) (by simp) ih)))
    intro s' hs _
    cases hs
    exact ⟨w, hv⟩
  | exportDefault c ts v hv =>
    exact .cons_cons (nb_right (by simp)) (chain_cons (by simp) (by decide)
      (chain_filter (Value.chain hv)))
  | moduleExports c ts v hv =>
    exact .cons_cons (nb_right (by simp)) (.cons_cons (nb_right (by simp)) (.cons_cons
      (nb_right (by simp)) (chain_cons (by simp) (by simp) (chain_filter (Value.chain hv)))))
  | value c ts v hv => exact chain_filter (Value.chain hv)

theorem chain_infix {a b : Token} {ts : List Token} (h : ts.IsChain (Nb M)) (hi : [a, b] <:+: ts) :
    Nb M a b := by
  obtain ⟨l, r, rfl⟩ := hi
  have := (List.isChain_append.1 (List.isChain_append.1 h).1).2.1
  exact (List.isChain_cons_cons.1 this).1

/-- a module has a value only if the modules it names have -/
theorem Module.imports {c : Text → Option Val} {ts : List Token} {v : Val} (h : Module M c ts v)
    {s : Text} (hi : Imports ts s) : ∃ w, M s w := by
  rcases hi with hi | hi
  · exact chain_infix h.chain hi s rfl (.inr rfl)
  · exact chain_infix h.chain hi s rfl (.inl rfl)

end Grammar
end Nanvm
