import Verif.Spec.Grammar
import Mathlib.Data.List.Induction
/-! # Maps with text keys -/
namespace Nanvm
open Grammar

theorem textLt_iff (a b : Text) : textLt a b = true ↔ a < b := by
  induction a generalizing b with
  | nil => cases b <;> simp [textLt]
  | cons x xs ih =>
    cases b with
    | nil => simp [textLt]
    | cons y ys => simp [textLt, ih, List.cons_lt_cons_iff]

theorem text_lt_irrefl (a : Text) : ¬ a < a := List.lt_irrefl a

theorem text_lt_trans {a b c : Text} (h : a < b) (h' : b < c) : a < c := List.lt_trans h h'

theorem text_lt_of_not {a b : Text} (h : ¬ a < b) (h' : a ≠ b) : b < a := by
  have h1 := List.not_lt.mp h
  by_cases h2 : b < a
  · exact h2
  · exact absurd (List.le_antisymm (List.not_lt.mp h2) h1) h'

namespace TMap
variable {α : Type}

/-- the keys are in order -/
def Sorted (m : TMap α) : Prop := (List.map (·.1) m).Pairwise (· < ·)

theorem get_insert (m : TMap α) (k : Text) (v : α) (k' : Text) :
    (m.insert k v).get k' = if k' = k then some v else m.get k' := by
  induction m with
  | nil =>
    simp only [insert, get]
    by_cases h : k = k' <;> simp [h, eq_comm]
  | cons x m ih =>
    obtain ⟨x, w⟩ := x
    simp only [insert]
    split
    next h =>
      subst h
      simp only [get]
      by_cases h : k = k'
      · simp [h]
      · simp [h, Ne.symm h]
    next h =>
      split
      next h2 =>
        simp only [get]
        by_cases h : k = k'
        · simp [h]
        · simp [h, Ne.symm h]
      next h2 =>
        simp only [get, ih]
        by_cases h3 : x = k'
        · subst h3
          simp [Ne.symm h]
        · simp [h3]

theorem mem_keys_insert (m : TMap α) (k : Text) (v : α) (x : Text) :
    x ∈ List.map (·.1) (m.insert k v) ↔ x = k ∨ x ∈ List.map (·.1) m := by
  induction m with
  | nil => simp [insert]
  | cons y m ih =>
    obtain ⟨y, w⟩ := y
    simp only [insert]
    split
    next h => subst h; simp
    next h =>
      split
      next => simp
      next =>
        simp only [List.map_cons, List.mem_cons, ih]
        exact or_left_comm

theorem insert_sorted (m : TMap α) (k : Text) (v : α) (h : m.Sorted) : (m.insert k v).Sorted := by
  induction m with
  | nil => simp [insert, Sorted]
  | cons x m ih =>
    obtain ⟨x, w⟩ := x
    simp only [Sorted, List.map_cons, List.pairwise_cons] at h
    simp only [insert]
    split
    next he =>
      subst he
      simpa only [Sorted, List.map_cons, List.pairwise_cons] using h
    next he =>
      split
      next hl =>
        have hl := (textLt_iff _ _).1 hl
        simp only [Sorted, List.map_cons, List.pairwise_cons, List.mem_cons]
        refine ⟨?_, h⟩
        rintro a (rfl | ha)
        · exact hl
        · exact text_lt_trans hl (h.1 a ha)
      next hl =>
        have hl : x < k := text_lt_of_not (fun h => hl ((textLt_iff _ _).2 h)) he
        simp only [Sorted, List.map_cons, List.pairwise_cons]
        refine ⟨fun a ha => ?_, ih h.2⟩
        rcases (mem_keys_insert m k v a).1 ha with rfl | ha
        · exact hl
        · exact h.1 a ha

theorem mem_of_get {m : TMap α} {k : Text} {v : α} (h : m.get k = some v) : (k, v) ∈ m := by
  induction m with
  | nil => simp [get] at h
  | cons x m ih =>
    obtain ⟨x, w⟩ := x
    simp only [get] at h
    split at h
    next he => subst he; cases h; exact List.mem_cons_self
    next => exact List.mem_cons_of_mem _ (ih h)

theorem get_of_mem {m : TMap α} (hs : m.Sorted) {k : Text} {v : α} (h : (k, v) ∈ m) :
    m.get k = some v := by
  induction m with
  | nil => simp at h
  | cons x m ih =>
    obtain ⟨x, w⟩ := x
    simp only [Sorted, List.map_cons, List.pairwise_cons] at hs
    simp only [get]
    rcases List.mem_cons.1 h with h | h
    · cases h; simp
    · have : x ≠ k := by
        rintro rfl
        exact text_lt_irrefl _ (hs.1 x (List.mem_map.2 ⟨_, h, rfl⟩))
      rw [if_neg this]
      exact ih hs.2 h

theorem mem_iff {m : TMap α} (hs : m.Sorted) (k : Text) (v : α) : (k, v) ∈ m ↔ m.get k = some v :=
  ⟨get_of_mem hs, mem_of_get⟩

/-- inserting all pairs in turn -/
def ofPairs (pairs : List (Text × α)) : TMap α :=
  pairs.foldl (fun m kv => m.insert kv.1 kv.2) []

theorem ofPairs_snoc (pairs : List (Text × α)) (k : Text) (v : α) :
    ofPairs (pairs ++ [(k, v)]) = (ofPairs pairs).insert k v := by
  simp [ofPairs]

end TMap

theorem lastOf_snoc {α : Type} (pairs : List (Text × α)) (k : Text) (v : α) (k' : Text) (v' : α) :
    LastOf (pairs ++ [(k, v)]) k' v' ↔ (k' = k ∧ v' = v) ∨ (k' ≠ k ∧ LastOf pairs k' v') := by
  constructor
  · rintro ⟨a, b, he, hb⟩
    rcases List.eq_nil_or_concat b with rfl | ⟨b, x, rfl⟩
    · have := List.append_inj' he rfl
      simp only [List.cons.injEq, Prod.mk.injEq, and_true] at this
      exact .inl ⟨this.2.1.symm, this.2.2.symm⟩
    · rw [List.concat_eq_append, ← List.cons_append, ← List.append_assoc] at he
      simp only [List.concat_eq_append] at hb
      have := List.append_inj' he rfl
      simp only [List.cons.injEq, and_true] at this
      refine .inr ⟨?_, a, b, this.1, fun x hx => hb x (List.mem_append_left _ hx)⟩
      have h2 := hb x (by simp)
      rw [← this.2] at h2
      exact fun h => h2 h.symm
  · rintro (⟨rfl, rfl⟩ | ⟨hne, a, b, rfl, hb⟩)
    · exact ⟨pairs, [], rfl, by simp⟩
    · refine ⟨a, b ++ [(k, v)], by simp, ?_⟩
      intro x hx
      rcases List.mem_append.1 hx with hx | hx
      · exact hb x hx
      · simp only [List.mem_singleton] at hx
        subst hx
        exact fun h => hne h.symm

theorem TMap.keyed_ofPairs {α : Type} (pairs : List (Text × α)) : Keyed pairs (TMap.ofPairs pairs) := by
  suffices h : TMap.Sorted (TMap.ofPairs pairs) ∧
      ∀ k v, (TMap.ofPairs pairs).get k = some v ↔ LastOf pairs k v from
    ⟨h.1, fun k v => (TMap.mem_iff h.1 k v).trans (h.2 k v)⟩
  induction pairs using List.reverseRecOn with
  | nil =>
    refine ⟨List.Pairwise.nil, fun k v => ?_⟩
    simp only [ofPairs, List.foldl_nil, get, reduceCtorEq, LastOf, false_iff]
    rintro ⟨a, b, h, -⟩
    simp at h
  | append_singleton pairs x ih =>
    obtain ⟨k, v⟩ := x
    rw [ofPairs_snoc]
    refine ⟨insert_sorted _ _ _ ih.1, fun k' v' => ?_⟩
    rw [get_insert, lastOf_snoc]
    by_cases h : k' = k
    · simp [h, eq_comm]
    · simp [h, ih.2]

end Nanvm
