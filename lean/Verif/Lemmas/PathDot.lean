import Verif.Lemmas.Path
import Mathlib.Data.List.Induction
/-! Paths with `.` segments, which `normalize` takes for names. -/
namespace Nanvm.Path
open PathSpec

theorem intercalate_join : ∀ l : List Text, ['/'].intercalate l = joinSlash l
  | [] => rfl
  | [s] => by simp [List.intercalate, joinSlash]
  | s :: t :: ts => by
    have := intercalate_join (t :: ts)
    unfold joinSlash
    rw [← this]
    simp [List.intercalate, List.intersperse]

theorem join_split (p : Text) : joinSlash (splitSlash p) = p := by
  induction p with
  | nil => rfl
  | cons c cs ih =>
    unfold splitSlash
    split
    · rename_i h
      subst h
      cases hs : splitSlash cs with
      | nil => exact absurd hs (splitSlash_ne cs)
      | cons s ss =>
        rw [hs] at ih
        show [] ++ '/' :: joinSlash (s :: ss) = _
        rw [ih]; rfl
    · split
      · rename_i h; exact absurd h (splitSlash_ne cs)
      · rename_i s ss hs
        rw [hs] at ih
        rw [← ih]
        cases ss <;> rfl

theorem segments_iff {p : Text} {segs : List Text} : Segments p segs ↔ splitSlash p = segs := by
  constructor
  · rintro ⟨h1, h2, rfl⟩
    rw [intercalate_join, splitSlash_join h1 h2]
  · rintro rfl
    exact ⟨splitSlash_ne p, splitSlash_noSlash p, by rw [intercalate_join, join_split]⟩

/-- `..` meets a `.` -/
def Cancel (ps : List Text) : Prop :=
  ∃ q r R, ps = q ++ [['.', '.']] ++ r ∧ q.foldl normStep [] = R ++ [['.']]

theorem normStep_up (R : List Text) (x : Text) : normStep (R ++ [x]) ['.', '.'] =
    if x ≠ ['.', '.'] then R else R ++ [x] ++ [['.', '.']] := by
  unfold normStep
  rw [if_neg (by decide), if_pos rfl, List.getLast?_append]
  simp only [List.getLast?_singleton, Option.some_or, List.dropLast_concat]

theorem normStep_up_nil : normStep [] ['.', '.'] = [['.', '.']] := rfl

theorem normStep_name (R : List Text) {x : Text} (h1 : x ≠ []) (h2 : x ≠ ['.', '.']) :
    normStep R x = R ++ [x] := by
  unfold normStep
  rw [if_neg h1, if_neg h2]

theorem names_append (a b : List Text) : names (a ++ b) = names a + names b := List.countP_append
theorem ups_append (a b : List Text) : ups (a ++ b) = ups a + ups b := List.countP_append

theorem trace_back (ps : List Text) : ∀ (R0 : List Text) (x : Text) (T : List Text),
    ps.foldl normStep [] = R0 ++ [x] ++ T → x ≠ ['.', '.'] →
    (∃ a b, ps = a ++ [x] ++ b ∧ names b = ups b + T.length) ∧ ∀ t ∈ T, t ≠ ['.', '.'] := by
  induction ps using List.reverseRecOn with
  | nil => intro R0 x T h; simp at h
  | append_singleton qs d ih =>
    intro R0 x T h hx
    rw [List.foldl_append] at h
    change normStep (qs.foldl normStep []) d = _ at h
    by_cases hd : d = []
    · subst hd
      change qs.foldl normStep [] = _ at h
      obtain ⟨⟨a, b, h1, h2⟩, h3⟩ := ih R0 x T h hx
      refine ⟨⟨a, b ++ [[]], by rw [h1]; simp, ?_⟩, h3⟩
      rw [names_append, ups_append, h2]
      simp [names, ups]
    by_cases hu : d = ['.', '.']
    · subst hu
      rcases List.eq_nil_or_concat (qs.foldl normStep []) with e | ⟨R', y, e⟩
      · rw [e, normStep_up_nil] at h
        exfalso
        have : R0 = [] ∧ T = [] := by
          have := congrArg List.length h
          simp at this
          exact ⟨List.length_eq_zero_iff.1 (by omega), List.length_eq_zero_iff.1 (by omega)⟩
        rw [this.1, this.2] at h
        simp at h
        exact hx h.symm
      · rw [List.concat_eq_append] at e
        rw [e, normStep_up] at h
        split at h
        · obtain ⟨⟨a, b, h1, h2⟩, h3⟩ := ih R0 x (T ++ [y]) (by rw [e, h]; simp) hx
          refine ⟨⟨a, b ++ [['.', '.']], by rw [h1]; simp, ?_⟩, fun t ht => h3 t (by simp [ht])⟩
          rw [names_append, ups_append, h2]
          simp [names, ups]; omega
        · rename_i hy
          push Not at hy
          exfalso
          rcases List.eq_nil_or_concat T with rfl | ⟨T', z, rfl⟩
          · rw [List.append_nil] at h
            exact hx ((List.append_inj' h rfl).2 |> fun h => (by simpa using h.symm))
          · rw [List.concat_eq_append, ← List.append_assoc] at h
            have h' := (List.append_inj' h rfl).1
            obtain ⟨-, h3⟩ := ih R0 x T' (by rw [e, h']) hx
            rcases List.eq_nil_or_concat T' with rfl | ⟨T2, z2, rfl⟩
            · rw [List.append_nil] at h'
              exact hx ((List.append_inj' h' rfl).2 |> fun h => (by rw [← hy]; simpa using h.symm))
            · rw [List.concat_eq_append, ← List.append_assoc] at h'
              have : y = z2 := by simpa using (List.append_inj' h' rfl).2
              exact h3 z2 (by simp) (by rw [← this, hy])
    · rw [normStep_name _ hd hu] at h
      rcases List.eq_nil_or_concat T with rfl | ⟨T', z, rfl⟩
      · rw [List.append_nil] at h
        have : d = x := by simpa using (List.append_inj' h rfl).2
        subst this
        exact ⟨⟨qs, [], by simp, by simp [names, ups]⟩, by simp⟩
      · rw [List.concat_eq_append, ← List.append_assoc] at h
        have hz : d = z := by simpa using (List.append_inj' h rfl).2
        subst hz
        obtain ⟨⟨a, b, h1, h2⟩, h3⟩ := ih R0 x T' (List.append_inj' h rfl).1 hx
        refine ⟨⟨a, b ++ [d], by rw [h1]; simp, ?_⟩, ?_⟩
        · rw [names_append, ups_append, h2]
          simp [names, ups, hd, hu]; omega
        · intro t ht
          rw [List.concat_eq_append] at ht
          rcases List.mem_append.1 ht with ht | ht
          · exact h3 t ht
          · rw [List.mem_singleton.1 ht]; exact hu

theorem meets (b : List Text) : ∀ (q R T : List Text), q.foldl normStep [] = R ++ [['.']] ++ T →
    (∀ t ∈ T, t ≠ ['.', '.']) → names b + T.length < ups b → Cancel (q ++ b) := by
  induction b with
  | nil => intro q R T _ _ h; simp [ups] at h
  | cons d b ih =>
    intro q R T h ht hn
    have app : q ++ d :: b = q ++ [d] ++ b := by simp
    have ef : (q ++ [d]).foldl normStep [] = normStep (q.foldl normStep []) d := by simp
    by_cases hd : d = []
    · subst hd
      rw [app]
      refine ih (q ++ [[]]) R T (by rw [ef, h]; rfl) ht ?_
      simpa [names, ups] using hn
    by_cases hu : d = ['.', '.']
    · subst hu
      rcases List.eq_nil_or_concat T with rfl | ⟨T', y, rfl⟩
      · exact ⟨q, b, R, by simp, by simpa using h⟩
      · rw [List.concat_eq_append] at *
        rw [app]
        refine ih (q ++ [['.', '.']]) R T' ?_ (fun t h => ht t (by simp [h])) ?_
        · rw [ef, h, ← List.append_assoc, normStep_up, if_pos (ht y (by simp))]
        · simp [names, ups] at hn ⊢; omega
    · rw [app]
      refine ih (q ++ [d]) R (T ++ [d]) ?_ ?_ ?_
      · rw [ef, h, normStep_name _ hd hu]; simp
      · intro t h
        rcases List.mem_append.1 h with h | h
        · exact ht t h
        · rw [List.mem_singleton.1 h]; exact hu
      · simp [names, ups, hd, hu] at hn ⊢; omega

theorem cancel_append {a : List Text} (h : Cancel a) (b : List Text) : Cancel (a ++ b) := by
  obtain ⟨q, r, R, h1, h2⟩ := h
  exact ⟨q, r ++ b, R, by rw [h1]; simp, h2⟩

theorem cancel_iff (segs : List Text) :
    Cancel segs ↔ ∃ a b c, segs = a ++ [['.']] ++ b ++ c ∧ names b < ups b := by
  constructor
  · rintro ⟨q, r, R, h1, h2⟩
    obtain ⟨⟨a, b, h3, h4⟩, -⟩ := trace_back q R ['.'] [] (by simpa using h2) (by decide)
    refine ⟨a, b ++ [['.', '.']], r, by rw [h1, h3]; simp, ?_⟩
    rw [names_append, ups_append, h4]
    simp [names, ups]
  · rintro ⟨a, b, c, rfl, h⟩
    refine cancel_append (meets b (a ++ [['.']]) (a.foldl normStep []) [] ?_ (by simp) (by simpa using h)) c
    rw [List.foldl_append, List.append_nil]
    exact normStep_name _ (x := ['.']) (by decide) (by decide)

theorem dotUndone_iff (p : Text) : DotUndone p ↔ Cancel (splitSlash p) := by
  rw [cancel_iff]
  unfold DotUndone
  simp only [segments_iff]

/-- one iteration, unless `..` meets `.` -/
theorem step_normStep (cwd : Place) {l : List Text} (d : Text) (hnil : [] ∉ l)
    (hc : ¬ (d = ['.', '.'] ∧ ∃ R, l = R ++ [['.']])) :
    (normStep l d).foldl step cwd = step (l.foldl step cwd) d := by
  by_cases hd : d = []
  · subst hd; rw [step_nil]; rfl
  by_cases hu : d = ['.', '.']
  · subst hu
    rcases List.eq_nil_or_concat l with rfl | ⟨R, x, rfl⟩
    · rfl
    · rw [List.concat_eq_append] at *
      rw [normStep_up]
      split
      · rename_i hx
        have h1 : x ≠ ['.'] := fun e => hc ⟨rfl, R, by rw [e]⟩
        have h2 : x ≠ [] := fun e => hnil (by simp [e])
        rw [List.foldl_append]
        simp only [List.foldl_cons, List.foldl_nil]
        generalize List.foldl step cwd R = c
        unfold step
        rw [if_neg (by decide), if_pos rfl, if_neg (by tauto), if_neg hx]; rfl
      · simp
  · rw [normStep_name _ hd hu]; simp

theorem foldl_nil_mem (ps : List Text) : [] ∉ ps.foldl normStep [] := by
  induction ps using List.reverseRecOn with
  | nil => simp
  | append_singleton qs d ih =>
    rw [List.foldl_append]
    exact fun h => ih (normStep_nil_mem h)

theorem same_place (cwd : Place) (ps : List Text) (h : ¬ Cancel ps) :
    (ps.foldl normStep []).foldl step cwd = ps.foldl step cwd := by
  induction ps using List.reverseRecOn with
  | nil => rfl
  | append_singleton qs d ih =>
    have h' : ¬ Cancel qs := fun hc => h (cancel_append hc _)
    rw [List.foldl_append, List.foldl_append, List.foldl_cons, List.foldl_nil, List.foldl_cons,
      List.foldl_nil, step_normStep cwd d (foldl_nil_mem qs), ih h']
    rintro ⟨rfl, R, hR⟩
    exact h ⟨qs, [], R, by simp, hR⟩

/-- after `..` met `.` the place found is deeper than the place named -/
theorem deeper (cwd : Place) (ps : List Text) (hl : ps.length ≤ cwd.length) :
    cwd.length ≤ (ps.foldl step cwd).length + ps.length ∧
    (ps.foldl step cwd).length ≤ ((ps.foldl normStep []).foldl step cwd).length ∧
    (Cancel ps → (ps.foldl step cwd).length < ((ps.foldl normStep []).foldl step cwd).length) := by
  induction ps using List.reverseRecOn with
  | nil =>
    refine ⟨by simp, by simp, ?_⟩
    rintro ⟨q, r, R, h, -⟩
    simp at h
  | append_singleton qs d ih =>
    rw [List.length_append] at hl
    simp only [List.length_cons, List.length_nil] at hl
    obtain ⟨h1, h2, h3⟩ := ih (by omega)
    have hcase : Cancel (qs ++ [d]) → Cancel qs ∨ (d = ['.', '.'] ∧ ∃ R, qs.foldl normStep [] = R ++ [['.']]) := by
      rintro ⟨q, r, R, e1, e2⟩
      rcases List.eq_nil_or_concat r with rfl | ⟨r', z, rfl⟩
      · rw [List.append_nil] at e1
        obtain ⟨e3, e4⟩ := List.append_inj' e1 rfl
        refine .inr ⟨by simpa using e4, R, by rw [e3, e2]⟩
      · rw [List.concat_eq_append, ← List.append_assoc] at e1
        exact .inl ⟨q, r', R, (List.append_inj' e1 rfl).1, e2⟩
    rw [List.foldl_append, List.foldl_append, List.foldl_cons, List.foldl_nil, List.foldl_cons,
      List.foldl_nil, List.length_append]
    simp only [List.length_cons, List.length_nil]
    by_cases hm : d = ['.', '.'] ∧ ∃ R, qs.foldl normStep [] = R ++ [['.']]
    · obtain ⟨rfl, R, hR⟩ := hm
      have e1 : (normStep (qs.foldl normStep []) ['.', '.']).foldl step cwd =
          (qs.foldl normStep []).foldl step cwd := by
        rw [hR, normStep_up, if_pos (by decide), List.foldl_append]
        simp [step]
      have e2 : (step (qs.foldl step cwd) ['.', '.']).length = (qs.foldl step cwd).length - 1 := by
        simp [step]
      rw [e1, e2]
      refine ⟨by omega, by omega, fun _ => by omega⟩
    · rw [step_normStep cwd d (foldl_nil_mem qs) hm]
      have key : ∀ c : Place, (step c d).length = if d = [] ∨ d = ['.'] then c.length
          else if d = ['.', '.'] then c.length - 1 else c.length + 1 := by
        intro c; unfold step
        split
        · rfl
        · split <;> simp
      rw [key, key]
      refine ⟨by split <;> [omega; (split <;> omega)], by split <;> [omega; (split <;> omega)], ?_⟩
      intro hc
      rcases hcase hc with hc | hc
      · have := h3 hc
        split <;> [omega; (split <;> omega)]
      · exact absurd hc hm

theorem place_le (ps : List Text) : ∀ cwd : Place, (ps.foldl step cwd).length ≤ cwd.length + ps.length := by
  induction ps with
  | nil => intro c; simp
  | cons d ps ih =>
    intro c
    rw [List.foldl_cons]
    have := ih (step c d)
    have h2 : (step c d).length ≤ c.length + 1 := by
      unfold step
      split
      · omega
      · split
        · rw [List.length_tail]; omega
        · simp
    simp only [List.length_cons]; omega

end Nanvm.Path
