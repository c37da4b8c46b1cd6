import Verif.Model.Path
import Verif.Spec.Path
import Mathlib.Tactic.Common
namespace Nanvm.Path
open PathSpec

theorem splitSlash_ne (p : Text) : splitSlash p ≠ [] := by
  cases p with
  | nil => simp [splitSlash]
  | cons c cs =>
    unfold splitSlash; split
    · simp
    · split <;> simp

theorem splitSlash_noSlash (p : Text) : ∀ s ∈ splitSlash p, '/' ∉ s := by
  induction p with
  | nil => simp [splitSlash]
  | cons c cs ih =>
    unfold splitSlash; split
    · intro s hs
      rcases List.mem_cons.1 hs with rfl | hs
      · simp
      · exact ih s hs
    · rename_i hc
      split
      · rename_i he; exact absurd he (splitSlash_ne cs)
      · rename_i t ts he
        intro s hs
        rw [he] at ih
        rcases List.mem_cons.1 hs with rfl | hs
        · intro hm
          rcases List.mem_cons.1 hm with rfl | hm
          · exact hc rfl
          · exact ih t (by simp) hm
        · exact ih s (by simp [hs])

theorem splitSlash_of_noSlash {s : Text} (h : '/' ∉ s) : splitSlash s = [s] := by
  induction s with
  | nil => rfl
  | cons c cs ih =>
    rw [List.mem_cons, not_or] at h
    unfold splitSlash
    rw [if_neg (fun e => h.1 e.symm), ih h.2]

theorem splitSlash_append {s : Text} (h : '/' ∉ s) (t : Text) :
    splitSlash (s ++ '/' :: t) = s :: splitSlash t := by
  induction s with
  | nil => simp [splitSlash]
  | cons c cs ih =>
    rw [List.mem_cons, not_or] at h
    rw [List.cons_append]
    conv => lhs; unfold splitSlash
    rw [if_neg (fun e => h.1 e.symm), ih h.2]

theorem splitSlash_append' (a b : Text) :
    splitSlash (a ++ '/' :: b) = splitSlash a ++ splitSlash b := by
  induction a with
  | nil => simp [splitSlash]
  | cons c cs ih =>
    rw [List.cons_append]
    conv => lhs; unfold splitSlash
    conv => rhs; arg 1; unfold splitSlash
    rw [ih]
    split
    · rfl
    · cases h : splitSlash cs with
      | nil => exact absurd h (splitSlash_ne cs)
      | cons s ss => rfl

theorem splitSlash_join {l : List Text} (hne : l ≠ []) (h : ∀ s ∈ l, '/' ∉ s) :
    splitSlash (joinSlash l) = l := by
  induction l with
  | nil => exact absurd rfl hne
  | cons s ss ih =>
    cases ss with
    | nil => exact splitSlash_of_noSlash (h s (by simp))
    | cons t ts =>
      show splitSlash (s ++ '/' :: joinSlash (t :: ts)) = _
      rw [splitSlash_append (h s (by simp)), ih (by simp) (fun u hu => h u (by simp [hu]))]

/-- normal form of a segment list: `..`* then proper names -/
def NF (l : List Text) : Prop :=
  ∃ n names, l = List.replicate n ['.', '.'] ++ names ∧
    (∀ s ∈ names, s ≠ [] ∧ s ≠ ['.', '.']) ∧ ∀ s ∈ names, '/' ∉ s

theorem NF.noSlash {l : List Text} (h : NF l) : ∀ s ∈ l, '/' ∉ s := by
  obtain ⟨n, names, rfl, -, h2⟩ := h
  intro s hs
  rcases List.mem_append.1 hs with hs | hs
  · rw [List.eq_of_mem_replicate hs]; decide
  · exact h2 s hs

theorem NF.ne_nil {l : List Text} (h : NF l) : ∀ s ∈ l, s ≠ [] := by
  obtain ⟨n, names, rfl, h1, -⟩ := h
  intro s hs
  rcases List.mem_append.1 hs with hs | hs
  · rw [List.eq_of_mem_replicate hs]; decide
  · exact (h1 s hs).1

theorem normStep_nf {l : List Text} (h : NF l) {d : Text} (hd : '/' ∉ d) : NF (normStep l d) := by
  obtain ⟨n, names, rfl, h1, h2⟩ := h
  unfold normStep
  split
  · exact ⟨n, names, rfl, h1, h2⟩
  split
  · rename_i hdd
    rcases List.eq_nil_or_concat names with rfl | ⟨init, x, rfl⟩
    · rw [List.append_nil]
      have : List.replicate n ['.', '.'] ++ [d] = List.replicate (n + 1) ['.', '.'] := by
        rw [hdd, List.replicate_succ']
      cases n with
      | zero => exact ⟨1, [], by simp [hdd], by simp, by simp⟩
      | succ n =>
        rw [List.replicate_succ', List.getLast?_append]
        simp only [List.getLast?_singleton, Option.some_or, ne_eq, not_true_eq_false, if_false]
        rw [← List.replicate_succ', this]
        exact ⟨n + 2, [], by simp, by simp, by simp⟩
    · have hx := h1 x (by simp)
      rw [List.concat_eq_append, ← List.append_assoc, List.getLast?_append]
      simp only [List.getLast?_singleton, Option.some_or]
      rw [if_pos hx.2, List.dropLast_concat]
      exact ⟨n, init, rfl, fun s hs => h1 s (by simp [hs]), fun s hs => h2 s (by simp [hs])⟩
  · rename_i hd1 hd2
    refine ⟨n, names ++ [d], by simp, ?_, ?_⟩
    · intro s hs
      rcases List.mem_append.1 hs with hs | hs
      · exact h1 s hs
      · rw [List.mem_singleton.1 hs]; exact ⟨hd1, hd2⟩
    · intro s hs
      rcases List.mem_append.1 hs with hs | hs
      · exact h2 s hs
      · rw [List.mem_singleton.1 hs]; exact hd

theorem foldl_nf {l : List Text} (h : NF l) (ds : List Text) (hd : ∀ d ∈ ds, '/' ∉ d) :
    NF (ds.foldl normStep l) := by
  induction ds generalizing l with
  | nil => exact h
  | cons d ds ih =>
    exact ih (normStep_nf h (hd d (by simp))) (fun e he => hd e (by simp [he]))

theorem nf_nil : NF [] := ⟨0, [], rfl, by simp, by simp⟩

theorem normSegs_nf (p : Text) : NF ((splitSlash p).foldl normStep []) :=
  foldl_nf nf_nil _ (splitSlash_noSlash p)

/-- pushing the segments of a normal form reproduces it -/
theorem foldl_of_nf {l : List Text} (h : NF l) : l.foldl normStep [] = l := by
  obtain ⟨n, names, rfl, h1, -⟩ := h
  have e1 : (List.replicate n ['.', '.']).foldl normStep [] = List.replicate n ['.', '.'] := by
    induction n with
    | zero => rfl
    | succ n ih =>
      rw [List.replicate_succ', List.foldl_append, ih]
      show normStep (List.replicate n ['.', '.']) ['.', '.'] = _
      unfold normStep
      rw [if_neg (by decide), if_pos rfl]
      cases n with
      | zero => rfl
      | succ n =>
        rw [List.replicate_succ', List.getLast?_append]
        simp
  have e2 : ∀ (names : List Text) (r : List Text), (∀ s ∈ names, s ≠ [] ∧ s ≠ ['.', '.']) →
      names.foldl normStep r = r ++ names := by
    intro names
    induction names with
    | nil => simp
    | cons s ss ih =>
      intro r h1
      have hs := h1 s (by simp)
      rw [List.foldl_cons, ih _ (fun t ht => h1 t (by simp [ht]))]
      unfold normStep
      rw [if_neg hs.1, if_neg hs.2]; simp
  rw [List.foldl_append, e1, e2 _ _ h1]

/-- segments of a normalized path -/
theorem splitSlash_normalize (p : Text) :
    splitSlash (normalize p) = (splitSlash p).foldl normStep [] ∨
    (normalize p = [] ∧ (splitSlash p).foldl normStep [] = []) := by
  unfold normalize
  have h := normSegs_nf p
  generalize (splitSlash p).foldl normStep [] = l at *
  cases l with
  | nil => exact Or.inr ⟨rfl, rfl⟩
  | cons s ss => exact Or.inl (splitSlash_join (by simp) h.noSlash)

/-! ### the specification by segments -/

theorem walk_eq (p seg : List Char) (cur : Place) (hs : '/' ∉ seg) :
    walk cur seg p = (splitSlash (seg.reverse ++ p)).foldl step cur := by
  induction p generalizing seg cur with
  | nil => rw [List.append_nil, splitSlash_of_noSlash (by simpa using hs)]; rfl
  | cons c cs ih =>
    by_cases hc : c = '/'
    · subst hc
      rw [splitSlash_append (by simpa using hs)]
      show walk (step cur seg.reverse) [] cs = _
      rw [ih [] _ (by simp)]; rfl
    · have : walk cur seg (c :: cs) = walk cur (c :: seg) cs := by
        conv => lhs; unfold walk
        split
        · rename_i h; cases h
        · rename_i h; cases h; exact absurd rfl hc
        · rename_i h; cases h; rfl
      rw [this, ih (c :: seg) cur (by
        intro h; rcases List.mem_cons.1 h with h | h
        · exact hc h.symm
        · exact hs h)]
      simp

theorem locate_rel (cwd : Place) {p : Text} (h : p.head? ≠ some '/') :
    locate cwd p = (splitSlash p).foldl step cwd := by
  unfold locate
  split
  · simp at h
  · rw [walk_eq _ _ _ (by simp)]; rfl

theorem locate_abs (cwd : Place) (p : Text) :
    locate cwd ('/' :: p) = (splitSlash p).foldl step [] := by
  show walk [] [] p = _
  rw [walk_eq _ _ _ (by simp)]; rfl

theorem step_nil (c : Place) : step c [] = c := by simp [step]

/-- one loop iteration keeps the place -/
theorem foldl_step_normStep (cwd : Place) {l : List Text} (d : Text)
    (hdot : ['.'] ∉ l) (hnil : [] ∉ l) :
    (normStep l d).foldl step cwd = step (l.foldl step cwd) d := by
  unfold normStep
  split
  · rename_i h; rw [h, step_nil]
  split
  · rename_i h
    subst h
    rcases List.eq_nil_or_concat l with rfl | ⟨init, x, rfl⟩
    · rfl
    · rw [List.concat_eq_append] at *
      rw [List.getLast?_append]
      simp only [List.getLast?_singleton, Option.some_or]
      split
      · rename_i hx
        rw [List.dropLast_concat, List.foldl_append]
        simp only [List.foldl_cons, List.foldl_nil]
        have h1 : x ≠ ['.'] := fun e => hdot (by simp [e])
        have h2 : x ≠ [] := fun e => hnil (by simp [e])
        generalize List.foldl step cwd init = c
        unfold step
        rw [if_neg (by decide), if_pos rfl, if_neg (by tauto), if_neg hx]; rfl
      · rw [List.foldl_append]; rfl
  · rw [List.foldl_append]; rfl

theorem normStep_mem {l : List Text} {d s : Text} (h : s ∈ normStep l d) : s ∈ l ∨ s = d := by
  unfold normStep at h
  split at h
  · exact Or.inl h
  split at h
  · split at h
    · split at h
      · exact Or.inl (List.dropLast_subset _ h)
      · simpa using h
    · simpa using h
  · simpa using h

theorem normStep_nil_mem {l : List Text} {d : Text} (h : [] ∈ normStep l d) : [] ∈ l := by
  rcases normStep_mem h with h' | h'
  · exact h'
  · unfold normStep at h
    rw [if_pos h'.symm] at h
    exact h

theorem foldl_step_fold (cwd : Place) (ds l : List Text) (hl : ['.'] ∉ l) (hn : [] ∉ l)
    (hd : ['.'] ∉ ds) :
    (ds.foldl normStep l).foldl step cwd = ds.foldl step (l.foldl step cwd) := by
  induction ds generalizing l with
  | nil => rfl
  | cons d ds ih =>
    rw [List.foldl_cons, List.foldl_cons, ← foldl_step_normStep cwd d hl hn]
    apply ih
    · intro h
      rcases normStep_mem h with h | h
      · exact hl h
      · exact hd (by simp [h])
    · exact fun h => hn (normStep_nil_mem h)
    · exact fun h => hd (by simp [h])

/-- segments, seen from outside -/
theorem mem_splitSlash (s p : Text) : s ∈ splitSlash p ↔ HasSegment s p := by
  constructor
  · intro h
    refine ⟨splitSlash_noSlash p s h, ?_⟩
    induction p generalizing s with
    | nil =>
      simp only [splitSlash, List.mem_singleton] at h
      exact ⟨[], [], by simp [h]⟩
    | cons c cs ih =>
      by_cases hc : c = '/'
      · subst hc
        have e : splitSlash ('/' :: cs) = [] :: splitSlash cs := by simp [splitSlash]
        rw [e] at h
        rcases List.mem_cons.1 h with rfl | h
        · exact ⟨[], '/' :: cs, by simp⟩
        · obtain ⟨a, b, e, h1, h2⟩ := ih s h
          refine ⟨'/' :: a, b, by rw [e]; simp, Or.inr ?_, h2⟩
          rcases h1 with rfl | h1
          · rfl
          · cases a with
            | nil => rfl
            | cons x xs => rw [List.getLast?_cons_cons]; exact h1
      · cases hcs : splitSlash cs with
        | nil => exact absurd hcs (splitSlash_ne cs)
        | cons t ts =>
          have e : splitSlash (c :: cs) = (c :: t) :: ts := by
            conv => lhs; unfold splitSlash
            rw [if_neg hc, hcs]
          rw [e] at h
          rcases List.mem_cons.1 h with rfl | h
          · -- first segment
            clear h e ih
            refine ⟨[], cs.drop t.length, ?_, Or.inl rfl, ?_⟩
            all_goals
              have key : ∀ (q t : Text) ts, splitSlash q = t :: ts →
                  q = t ++ q.drop t.length ∧ (q.drop t.length = [] ∨ (q.drop t.length).head? = some '/') := by
                intro q
                induction q with
                | nil => intro t ts h; simp [splitSlash] at h; simp [← h.1]
                | cons x xs ih =>
                  intro t ts h
                  unfold splitSlash at h
                  split at h
                  · rename_i hx
                    rw [← (List.cons.inj h).1]; simp [hx]
                  · split at h
                    · rename_i he; exact absurd he (splitSlash_ne xs)
                    · rename_i u us he
                      rw [← (List.cons.inj h).1]
                      have := ih u us he
                      simp only [List.length_cons, List.drop_succ_cons, List.cons_append]
                      exact ⟨by rw [← this.1], this.2⟩
              have := key cs t ts hcs
              first
                | exact this.2
                | (rw [List.nil_append, List.cons_append, ← this.1])
          · -- a later segment: the part of the text after the first slash
            have key : ∀ (q t : Text) ts, splitSlash q = t :: ts → s ∈ ts →
                ∃ a b, q = a ++ s ++ b ∧ a.getLast? = some '/' ∧ (b = [] ∨ b.head? = some '/') := by
              intro q t ts hq hs
              have hj : q = joinSlash (t :: ts) := by
                clear hs
                induction q generalizing t ts with
                | nil => simp [splitSlash] at hq; simp [hq.1, hq.2, joinSlash]
                | cons x xs ih =>
                  unfold splitSlash at hq
                  split at hq
                  · rename_i hx
                    obtain ⟨h1, h2⟩ := List.cons.inj hq
                    cases hts : ts with
                    | nil => rw [hts] at h2; exact absurd h2 (splitSlash_ne xs)
                    | cons u us =>
                      show x :: xs = t ++ '/' :: joinSlash (u :: us)
                      rw [← h1, hx, List.nil_append, ← ih u us (by rw [h2, hts])]
                  · split at hq
                    · rename_i he; exact absurd he (splitSlash_ne xs)
                    · rename_i u us he
                      obtain ⟨h1, h2⟩ := List.cons.inj hq
                      subst h1 h2
                      have := ih u us he
                      rw [this]
                      cases us <;> rfl
              rw [hj]
              clear hj hq
              induction ts generalizing t with
              | nil => cases hs
              | cons u us ih =>
                rcases List.mem_cons.1 hs with rfl | hs
                · cases us with
                  | nil => exact ⟨t ++ ['/'], [], by simp [joinSlash], by simp, Or.inl rfl⟩
                  | cons v vs =>
                    exact ⟨t ++ ['/'], '/' :: joinSlash (v :: vs), by simp [joinSlash], by simp,
                      Or.inr rfl⟩
                · obtain ⟨a, b, e, h1, h2⟩ := ih u hs
                  refine ⟨t ++ '/' :: a, b, ?_, ?_, h2⟩
                  · show t ++ '/' :: joinSlash (u :: us) = _
                    rw [e]; simp
                  · rw [List.getLast?_append, List.getLast?_cons, h1]; rfl
            obtain ⟨a, b, e, h1, h2⟩ := key cs t ts hcs h
            refine ⟨c :: a, b, by rw [e]; simp, Or.inr ?_, h2⟩
            rw [List.getLast?_cons, h1]; rfl
  · rintro ⟨hs, a, b, rfl, ha, hb⟩
    have hsb : s ∈ splitSlash (s ++ b) := by
      rcases hb with rfl | hb
      · rw [List.append_nil, splitSlash_of_noSlash hs]; simp
      · cases b with
        | nil => cases hb
        | cons x xs =>
          simp only [List.head?_cons, Option.some.injEq] at hb
          subst hb
          rw [splitSlash_append hs]; simp
    rcases ha with rfl | ha
    · exact hsb
    · rcases List.eq_nil_or_concat a with rfl | ⟨init, x, rfl⟩
      · cases ha
      · rw [List.concat_eq_append] at *
        simp only [List.getLast?_append, List.getLast?_singleton, Option.some_or,
          Option.some.injEq] at ha
        subst ha
        have : init ++ ['/'] ++ s ++ b = init ++ '/' :: (s ++ b) := by simp
        rw [this, splitSlash_append']
        exact List.mem_append_right _ hsb

end Nanvm.Path
