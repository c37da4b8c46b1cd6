import Verif.Lemmas.PathDot
/-! # C48, C49: path normalization -/
namespace Nanvm
open Path PathSpec

/-! ## C48 -/

/-- Normalizing twice is the same as normalizing once. -/
theorem C48_normalize_idempotent (p : Text) : normalize (normalize p) = normalize p := by
  rcases splitSlash_normalize p with h | ⟨h, -⟩
  · unfold normalize at h
    conv => lhs; unfold normalize
    unfold normalize
    rw [h, foldl_of_nf (normSegs_nf p)]
  · rw [h]; rfl

/-- `concat` returns a normalized path. -/
theorem C48_concat_normalized (a b : Text) : normalize (concat a b) = concat a b :=
  C48_normalize_idempotent _

/-- A non-empty normalized path has no empty segment. -/
theorem C48_no_empty_segment (p : Text) (h : normalize p ≠ []) : ¬ HasSegment [] (normalize p) := by
  rw [← mem_splitSlash]
  rcases splitSlash_normalize p with e | ⟨e, -⟩
  · rw [e]
    exact fun hm => (normSegs_nf p).ne_nil _ hm rfl
  · exact absurd e h

/-- A normalized path is `../../…/` followed by segments that are neither empty nor `..`. -/
theorem C48_parents_lead (p : Text) : ∃ (n : Nat) (names : List Text),
    normalize p = joinSlash (List.replicate n ['.', '.'] ++ names) ∧
    ∀ s ∈ names, s ≠ [] ∧ s ≠ ['.', '.'] ∧ '/' ∉ s := by
  obtain ⟨n, names, h, h1, h2⟩ := normSegs_nf p
  exact ⟨n, names, by unfold normalize; rw [h], fun s hs => ⟨(h1 s hs).1, (h1 s hs).2, h2 s hs⟩⟩

/-- In a normalized path no `..` follows another kind of segment. -/
theorem C48_no_inner_parent (p a b : Text) (h : normalize p = a ++ '/' :: '.' :: '.' :: b)
    (hb : b = [] ∨ b.head? = some '/') : ∀ s, HasSegment s a → s = ['.', '.'] := by
  intro s hs
  have hseg : splitSlash (normalize p) = (splitSlash p).foldl normStep [] := by
    rcases splitSlash_normalize p with e | ⟨e, -⟩
    · exact e
    · rw [e] at h; simp at h
  obtain ⟨n, names, hn, h1, -⟩ := normSegs_nf p
  rw [hn, h, splitSlash_append'] at hseg
  have hd : ∃ rest, splitSlash ('.' :: '.' :: b) = ['.', '.'] :: rest := by
    rcases hb with rfl | hb
    · exact ⟨[], by decide⟩
    · cases b with
      | nil => cases hb
      | cons x xs =>
        simp only [List.head?_cons, Option.some.injEq] at hb
        subst hb
        exact ⟨_, splitSlash_append (s := ['.', '.']) (by decide) xs⟩
  obtain ⟨rest, hd⟩ := hd
  rw [hd] at hseg
  have hs' := (mem_splitSlash s a).2 hs
  -- the `..` at position `|splitSlash a|` is one of the leading ones
  have key : ∀ (l : List Text) (n : Nat), l ++ ['.', '.'] :: rest =
      List.replicate n ['.', '.'] ++ names → ∀ t ∈ l, t = ['.', '.'] := by
    intro l
    induction l with
    | nil => intro n _ t ht; cases ht
    | cons u us ih =>
      intro n hl t ht
      cases n with
      | zero =>
        simp only [List.replicate_zero, List.nil_append] at hl
        have : (['.', '.'] : Text) ∈ names := by rw [← hl]; simp
        exact absurd rfl (h1 _ this).2
      | succ n =>
        rw [List.replicate_succ, List.cons_append, List.cons_append] at hl
        obtain ⟨e1, e2⟩ := List.cons.inj hl
        rcases List.mem_cons.1 ht with rfl | ht
        · exact e1
        · exact ih n e2 t ht
  exact key _ n hseg s hs'

/-- `split` cuts at the last slash. -/
theorem C48_split (p : Text) : ('/' ∉ p ∧ split p = ([], p)) ∨
    ∃ d f, split p = (d, f) ∧ p = d ++ '/' :: f ∧ '/' ∉ f := by
  have key : ('/' ∉ p ∧ rsplitOnce p = none) ∨
      ∃ d f, rsplitOnce p = some (d, f) ∧ p = d ++ '/' :: f ∧ '/' ∉ f := by
    induction p with
    | nil => exact Or.inl ⟨by simp, rfl⟩
    | cons c cs ih =>
      rcases ih with ⟨h1, h2⟩ | ⟨d, f, h1, h2, h3⟩
      · by_cases hc : c = '/'
        · exact Or.inr ⟨[], cs, by simp [rsplitOnce, h2, hc], by simp [hc], h1⟩
        · exact Or.inl ⟨by simp [h1, Ne.symm hc], by simp [rsplitOnce, h2, hc]⟩
      · exact Or.inr ⟨c :: d, f, by simp [rsplitOnce, h1], by simp [h2], h3⟩
  unfold split
  rcases key with ⟨h1, h2⟩ | ⟨d, f, h1, h2, h3⟩
  · exact Or.inl ⟨h1, by rw [h2]⟩
  · exact Or.inr ⟨d, f, by rw [h1], h2, h3⟩

example : normalize "a//b/../../../c/d".toList = "../c/d".toList ∧
    split "../c/d".toList = ("../c".toList, "d".toList) := by decide

/-! ## C49 -/

/-- Full claim of C49. -/
def NormalizePreservesPlace : Prop :=
  ∀ (cwd : Place) (p : Text), locate cwd (normalize p) = locate cwd p

/-- The code drops the leading slash of absolute paths. -/
theorem C49_absolute_violated : ¬ NormalizePreservesPlace := by
  intro h
  exact absurd (h ["home".toList] "/etc/x".toList) (by decide)

/-- `.` is taken for a directory name: `./../x` becomes `x`. -/
theorem C49_dot_violated : ∃ (cwd : Place) (p : Text), p.head? ≠ some '/' ∧
    locate cwd (normalize p) ≠ locate cwd p :=
  ⟨["b".toList, "a".toList], "./../x".toList, by decide, by decide⟩

theorem normalize_head (p : Text) : (normalize p).head? ≠ some '/' := by
  have h := normSegs_nf p
  unfold normalize
  generalize (splitSlash p).foldl normStep [] = l at *
  cases l with
  | nil => simp [joinSlash]
  | cons s ss =>
    have h1 := h.ne_nil s (by simp)
    have h2 := h.noSlash s (by simp)
    cases s with
    | nil => exact absurd rfl h1
    | cons c cs =>
      have hc : c ≠ '/' := fun e => h2 (by simp [e])
      cases ss <;> simpa [joinSlash] using hc

theorem locate_normalize_segs (cwd : Place) (p : Text) (hd : ¬ HasSegment ['.'] p) :
    locate cwd (normalize p) = (splitSlash p).foldl step cwd := by
  rw [← mem_splitSlash] at hd
  have := foldl_step_fold cwd (splitSlash p) [] (by simp) (by simp) hd
  rw [List.foldl_nil] at this
  rw [locate_rel cwd (normalize_head p), ← this]
  rcases splitSlash_normalize p with e | ⟨e, e'⟩
  · rw [e]
  · rw [e, e']; rfl

/-- Proved part of C49: relative paths without `.` segments keep their place, from every
current directory.  Missing: absolute paths and paths with `.` segments (see the violations). -/
theorem C49_normalize_partial (cwd : Place) (p : Text) (hrel : p.head? ≠ some '/')
    (hd : ¬ HasSegment ['.'] p) : locate cwd (normalize p) = locate cwd p := by
  rw [locate_normalize_segs cwd p hd, locate_rel cwd hrel]

/-- `concat(a, b)` names the place that `b` names from the directory `a`. -/
theorem C49_concat_partial (cwd : Place) (a b : Text) (ha : a.head? ≠ some '/')
    (hb : b.head? ≠ some '/') (had : ¬ HasSegment ['.'] a) (hbd : ¬ HasSegment ['.'] b) :
    locate cwd (concat a b) = locate (locate cwd a) b := by
  unfold concat
  rw [locate_normalize_segs, locate_rel _ ha, locate_rel _ hb, splitSlash_append', List.foldl_append]
  rw [← mem_splitSlash] at *
  rw [splitSlash_append', List.mem_append]
  tauto

example : locate ["v".toList, "u".toList] (concat "../a".toList "../../b".toList) = ["b".toList] ∧
    ¬ HasSegment ['.'] "../../b".toList := by
  refine ⟨by decide, ?_⟩
  rw [← mem_splitSlash]; decide

theorem locate_normalize (cwd : Place) (p : Text) :
    locate cwd (normalize p) = ((splitSlash p).foldl normStep []).foldl step cwd := by
  rw [locate_rel cwd (normalize_head p)]
  rcases splitSlash_normalize p with e | ⟨e, e'⟩
  · rw [e]
  · rw [e, e']; rfl

/-- Proved part of C49: for exactly which paths the place is kept, from every current directory:
relative ones without a `.` that a `..` undoes.  Missing from the full claim: the other ones. -/
theorem C49_iff_partial (p : Text) : (∀ cwd : Place, locate cwd (normalize p) = locate cwd p) ↔
    p.head? ≠ some '/' ∧ ¬ DotUndone p := by
  rw [dotUndone_iff]
  constructor
  · intro h
    have hrel : p.head? ≠ some '/' := by
      intro hh
      obtain ⟨q, rfl⟩ : ∃ q, p = '/' :: q := by
        cases p with
        | nil => cases hh
        | cons c cs => cases hh; exact ⟨cs, rfl⟩
      have := h (List.replicate (2 * (splitSlash ('/' :: q)).length + 1) [])
      rw [locate_normalize, locate_abs] at this
      have h1 := deeper (List.replicate (2 * (splitSlash ('/' :: q)).length + 1) []) (splitSlash ('/' :: q))
        (by rw [List.length_replicate]; omega)
      have h2 := place_le (splitSlash q) []
      rw [this, List.length_replicate] at h1
      have h3 : splitSlash ('/' :: q) = [] :: splitSlash q := by simp [splitSlash]
      rw [h3] at h1
      simp only [List.length_cons, List.length_nil] at h1 h2
      omega
    refine ⟨hrel, fun hc => ?_⟩
    have := h (List.replicate (splitSlash p).length [])
    rw [locate_normalize, locate_rel _ hrel] at this
    have h1 := (deeper (List.replicate (splitSlash p).length []) (splitSlash p) (by simp)).2.2 hc
    rw [this] at h1
    omega
  · rintro ⟨hrel, hc⟩ cwd
    rw [locate_normalize, locate_rel cwd hrel, same_place cwd _ hc]

/-- Proved part of C49 for `concat`: for exactly which relative paths `concat(a, b)` names the place
that `b` names from the directory `a`. -/
theorem C49_concat_iff_partial (a b : Text) (ha : a.head? ≠ some '/') (hb : b.head? ≠ some '/') :
    (∀ cwd : Place, locate cwd (concat a b) = locate (locate cwd a) b) ↔
    ¬ DotUndone (a ++ '/' :: b) := by
  rw [dotUndone_iff]
  unfold concat
  have e : ∀ cwd, locate (locate cwd a) b = (splitSlash (a ++ '/' :: b)).foldl step cwd := by
    intro cwd
    rw [locate_rel _ ha, locate_rel _ hb, splitSlash_append', List.foldl_append]
  constructor
  · intro h hc
    have := h (List.replicate (splitSlash (a ++ '/' :: b)).length [])
    rw [locate_normalize, e] at this
    have h1 := (deeper (List.replicate (splitSlash (a ++ '/' :: b)).length []) (splitSlash (a ++ '/' :: b))
      (by simp)).2.2 hc
    rw [this] at h1
    omega
  · intro hc cwd
    rw [locate_normalize, e, same_place cwd _ hc]

/-- `./a/../b` keeps its place, `./a/../../b` does not -/
example : ¬ DotUndone "./a/../b".toList ∧ DotUndone "./a/../../b".toList := by
  constructor
  · intro h
    rw [dotUndone_iff] at h
    have := (deeper [[], [], [], []] (splitSlash "./a/../b".toList) (by decide)).2.2 h
    revert this; decide
  · exact ⟨[], ["a".toList, "..".toList, "..".toList], ["b".toList],
      segments_iff.2 (by decide), by decide⟩

end Nanvm
