import Verif.Model.RangeMap
import Mathlib.Tactic.Common
/-!
# Property theorems C29–C31: range maps
-/
namespace Nanvm
open RangeMap

/-! ## Specification -/

/-- keys strictly ascending -/
def Ascending {V : Type} (m : List (Entry V)) : Prop := m.Pairwise fun x y => x.1 < y.1

/-- the value of the first entry whose key is at least `k` -/
def segment {V : Type} (m : List (Entry V)) (k : Nat) : Option V :=
  (m.find? fun e => k ≤ e.1).map (·.2)

/-- the state found for `k`, `none` if there is no entry -/
def stateAt {T : Type} (m : List (Entry (Option T))) (k : Nat) : Option T := (segment m k).join

/-! ## C29: lookup -/

theorem segment_eq_getElem {V : Type} {m : List (Entry V)} {k : Nat} {i : Nat} (hi : i < m.length)
    (hle : k ≤ (m[i]).1) (hlt : ∀ j (hj : j < i), (m[j]'(by omega)).1 < k) :
    segment m k = some (m[i]).2 := by
  induction m generalizing i with
  | nil => simp at hi
  | cons x xs ih =>
    unfold segment
    cases i with
    | zero => simp at hle; simp [List.find?, hle]
    | succ i =>
      have h0 := hlt 0 (by omega)
      simp only [List.getElem_cons_zero] at h0
      have : ¬ k ≤ x.1 := by omega
      simp only [List.find?, this, decide_false]
      have := ih (i := i) (by simpa using hi) (by simpa using hle)
        (fun j hj => by simpa using hlt (j + 1) (by omega))
      simpa [segment] using this

theorem segment_none {V : Type} {m : List (Entry V)} {k : Nat} (h : ∀ e ∈ m, e.1 < k) :
    segment m k = none := by
  unfold segment
  rw [List.find?_eq_none.2]
  · rfl
  · intro e he; have := h e he; simpa using this

theorem ascending_get {V : Type} {m : List (Entry V)} (h : m.Pairwise fun x y => x.1 ≤ y.1)
    {i j : Nat} (hij : i ≤ j) (hj : j < m.length) : (m[i]'(by omega)).1 ≤ (m[j]).1 := by
  rcases Nat.lt_or_eq_of_le hij with h1 | rfl
  · exact List.pairwise_iff_getElem.1 h i j _ hj h1
  · exact Nat.le_refl _

theorem getLoop_ok {V : Type} {m : List (Entry V)} (hs : m.Pairwise fun x y => x.1 ≤ y.1) (k : Nat)
    (fuel : Nat) (b e : Int) (hb : 0 ≤ b) (hbm : b ≤ m.length) (he : e < m.length) (hbe : b ≤ e + 1)
    (hf : e - b + 1 < fuel)
    (hlo : ∀ j (hj : j < m.length), (j : Int) < b → (m[j]).1 < k)
    (hhi : ∀ j (hj : j < m.length), e < (j : Int) → k ≤ (m[j]).1) :
    getLoop m k fuel b e = .ok (segment m k) := by
  induction fuel generalizing b e with
  | zero => exfalso; omega
  | succ fuel ih =>
    unfold getLoop
    split
    · rename_i h
      rw [segment_none]
      intro x hx
      obtain ⟨j, hj, rfl⟩ := List.getElem_of_mem hx
      exact hlo j hj (by omega)
    · rename_i h
      have hbl : b.toNat < m.length := by omega
      split
      · rename_i h1
        rw [List.getElem?_eq_getElem hbl]
        dsimp only
        rw [segment_eq_getElem hbl (hhi _ hbl (by omega))]
        intro j hj
        exact hlo j (by omega) (by omega)
      · rename_i h1
        have hml : (b + (e - b) / 2).toNat < m.length := by omega
        dsimp only
        rw [List.getElem?_eq_getElem hml]
        dsimp only
        split
        · rename_i h2
          refine ih _ _ (by omega) (by omega) (by omega) (by omega) (by omega) hlo ?_
          intro j hj h3
          exact Nat.le_trans h2 (ascending_get hs (by omega) hj)
        · rename_i h2
          refine ih _ _ (by omega) (by omega) (by omega) (by omega) (by omega) ?_ hhi
          intro j hj h3
          exact Nat.lt_of_le_of_lt (ascending_get hs (by omega) hml) (by omega)

/-- For keys in ascending order (repetitions allowed) the binary search terminates without
panic and returns the first entry whose key is at least `k`. -/
theorem C29_get_segment {V : Type} (m : List (Entry V)) (hs : m.Pairwise fun x y => x.1 ≤ y.1)
    (k : Nat) : get m k = .ok (segment m k) := by
  unfold RangeMap.get
  refine getLoop_ok hs k _ _ _ (by omega) (by omega) (by omega) (by omega) (by omega) ?_ ?_
  · intro j hj h; omega
  · intro j hj h; omega

theorem C29_getState {T : Type} (m : List (Entry (Option T))) (h : Ascending m) (k : Nat) :
    getState m k = .ok (stateAt m k) := by
  unfold getState
  rw [C29_get_segment m (h.imp fun h => Nat.le_of_lt h)]
  simp only [bind, Except.bind, pure, Except.pure, stateAt]
  cases segment m k <;> rfl

/-- `get` never runs out of iterations or panics even on an unsorted list. -/
theorem C29_get_total {V : Type} (m : List (Entry V)) (k : Nat) : ∃ r, get m k = .ok r := by
  have key : ∀ (fuel : Nat) (b e : Int), 0 ≤ b → e < m.length → b ≤ e + 1 → e - b + 1 < fuel →
      ∃ r, getLoop m k fuel b e = .ok r := by
    intro fuel
    induction fuel with
    | zero => intro b e _ _ _ _; exfalso; omega
    | succ fuel ih =>
      intro b e h1 h2 h3 h4
      unfold getLoop
      split
      · exact ⟨_, rfl⟩
      · split
        · rw [List.getElem?_eq_getElem (show b.toNat < m.length by omega)]; exact ⟨_, rfl⟩
        · have hml : (b + (e - b) / 2).toNat < m.length := by omega
          dsimp only
          rw [List.getElem?_eq_getElem hml]
          dsimp only
          split
          · exact ih _ _ (by omega) (by omega) (by omega) (by omega)
          · exact ih _ _ (by omega) (by omega) (by omega) (by omega)
  exact key _ 0 (m.length - 1) (by omega) (by omega) (by omega) (by omega)

example : Ascending [(10, 'a'), (20, 'b'), (30, 'c')] ∧
    segment [(10, 'a'), (20, 'b'), (30, 'c')] 11 = some 'b' ∧
    segment [(10, 'a'), (20, 'b'), (30, 'c')] 31 = none := by
  refine ⟨by simp [Ascending], by decide, by decide⟩

/-! ## C30: merge -/

/-- two states that carry different values -/
def Conflict {T : Type} (a b : Option T) : Prop := ∃ x y, a = some x ∧ b = some y ∧ x ≠ y

/-- the union of two states that do not conflict -/
def joinState {T : Type} (a b : Option T) : Option T := a <|> b

theorem stateAt_nil {T : Type} (k : Nat) : stateAt ([] : List (Entry (Option T))) k = none := rfl

theorem stateAt_cons {T : Type} (e : Entry (Option T)) (m : List (Entry (Option T))) (k : Nat) :
    stateAt (e :: m) k = if k ≤ e.1 then e.2 else stateAt m k := by
  unfold stateAt segment
  by_cases h : k ≤ e.1 <;> simp [List.find?, h]

theorem joinState_none {T : Type} (a : Option T) : joinState a none = a := by
  cases a <;> rfl

theorem union_spec {T : Type} [DecidableEq T] (a b : Option T) :
    (Conflict a b ∧ union a b = .error (.panic .explicit)) ∨
    (¬ Conflict a b ∧ union a b = .ok (joinState a b)) := by
  cases a with
  | none => right; exact ⟨by rintro ⟨_, _, h, _⟩; (cases h), rfl⟩
  | some x =>
    cases b with
    | none => right; exact ⟨by rintro ⟨_, _, _, h, _⟩; (cases h), rfl⟩
    | some y =>
      by_cases h : x = y
      · right
        refine ⟨?_, by simp [union, h, joinState]⟩
        rintro ⟨x', y', h1, h2, h3⟩
        cases h1; cases h2; exact h3 h
      · left; exact ⟨⟨x, y, rfl, rfl, h⟩, by simp [union, h]⟩

/-- Outcome of `merge` on `a`, `b`: either some key of `a` or `b` has two different
values and merge panics, or no key at all has and merge returns the union. -/
def MergeOutcome {T : Type} (a b : List (Entry (Option T)))
    (r : Res (List (Entry (Option T)))) : Prop :=
  ((∃ e ∈ a ++ b, Conflict (stateAt a e.1) (stateAt b e.1)) ∧ r = .error (.panic .explicit)) ∨
  ((∀ k, ¬ Conflict (stateAt a k) (stateAt b k)) ∧ ∃ m, r = .ok m ∧ Ascending m ∧
    (∀ e ∈ m, ∃ e' ∈ a ++ b, e'.1 = e.1) ∧
    ∀ k, stateAt m k = joinState (stateAt a k) (stateAt b k))

theorem not_conflict_none_left {T : Type} (b : Option T) : ¬ Conflict none b := by
  rintro ⟨_, _, h, _⟩; cases h
theorem not_conflict_none_right {T : Type} (b : Option T) : ¬ Conflict b none := by
  rintro ⟨_, _, _, h, _⟩; cases h

/-- one merge step at the smaller key `k0` -/
theorem merge_step {T : Type} [DecidableEq T] {a b a' b' : List (Entry (Option T))} {k0 : Nat}
    {va vb : Option T}
    (hka : ∀ k, stateAt a k = if k ≤ k0 then va else stateAt a' k)
    (hkb : ∀ k, stateAt b k = if k ≤ k0 then vb else stateAt b' k)
    (hgt : ∀ e ∈ a' ++ b', k0 < e.1) (hmem : ∀ e ∈ a' ++ b', e ∈ a ++ b)
    (h0 : ∃ e ∈ a ++ b, e.1 = k0)
    {r : Res (List (Entry (Option T)))} (ih : MergeOutcome a' b' r) :
    MergeOutcome a b (do let v ← union va vb; return (k0, v) :: (← r)) := by
  rcases union_spec va vb with ⟨hc, e⟩ | ⟨hc, e⟩
  · left
    obtain ⟨e0, he0, hk0⟩ := h0
    refine ⟨⟨e0, he0, ?_⟩, by rw [e]; rfl⟩
    rw [hk0, hka, hkb, if_pos (Nat.le_refl _), if_pos (Nat.le_refl _)]; exact hc
  · rcases ih with ⟨⟨e1, he1, hcf⟩, hr⟩ | ⟨hnc, m, hr, hs, hk, hv⟩
    · left
      refine ⟨⟨e1, hmem e1 he1, ?_⟩, by rw [e, hr]; rfl⟩
      have := hgt e1 he1
      rw [hka, hkb, if_neg (by omega), if_neg (by omega)]; exact hcf
    · right
      refine ⟨?_, (k0, joinState va vb) :: m, by rw [e, hr]; rfl, ?_, ?_, ?_⟩
      · intro k
        rw [hka, hkb]
        by_cases h : k ≤ k0
        · rw [if_pos h, if_pos h]; exact hc
        · rw [if_neg h, if_neg h]; exact hnc k
      · refine List.pairwise_cons.2 ⟨?_, hs⟩
        intro x hx
        obtain ⟨e', he', hk'⟩ := hk x hx
        have := hgt e' he'
        dsimp only; omega
      · intro x hx
        rcases List.mem_cons.1 hx with rfl | hx
        · exact h0
        · obtain ⟨e', he', hk'⟩ := hk x hx
          exact ⟨e', hmem e' he', hk'⟩
      · intro k
        rw [stateAt_cons, hka, hkb, hv]
        by_cases h : k ≤ k0
        · simp only [h, if_true]
        · simp only [h, if_false]

theorem mergeLoop_union {T : Type} [DecidableEq T] (fuel : Nat) (a b : List (Entry (Option T)))
    (ha : Ascending a) (hb : Ascending b) (hf : a.length + b.length ≤ fuel) :
    MergeOutcome a b (mergeLoop fuel a b) := by
  induction fuel generalizing a b with
  | zero =>
    have h1 : a = [] := List.length_eq_zero_iff.1 (by omega)
    have h2 : b = [] := List.length_eq_zero_iff.1 (by omega)
    subst h1; subst h2
    right
    exact ⟨fun k => not_conflict_none_left _, [], rfl, hb, by simp, fun k => rfl⟩
  | succ fuel ih =>
  match a, b with
  | [], b =>
    right
    exact ⟨fun k => not_conflict_none_left _, b, by simp [mergeLoop], hb,
      fun e he => ⟨e, by simpa using he, rfl⟩, fun k => rfl⟩
  | a :: as, [] =>
    right
    exact ⟨fun k => not_conflict_none_right _, a :: as, by simp [mergeLoop], ha,
      fun e he => ⟨e, by simpa using he, rfl⟩, fun k => by rw [stateAt_nil, joinState_none]⟩
  | a :: as, b :: bs =>
    have ha' := List.pairwise_cons.1 ha
    have hb' := List.pairwise_cons.1 hb
    simp only [List.length_cons] at hf
    rw [mergeLoop]
    by_cases h1 : a.1 > b.1
    · simp only [if_pos h1]
      refine merge_step (a' := a :: as) (b' := bs) ?_ (fun k => stateAt_cons b bs k) ?_ ?_ ⟨b, by simp, rfl⟩
        (ih (a :: as) bs ha hb'.2 (by simp only [List.length_cons]; omega))
      · intro k
        by_cases h : k ≤ b.1
        · rw [if_pos h, stateAt_cons, if_pos (by omega)]
        · rw [if_neg h]
      · intro e he
        simp only [List.cons_append, List.mem_cons, List.mem_append] at he
        rcases he with rfl | he | he
        · exact h1
        · have := ha'.1 e he; omega
        · exact hb'.1 e he
      · intro e he
        simp only [List.cons_append, List.mem_cons, List.mem_append] at he ⊢
        tauto
    · by_cases h2 : a.1 < b.1
      · simp only [if_neg h1, if_pos h2]
        refine merge_step (a' := as) (b' := b :: bs) (fun k => stateAt_cons a as k) ?_ ?_ ?_
          ⟨a, by simp, rfl⟩ (ih as (b :: bs) ha'.2 hb (by simp only [List.length_cons]; omega))
        · intro k
          by_cases h : k ≤ a.1
          · rw [if_pos h, stateAt_cons, if_pos (by omega)]
          · rw [if_neg h]
        · intro e he
          simp only [List.mem_cons, List.mem_append] at he
          rcases he with he | rfl | he
          · exact ha'.1 e he
          · exact h2
          · have := hb'.1 e he; omega
        · intro e he
          simp only [List.cons_append, List.mem_cons, List.mem_append] at he ⊢
          tauto
      · simp only [if_neg h1, if_neg h2]
        have heq : a.1 = b.1 := by omega
        refine merge_step (a' := as) (b' := bs) (fun k => stateAt_cons a as k)
          (fun k => by rw [heq]; exact stateAt_cons b bs k) ?_ ?_
          ⟨a, by simp, rfl⟩ (ih as bs ha'.2 hb'.2 (by omega))
        · intro e he
          simp only [List.mem_append] at he
          rcases he with he | he
          · exact ha'.1 e he
          · have := hb'.1 e he; omega
        · intro e he
          simp only [List.cons_append, List.mem_cons, List.mem_append] at he ⊢
          tauto

/-- Merging two maps with ascending keys: a panic exactly when some key has two different
values, otherwise an ascending map whose lookup is the union of the lookups. -/
theorem C30_merge_union {T : Type} [DecidableEq T] (a b : List (Entry (Option T)))
    (ha : Ascending a) (hb : Ascending b) : MergeOutcome a b (merge a b) :=
  mergeLoop_union _ a b ha hb (Nat.le_refl _)

/-- merge succeeds exactly when no key has two different values -/
theorem C30_merge_panics_iff {T : Type} [DecidableEq T] (a b : List (Entry (Option T)))
    (ha : Ascending a) (hb : Ascending b) :
    merge a b = .error (.panic .explicit) ↔ ∃ k, Conflict (stateAt a k) (stateAt b k) := by
  rcases C30_merge_union a b ha hb with ⟨⟨e, _, hc⟩, hr⟩ | ⟨hn, m, hr, _⟩
  · exact ⟨fun _ => ⟨e.1, hc⟩, fun _ => hr⟩
  · rw [hr]
    exact ⟨fun h => (nomatch h), fun ⟨k, hk⟩ => absurd hk (hn k)⟩

/-- `merge_list` of pairwise compatible maps: lookup of the result is the (only) value any
of the maps has at that key. -/
theorem C30_merge_list {T : Type} [DecidableEq T] (ms : List (List (Entry (Option T))))
    (hs : ∀ m ∈ ms, Ascending m)
    (hc : ∀ m ∈ ms, ∀ m' ∈ ms, ∀ k, ¬ Conflict (stateAt m k) (stateAt m' k)) :
    ∃ r, mergeList ms = .ok r ∧ Ascending r ∧
      ∀ k v, stateAt r k = some v ↔ ∃ m ∈ ms, stateAt m k = some v := by
  unfold mergeList
  have key : ∀ (rest done : List (List (Entry (Option T)))) (acc : List (Entry (Option T))),
      (∀ m ∈ done ++ rest, m ∈ ms) → Ascending acc →
      (∀ k v, stateAt acc k = some v ↔ ∃ m ∈ done, stateAt m k = some v) →
      ∃ r, rest.foldlM (fun result x => merge x result) acc = .ok r ∧ Ascending r ∧
        ∀ k v, stateAt r k = some v ↔ ∃ m ∈ done ++ rest, stateAt m k = some v := by
    intro rest
    induction rest with
    | nil => intro done acc _ h1 h2; exact ⟨acc, rfl, h1, by simpa using h2⟩
    | cons x rest ih =>
      intro done acc hm h1 h2
      have hx : x ∈ ms := hm x (by simp)
      rcases C30_merge_union x acc (hs x hx) h1 with ⟨⟨e, _, u, v, h3, h4, h5⟩, -⟩ | ⟨hn, m, hr, ha, -, hv⟩
      · exfalso
        obtain ⟨m', hm', h6⟩ := (h2 e.1 v).1 h4
        exact hc x hx m' (hm m' (by simp [hm'])) e.1 ⟨u, v, h3, h6, h5⟩
      · obtain ⟨r, hr', hra, hrv⟩ := ih (done ++ [x]) m (by simpa [List.append_assoc] using hm) ha (by
          intro k v
          rw [hv k]
          constructor
          · intro h
            cases h7 : stateAt x k with
            | some y =>
              rw [h7] at h
              exact ⟨x, by simp, by rw [h7]; exact h⟩
            | none =>
              rw [h7] at h
              obtain ⟨m', hm', h6⟩ := (h2 k v).1 h
              exact ⟨m', by simp [hm'], h6⟩
          · rintro ⟨m', hm', h6⟩
            rcases List.mem_append.1 hm' with h7 | h7
            · have h8 := (h2 k v).2 ⟨m', h7, h6⟩
              cases h9 : stateAt x k with
              | none => exact h8
              | some y =>
                by_contra h10
                refine hn k ⟨y, v, h9, h8, ?_⟩
                rintro rfl; exact h10 rfl
            · have : m' = x := by simpa using h7
              subst this
              rw [h6]; rfl)
        refine ⟨r, ?_, hra, ?_⟩
        · rw [List.foldlM_cons, hr]; exact hr'
        · intro k v; rw [hrv]; simp [List.append_assoc]
  have := key ms [] [] (by simp) (by simp [Ascending]) (by intro k v; simp [stateAt_nil])
  simpa using this

example : Ascending [(10, some 'a'), (20, none)] ∧ Ascending [(15, none), (30, some 'b')] ∧
    (∀ k, ¬ Conflict (stateAt [(10, some 'a'), (20, none)] k)
      (stateAt [(15, none), (30, some 'b')] k)) ∧
    merge [(10, some 'a'), (20, none)] [(15, none), (30, some 'b')] =
      .ok [(10, some 'a'), (15, none), (20, some 'b'), (30, some 'b')] := by
  refine ⟨by simp [Ascending], by simp [Ascending], ?_, by decide⟩
  intro k
  simp only [stateAt_cons, stateAt_nil]
  by_cases h : k ≤ 10
  · rw [if_pos h, if_pos (by omega)]; exact not_conflict_none_right _
  · rw [if_neg h]
    split <;> exact not_conflict_none_left _

/-! ## C31: characters -/

/-- The full property for `from_range`. -/
def FromRangeCorrect : Prop :=
  ∀ (a b : Nat), validChar a → validChar b → ∃ m, fromRange a b 'v' = .ok m ∧
    ∀ c, validChar c → getState m c = .ok (if a ≤ c ∧ c ≤ b then some 'v' else none)

/-- The full property for `from_one`. -/
def FromOneCorrect : Prop :=
  ∀ (a : Nat), validChar a → ∃ m, fromOne a 'v' = .ok m ∧
    ∀ c, validChar c → getState m c = .ok (if c = a then some 'v' else none)

/-- The range U+E000..=U+E000 does not contain U+E000. -/
theorem C31_from_range_violated : ¬ FromRangeCorrect := by
  intro h
  obtain ⟨m, e, hm⟩ := h 0xE000 0xE000 (by decide) (by decide)
  have e2 : fromRange 0xE000 0xE000 'v' = .ok [(0xE000, none), (0xE000, some 'v')] := by decide
  rw [e2] at e
  cases e
  have := hm 0xE000 (by decide)
  revert this; decide +kernel

/-- `from_one` of U+E000 also maps `'a'`. -/
theorem C31_from_one_violated : ¬ FromOneCorrect := by
  intro h
  obtain ⟨m, e, hm⟩ := h 0xE000 (by decide)
  have e2 : fromOne 0xE000 'v' = .ok [(0xE000, some 'v')] := by decide
  rw [e2] at e
  cases e
  have := hm 97 (by decide)
  revert this; decide +kernel

/-- The character U+0000 cannot be used at all: `0 - 1` overflows. -/
theorem C31_nul_violated {T : Type} (b : Nat) (v : T) :
    fromRange 0 b v = .error (.panic .overflow) ∧ fromOne 0 v = .error (.panic .overflow) :=
  ⟨rfl, rfl⟩

theorem get_two {T : Type} (x y k : Nat) (v : T) :
    getState [(x, none), (y, some v)] k =
      .ok (if k ≤ x then none else if k ≤ y then some v else none) := by
  by_cases h1 : k ≤ x <;> by_cases h2 : k ≤ y <;>
    simp [getState, RangeMap.get, getLoop, h1, h2]

/-- Proved part: every start except U+0000 and U+E000 (the two characters without a
preceding character). -/
theorem C31_from_range_partial {T : Type} (a b : Nat) (v : T) (ha : validChar a)
    (h0 : a ≠ 0) (hE : a ≠ 0xE000) :
    ∃ m, fromRange a b v = .ok m ∧
      ∀ c, getState m c = .ok (if a ≤ c ∧ c ≤ b then some v else none) := by
  have hp : validChar (a - 1) = true := by
    simp only [validChar, Bool.or_eq_true, Bool.and_eq_true, decide_eq_true_eq] at *; omega
  refine ⟨[(a - 1, none), (b, some v)], ?_, ?_⟩
  · unfold fromRange subU
    rw [if_pos (by omega)]
    simp only [bind, Except.bind, pure, Except.pure, hp, if_true]
  · intro c
    rw [get_two]
    congr 1
    by_cases h1 : c ≤ a - 1
    · rw [if_pos h1, if_neg (by omega)]
    · rw [if_neg h1]
      by_cases h2 : c ≤ b
      · rw [if_pos h2, if_pos (by omega)]
      · rw [if_neg h2, if_neg (by omega)]

theorem C31_from_one_partial {T : Type} (a : Nat) (v : T) (ha : validChar a)
    (h0 : a ≠ 0) (hE : a ≠ 0xE000) :
    ∃ m, fromOne a v = .ok m ∧
      ∀ c, getState m c = .ok (if c = a then some v else none) := by
  have hp : validChar (a - 1) = true := by
    simp only [validChar, Bool.or_eq_true, Bool.and_eq_true, decide_eq_true_eq] at *; omega
  refine ⟨[(a - 1, none), (a, some v)], ?_, ?_⟩
  · unfold fromOne subU
    rw [if_pos (by omega)]
    simp only [bind, Except.bind, hp, if_true]; rfl
  · intro c
    rw [get_two]
    congr 1
    by_cases h1 : c ≤ a - 1
    · rw [if_pos h1, if_neg (by omega)]
    · rw [if_neg h1]
      by_cases h2 : c ≤ a
      · rw [if_pos h2, if_pos (by omega)]
      · rw [if_neg h2, if_neg (by omega)]

example : validChar 98 ∧ fromRange 98 100 'A' = .ok [(97, none), (100, some 'A')] := by decide

end Nanvm
