import Verif.Spec.Djs
/-!
# The blocks found by `track`
-/
namespace Nanvm

/-! ## Parts of values -/

theorem Val.Sub.trans {x y z : Val} (h1 : x.Sub y) (h2 : y.Sub z) : x.Sub z := by
  induction h2 with
  | refl => exact h1
  | arr i l y hy _ ih => exact .arr i l y hy ih
  | obj i l m hm _ ih => exact .obj i l m hm ih

theorem Val.sub_kid {x y v : Val} (hy : y ∈ v.kids) (h : x.Sub y) : x.Sub v := by
  cases v with
  | arr i l => exact .arr i l y hy h
  | obj i l =>
    obtain ⟨m, hm, rfl⟩ := List.mem_map.1 hy
    exact .obj i l m hm h
  | _ => cases hy

theorem Val.sub_cases {x v : Val} (h : x.Sub v) : x = v ∨ ∃ y ∈ v.kids, x.Sub y := by
  cases h with
  | refl => exact .inl rfl
  | arr i l y hy h => exact .inr ⟨y, hy, h⟩
  | obj i l m hm h => exact .inr ⟨m.2, List.mem_map.2 ⟨m, hm, rfl⟩, h⟩

theorem Val.kid_sub {x v : Val} (hx : x ∈ v.kids) : x.Sub v := Val.sub_kid hx .refl

theorem Val.sizeOf_kid {x v : Val} (hx : x ∈ v.kids) : sizeOf x < sizeOf v := by
  cases v with
  | arr i l =>
    have : sizeOf x < sizeOf l := List.sizeOf_lt_of_mem hx
    simp; omega
  | obj i l =>
    obtain ⟨m, hm, rfl⟩ := List.mem_map.1 hx
    have := Val.sizeOf_member hm; simp; omega
  | _ => cases hx

theorem Val.sizeOf_sub {x v : Val} (h : x.Sub v) : sizeOf x ≤ sizeOf v := by
  induction h with
  | refl => exact le_rfl
  | arr i l y hy _ ih => exact ih.trans (Val.sizeOf_kid (v := .arr i l) hy).le
  | obj i l m hm _ ih =>
    exact ih.trans (Val.sizeOf_kid (v := .obj i l) (List.mem_map.2 ⟨m, hm, rfl⟩)).le

theorem Val.compound_of_kid {x v : Val} (hx : x ∈ v.kids) : v.Compound := by
  cases v with
  | arr | obj => trivial
  | _ => cases hx

/-- every part is the whole or an item of a part -/
theorem Val.sub_parent {x v : Val} (h : x.Sub v) : x = v ∨ ∃ p : Val, p.Sub v ∧ x ∈ p.kids := by
  induction h with
  | refl => exact .inl rfl
  | arr i l y hy _ ih =>
    rcases ih with rfl | ⟨p, h1, h2⟩
    · exact .inr ⟨.arr i l, .refl, hy⟩
    · exact .inr ⟨p, .arr i l y hy h1, h2⟩
  | obj i l m hm _ ih =>
    rcases ih with rfl | ⟨p, h1, h2⟩
    · exact .inr ⟨.obj i l, .refl, List.mem_map.2 ⟨m, hm, rfl⟩⟩
    · exact .inr ⟨p, .obj i l m hm h1, h2⟩

theorem Val.indK {P : Val → Prop} (h : ∀ v : Val, (∀ x ∈ v.kids, P x) → P v) (v : Val) : P v := by
  induction v using Val.ind with
  | arr i l ih => exact h _ ih
  | obj i l ih =>
    refine h _ fun x hx => ?_
    obtain ⟨m, hm, rfl⟩ := List.mem_map.1 hx
    exact ih m hm
  | _ => exact h _ fun x hx => by cases hx

instance (v : Val) : Decidable v.Compound := by
  cases v <;> simp only [Val.Compound] <;> infer_instance

namespace Ser

/-! ## Hash maps -/

section
variable {α : Type}

theorem get_insert (m : HMap α) (v : Val) (a : α) (w : Word) :
    (m.insert v a).get w = if v.word = w then some a else m.get w := by
  induction m with
  | nil => simp [HMap.insert, HMap.get]
  | cons x m ih =>
    obtain ⟨k, b⟩ := x
    rw [HMap.insert]
    by_cases h : k.word = v.word
    · rw [if_pos h, HMap.get, HMap.get, h]
      split <;> rfl
    · rw [if_neg h, HMap.get, HMap.get, ih]
      by_cases h2 : k.word = w
      · rw [if_pos h2, if_pos h2, if_neg fun h3 => h (h2.trans h3.symm)]
      · rw [if_neg h2, if_neg h2]

theorem get_none (m : HMap α) (w : Word) : m.get w = none ↔ ∀ x ∈ m, x.1.word ≠ w := by
  induction m with
  | nil => simp [HMap.get]
  | cons x m ih =>
    obtain ⟨k, b⟩ := x
    rw [HMap.get]
    by_cases h : k.word = w
    · simp [h]
    · simp [h, ih]

/-- the words of the keys -/
def keys (m : HMap α) : List Word := m.map (·.1.word)

theorem keys_cons (x : Val × α) (m : HMap α) : keys (x :: m) = x.1.word :: keys m := rfl

theorem insert_keys (m : HMap α) (v : Val) (a : α) :
    keys (m.insert v a) = if v.word ∈ keys m then keys m else keys m ++ [v.word] := by
  induction m with
  | nil => simp [HMap.insert, keys]
  | cons x m ih =>
    obtain ⟨k, b⟩ := x
    rw [HMap.insert]
    by_cases h : k.word = v.word
    · rw [if_pos h]
      simp [keys, h]
    · rw [if_neg h]
      have h' : ¬ v.word = k.word := fun e => h e.symm
      rw [keys_cons, keys_cons, ih]
      simp only [List.mem_cons, h', false_or]
      split
      · rfl
      · rfl

theorem insert_nodup {m : HMap α} (h : (keys m).Nodup) (v : Val) (a : α) :
    (keys (m.insert v a)).Nodup := by
  rw [insert_keys]
  split
  · exact h
  · rename_i hv
    rw [List.nodup_append]
    exact ⟨h, by simp, fun x hx y hy => by
      rw [List.mem_singleton] at hy; subst hy; rintro rfl; exact hv hx⟩

/-- a key of the map after an insertion -/
theorem mem_insert {m : HMap α} {v : Val} {a : α} {x : Val × α} (h : x ∈ m.insert v a) :
    (∃ y ∈ m, y.1 = x.1) ∨ x.1 = v := by
  induction m with
  | nil => simp [HMap.insert] at h; subst h; exact .inr rfl
  | cons y m ih =>
    obtain ⟨k, b⟩ := y
    rw [HMap.insert] at h
    split at h
    · rcases List.mem_cons.1 h with rfl | h
      · exact .inl ⟨(k, b), by simp, rfl⟩
      · exact .inl ⟨x, by simp [h], rfl⟩
    · rcases List.mem_cons.1 h with rfl | h
      · exact .inl ⟨(k, b), by simp, rfl⟩
      · rcases ih h with ⟨y, hy, h⟩ | h
        · exact .inl ⟨y, by simp [hy], h⟩
        · exact .inr h

theorem get_filter {m : HMap α} (h : (keys m).Nodup) (p : α → Bool) (w : Word) :
    HMap.get (m.filter fun x => p x.2) w = (m.get w).filter p := by
  induction m with
  | nil => rfl
  | cons x m ih =>
    obtain ⟨k, b⟩ := x
    rw [keys, List.map_cons, List.nodup_cons] at h
    rw [List.filter_cons, HMap.get]
    by_cases hw : k.word = w
    · rw [if_pos hw]
      by_cases hp : p b
      · simp only [hp, if_true, HMap.get, hw]
        exact (Option.filter_some_pos hp).symm
      · simp only [hp]
        rw [if_neg (by simp)]
        rw [ih h.2, (get_none m w).2]
        · exact (Option.filter_some_neg (by simpa using hp)).symm
        · intro y hy e
          refine h.1 ?_
          rw [hw]
          simp only [List.mem_map]
          exact ⟨y, hy, e⟩
    · rw [if_neg hw]
      split
      · rw [HMap.get, if_neg hw, ih h.2]
      · exact ih h.2

theorem get_remove (m : HMap α) (w w' : Word) :
    (m.remove w).get w' = if w' = w then none else m.get w' := by
  induction m with
  | nil => simp [HMap.remove, HMap.get]
  | cons x m ih =>
    obtain ⟨k, b⟩ := x
    simp only [HMap.remove, List.filter_cons] at ih ⊢
    by_cases h : k.word = w
    · simp only [h, ne_eq, not_true_eq_false, decide_false]
      rw [if_neg (by simp), ih, HMap.get]
      by_cases h2 : w' = w
      · simp [h2]
      · rw [if_neg h2, if_neg h2, if_neg fun e => h2 (e.symm.trans h)]
    · simp only [ne_eq, h, not_false_eq_true, decide_true, if_true]
      rw [HMap.get, HMap.get, ih]
      by_cases h2 : k.word = w'
      · rw [if_pos h2, if_pos h2, if_neg fun e => h (h2.trans e)]
      · rw [if_neg h2, if_neg h2]

end

/-! ## Tracking -/

theorem trackMembers_eq (m : HMap Seen) (l : List (JsStr × Val)) :
    trackMembers m l = trackItems m (l.map (·.2)) := by
  induction l generalizing m with
  | nil => rfl
  | cons x l ih => obtain ⟨k, x⟩ := x; rw [trackMembers, List.map_cons, trackItems, ih]

theorem track_eq (m : HMap Seen) {x : Val} (hx : x.Compound) : track m x =
    match m.get x.word with
    | some _ => m.insert x .repeatedly
    | none => trackItems (m.insert x .once) x.kids := by
  cases x with
  | arr i l =>
    rw [track, isVisited]
    cases m.get (Val.arr i l).word <;> rfl
  | obj i l =>
    rw [track, isVisited]
    cases m.get (Val.obj i l).word with
    | none => exact trackMembers_eq _ _
    | some _ => rfl
  | _ => cases hx

theorem track_simple (m : HMap Seen) {x : Val} (hx : ¬ x.Compound) : track m x = m := by
  cases x with
  | arr | obj => exact absurd trivial hx
  | _ => rfl

/-- how often a block was seen -/
def seen : Nat → Option Seen
  | 0 => none
  | 1 => some .once
  | _ => some .repeatedly

/-- a list of visited places with the blocks found there -/
abbrev Log := List (Option (Word × Nat) × Val)

/-- the map records the places visited in the graph `v` -/
structure Logged (v : Val) (m : HMap Seen) (L : Log) : Prop where
  count : ∀ w, m.get w = seen (L.countP fun e => e.2.word = w)
  nodup : (L.map (·.1)).Nodup
  at_ : ∀ e ∈ L, e.2.Compound ∧ v.At e.1 e.2
  parent : ∀ e ∈ L, ∀ p i, e.1 = some (p, i) → m.get p ≠ none
  keys : (keys m).Nodup
  sub : ∀ x ∈ m, x.1.Sub v ∧ x.1.Compound

/-- all places in the block `w` have been visited -/
def Done (v : Val) (L : Log) (w : Word) : Prop :=
  ∀ (y : Val) (i : Nat) (c : Val), y.Sub v → y.Compound → y.word = w → y.kids[i]? = some c →
    c.Compound → (some (w, i), c) ∈ L

theorem Done.mono {v : Val} {L L' : Log} {w : Word} (h : Done v L w) (hs : ∀ e ∈ L, e ∈ L') :
    Done v L' w := fun y i c h1 h2 h3 h4 h5 => hs _ (h y i c h1 h2 h3 h4 h5)

theorem seen_ne {n : Nat} (h : seen n ≠ none) : n ≠ 0 := by rintro rfl; exact h rfl

/-- the effect of a visit on the map and the list of places: what was not known before and is known
afterwards has been visited completely -/
structure Visit (v : Val) (m m' : HMap Seen) (L N : Log) : Prop where
  logged : Logged v m' (L ++ N)
  mono : ∀ w, m.get w ≠ none → m'.get w ≠ none
  done : ∀ w, m.get w = none → m'.get w ≠ none → Done v (L ++ N) w

theorem Visit.refl {v : Val} {m : HMap Seen} {L : Log} (h : Logged v m L) : Visit v m m L [] :=
  ⟨by rwa [List.append_nil], fun _ h => h, fun _ h h' => absurd h h'⟩

theorem Visit.trans {v : Val} {m m1 m2 : HMap Seen} {L N N2 : Log} (h : Visit v m m1 L N)
    (h2 : Visit v m1 m2 (L ++ N) N2) : Visit v m m2 L (N ++ N2) := by
  refine ⟨by rw [← List.append_assoc]; exact h2.logged, fun w hw => h2.mono w (h.mono w hw),
    fun w hw hw2 => ?_⟩
  rw [← List.append_assoc]
  by_cases h1 : m1.get w = none
  · exact h2.done w h1 hw2
  · exact (h.done w hw h1).mono fun e he => List.mem_append_left _ he

/-- one more place is visited -/
theorem Logged.push {v : Val} {m : HMap Seen} {L : Log} (h : Logged v m L) {x : Val}
    {r : Option (Word × Nat)} (hs : x.Sub v) (hx : x.Compound) (ha : v.At r x)
    (hr : r ∉ L.map (·.1)) (hp : ∀ p i, r = some (p, i) → m.get p ≠ none) :
    Logged v (m.insert x (if m.get x.word = none then .once else .repeatedly)) (L ++ [(r, x)]) := by
  refine ⟨fun w => ?_, ?_, ?_, ?_, insert_nodup h.keys _ _, ?_⟩
  · rw [get_insert, List.countP_append, List.countP_singleton]
    by_cases hw : x.word = w
    · subst hw
      rw [if_pos rfl, h.count]
      simp only [decide_true, if_true]
      generalize List.countP _ L = n
      match n with
      | 0 => rfl
      | 1 => rfl
      | n + 2 => rfl
    · rw [if_neg hw, h.count]
      simp [hw]
  · rw [List.map_append, List.nodup_append]
    refine ⟨h.nodup, by simp, fun a ha' b hb => ?_⟩
    simp only [List.map_cons, List.map_nil, List.mem_singleton] at hb
    subst hb
    rintro rfl
    exact hr ha'
  · intro e he
    rcases List.mem_append.1 he with he | he
    · exact h.at_ e he
    · rw [List.mem_singleton] at he; subst he; exact ⟨hx, ha⟩
  · intro e he p i hpi
    rw [get_insert]
    split
    · simp
    · rcases List.mem_append.1 he with he | he
      · exact h.parent e he p i hpi
      · rw [List.mem_singleton] at he; subst he; exact hp p i hpi
  · intro y hy
    rcases mem_insert hy with ⟨z, hz, h1⟩ | h1
    · rw [← h1]; exact h.sub z hz
    · rw [h1]; exact ⟨hs, hx⟩

/-- what `track` does for one place -/
def TrackOk (v x : Val) : Prop := ∀ m L r, x.Sub v → Logged v m L → v.At r x →
  r ∉ L.map (·.1) → (∀ p i, r = some (p, i) → m.get p ≠ none) →
  ∃ N, Visit v m (track m x) L N ∧ (x.Compound → (r, x) ∈ N) ∧
    ∀ e ∈ N, e.1 = r ∨ ∃ p i, e.1 = some (p, i) ∧ m.get p = none

theorem track_items {v y : Val} (hy : y.Sub v) (hyc : y.Compound) (l : List Val) (k : Nat)
    (hl : y.kids.drop k = l) (ih : ∀ x ∈ l, TrackOk v x) (m : HMap Seen) (L : Log)
    (h : Logged v m L) (hm : m.get y.word ≠ none)
    (hn : ∀ j, k ≤ j → some (y.word, j) ∉ L.map (·.1)) :
    ∃ N, Visit v m (trackItems m l) L N ∧
      (∀ i c, k ≤ i → y.kids[i]? = some c → c.Compound → (some (y.word, i), c) ∈ L ++ N) ∧
      ∀ e ∈ N, (∃ j, e.1 = some (y.word, j)) ∨ ∃ p i, e.1 = some (p, i) ∧ m.get p = none := by
  induction l generalizing k m L with
  | nil =>
    refine ⟨[], Visit.refl h, fun i c hi hc => ?_, by simp⟩
    have : y.kids.length ≤ k := by simpa using hl
    rw [List.getElem?_eq_none (by omega)] at hc
    cases hc
  | cons c l ih' =>
    have hk : y.kids[k]? = some c := by
      have := List.getElem?_drop (xs := y.kids) (i := k) (j := 0)
      rw [hl] at this; exact this.symm
    have hl' : y.kids.drop (k + 1) = l := by
      rw [← List.drop_drop, hl]; rfl
    have hc : c ∈ y.kids := List.mem_of_getElem? hk
    obtain ⟨N, h1, h2, h3⟩ := ih c (by simp) m L (some (y.word, k)) (Val.sub_kid hc .refl |>.trans hy)
      h (.kid y k c hy hyc hk) (hn k le_rfl) (fun p i e => by cases e; exact hm)
    obtain ⟨N2, h4, h5, h6⟩ := ih' (k + 1) hl' (fun x hx => ih x (by simp [hx])) (track m c) (L ++ N)
      h1.logged (h1.mono _ hm) (fun j hj hmem => by
        rw [List.map_append, List.mem_append] at hmem
        rcases hmem with hmem | hmem
        · exact hn j (by omega) hmem
        · obtain ⟨e, he, he'⟩ := List.mem_map.1 hmem
          rcases h3 e he with h3 | ⟨p, i, h3, h4⟩
          · rw [h3] at he'; cases he'; omega
          · rw [h3] at he'; cases he'; exact hm h4)
    refine ⟨N ++ N2, h1.trans h4, fun i x hi hx hxc => ?_, fun e he => ?_⟩
    · rw [← List.append_assoc]
      rcases Nat.lt_or_ge k i with hki | hki
      · exact h5 i x hki hx hxc
      · obtain rfl : i = k := by omega
        rw [hk] at hx
        cases hx
        simp [h2 hxc]
    · rcases List.mem_append.1 he with he | he
      · rcases h3 e he with h3 | h3
        · exact .inl ⟨k, h3⟩
        · exact .inr h3
      · rcases h6 e he with h6 | ⟨p, i, h6, h7⟩
        · exact .inl h6
        · exact .inr ⟨p, i, h6, by
            by_contra hp
            exact h1.mono p hp h7⟩

theorem track_ok {v : Val} (hv : v.Consistent) (x : Val) : TrackOk v x := by
  induction x using Val.indK with
  | h x ih =>
  intro m L r hs hl ha hr hp
  by_cases hx : x.Compound
  swap
  · exact ⟨[], by rw [track_simple m hx]; exact Visit.refl hl, fun h => absurd h hx, by simp⟩
  have hpush := hl.push hs hx ha hr hp
  rw [track_eq m hx]
  cases hg : m.get x.word with
  | some s =>
    rw [hg, if_neg (by simp)] at hpush
    refine ⟨[(r, x)], ⟨hpush, fun w hw => ?_, fun w hw hw' => ?_⟩, fun _ => by simp, by simp⟩
    · rw [get_insert]; split
      · simp
      · exact hw
    · simp only [get_insert] at hw'
      split at hw'
      · rename_i e; rw [← e, hg] at hw; cases hw
      · exact absurd hw hw'
  | none =>
    rw [if_pos hg] at hpush
    have hm0 : ∀ w, m.get w ≠ none → (m.insert x .once).get w ≠ none := fun w hw => by
      rw [get_insert]; split
      · simp
      · exact hw
    obtain ⟨N, h1, h2, h3⟩ := track_items hs hx x.kids 0 (by simp) ih (m.insert x .once)
      (L ++ [(r, x)]) hpush (by rw [get_insert, if_pos rfl]; simp) (fun j _ hj => by
        rw [List.map_append, List.mem_append] at hj
        rcases hj with hj | hj
        · obtain ⟨e, he, he'⟩ := List.mem_map.1 hj
          exact hl.parent e he _ _ he' hg
        · simp only [List.map_cons, List.map_nil, List.mem_singleton] at hj
          exact hp _ _ hj.symm hg)
    refine ⟨(r, x) :: N, ⟨?_, fun w hw => h1.mono w (hm0 w hw), fun w hw hw' => ?_⟩,
      fun _ => by simp, ?_⟩
    · have := h1.logged; rw [List.append_assoc] at this; exact this
    · have e : L ++ (r, x) :: N = L ++ [(r, x)] ++ N := by simp
      rw [e]
      by_cases hwx : x.word = w
      · subst hwx
        intro y i c hy hyc hyw hi hc
        obtain rfl := hv y x hy hs hyc hx hyw
        exact h2 i c (Nat.zero_le _) hi hc
      · exact h1.done w (by rw [get_insert, if_neg hwx]; exact hw) hw'
    · intro e he
      rcases List.mem_cons.1 he with rfl | he
      · exact .inl rfl
      · rcases h3 e he with ⟨j, h3⟩ | ⟨p, i, h3, h4⟩
        · exact .inr ⟨_, _, h3, hg⟩
        · refine .inr ⟨p, i, h3, ?_⟩
          by_contra hp'
          exact hm0 p hp' h4

theorem two_of_countP {α : Type} {l : List α} {p : α → Bool} (hn : l.Nodup) :
    2 ≤ l.countP p ↔ ∃ a ∈ l, ∃ b ∈ l, a ≠ b ∧ p a ∧ p b := by
  rw [List.countP_eq_length_filter]
  constructor
  · intro h
    have hn' := hn.filter p
    match hl : l.filter p with
    | [] => simp [hl] at h
    | [a] => simp [hl] at h
    | a :: b :: t =>
      rw [hl] at hn'
      have ha : a ∈ l.filter p := by simp [hl]
      have hb : b ∈ l.filter p := by simp [hl]
      rw [List.mem_filter] at ha hb
      refine ⟨a, ha.1, b, hb.1, ?_, ha.2, hb.2⟩
      rintro rfl
      simp at hn'
  · rintro ⟨a, ha, b, hb, hab, h1, h2⟩
    have ha' : a ∈ l.filter p := List.mem_filter.2 ⟨ha, h1⟩
    have hb' : b ∈ l.filter p := List.mem_filter.2 ⟨hb, h2⟩
    match hl : l.filter p with
    | [] => simp [hl] at ha'
    | [c] =>
      rw [hl, List.mem_singleton] at ha' hb'
      exact absurd (ha'.trans hb'.symm) hab
    | _ :: _ :: t => simp

/-- a block held in some place is a part -/
theorem at_sub {v c : Val} {r : Option (Word × Nat)} (h : v.At r c) : c.Sub v := by
  cases h with
  | root => exact .refl
  | kid p i c hp _ hi => exact (Val.kid_sub (List.mem_of_getElem? hi)).trans hp

/-- the blocks marked by `track` -/
theorem track_shared {v : Val} (hv : v.Consistent) :
    (keys (track [] v)).Nodup ∧ (∀ x ∈ track [] v, x.1.Sub v ∧ x.1.Compound) ∧
    ∀ c : Val, c.Sub v → c.Compound →
      ((track [] v).get c.word = some .repeatedly ↔ v.Shared c) := by
  by_cases hc : v.Compound
  swap
  · rw [track_simple _ hc]
    refine ⟨by simp [keys], by simp, fun c hs hcc => ?_⟩
    rcases Val.sub_cases hs with rfl | ⟨y, hy, -⟩
    · exact absurd hcc hc
    · exact absurd (Val.compound_of_kid hy) hc
  have h0 : Logged v [] [] :=
    ⟨fun w => rfl, by simp, by simp, by simp, by simp [keys], by simp⟩
  obtain ⟨N, h1, h2, -⟩ := track_ok hv v [] [] none .refl h0 .root (by simp) (by simp)
  have hlog := h1.logged
  rw [List.nil_append] at hlog
  refine ⟨hlog.keys, hlog.sub, ?_⟩
  have vis : ∀ e ∈ N, (track [] v).get e.2.word ≠ none := fun e he => by
    rw [hlog.count]
    have : 0 < List.countP (fun e' => decide (e'.2.word = e.2.word)) N :=
      List.countP_pos_iff.2 ⟨e, he, by simp⟩
    generalize List.countP _ N = n at *
    match n with
    | 0 => omega
    | 1 => simp [seen]
    | n + 2 => simp [seen]
  have hdone : ∀ w, (track [] v).get w ≠ none → Done v N w := fun w hw => by
    have := h1.done w rfl hw
    rwa [List.nil_append] at this
  have hall : ∀ n, ∀ p : Val, sizeOf v - sizeOf p = n → p.Sub v → p.Compound →
      (track [] v).get p.word ≠ none := by
    intro n
    induction n using Nat.strong_induction_on with
    | _ n ih =>
      intro p hn hp hpc
      rcases Val.sub_parent hp with rfl | ⟨q, hq, hqp⟩
      · exact vis _ (h2 hc)
      · have hs := Val.sizeOf_kid hqp
        have hs' := Val.sizeOf_sub hq
        have hqc := Val.compound_of_kid hqp
        have := ih (sizeOf v - sizeOf q) (by omega) q rfl hq hqc
        obtain ⟨i, hi⟩ := List.mem_iff_getElem?.1 hqp
        exact vis _ (hdone _ this q i p hq hqc rfl hi hpc)
  have hmem : ∀ r (c : Val), c.Compound → v.At r c → (r, c) ∈ N := by
    intro r c hcc hat
    cases hat with
    | root => exact h2 hc
    | kid p i c hp hpc hi => exact hdone _ (hall _ p rfl hp hpc) p i c hp hpc rfl hi hcc
  intro c hs hcc
  have hnd : N.Nodup :=
    List.Pairwise.of_map _ (fun a b h e => h (by rw [e])) hlog.nodup
  have key : 2 ≤ List.countP (fun e => decide (e.2.word = c.word)) N ↔ v.Shared c := by
    rw [two_of_countP hnd]
    constructor
    · rintro ⟨a, ha, b, hb, hab, h3, h4⟩
      obtain ⟨ra, ca⟩ := a
      obtain ⟨rb, cb⟩ := b
      simp only [decide_eq_true_eq] at h3 h4
      obtain ⟨hac, haa⟩ := hlog.at_ _ ha
      obtain ⟨hbc, hba⟩ := hlog.at_ _ hb
      simp only at *
      obtain rfl := hv ca c (at_sub haa) hs hac hcc h3
      obtain rfl := hv cb ca (at_sub hba) hs hbc hcc h4
      exact ⟨hcc, ra, rb, fun e => hab (by rw [e]), haa, hba⟩
    · rintro ⟨-, r, r', hr, ha, hb⟩
      exact ⟨(r, c), hmem r c hcc ha, (r', c), hmem r' c hcc hb, fun e => hr (by cases e; rfl),
        by simp, by simp⟩
  rw [← key, hlog.count]
  generalize List.countP _ N = n
  match n with
  | 0 => simp [seen]
  | 1 => simp [seen]
  | n + 2 => simp [seen]

end Ser
end Nanvm
