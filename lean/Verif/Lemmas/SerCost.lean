import Verif.Model.SerializerCost
import Verif.Lemmas.SerDjs
/-!
# Counting calls of the serializer
-/
namespace Nanvm
namespace Ser

variable {sh : Nat → Text}

/-! ## The count does not change the result -/

theorem trackMembersC_eq (m : HMap Seen) (l : List (JsStr × Val)) :
    trackMembersC m l = trackItemsC m (l.map (·.2)) := by
  induction l generalizing m with
  | nil => rfl
  | cons x l ih => obtain ⟨k, x⟩ := x; rw [trackMembersC, List.map_cons, trackItemsC, ih]

theorem trackC_eq (m : HMap Seen) {x : Val} (hx : x.Compound) : trackC m x =
    match m.get x.word with
    | some _ => (m.insert x .repeatedly, 1)
    | none => ((trackItemsC (m.insert x .once) x.kids).1,
        1 + (trackItemsC (m.insert x .once) x.kids).2) := by
  cases x with
  | arr i l =>
    rw [trackC, isVisited]
    cases m.get (Val.arr i l).word <;> rfl
  | obj i l =>
    rw [trackC, isVisited]
    cases m.get (Val.obj i l).word with
    | none => simp only; rw [trackMembersC_eq]; rfl
    | some _ => rfl
  | _ => cases hx

theorem trackC_simple (m : HMap Seen) {x : Val} (hx : ¬ x.Compound) : trackC m x = (m, 1) := by
  cases x with
  | arr | obj => exact absurd trivial hx
  | _ => rfl

theorem trackItemsC_fst {l : List Val} (h : ∀ x ∈ l, ∀ m, (trackC m x).1 = track m x)
    (m : HMap Seen) : (trackItemsC m l).1 = trackItems m l := by
  induction l generalizing m with
  | nil => rfl
  | cons x l ih =>
    rw [trackItemsC, trackItems, ← h x (by simp)]
    exact ih (fun y hy => h y (by simp [hy])) _

theorem trackC_fst (x : Val) : ∀ m, (trackC m x).1 = track m x := by
  induction x using Val.indK with
  | _ x ih =>
  intro m
  by_cases hx : x.Compound
  · rw [trackC_eq m hx, track_eq m hx]
    cases m.get x.word with
    | some _ => rfl
    | none => exact trackItemsC_fst ih _
  · rw [trackC_simple m hx, track_simple m hx]

theorem map_bind {α β γ : Type} (x : Res α) (f : α → Res β) (g : β → γ) :
    Except.map g (x >>= f) = x >>= fun a => Except.map g (f a) := by cases x <;> rfl

theorem writeC_fst (refs : HMap Nat) (x : Val) :
    (writeC sh refs x).map (·.1) = writeWithConstRefs sh refs x := by
  have hitems : ∀ l : List Val, (∀ y ∈ l, (writeC sh refs y).map (·.1) = writeWithConstRefs sh refs y) →
      (refItemsC sh refs l).map (·.1) = refItems sh refs l := by
    intro l h
    induction l with
    | nil => rfl
    | cons y l ih =>
      have h1 := h y (by simp)
      have h2 := ih fun z hz => h z (by simp [hz])
      rw [refItemsC, refItems, ← h1, ← h2]
      cases writeC sh refs y with
      | error e => rfl
      | ok r => cases refItemsC sh refs l <;> rfl
  have hmem : ∀ l : List (JsStr × Val),
      (∀ y ∈ l, (writeC sh refs y.2).map (·.1) = writeWithConstRefs sh refs y.2) →
      (refMembersC sh refs l).map (·.1) = refMembers sh refs l := by
    intro l h
    induction l with
    | nil => rfl
    | cons y l ih =>
      have h1 := h y (by simp)
      have h2 := ih fun z hz => h z (by simp [hz])
      obtain ⟨k, y⟩ := y
      rw [refMembersC, refMembers, ← h1, ← h2]
      simp only
      cases writeJsString k with
      | error e => rfl
      | ok t =>
        cases writeC sh refs y with
        | error e => rfl
        | ok r => cases refMembersC sh refs l <;> rfl
  induction x using Val.ind with
  | arr i l ih =>
    rw [writeC, writeWithConstRefs]
    cases refs.get (.arr i) with
    | some _ => rfl
    | none =>
      simp only
      rw [← hitems l ih]
      cases refItemsC sh refs l <;> rfl
  | obj i l ih =>
    rw [writeC, writeWithConstRefs]
    cases refs.get (.obj i) with
    | some _ => rfl
    | none =>
      simp only
      rw [← hmem l ih]
      cases refMembersC sh refs l <;> rfl
  | null | bool | num | str | big =>
    rw [writeC, writeWithConstRefs]
    · cases writeJson sh _ <;> rfl
    all_goals simp

theorem defineC_fst (v : Val) (s : St × Nat) :
    (defineConstC sh v s).map (·.1) = defineConst sh v s.1 := by
  rw [defineConstC, defineConst]
  cases s.1.todo.get v.word with
  | some _ =>
    simp only
    rw [← writeC_fst]
    cases writeC sh s.1.refs v <;> rfl
  | none => rfl

theorem constMembersC_eq (l : List (JsStr × Val)) (s : St × Nat) :
    constMembersC sh l s = constItemsC sh (l.map (·.2)) s := by
  induction l generalizing s with
  | nil => rfl
  | cons x l ih =>
    obtain ⟨k, x⟩ := x
    rw [constMembersC, List.map_cons, constItemsC]
    congr 1
    funext s'
    exact ih s'

theorem constsAndAnyC_eq {x : Val} (hx : x.Compound) (s : St × Nat) :
    constsAndAnyC sh x s = constItemsC sh x.kids (s.1, s.2 + 1) >>= defineConstC sh x := by
  cases x with
  | arr i l => rw [constsAndAnyC]; rfl
  | obj i l => rw [constsAndAnyC, constMembersC_eq]; rfl
  | _ => cases hx

theorem constsAndAnyC_simple {x : Val} (hx : ¬ x.Compound) (s : St × Nat) :
    constsAndAnyC sh x s = .ok (s.1, s.2 + 1) ∧ writeConstsAndAny sh x s.1 = .ok s.1 := by
  cases x with
  | arr | obj => exact absurd trivial hx
  | _ => exact ⟨rfl, rfl⟩

theorem constItemsC_of {l : List Val}
    (h : ∀ y ∈ l, ∀ s, (constsAndAnyC sh y s).map (·.1) = writeConstsAndAny sh y s.1) :
    ∀ s, (constItemsC sh l s).map (·.1) = constItems sh l s.1 := by
  induction l with
  | nil => intro s; rfl
  | cons y l ihl =>
    intro s
    have h1 := h y (by simp) s
    rw [constItemsC, constItems, ← h1]
    cases constsAndAnyC sh y s with
    | error e => rfl
    | ok r => exact ihl (fun z hz => h z (by simp [hz])) r

theorem constsAndAnyC_fst (x : Val) :
    ∀ s, (constsAndAnyC sh x s).map (·.1) = writeConstsAndAny sh x s.1 := by
  induction x using Val.indK with
  | _ x ih =>
  intro s
  by_cases hx : x.Compound
  · rw [constsAndAnyC_eq hx, writeConstsAndAny_eq hx]
    have h1 := constItemsC_of ih (s.1, s.2 + 1)
    simp only at h1
    rw [← h1]
    cases constItemsC sh x.kids (s.1, s.2 + 1) with
    | error e => rfl
    | ok r => exact defineC_fst x r
  · obtain ⟨h1, h2⟩ := constsAndAnyC_simple (sh := sh) hx s
    rw [h1, h2]; rfl

theorem constItemsC_fst (l : List Val) (s : St × Nat) :
    (constItemsC sh l s).map (·.1) = constItems sh l s.1 :=
  constItemsC_of (fun y _ => constsAndAnyC_fst y) s

theorem writeConstsC_fst (pick : HMap Seen → HMap Nat → Nat) (fuel : Nat) :
    ∀ s, (writeConstsC sh pick fuel s).map (·.1) = writeConsts sh pick fuel s.1 := by
  induction fuel with
  | zero => intro s; rfl
  | succ fuel ih =>
    intro s
    rw [writeConstsC, writeConsts]
    cases peek pick s.1 with
    | none => rfl
    | some x =>
      simp only
      rw [← constsAndAnyC_fst]
      cases constsAndAnyC sh x s with
      | error e => rfl
      | ok r => exact ih r

theorem toDjsC_fst (pick : HMap Seen → HMap Nat → Nat) (fuel : Nat) (v : Val) (commonJs : Bool) :
    (toDjsC sh pick fuel v commonJs).map (·.1) = toDjs sh pick fuel v commonJs := by
  have h : toDjs sh pick fuel v commonJs = (writeConsts sh pick fuel
      ⟨[], (track [] v).filter fun x => x.2 = .repeatedly, []⟩ >>= fun st => do
        let t ← writeWithConstRefs sh st.refs v
        return st.out ++ (exportText commonJs ++ t)) := rfl
  have h' : toDjsC sh pick fuel v commonJs = (writeConstsC sh pick fuel
      (⟨[], (trackC [] v).1.filter fun x => x.2 = .repeatedly, []⟩, (trackC [] v).2) >>= fun s => do
        let r ← writeC sh s.1.refs v
        return (s.1.out ++ (exportText commonJs ++ r.1), s.2 + r.2)) := rfl
  rw [h, h', trackC_fst]
  have := writeConstsC_fst (sh := sh) pick fuel
    (⟨[], (track [] v).filter fun x => x.2 = .repeatedly, []⟩, (trackC [] v).2)
  simp only at this
  rw [← this]
  cases writeConstsC sh pick fuel
    (⟨[], (track [] v).filter fun x => x.2 = .repeatedly, []⟩, (trackC [] v).2) with
  | error e => rfl
  | ok s =>
    have h2 := writeC_fst (sh := sh) s.1.refs v
    simp only [Except.map, bind, Except.bind] at h2 ⊢
    rw [← h2]
    cases writeC sh s.1.refs v <;> rfl

/-! ## Tracking is linear -/

/-- the number of places in the blocks of the map -/
def degs (m : HMap Seen) : Nat := (m.map fun x => x.1.kids.length).sum

theorem degs_insert_new {m : HMap Seen} {v : Val} (a : Seen) (h : m.get v.word = none) :
    degs (m.insert v a) = degs m + v.kids.length := by
  induction m with
  | nil => simp [HMap.insert, degs]
  | cons x m ih =>
    obtain ⟨k, b⟩ := x
    rw [HMap.get] at h
    split at h
    · cases h
    · rename_i h1
      rw [HMap.insert, if_neg h1]
      have := ih h
      simp only [degs, List.map_cons, List.sum_cons] at this ⊢
      omega

theorem degs_insert_old {m : HMap Seen} {v : Val} (a : Seen) (h : m.get v.word ≠ none) :
    degs (m.insert v a) = degs m := by
  induction m with
  | nil => exact absurd rfl h
  | cons x m ih =>
    obtain ⟨k, b⟩ := x
    rw [HMap.insert]
    split
    · rfl
    · rename_i h1
      rw [HMap.get, if_neg h1] at h
      have := ih h
      simp only [degs, List.map_cons, List.sum_cons] at this ⊢
      omega

theorem trackC_count (x : Val) : ∀ m, (trackC m x).2 + degs m = 1 + degs (trackC m x).1 := by
  induction x using Val.indK with
  | _ x ih =>
  intro m
  have hl : ∀ l : List Val, (∀ y ∈ l, ∀ m, (trackC m y).2 + degs m = 1 + degs (trackC m y).1) →
      ∀ m, (trackItemsC m l).2 + degs m = l.length + degs (trackItemsC m l).1 := by
    intro l h
    induction l with
    | nil => intro m; rfl
    | cons y l ihl =>
      intro m
      have h1 := h y (by simp) m
      have h2 := ihl (fun z hz => h z (by simp [hz])) (trackC m y).1
      rw [trackItemsC]
      simp only [List.length_cons]
      omega
  by_cases hx : x.Compound
  · rw [trackC_eq m hx]
    split
    · rename_i h
      simp only
      rw [degs_insert_old _ (by rw [h]; simp)]
    · rename_i h
      have h1 := hl x.kids ih (m.insert x .once)
      have h2 := degs_insert_new (v := x) (m := m) .once h
      simp only
      omega
  · rw [trackC_simple m hx]

/-! ## Writing constants walks over the unfolded value -/

mutual
/-- the number of nodes of the value written out as a tree -/
def _root_.Nanvm.Val.nodes : Val → Nat
  | .arr _ l => 1 + Val.nodesL l
  | .obj _ l => 1 + Val.nodesM l
  | _ => 1
def _root_.Nanvm.Val.nodesL : List Val → Nat
  | [] => 0
  | v :: vs => v.nodes + Val.nodesL vs
def _root_.Nanvm.Val.nodesM : List (JsStr × Val) → Nat
  | [] => 0
  | (_, v) :: l => v.nodes + Val.nodesM l
end

theorem nodesM_eq (l : List (JsStr × Val)) : Val.nodesM l = Val.nodesL (l.map (·.2)) := by
  induction l with
  | nil => rfl
  | cons x l ih => obtain ⟨k, x⟩ := x; rw [Val.nodesM, List.map_cons, Val.nodesL, ih]

theorem nodes_eq (x : Val) : x.nodes = 1 + Val.nodesL x.kids := by
  cases x with
  | arr i l => rw [Val.nodes]; rfl
  | obj i l => rw [Val.nodes, nodesM_eq]; rfl
  | _ => rfl

theorem nodesL_mem {l : List Val} {x : Val} (h : x ∈ l) : x.nodes ≤ Val.nodesL l := by
  induction l with
  | nil => cases h
  | cons y l ih =>
    rw [Val.nodesL]
    rcases List.mem_cons.1 h with rfl | h
    · omega
    · have := ih h; omega

theorem nodes_sub {x v : Val} (h : x.Sub v) : x.nodes ≤ v.nodes := by
  induction v using Val.indK with
  | _ v ih =>
  rcases Val.sub_cases h with rfl | ⟨y, hy, hs⟩
  · exact le_rfl
  · have h1 := ih y hy hs
    have h2 := nodesL_mem hy
    rw [nodes_eq v]; omega

theorem defineC_le {v : Val} {s s' : St × Nat} (h : defineConstC sh v s = .ok s') : s.2 ≤ s'.2 ∧
    ∀ w, s'.1.todo.get w = none → s.1.todo.get w = none ∨ w = v.word := by
  rw [defineConstC] at h
  split at h
  · cases h1 : writeC sh s.1.refs v with
    | error e => rw [h1] at h; cases h
    | ok r =>
      rw [h1] at h
      have := Except.ok.inj h
      subst this
      refine ⟨Nat.le_add_right _ _, fun w hw => ?_⟩
      simp only at hw
      rw [get_remove] at hw
      split at hw
      · rename_i e; exact .inr e
      · exact .inl hw
  · cases h
    exact ⟨le_rfl, fun w hw => .inl hw⟩

/-- a call walks over the whole value, whatever has been written before, and only blocks of the
value are written -/
theorem constsAndAnyC_le (x : Val) : ∀ s s', constsAndAnyC sh x s = .ok s' → s.2 + x.nodes ≤ s'.2 ∧
    ∀ w, s'.1.todo.get w = none → s.1.todo.get w = none ∨ ∃ y : Val, y.Sub x ∧ y.Compound ∧ y.word = w := by
  induction x using Val.indK with
  | _ x ih =>
  intro s s' h
  have hl : ∀ l : List Val, (∀ y ∈ l, ∀ s s', constsAndAnyC sh y s = .ok s' → s.2 + y.nodes ≤ s'.2 ∧
      ∀ w, s'.1.todo.get w = none → s.1.todo.get w = none ∨
        ∃ z : Val, z.Sub y ∧ z.Compound ∧ z.word = w) →
      ∀ s s', constItemsC sh l s = .ok s' → s.2 + Val.nodesL l ≤ s'.2 ∧
      ∀ w, s'.1.todo.get w = none → s.1.todo.get w = none ∨
        ∃ y ∈ l, ∃ z : Val, z.Sub y ∧ z.Compound ∧ z.word = w := by
    intro l h
    induction l with
    | nil => intro s s' hs; cases hs; exact ⟨le_rfl, fun w hw => .inl hw⟩
    | cons y l ihl =>
      intro s s' hs
      rw [constItemsC] at hs
      cases h1 : constsAndAnyC sh y s with
      | error e => rw [h1] at hs; cases hs
      | ok s1 =>
        rw [h1] at hs
        obtain ⟨a1, a2⟩ := h y (by simp) s s1 h1
        obtain ⟨b1, b2⟩ := ihl (fun z hz => h z (by simp [hz])) s1 s' hs
        refine ⟨by rw [Val.nodesL]; omega, fun w hw => ?_⟩
        rcases b2 w hw with hw | ⟨z, hz, hw⟩
        · rcases a2 w hw with hw | hw
          · exact .inl hw
          · exact .inr ⟨y, by simp, hw⟩
        · exact .inr ⟨z, by simp [hz], hw⟩
  by_cases hx : x.Compound
  · rw [constsAndAnyC_eq hx] at h
    cases h1 : constItemsC sh x.kids (s.1, s.2 + 1) with
    | error e => rw [h1] at h; cases h
    | ok s1 =>
      rw [h1] at h
      obtain ⟨a1, a2⟩ := hl x.kids ih _ _ h1
      obtain ⟨b1, b2⟩ := defineC_le h
      refine ⟨by rw [nodes_eq]; simp only at a1; omega, fun w hw => ?_⟩
      rcases b2 w hw with hw | rfl
      · rcases a2 w hw with hw | ⟨y, hy, z, hz, hw⟩
        · exact .inl hw
        · exact .inr ⟨z, Val.sub_kid hy hz, hw⟩
      · exact .inr ⟨x, .refl, hx, rfl⟩
  · rw [(constsAndAnyC_simple hx s).1] at h
    cases h
    refine ⟨?_, fun w hw => .inl hw⟩
    cases x with
    | arr | obj => exact absurd trivial hx
    | _ => exact le_rfl

theorem defineC_todo {v : Val} {s s' : St × Nat} (h : defineConstC sh v s = .ok s') :
    ∀ y ∈ s'.1.todo, y ∈ s.1.todo := by
  rw [defineConstC] at h
  split at h
  · cases h1 : writeC sh s.1.refs v with
    | error e => rw [h1] at h; cases h
    | ok r =>
      rw [h1] at h
      have := Except.ok.inj h
      subst this
      intro y hy
      exact (List.mem_filter.1 hy).1
  · cases h
    exact fun y hy => hy

theorem constsAndAnyC_todo (x : Val) : ∀ s s', constsAndAnyC sh x s = .ok s' →
    ∀ y ∈ s'.1.todo, y ∈ s.1.todo := by
  induction x using Val.indK with
  | _ x ih =>
  intro s s' h
  have hl : ∀ l : List Val, (∀ y ∈ l, ∀ s s', constsAndAnyC sh y s = .ok s' →
      ∀ y ∈ s'.1.todo, y ∈ s.1.todo) → ∀ s s', constItemsC sh l s = .ok s' →
      ∀ y ∈ s'.1.todo, y ∈ s.1.todo := by
    intro l h
    induction l with
    | nil => intro s s' hs; cases hs; exact fun y hy => hy
    | cons y l ihl =>
      intro s s' hs
      rw [constItemsC] at hs
      cases h1 : constsAndAnyC sh y s with
      | error e => rw [h1] at hs; cases hs
      | ok s1 =>
        rw [h1] at hs
        exact fun z hz => h y (by simp) s s1 h1 z
          (ihl (fun z hz => h z (by simp [hz])) s1 s' hs z hz)
  by_cases hx : x.Compound
  · rw [constsAndAnyC_eq hx] at h
    cases h1 : constItemsC sh x.kids (s.1, s.2 + 1) with
    | error e => rw [h1] at h; cases h
    | ok s1 =>
      rw [h1] at h
      exact fun z hz => hl x.kids ih _ _ h1 z (defineC_todo h z hz)
  · rw [(constsAndAnyC_simple hx s).1] at h
    cases h
    exact fun y hy => hy

/-- the loop walks over each unfolded shared block -/
theorem writeConstsC_le {v : Val} (hv : v.Consistent) (pick : HMap Seen → HMap Nat → Nat)
    {a : Val} (ha : a.Sub v) (hac : a.Compound) (fuel : Nat) : ∀ s s',
    (∀ y ∈ s.1.todo, y.1.Sub v ∧ y.1.Compound) →
    writeConstsC sh pick fuel s = .ok s' → s.1.todo.get a.word ≠ none → s.2 + a.nodes ≤ s'.2 := by
  have mono : ∀ fuel s s', writeConstsC sh pick fuel s = .ok s' → s.2 ≤ s'.2 := by
    intro fuel
    induction fuel with
    | zero => intro s s' h; cases h
    | succ fuel ih =>
      intro s s' h
      rw [writeConstsC] at h
      split at h
      · cases h; exact le_rfl
      · rename_i x hx
        cases h1 : constsAndAnyC sh x s with
        | error e => rw [h1] at h; cases h
        | ok s1 =>
          rw [h1] at h
          have := ih s1 s' h
          have := (constsAndAnyC_le x s s1 h1).1
          omega
  induction fuel with
  | zero => intro s s' _ h; cases h
  | succ fuel ih =>
    intro s s' hsub h hget
    rw [writeConstsC] at h
    split at h
    · rename_i hp
      rw [peek_none hp] at hget
      exact absurd rfl hget
    · rename_i x hx
      rw [peek, Option.map_eq_some_iff] at hx
      obtain ⟨y, hy, rfl⟩ := hx
      have hys := hsub y (List.mem_of_getElem? hy)
      cases h1 : constsAndAnyC sh y.1 s with
      | error e => rw [h1] at h; cases h
      | ok s1 =>
        rw [h1] at h
        obtain ⟨a1, a2⟩ := constsAndAnyC_le y.1 s s1 h1
        by_cases hg : s1.1.todo.get a.word = none
        · rcases a2 _ hg with h2 | ⟨z, hz, hzc, hzw⟩
          · exact absurd h2 hget
          · have e := hv z a (hz.trans hys.1) ha hzc hac hzw
            subst e
            have := nodes_sub hz
            have := mono fuel s1 s' h
            omega
        · have := ih s1 s' (fun z hz => hsub z (constsAndAnyC_todo y.1 s s1 h1 z hz)) h hg
          omega

/-! ## Values without sharing -/

theorem trackC_once (x : Val) : ∀ m, (∀ w, (trackC m x).1.get w ≠ some .repeatedly) →
    (trackC m x).2 = x.nodes ∧ ∀ w, m.get w ≠ some .repeatedly := by
  induction x using Val.indK with
  | _ x ih =>
  intro m h
  have hl : ∀ l : List Val, (∀ y ∈ l, ∀ m, (∀ w, (trackC m y).1.get w ≠ some .repeatedly) →
      (trackC m y).2 = y.nodes ∧ ∀ w, m.get w ≠ some .repeatedly) →
      ∀ m, (∀ w, (trackItemsC m l).1.get w ≠ some .repeatedly) →
      (trackItemsC m l).2 = Val.nodesL l ∧ ∀ w, m.get w ≠ some .repeatedly := by
    intro l h
    induction l with
    | nil => intro m hm; exact ⟨rfl, hm⟩
    | cons y l ihl =>
      intro m hm
      rw [trackItemsC] at hm ⊢
      obtain ⟨a1, a2⟩ := ihl (fun z hz => h z (by simp [hz])) (trackC m y).1 hm
      obtain ⟨b1, b2⟩ := h y (by simp) m a2
      exact ⟨by rw [Val.nodesL, ← a1, ← b1], b2⟩
  by_cases hx : x.Compound
  · rw [trackC_eq m hx] at h ⊢
    cases hg : m.get x.word with
    | some a =>
      rw [hg] at h
      exact absurd (by simp only; rw [get_insert, if_pos rfl]) (h x.word)
    | none =>
      rw [hg] at h
      obtain ⟨a1, a2⟩ := hl x.kids ih _ h
      refine ⟨by simp only; rw [a1, ← nodes_eq], fun w hw => ?_⟩
      have := a2 w
      rw [get_insert] at this
      split at this
      · rename_i e; rw [← e, hg] at hw; cases hw
      · exact this hw
  · rw [trackC_simple m hx] at h ⊢
    refine ⟨?_, h⟩
    cases x with
    | arr | obj => exact absurd trivial hx
    | _ => rfl

theorem writeC_nodes (x : Val) (r : Text × Nat) (h : writeC sh [] x = .ok r) : r.2 = x.nodes := by
  have hitems : ∀ l : List Val, (∀ y ∈ l, ∀ r, writeC sh [] y = .ok r → r.2 = y.nodes) →
      ∀ r, refItemsC sh [] l = .ok r → r.2 = Val.nodesL l := by
    intro l h
    induction l with
    | nil => intro r hr; cases hr; rfl
    | cons y l ih =>
      intro r hr
      rw [refItemsC] at hr
      cases h1 : writeC sh [] y with
      | error e => rw [h1] at hr; cases hr
      | ok a =>
        cases h2 : refItemsC sh [] l with
        | error e => rw [h1, h2] at hr; cases hr
        | ok b =>
          rw [h1, h2] at hr
          have := Except.ok.inj hr
          subst this
          have a1 := h y (by simp) a h1
          have a2 := ih (fun z hz => h z (by simp [hz])) b h2
          simp only [Val.nodesL]; omega
  have hmem : ∀ l : List (JsStr × Val), (∀ y ∈ l, ∀ r, writeC sh [] y.2 = .ok r → r.2 = y.2.nodes) →
      ∀ r, refMembersC sh [] l = .ok r → r.2 = Val.nodesM l := by
    intro l h
    induction l with
    | nil => intro r hr; cases hr; rfl
    | cons y l ih =>
      intro r hr
      obtain ⟨k, y⟩ := y
      rw [refMembersC] at hr
      cases h0 : writeJsString k with
      | error e => rw [h0] at hr; cases hr
      | ok t =>
      cases h1 : writeC sh [] y with
      | error e => rw [h0, h1] at hr; cases hr
      | ok a =>
        cases h2 : refMembersC sh [] l with
        | error e => rw [h0, h1, h2] at hr; cases hr
        | ok b =>
          rw [h0, h1, h2] at hr
          have := Except.ok.inj hr
          subst this
          have a1 := h (k, y) (by simp) a h1
          have a2 := ih (fun z hz => h z (by simp [hz])) b h2
          simp only [Val.nodesM] at a1 ⊢; omega
  induction x using Val.ind generalizing r with
  | arr i l ih =>
    rw [writeC] at h
    simp only [HMap.get] at h
    cases h1 : refItemsC sh [] l with
    | error e => rw [h1] at h; cases h
    | ok a =>
      rw [h1] at h
      have := Except.ok.inj h
      subst this
      have := hitems l ih a h1
      simp only [Val.nodes]; omega
  | obj i l ih =>
    rw [writeC] at h
    simp only [HMap.get] at h
    cases h1 : refMembersC sh [] l with
    | error e => rw [h1] at h; cases h
    | ok a =>
      rw [h1] at h
      have := Except.ok.inj h
      subst this
      have := hmem l ih a h1
      simp only [Val.nodes]; omega
  | null | bool | num | str | big =>
    rw [writeC] at h
    · cases h1 : writeJson sh _ with
      | error e => rw [h1] at h; cases h
      | ok a =>
        rw [h1] at h
        have := Except.ok.inj h
        subst this
        rfl
    all_goals simp

end Ser
end Nanvm
