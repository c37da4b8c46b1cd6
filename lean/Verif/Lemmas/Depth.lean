import Verif.Model.Depth
import Verif.Spec.Depth
import Verif.Lemmas.SerCost
import Verif.Lemmas.GraphStep
/-!
# Lemmas for C88: the serializers with a limited number of stack frames
-/
namespace Nanvm
namespace Ser

variable {sh : Nat → Text}

/-- as before, or out of frames -/
def Lim {α : Type} (r full : Res α) : Prop := r = full ∨ r = .error .fuel

/-- values are nested at most `f` deep -/
def Within (f : Nat) (v : Val) : Prop := ∀ n, Val.Nested n v → n ≤ f

theorem Within.pos {f v} (h : Within f v) : ∃ g, f = g + 1 := by
  have := h 1 (.one v)
  exact ⟨f - 1, by omega⟩

theorem Within.item {f i l x} (h : Within (f + 1) (.arr i l)) (hx : x ∈ l) : Within f x := by
  intro n hn
  have := h _ (.arr hx hn); omega

theorem Within.member {f i l} {x : JsStr × Val} (h : Within (f + 1) (.obj i l)) (hx : x ∈ l) :
    Within f x.2 := by
  intro n hn
  have := h _ (.obj hx hn); omega

theorem Within.kid {f x} {v : Val} (h : Within (f + 1) v) (hx : x ∈ v.kids) : Within f x := by
  cases v with
  | arr i l => exact h.item hx
  | obj i l =>
    obtain ⟨y, hy, rfl⟩ := List.mem_map.1 hx
    exact h.member hy
  | _ => cases hx

theorem Within.mono {f g v} (h : Within f v) (e : f ≤ g) : Within g v := fun n hn =>
  (h n hn).trans e

theorem Within.sub {f : Nat} {v x : Val} (h : Within f v) (s : x.Sub v) : Within f x := by
  induction s generalizing f with
  | refl => exact h
  | arr i l y hy _ ih =>
    obtain ⟨g, rfl⟩ := h.pos
    exact (ih (h.item hy)).mono (by omega)
  | obj i l m hm _ ih =>
    obtain ⟨g, rfl⟩ := h.pos
    exact (ih (h.member hm)).mono (by omega)

/-! ## `write_json` -/

theorem jsonD_lim (v : Val) : ∀ f, Lim (writeJsonD sh v f) (writeJson sh v) := by
  induction v using Val.ind with
  | arr i l ih =>
    intro f
    cases f with
    | zero => exact .inr (by rw [writeJsonD])
    | succ f =>
      have hl : ∀ l : List Val, (∀ x ∈ l, ∀ f, Lim (writeJsonD sh x f) (writeJson sh x)) →
          Lim (jsonItemsD sh l f) (jsonItems sh l) := by
        intro l h
        induction l with
        | nil => exact .inl (by rw [jsonItemsD, jsonItems])
        | cons y l ihl =>
          rw [jsonItemsD, jsonItems]
          rcases h y (by simp) f with e | e
          · rw [e]
            cases writeJson sh y with
            | error x => exact .inl rfl
            | ok t =>
              rcases ihl fun z hz => h z (by simp [hz]) with e | e
              · rw [e]; exact .inl rfl
              · rw [e]; exact .inr rfl
          · rw [e]; exact .inr rfl
      rw [writeJsonD, writeJson]
      rcases hl l ih with e | e
      · rw [e]; exact .inl rfl
      · rw [e]; exact .inr rfl
  | obj i l ih =>
    intro f
    cases f with
    | zero => exact .inr (by rw [writeJsonD])
    | succ f =>
      have hl : ∀ l : List (JsStr × Val), (∀ x ∈ l, ∀ f, Lim (writeJsonD sh x.2 f) (writeJson sh x.2)) →
          Lim (jsonMembersD sh l f) (jsonMembers sh l) := by
        intro l h
        induction l with
        | nil => exact .inl (by rw [jsonMembersD, jsonMembers])
        | cons y l ihl =>
          obtain ⟨k, y⟩ := y
          rw [jsonMembersD, jsonMembers]
          cases writeJsString k with
          | error x => exact .inl rfl
          | ok s =>
          rcases h (k, y) (by simp) f with e | e
          · simp only at e
            rw [e]
            cases writeJson sh y with
            | error x => exact .inl rfl
            | ok t =>
              rcases ihl fun z hz => h z (by simp [hz]) with e | e
              · rw [e]; exact .inl rfl
              · rw [e]; exact .inr rfl
          · simp only at e; rw [e]; exact .inr rfl
      rw [writeJsonD, writeJson]
      rcases hl l ih with e | e
      · rw [e]; exact .inl rfl
      · rw [e]; exact .inr rfl
  | null | bool | num | str | big =>
    intro f
    cases f with
    | zero => exact .inr (by rw [writeJsonD])
    | succ f => exact .inl (by rw [writeJsonD, writeJson])

theorem jsonD_enough (v : Val) : ∀ f, Within f v → writeJsonD sh v f = writeJson sh v := by
  induction v using Val.ind with
  | arr i l ih =>
    intro f h
    obtain ⟨f, rfl⟩ := h.pos
    have hl : ∀ m : List Val, (∀ x ∈ m, x ∈ l) → jsonItemsD sh m f = jsonItems sh m := by
      intro m hm
      induction m with
      | nil => rw [jsonItemsD, jsonItems]
      | cons y m ihm =>
        rw [jsonItemsD, jsonItems, ih y (hm y (by simp)) f (h.item (hm y (by simp))),
          ihm fun x hx => hm x (by simp [hx])]
    rw [writeJsonD, writeJson, hl l fun _ h => h]
  | obj i l ih =>
    intro f h
    obtain ⟨f, rfl⟩ := h.pos
    have hl : ∀ m : List (JsStr × Val), (∀ x ∈ m, x ∈ l) → jsonMembersD sh m f = jsonMembers sh m := by
      intro m hm
      induction m with
      | nil => rw [jsonMembersD, jsonMembers]
      | cons y m ihm =>
        have h1 := ih y (hm y (by simp)) f (h.member (hm y (by simp)))
        obtain ⟨k, y⟩ := y
        rw [jsonMembersD, jsonMembers, h1, ihm fun x hx => hm x (by simp [hx])]
    rw [writeJsonD, writeJson, hl l fun _ h => h]
  | null | bool | num | str | big =>
    intro f h
    obtain ⟨f, rfl⟩ := h.pos
    rw [writeJsonD, writeJson]

theorem jsonItemsD_short {l : List Val} {x : Val} {f : Nat} (hx : x ∈ l) :
    ∀ ts, jsonItems sh l = .ok ts → (∀ t, writeJson sh x = .ok t → writeJsonD sh x f = .error .fuel) →
      jsonItemsD sh l f = .error .fuel := by
  induction l with
  | nil => cases hx
  | cons y l ih =>
    intro ts h hs
    rw [jsonItems] at h
    rw [jsonItemsD]
    cases ey : writeJson sh y with
    | error e => rw [ey] at h; cases h
    | ok t =>
      rw [ey] at h
      rcases jsonD_lim (sh := sh) y f with e | e
      · rw [e, ey]
        rcases List.mem_cons.1 hx with rfl | hx
        · rw [hs t ey, ey] at e; cases e
        · cases el : jsonItems sh l with
          | error e => rw [el] at h; cases h
          | ok us => rw [ih hx us el hs]; rfl
      · rw [e]; rfl

theorem jsonMembersD_short {l : List (JsStr × Val)} {x : JsStr × Val} {f : Nat} (hx : x ∈ l) :
    ∀ ts, jsonMembers sh l = .ok ts →
      (∀ t, writeJson sh x.2 = .ok t → writeJsonD sh x.2 f = .error .fuel) →
      jsonMembersD sh l f = .error .fuel := by
  induction l with
  | nil => cases hx
  | cons y l ih =>
    intro ts h hs
    obtain ⟨k, y⟩ := y
    rw [jsonMembers] at h
    rw [jsonMembersD]
    cases ek : writeJsString k with
    | error e => rw [ek] at h; cases h
    | ok s =>
    cases ey : writeJson sh y with
    | error e => rw [ek, ey] at h; cases h
    | ok t =>
      rw [ek, ey] at h
      rcases jsonD_lim (sh := sh) y f with e | e
      · rw [e, ey]
        rcases List.mem_cons.1 hx with rfl | hx
        · rw [hs t ey] at e; rw [ey] at e; cases e
        · cases el : jsonMembers sh l with
          | error e => rw [el] at h; cases h
          | ok us => rw [ih hx us el hs]; rfl
      · rw [e]; rfl

theorem jsonD_short {n : Nat} {v : Val} (h : Val.Nested n v) : ∀ f t, writeJson sh v = .ok t → f < n →
    writeJsonD sh v f = .error .fuel := by
  induction h with
  | one v =>
    intro f t _ hf
    obtain rfl : f = 0 := by omega
    rw [writeJsonD]
  | @arr n i l x hx _ ih =>
    intro f t ht hf
    cases f with
    | zero => rw [writeJsonD]
    | succ f =>
      rw [writeJson] at ht
      rw [writeJsonD]
      cases el : jsonItems sh l with
      | error e => rw [el] at ht; cases ht
      | ok us => rw [jsonItemsD_short hx us el fun t ht => ih f t ht (by omega)]; rfl
  | @obj n i l m hm _ ih =>
    intro f t ht hf
    cases f with
    | zero => rw [writeJsonD]
    | succ f =>
      rw [writeJson] at ht
      rw [writeJsonD]
      cases el : jsonMembers sh l with
      | error e => rw [el] at ht; cases ht
      | ok us => rw [jsonMembersD_short hm us el fun t ht => ih f t ht (by omega)]; rfl

/-! ## `to_djs` -/

theorem trackD_enough (v : Val) : ∀ f m, Within f v → trackD m v f = .ok (track m v) := by
  induction v using Val.ind with
  | arr i l ih =>
    intro f m h
    obtain ⟨f, rfl⟩ := h.pos
    have hl : ∀ k : List Val, (∀ x ∈ k, x ∈ l) → ∀ m, trackItemsD m k f = .ok (trackItems m k) := by
      intro k hk
      induction k with
      | nil => intro m; rw [trackItemsD, trackItems]
      | cons y k ihk =>
        intro m
        rw [trackItemsD, trackItems, ih y (hk y (by simp)) f _ (h.item (hk y (by simp)))]
        exact ihk (fun x hx => hk x (by simp [hx])) _
    rw [trackD, track]
    rcases isVisited m (.arr i l) with ⟨_ | _, m'⟩
    · exact hl l (fun _ h => h) _
    · rfl
  | obj i l ih =>
    intro f m h
    obtain ⟨f, rfl⟩ := h.pos
    have hl : ∀ k : List (JsStr × Val), (∀ x ∈ k, x ∈ l) →
        ∀ m, trackMembersD m k f = .ok (trackMembers m k) := by
      intro k hk
      induction k with
      | nil => intro m; rw [trackMembersD, trackMembers]
      | cons y k ihk =>
        intro m
        have h1 := ih y (hk y (by simp)) f m (h.member (hk y (by simp)))
        obtain ⟨s, y⟩ := y
        rw [trackMembersD, trackMembers, h1]
        exact ihk (fun x hx => hk x (by simp [hx])) _
    rw [trackD, track]
    rcases isVisited m (.obj i l) with ⟨_ | _, m'⟩
    · exact hl l (fun _ h => h) _
    · rfl
  | null | bool | num | str | big =>
    intro f m h
    obtain ⟨f, rfl⟩ := h.pos
    rw [trackD, track] <;> simp

theorem writeD_enough (refs : HMap Nat) (v : Val) : ∀ f, Within f v →
    writeD sh refs v (f + 1) = writeWithConstRefs sh refs v := by
  induction v using Val.ind with
  | arr i l ih =>
    intro f h
    obtain ⟨f, rfl⟩ := h.pos
    have hl : ∀ k : List Val, (∀ x ∈ k, x ∈ l) → refItemsD sh refs k (f + 1) = refItems sh refs k := by
      intro k hk
      induction k with
      | nil => rw [refItemsD, refItems]
      | cons y k ihk =>
        rw [refItemsD, refItems, ih y (hk y (by simp)) f (h.item (hk y (by simp))),
          ihk fun x hx => hk x (by simp [hx])]
    rw [writeD, writeWithConstRefs, hl l fun _ h => h]
    cases refs.get (.arr i) <;> rfl
  | obj i l ih =>
    intro f h
    obtain ⟨f, rfl⟩ := h.pos
    have hl : ∀ k : List (JsStr × Val), (∀ x ∈ k, x ∈ l) →
        refMembersD sh refs k (f + 1) = refMembers sh refs k := by
      intro k hk
      induction k with
      | nil => rw [refMembersD, refMembers]
      | cons y k ihk =>
        have h1 := ih y (hk y (by simp)) f (h.member (hk y (by simp)))
        obtain ⟨s, y⟩ := y
        rw [refMembersD, refMembers, h1, ihk fun x hx => hk x (by simp [hx])]
    rw [writeD, writeWithConstRefs, hl l fun _ h => h]
    cases refs.get (.obj i) <;> rfl
  | null | bool | num | str | big =>
    intro f h
    rw [writeD, writeWithConstRefs, jsonD_enough _ f h] <;> simp

theorem defineConstD_enough {f : Nat} {v : Val} (h : Within f v) (st : St) :
    defineConstD sh v (f + 1) st = defineConst sh v st := by
  rw [defineConstD, defineConst, writeD_enough st.refs v f h]
  cases st.todo.get v.word <;> rfl

theorem constsAndAnyD_enough (v : Val) : ∀ f st, Within f v →
    constsAndAnyD sh v (f + 2) st = writeConstsAndAny sh v st := by
  induction v using Val.ind with
  | arr i l ih =>
    intro f st h
    have h0 := h
    obtain ⟨f, rfl⟩ := h.pos
    have hl : ∀ k : List Val, (∀ x ∈ k, x ∈ l) → ∀ st, constItemsD sh k (f + 2) st = constItems sh k st := by
      intro k hk
      induction k with
      | nil => intro st; rw [constItemsD, constItems]
      | cons y k ihk =>
        intro st
        rw [constItemsD, constItems, ih y (hk y (by simp)) f st (h.item (hk y (by simp)))]
        congr 1
        funext st'
        exact ihk (fun x hx => hk x (by simp [hx])) st'
    rw [constsAndAnyD, writeConstsAndAny, hl l fun _ h => h]
    congr 1
    funext st'
    exact defineConstD_enough h0 st'
  | obj i l ih =>
    intro f st h
    have h0 := h
    obtain ⟨f, rfl⟩ := h.pos
    have hl : ∀ k : List (JsStr × Val), (∀ x ∈ k, x ∈ l) →
        ∀ st, constMembersD sh k (f + 2) st = constMembers sh k st := by
      intro k hk
      induction k with
      | nil => intro st; rw [constMembersD, constMembers]
      | cons y k ihk =>
        intro st
        have h1 := ih y (hk y (by simp)) f st (h.member (hk y (by simp)))
        obtain ⟨s, y⟩ := y
        rw [constMembersD, constMembers, h1]
        congr 1
        funext st'
        exact ihk (fun x hx => hk x (by simp [hx])) st'
    rw [constsAndAnyD, writeConstsAndAny, hl l fun _ h => h]
    congr 1
    funext st'
    exact defineConstD_enough h0 st'
  | null | bool | num | str | big =>
    intro f st h
    rw [constsAndAnyD, writeConstsAndAny] <;> simp

theorem insert_fst {α : Type} (m : HMap α) (v : Val) (a : α) : ∀ x ∈ m.insert v a,
    x.1 = v ∨ ∃ y ∈ m, y.1 = x.1 := by
  induction m with
  | nil =>
    intro x hx
    rw [HMap.insert, List.mem_singleton] at hx
    exact .inl (by rw [hx])
  | cons y m ih =>
    obtain ⟨k, b⟩ := y
    intro x hx
    rw [HMap.insert] at hx
    split at hx
    · rcases List.mem_cons.1 hx with rfl | hx
      · exact .inr ⟨(k, b), by simp, rfl⟩
      · exact .inr ⟨x, by simp [hx], rfl⟩
    · rcases List.mem_cons.1 hx with rfl | hx
      · exact .inr ⟨(k, b), by simp, rfl⟩
      · rcases ih x hx with h | ⟨z, hz, e⟩
        · exact .inl h
        · exact .inr ⟨z, by simp [hz], e⟩

theorem track_fst (v : Val) : ∀ m, ∀ x ∈ track m v, x.1.Sub v ∨ ∃ y ∈ m, y.1 = x.1 := by
  induction v using Val.indK with
  | _ v ih =>
  intro m
  by_cases hv : v.Compound
  · rw [track_eq m hv]
    cases m.get v.word with
    | some _ =>
      intro x hx
      rcases insert_fst _ _ _ x hx with e | e
      · exact .inl (e ▸ .refl)
      · exact .inr e
    | none =>
      have hl : ∀ l : List Val, (∀ y ∈ l, y ∈ v.kids) → ∀ m, ∀ x ∈ trackItems m l,
          x.1.Sub v ∨ ∃ y ∈ m, y.1 = x.1 := by
        intro l hl
        induction l with
        | nil => intro m x hx; exact .inr ⟨x, hx, rfl⟩
        | cons y l ihl =>
          intro m x hx
          rw [trackItems] at hx
          rcases ihl (fun z hz => hl z (by simp [hz])) _ x hx with h | ⟨z, hz, e⟩
          · exact .inl h
          · rcases ih y (hl y (by simp)) m z hz with h | ⟨w, hw, e2⟩
            · refine .inl ?_
              rw [← e]
              have hy := hl y (by simp)
              cases v with
              | arr i k => exact .arr _ _ _ hy h
              | obj i k =>
                obtain ⟨u, hu, rfl⟩ := List.mem_map.1 hy
                exact .obj _ _ _ hu h
              | _ => cases hv
            · exact .inr ⟨w, hw, e2.trans e⟩
      intro x hx
      rcases hl v.kids (fun _ h => h) _ x hx with h | ⟨z, hz, e⟩
      · exact .inl h
      · rcases insert_fst _ _ _ z hz with h | ⟨w, hw, e2⟩
        · exact .inl (by rw [← e, h]; exact .refl)
        · exact .inr ⟨w, hw, e2.trans e⟩
  · rw [track_simple m hv]
    exact fun x hx => .inr ⟨x, hx, rfl⟩

theorem constsAndAny_todo (x : Val) (st st' : St) (h : writeConstsAndAny sh x st = .ok st') :
    ∀ y ∈ st'.todo, y ∈ st.todo := by
  have h1 := constsAndAnyC_fst (sh := sh) x (st, 0)
  rw [h] at h1
  cases h2 : constsAndAnyC sh x (st, 0) with
  | error e => rw [h2] at h1; cases h1
  | ok s =>
    rw [h2] at h1
    have h3 : s.1 = st' := Except.ok.inj h1
    rw [← h3]
    exact constsAndAnyC_todo x (st, 0) s h2

theorem writeConstsD_enough (pick : HMap Seen → HMap Nat → Nat) {f : Nat} : ∀ fuel st,
    (∀ x ∈ st.todo, Within f x.1) →
    writeConstsD sh pick (f + 2) fuel st = writeConsts sh pick fuel st := by
  intro fuel
  induction fuel with
  | zero => intro st _; rfl
  | succ fuel ih =>
    intro st h
    rw [writeConstsD, writeConsts]
    cases hp : peek pick st with
    | none => rfl
    | some v =>
      simp only
      have hv : Within f v := by
        unfold peek at hp
        cases hg : st.todo[pick st.todo st.refs % st.todo.length]? with
        | none => rw [hg] at hp; cases hp
        | some y =>
          rw [hg] at hp
          simp only [Option.map_some, Option.some.injEq] at hp
          rw [← hp]
          exact h y (List.mem_of_getElem? hg)
      rw [constsAndAnyD_enough v f st hv]
      cases hs : writeConstsAndAny sh v st with
      | error e => rfl
      | ok st' => exact ih st' fun x hx => h x (constsAndAny_todo v st st' hs x hx)

theorem toDjsD_enough (pick : HMap Seen → HMap Nat → Nat) {f : Nat} (fuel : Nat) {v : Val}
    (h : Within f v) (commonJs : Bool) :
    toDjsD sh pick (f + 2) fuel v commonJs = toDjs sh pick fuel v commonJs := by
  unfold toDjsD toDjs
  rw [trackD_enough v (f + 2) [] (h.mono (by omega))]
  simp only [bind, Except.bind]
  rw [writeConstsD_enough]
  · cases writeConsts sh pick fuel ⟨[], (track [] v).filter fun x => x.2 = .repeatedly, []⟩ with
    | error e => rfl
    | ok st =>
      simp only
      rw [writeD_enough st.refs v (f + 1) (h.mono (by omega))]
  · intro x hx
    rcases track_fst v [] x (List.mem_filter.1 hx).1 with h1 | ⟨_, h1, -⟩
    · exact h.sub h1
    · cases h1

/-! Too few frames for the search for shared blocks, when there are none. -/

theorem nested_cases {n : Nat} {v : Val} (h : Val.Nested n v) : n = 1 ∨
    ∃ k x, n = k + 1 ∧ v.Compound ∧ x ∈ v.kids ∧ Val.Nested k x := by
  cases h with
  | one => exact .inl rfl
  | arr hx hn => exact .inr ⟨_, _, rfl, trivial, hx, hn⟩
  | obj hx hn => exact .inr ⟨_, _, rfl, trivial, List.mem_map_of_mem hx, hn⟩

theorem trackMembersD_eq (m : HMap Seen) (l : List (JsStr × Val)) (f : Nat) :
    trackMembersD m l f = trackItemsD m (l.map (·.2)) f := by
  induction l generalizing m with
  | nil => rw [trackMembersD, List.map_nil, trackItemsD]
  | cons x l ih =>
    obtain ⟨k, x⟩ := x
    rw [trackMembersD, List.map_cons, trackItemsD]
    congr 1
    funext m'
    exact ih m'

theorem trackD_eq (m : HMap Seen) {x : Val} (hx : x.Compound) (f : Nat) : trackD m x (f + 1) =
    match m.get x.word with
    | some _ => .ok (m.insert x .repeatedly)
    | none => trackItemsD (m.insert x .once) x.kids f := by
  cases x with
  | arr i l =>
    rw [trackD, isVisited]
    cases m.get (Val.arr i l).word <;> rfl
  | obj i l =>
    rw [trackD, isVisited]
    cases m.get (Val.obj i l).word with
    | none => simp only; rw [trackMembersD_eq]; rfl
    | some _ => rfl
  | _ => cases hx

theorem trackD_lim (v : Val) : ∀ f m, Lim (trackD m v f) (.ok (track m v)) := by
  induction v using Val.indK with
  | _ v ih =>
  intro f m
  cases f with
  | zero => exact .inr (by rw [trackD])
  | succ f =>
    by_cases hv : v.Compound
    · rw [trackD_eq m hv, track_eq m hv]
      cases m.get v.word with
      | some _ => exact .inl rfl
      | none =>
        simp only
        have hl : ∀ l : List Val, (∀ y ∈ l, y ∈ v.kids) → ∀ m, Lim (trackItemsD m l f) (.ok (trackItems m l)) := by
          intro l hl
          induction l with
          | nil => intro m; exact .inl (by rw [trackItemsD, trackItems])
          | cons y l ihl =>
            intro m
            rw [trackItemsD, trackItems]
            rcases ih y (hl y (by simp)) f m with e | e
            · rw [e]; exact ihl (fun z hz => hl z (by simp [hz])) _
            · rw [e]; exact .inr rfl
        exact hl v.kids (fun _ h => h) _
    · rw [track_simple m hv]
      refine .inl ?_
      cases v with
      | arr | obj => exact absurd trivial hv
      | _ => rw [trackD] <;> simp

theorem track_norep (x : Val) (m : HMap Seen) (h : ∀ w, (track m x).get w ≠ some .repeatedly) :
    ∀ w, m.get w ≠ some .repeatedly := by
  rw [← trackC_fst] at h
  exact (trackC_once x m h).2

theorem trackItems_norep (l : List Val) : ∀ m, (∀ w, (trackItems m l).get w ≠ some .repeatedly) →
    ∀ w, HMap.get m w ≠ some .repeatedly := by
  induction l with
  | nil => exact fun m h => h
  | cons y l ih => intro m h; exact track_norep y m (ih _ h)

theorem trackItemsD_short {x : Val} {f : Nat}
    (hs : ∀ m, (∀ w, (track m x).get w ≠ some .repeatedly) → trackD m x f = .error .fuel) :
    ∀ (l : List Val), x ∈ l → ∀ m, (∀ w, (trackItems m l).get w ≠ some .repeatedly) →
      trackItemsD m l f = .error .fuel := by
  intro l
  induction l with
  | nil => intro hx; cases hx
  | cons y l ih =>
    intro hx m h
    rw [trackItems] at h
    rw [trackItemsD]
    rcases trackD_lim y f m with e | e
    · rcases List.mem_cons.1 hx with rfl | hx
      · rw [hs m (trackItems_norep l _ h)]; rfl
      · rw [e]; exact ih hx _ h
    · rw [e]; rfl

theorem trackD_short : ∀ (n : Nat) (v : Val), Val.Nested n v → ∀ f m, f < n →
    (∀ w, (track m v).get w ≠ some .repeatedly) → trackD m v f = .error .fuel := by
  intro n
  induction n with
  | zero => intro v _ f m hf; omega
  | succ n ih =>
    intro v hn f m hf h
    cases f with
    | zero => rw [trackD]
    | succ f =>
      rcases nested_cases hn with e | ⟨k, x, e, hv, hx, hk⟩
      · omega
      · obtain rfl : n = k := by omega
        rw [trackD_eq m hv]
        rw [track_eq m hv] at h
        cases hg : m.get v.word with
        | some _ =>
          rw [hg] at h
          exact absurd (by simp only; rw [get_insert, if_pos rfl]) (h v.word)
        | none =>
          rw [hg] at h
          exact trackItemsD_short (fun m h => ih x hk f m (by omega) h) v.kids hx _ h

end Ser

/-! ## Dropping -/

namespace Graph

/-- the blocks own what they owned before -/
def SameKids (h h' : Heap) : Prop :=
  ∀ (c : Nat) (n' : Node), h'[c]? = some n' → ∃ n : Node, h[c]? = some n ∧ n'.kids = n.kids

theorem SameKids.refl (h : Heap) : SameKids h h := fun _ n e => ⟨n, e, rfl⟩

theorem SameKids.trans {a b c : Heap} (x : SameKids a b) (y : SameKids b c) : SameKids a c := by
  intro k n e
  obtain ⟨n1, e1, k1⟩ := y k n e
  obtain ⟨n2, e2, k2⟩ := x k n1 e1
  exact ⟨n2, e2, k1.trans k2⟩

theorem SameKids.set {h : Heap} {b : Nat} {n n' : Node} (e : h[b]? = some n) (k : n'.kids = n.kids) :
    SameKids h (h.set b n') := by
  intro c m em
  rw [getElem?_set_of e] at em
  by_cases y : c = b
  · rw [if_pos y] at em; cases em; subst y; exact ⟨n, e, k⟩
  · rw [if_neg y] at em; exact ⟨m, em, rfl⟩

theorem SameKids.nested {h h' : Heap} (s : SameKids h h') {n o} (x : Own.Nested h' n o) :
    Own.Nested h n o := by
  induction x with
  | one o => exact .one o
  | kid t e m _ ih =>
    obtain ⟨nd, e1, k1⟩ := s _ _ e
    exact .kid t e1 (k1 ▸ m) ih

/-- enough frames -/
def OwnWithin (f : Nat) (h : Heap) (o : Own) : Prop := ∀ n, Own.Nested h n o → n ≤ f

theorem access_inv {h t b n} (e : access h t b = .ok n) : h[b]? = some n := by
  unfold access at e
  cases e1 : h[b]? with
  | none => rw [e1] at e; cases e
  | some m =>
    rw [e1] at e
    simp only at e
    split at e
    · cases e; rfl
    · cases e

theorem access_err {h t b x} (e : access h t b = .error x) : x = .memory := by
  unfold access at e
  cases e1 : h[b]? with
  | none => rw [e1] at e; cases e; rfl
  | some m =>
    rw [e1] at e
    simp only at e
    split at e
    · cases e
    · cases e; rfl

/-- what is known of dropping with enough frames -/
def Fits (h : Heap) (r : Except GErr Heap) : Prop := r ≠ .error .fuel ∧ ∀ h', r = .ok h' → SameKids h h'

theorem fold_fits {f : Nat} (ih : ∀ h o, OwnWithin f h o → Fits h (drop f h o)) : ∀ (ks : List Own) h,
    (∀ k ∈ ks, OwnWithin f h k) → Fits h (ks.foldlM (drop f) h) := by
  intro ks
  induction ks with
  | nil => intro h _; exact ⟨fun e => (by cases e), fun h' e => by cases e; exact .refl h⟩
  | cons k ks ihk =>
    intro h hk
    have h1 := ih h k (hk k (by simp))
    rw [List.foldlM_cons]
    cases e : drop f h k with
    | error x =>
      rw [e] at h1
      exact ⟨fun e2 => h1.1 e2, fun h' e2 => by cases e2⟩
    | ok h2 =>
      have s := h1.2 h2 e
      have h3 := ihk h2 fun z hz n hn => hk z (by simp [hz]) n (s.nested hn)
      exact ⟨h3.1, fun h' e2 => s.trans (h3.2 h' e2)⟩

theorem delete_fits {f : Nat} (ih : ∀ h o, OwnWithin f h o → Fits h (drop f h o)) {h t b}
    (hk : ∀ (nd : Node) k, h[b]? = some nd → k ∈ nd.kids → OwnWithin f h k) :
    Fits h (delete (drop f) h t b) := by
  unfold delete
  cases e : access h t b with
  | error x =>
    rw [access_err e]
    exact ⟨fun e2 => (by cases e2), fun h' e2 => (by cases e2)⟩
  | ok n =>
    have en := access_inv e
    simp only [bind, Except.bind]
    have s1 : SameKids h (h.set b { n with phase := .dying }) := .set en rfl
    have h2 := fold_fits ih n.kids (h.set b { n with phase := .dying }) fun k km m hm =>
      hk n k en km m (s1.nested hm)
    cases e2 : n.kids.foldlM (drop f) (h.set b { n with phase := .dying }) with
    | error x =>
      rw [e2] at h2
      exact ⟨fun e3 => h2.1 e3, fun h' e3 => by cases e3⟩
    | ok h3 =>
      have s2 := s1.trans (h2.2 h3 e2)
      simp only
      cases e4 : h3[b]? with
      | none => exact ⟨fun e3 => (by cases e3), fun h' e3 => (by cases e3)⟩
      | some m =>
        simp only
        split
        · exact ⟨fun e3 => (by cases e3), fun h' e3 => by cases e3; exact s2.trans (.set e4 rfl)⟩
        · exact ⟨fun e3 => (by cases e3), fun h' e3 => (by cases e3)⟩

theorem update_inv {h t b d z h'} (e : refCounterUpdate h t b d = .ok (z, h')) : SameKids h h' := by
  unfold refCounterUpdate at e
  cases e1 : access h t b with
  | error x => rw [e1] at e; cases e
  | ok n =>
    rw [e1] at e
    simp only [bind, Except.bind, pure, Except.pure, Except.ok.injEq, Prod.mk.injEq] at e
    rw [← e.2]
    exact .set (access_inv e1) rfl

theorem update_err {h t b d x} (e : refCounterUpdate h t b d = .error x) : x = .memory := by
  unfold refCounterUpdate at e
  cases e1 : access h t b with
  | error y => rw [e1] at e; cases e; exact access_err e1
  | ok n => rw [e1] at e; cases e

theorem drop_fits : ∀ f h o, OwnWithin f h o → Fits h (drop f h o) := by
  intro f
  induction f with
  | zero => intro h o w; exact absurd (w 1 (.one o)) (by omega)
  | succ f ih =>
    intro h o w
    have wk : ∀ (b : Nat), o.target = some b → ∀ h2, SameKids h h2 → ∀ (nd : Node) k, h2[b]? = some nd → k ∈ nd.kids →
        OwnWithin f h2 k := by
      intro b ob h2 s nd k e km n hn
      obtain ⟨nd1, e1, k1⟩ := s b nd e
      have := w (n + 1) (.kid ob e1 (k1 ▸ km) (s.nested hn))
      omega
    cases o with
    | simple => exact ⟨fun e => (by cases e), fun h' e => by cases e; exact .refl h⟩
    | any t b =>
      unfold drop
      cases e : refCounterUpdate h t b RELEASE with
      | error x =>
        rw [update_err e]
        exact ⟨fun e2 => (by cases e2), fun h' e2 => (by cases e2)⟩
      | ok r =>
        obtain ⟨z, h2⟩ := r
        have s := update_inv e
        simp only [bind, Except.bind]
        have hd : ∀ t, Fits h (delete (drop f) h2 t b) := fun t => by
          have := delete_fits (t := t) ih (wk b rfl h2 s)
          exact ⟨this.1, fun h' e => s.trans (this.2 h' e)⟩
        cases z with
        | false => exact ⟨fun e2 => (by cases e2), fun h' e2 => by cases e2; exact s⟩
        | true =>
          cases t with
          | bigint => exact ⟨fun e2 => (by cases e2), fun h' e2 => (by cases e2)⟩
          | string => exact hd _
          | object => exact hd _
          | array => exact hd _
    | typed t b =>
      unfold drop
      cases e : refCounterUpdate h t b RELEASE with
      | error x =>
        rw [update_err e]
        exact ⟨fun e2 => (by cases e2), fun h' e2 => (by cases e2)⟩
      | ok r =>
        obtain ⟨z, h2⟩ := r
        have s := update_inv e
        simp only [bind, Except.bind]
        cases z with
        | false => exact ⟨fun e2 => (by cases e2), fun h' e2 => by cases e2; exact s⟩
        | true =>
          have := delete_fits (t := t) ih (wk b rfl h2 s)
          exact ⟨this.1, fun h' e => s.trans (this.2 h' e)⟩
    | mutRef t b =>
      unfold drop
      exact delete_fits ih (wk b rfl h (.refl h))

/-! More frames change nothing once there are enough. -/

theorem fold_more {f g : Nat} (ih : ∀ h o, drop f h o ≠ .error .fuel → drop g h o = drop f h o) :
    ∀ (ks : List Own) h, ks.foldlM (drop f) h ≠ .error .fuel →
      ks.foldlM (drop g) h = ks.foldlM (drop f) h := by
  intro ks
  induction ks with
  | nil => intro h _; rfl
  | cons k ks ihk =>
    intro h hn
    rw [List.foldlM_cons] at hn
    rw [List.foldlM_cons, List.foldlM_cons]
    cases e : drop f h k with
    | error x =>
      rw [e] at hn
      rw [ih h k (by rw [e]; exact hn), e]; rfl
    | ok h2 =>
      rw [e] at hn
      rw [ih h k (by rw [e]; exact fun x => by cases x), e]
      exact ihk h2 hn

theorem delete_more {f g : Nat} (ih : ∀ h o, drop f h o ≠ .error .fuel → drop g h o = drop f h o)
    {h t b} (hn : delete (drop f) h t b ≠ .error .fuel) :
    delete (drop g) h t b = delete (drop f) h t b := by
  unfold delete at hn ⊢
  cases e : access h t b with
  | error x => rfl
  | ok n =>
    rw [e] at hn
    simp only [bind, Except.bind] at hn ⊢
    rw [fold_more ih]
    intro x
    rw [x] at hn
    exact hn rfl

theorem drop_more : ∀ f g h o, f ≤ g → drop f h o ≠ .error .fuel → drop g h o = drop f h o := by
  intro f
  induction f with
  | zero => intro g h o _ hn; exact absurd rfl hn
  | succ f ih =>
    intro g h o le hn
    obtain ⟨g, rfl⟩ : ∃ k, g = k + 1 := ⟨g - 1, by omega⟩
    have ih' := fun h o => ih g h o (by omega)
    cases o with
    | simple => rfl
    | any t b =>
      unfold drop at hn ⊢
      cases e : refCounterUpdate h t b RELEASE with
      | error x => rfl
      | ok r =>
        obtain ⟨z, h2⟩ := r
        rw [e] at hn
        simp only [bind, Except.bind] at hn ⊢
        cases z with
        | false => rfl
        | true =>
          cases t with
          | bigint => rfl
          | string => exact delete_more ih' hn
          | object => exact delete_more ih' hn
          | array => exact delete_more ih' hn
    | typed t b =>
      unfold drop at hn ⊢
      cases e : refCounterUpdate h t b RELEASE with
      | error x => rfl
      | ok r =>
        obtain ⟨z, h2⟩ := r
        rw [e] at hn
        simp only [bind, Except.bind] at hn ⊢
        cases z with
        | false => rfl
        | true => exact delete_more ih' hn
    | mutRef t b =>
      unfold drop at hn ⊢
      exact delete_more ih' hn

end Graph
end Nanvm
