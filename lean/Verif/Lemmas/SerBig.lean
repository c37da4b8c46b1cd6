import Verif.Lemmas.SerDjs
import Verif.Props.SerializerJson
/-!
# Writing graphs with bigints
-/
namespace Nanvm

variable {sh : Nat → Text}

namespace Ser

/-- the only failure is the panic for bigints -/
theorem write_fails (refs : HMap Nat) (x : Val) (hu : x.Units16) (e : Err)
    (h : writeWithConstRefs sh refs x = .error e) : e = .panic .todo := by
  have items : ∀ l : List Val, (∀ x ∈ l, ∀ e, writeWithConstRefs sh refs x = .error e →
      e = .panic .todo) → ∀ e, refItems sh refs l = .error e → e = .panic .todo := by
    intro l ih e h
    induction l with
    | nil => cases h
    | cons x l ih' =>
      rw [refItems] at h
      cases h1 : writeWithConstRefs sh refs x with
      | error e' => rw [h1] at h; cases h; exact ih x (by simp) _ h1
      | ok a =>
        cases h2 : refItems sh refs l with
        | error e' =>
          rw [h1, h2] at h; cases h
          exact ih' (fun y hy => ih y (by simp [hy])) h2
        | ok b => rw [h1, h2] at h; cases h
  have members : ∀ l : List (JsStr × Val), (∀ x ∈ l, Units x.1) →
      (∀ x ∈ l, ∀ e, writeWithConstRefs sh refs x.2 = .error e → e = .panic .todo) →
      ∀ e, refMembers sh refs l = .error e → e = .panic .todo := by
    intro l hk ih e h
    induction l with
    | nil => cases h
    | cons x l ih' =>
      obtain ⟨k, x⟩ := x
      rw [refMembers] at h
      obtain ⟨t, ps, h0, -⟩ := C52_ascii k (hk (k, x) (by simp))
      cases h1 : writeWithConstRefs sh refs x with
      | error e' => rw [h0, h1] at h; cases h; exact ih (k, x) (by simp) _ h1
      | ok a =>
        cases h2 : refMembers sh refs l with
        | error e' =>
          rw [h0, h1, h2] at h; cases h
          exact ih' (fun y hy => hk y (by simp [hy])) (fun y hy => ih y (by simp [hy])) h2
        | ok b => rw [h0, h1, h2] at h; cases h
  induction x using Val.ind generalizing e with
  | null => cases h
  | bool => cases h
  | num => cases h
  | big => cases h; rfl
  | str i s =>
    obtain ⟨t, ps, h0, -⟩ := C52_ascii s (hu.str i s .refl)
    rw [writeWithConstRefs, writeJson, h0] at h
    · cases h
    all_goals simp
  | arr i l ih =>
    rw [writeWithConstRefs] at h
    cases hr : refs.get (.arr i) with
    | some n => rw [hr] at h; cases h
    | none =>
      rw [hr] at h
      cases h1 : refItems sh refs l with
      | error e' =>
        rw [h1] at h; cases h
        exact items l (fun x hx e' he => ih x hx (hu.item hx) e' he) _ h1
      | ok a => rw [h1] at h; cases h
  | obj i l ih =>
    rw [writeWithConstRefs] at h
    cases hr : refs.get (.obj i) with
    | some n => rw [hr] at h; cases h
    | none =>
      rw [hr] at h
      cases h1 : refMembers sh refs l with
      | error e' =>
        rw [h1] at h; cases h
        exact members l (hu.key i l .refl) (fun x hx e' he => ih x hx (hu.member hx) e' he) _ h1
      | ok a => rw [h1] at h; cases h

/-- if a value is written and the constants in it can be written, it can be written -/
theorem write_json (refs : HMap Nat) (x : Val) (t : Text)
    (h : writeWithConstRefs sh refs x = .ok t)
    (hr : ∀ y : Val, y.Sub x → y.Compound → refs.get y.word ≠ none → JsonOk sh y) :
    JsonOk sh x := by
  induction x using Val.ind generalizing t with
  | null | bool | num | str | big =>
    rw [writeWithConstRefs] at h
    · exact ⟨t, h⟩
    all_goals simp
  | arr i l ih =>
    by_cases hn : refs.get (.arr i) = none
    swap
    · exact hr _ .refl trivial hn
    rw [writeWithConstRefs, hn] at h
    obtain ⟨ts, h1, -⟩ := bind_eq_ok.1 h
    rw [refItems_ok] at h1
    have : ∀ y ∈ l, JsonOk sh y := fun y hy => by
      obtain ⟨u, -, hu⟩ := forall₂_mem h1 hy
      exact ih y hy u hu fun z hz => hr z (.arr i l y hy hz)
    exact ⟨_, by
      rw [writeJson, jsonItems_ok.2 (forall₂_map (f := fun y => okText (writeJson sh y))
        fun y hy => by obtain ⟨u, hu⟩ := this y hy; simp only [hu]; rfl)]
      rfl⟩
  | obj i l ih =>
    by_cases hn : refs.get (.obj i) = none
    swap
    · exact hr _ .refl trivial hn
    rw [writeWithConstRefs, hn] at h
    obtain ⟨ts, h1, -⟩ := bind_eq_ok.1 h
    rw [refMembers_ok] at h1
    have : ∀ m ∈ l, (∃ a, writeJsString m.1 = .ok a) ∧ JsonOk sh m.2 := fun m hm => by
      obtain ⟨u, -, a, b, ha, hb, -⟩ := forall₂_mem h1 hm
      exact ⟨⟨a, ha⟩, ih m hm b hb fun z hz => hr z (.obj i l m hm hz)⟩
    exact ⟨_, by
      rw [writeJson, jsonMembers_ok.2 (forall₂_map
        (f := fun m => okText (writeJsString m.1) ++ ':' :: okText (writeJson sh m.2))
        fun m hm => by
          obtain ⟨⟨a, ha⟩, u, hu⟩ := this m hm
          exact ⟨a, u, ha, hu, by simp only [ha, hu]; rfl⟩)]
      rfl⟩

/-- the constants written are parts of the value that can be written -/
structure Good (sh : Nat → Text) (v : Val) (st : St) : Prop where
  refs : ∀ k ∈ st.refs, k.1.Sub v ∧ k.1.Compound ∧ JsonOk sh k.1
  todo : ∀ k ∈ st.todo, k.1.Sub v ∧ k.1.Compound

/-- a step leads to a good state or panics at a bigint -/
def StepOk (sh : Nat → Text) (v : Val) (st : St) (r : Res St) (P : St → Prop) : Prop :=
  (∃ st', r = .ok st' ∧ Good sh v st' ∧ st'.todo.Sublist st.todo ∧ P st') ∨
    r = .error (.panic .todo)

theorem Good.named {v : Val} (hv : v.Consistent) {st : St} (h : Good sh v st) (y : Val)
    (hy : y.Sub v) (hc : y.Compound) (hn : st.refs.get y.word ≠ none) : JsonOk sh y := by
  obtain ⟨n, hn⟩ := Option.ne_none_iff_exists'.1 hn
  obtain ⟨k, hk, hw⟩ := get_some_mem hn
  obtain ⟨h1, h2, h3⟩ := h.refs _ hk
  rwa [hv k y h1 hy h2 hc hw] at h3

theorem define_step {v : Val} (hv : v.Consistent) (hu : v.Units16) {st : St} (h : Good sh v st)
    {x : Val} (hs : x.Sub v) (hx : x.Compound) :
    StepOk sh v st (defineConst sh x st) (fun st' => st'.todo.get x.word = none) := by
  rw [defineConst]
  cases hg : st.todo.get x.word with
  | none => exact .inl ⟨st, rfl, h, List.Sublist.refl _, hg⟩
  | some s =>
    simp only
    have hux : x.Units16 :=
      ⟨fun i s h => hu.str i s (h.trans hs), fun i l h => hu.key i l (h.trans hs)⟩
    cases hw : writeWithConstRefs sh st.refs x with
    | error e => rw [write_fails _ _ hux e hw]; exact .inr rfl
    | ok t =>
      refine .inl ⟨_, rfl, ⟨fun k hk => ?_, fun k hk => ?_⟩, List.filter_sublist, ?_⟩
      · rcases mem_insert hk with ⟨y, hy, e⟩ | e
        · rw [← e]; exact h.refs y hy
        · rw [e]
          exact ⟨hs, hx, write_json _ _ t hw fun y hy hyc hn => h.named hv y (hy.trans hs) hyc hn⟩
      · exact h.todo k (List.mem_of_mem_filter hk)
      · simp only [get_remove, if_true]

theorem get_sublist {α : Type} {m m' : HMap α} (h : m'.Sublist m) {w : Word}
    (hw : m.get w = none) : m'.get w = none :=
  (get_none _ _).2 fun x hx => (get_none _ _).1 hw x (h.mem hx)

theorem any_step {v : Val} (hv : v.Consistent) (hu : v.Units16) (x : Val) (hs : x.Sub v) :
    ∀ st, Good sh v st → StepOk sh v st (writeConstsAndAny sh x st)
      (fun st' => x.Compound → st'.todo.get x.word = none) := by
  induction x using Val.indK with
  | h x ih =>
  intro st h
  by_cases hx : x.Compound
  · have items : ∀ l : List Val, (∀ y ∈ l, ∀ st, Good sh v st →
        StepOk sh v st (writeConstsAndAny sh y st) (fun _ => True)) → ∀ st, Good sh v st →
        StepOk sh v st (constItems sh l st) (fun _ => True) := by
      intro l ih
      induction l with
      | nil => intro st h; exact .inl ⟨st, rfl, h, List.Sublist.refl _, trivial⟩
      | cons y l ih' =>
        intro st h
        rw [constItems]
        rcases ih y (by simp) st h with ⟨st1, h1, h2, h3, -⟩ | h1
        · rcases ih' (fun z hz => ih z (by simp [hz])) st1 h2 with ⟨st2, h4, h5, h6, -⟩ | h4
          · exact .inl ⟨st2, by rw [h1]; exact h4, h5, h6.trans h3, trivial⟩
          · exact .inr (by rw [h1]; exact h4)
        · exact .inr (by rw [h1]; rfl)
    rw [writeConstsAndAny_eq hx]
    rcases items x.kids (fun y hy st h => by
        rcases ih y hy ((Val.kid_sub hy).trans hs) st h with ⟨st', h1, h2, h3, -⟩ | h1
        · exact .inl ⟨st', h1, h2, h3, trivial⟩
        · exact .inr h1) st h with ⟨st1, h1, h2, h3, -⟩ | h1
    · rcases define_step hv hu h2 hs hx with ⟨st2, h4, h5, h6, h7⟩ | h4
      · exact .inl ⟨st2, by rw [h1]; exact h4, h5, h6.trans h3, fun _ => h7⟩
      · exact .inr (by rw [h1]; exact h4)
    · exact .inr (by rw [h1]; rfl)
  · refine .inl ⟨st, ?_, h, List.Sublist.refl _, fun h => absurd h hx⟩
    cases x with
    | arr | obj => exact absurd trivial hx
    | _ => rfl

theorem loop_step {v : Val} (hv : v.Consistent) (hu : v.Units16)
    (pick : HMap Seen → HMap Nat → Nat) (fuel : Nat) :
    ∀ st, Good sh v st → st.todo.length < fuel →
      StepOk sh v st (writeConsts sh pick fuel st) (fun _ => True) := by
  induction fuel with
  | zero => intro _ _ h; omega
  | succ fuel ih =>
    intro st h hf
    rw [writeConsts]
    cases hp : peek pick st with
    | none => exact .inl ⟨st, rfl, h, List.Sublist.refl _, trivial⟩
    | some x =>
      rw [peek, Option.map_eq_some_iff] at hp
      obtain ⟨y, hy, rfl⟩ := hp
      have hym := List.mem_of_getElem? hy
      obtain ⟨hs, hc⟩ := h.todo y hym
      simp only
      rcases any_step hv hu y.1 hs st h with ⟨st1, h1, h2, h3, h4⟩ | h1
      · have hlt : st1.todo.length < st.todo.length := by
          rcases Nat.lt_or_ge st1.todo.length st.todo.length with hlt | hge
          · exact hlt
          · have e := h3.eq_of_length (le_antisymm h3.length_le hge)
            have := h4 hc
            rw [e, get_none] at this
            exact absurd rfl (this y hym)
        rcases ih st1 h2 (by omega) with ⟨st2, h5, h6, h7, -⟩ | h5
        · exact .inl ⟨st2, by rw [h1]; exact h5, h6, h7.trans h3, trivial⟩
        · exact .inr (by rw [h1]; exact h5)
      · exact .inr (by rw [h1]; rfl)

/-- a graph that cannot be written as JSON leads to the panic for bigints -/
theorem djs_total {v : Val} (hv : v.Consistent) (hu : v.Units16)
    (pick : HMap Seen → HMap Nat → Nat) (fuel : Nat) (hf : (track [] v).length < fuel)
    (commonJs : Bool) :
    JsonOk sh v ∨ toDjs sh pick fuel v commonJs = .error (.panic .todo) := by
  obtain ⟨-, h2, -⟩ := track_shared hv
  have h0 : Good sh v ⟨[], (track [] v).filter fun x => decide (x.2 = .repeatedly), []⟩ :=
    ⟨by simp, fun k hk => h2 k (List.mem_of_mem_filter hk)⟩
  rw [toDjs]
  rcases loop_step hv hu pick fuel _ h0 (lt_of_le_of_lt (List.length_filter_le _ _) hf) with
    ⟨st, h3, h4, -⟩ | h3
  · rw [h3]
    change _ ∨ (writeWithConstRefs sh st.refs v >>= _) = _
    cases hw : writeWithConstRefs sh st.refs v with
    | error e => rw [write_fails _ _ hu e hw]; exact .inr rfl
    | ok t => exact .inl (write_json _ _ t hw fun y hy hyc hn => h4.named hv y hy hyc hn)
  · rw [h3]; exact .inr rfl

end Ser
end Nanvm
