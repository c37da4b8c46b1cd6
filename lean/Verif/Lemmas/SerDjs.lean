import Verif.Lemmas.SerTrack
import Verif.Lemmas.SerRead
/-!
# The constants written by `writeConsts`
-/
namespace Nanvm
namespace Ser

variable {sh : Nat → Text}

/-! ## The documents that are written -/

/-- the value of a result -/
def okText : Res Text → Text
  | .ok t => t
  | .error _ => []

mutual
/-- the document written by `writeWithConstRefs` -/
def docOf (sh : Nat → Text) (name : Word → Option Nat) : Val → Doc
  | .arr i l =>
    match name (.arr i) with
    | some n => .ref n
    | none => .arr i (docItems sh name l)
  | .obj i l =>
    match name (.obj i) with
    | some n => .ref n
    | none => .obj i (docMembers sh name l)
  | v => .leaf (okText (writeJson sh v))
def docItems (sh : Nat → Text) (name : Word → Option Nat) : List Val → List Doc
  | [] => []
  | v :: l => docOf sh name v :: docItems sh name l
def docMembers (sh : Nat → Text) (name : Word → Option Nat) : List (JsStr × Val) → List (Text × Doc)
  | [] => []
  | (k, v) :: l => (okText (writeJsString k), docOf sh name v) :: docMembers sh name l
end

/-- the literal for a value -/
def bodyOf (sh : Nat → Text) (name : Word → Option Nat) : Val → Doc
  | .arr i l => .arr i (docItems sh name l)
  | .obj i l => .obj i (docMembers sh name l)
  | v => .leaf (okText (writeJson sh v))

theorem docItems_eq (name : Word → Option Nat) (l : List Val) :
    docItems sh name l = l.map (docOf sh name) := by
  induction l with
  | nil => rfl
  | cons x l ih => rw [docItems, ih]; rfl

theorem docMembers_eq (name : Word → Option Nat) (l : List (JsStr × Val)) :
    docMembers sh name l = l.map fun m => (okText (writeJsString m.1), docOf sh name m.2) := by
  induction l with
  | nil => rfl
  | cons x l ih => obtain ⟨k, x⟩ := x; rw [docMembers, ih]; rfl

theorem docOf_eq (name : Word → Option Nat) {x : Val} (hx : x.Compound) : docOf sh name x =
    match name x.word with
    | some n => .ref n
    | none => bodyOf sh name x := by
  cases x with
  | arr i l => rw [docOf]; rfl
  | obj i l => rw [docOf]; rfl
  | _ => cases hx

theorem docOf_simple (name : Word → Option Nat) {x : Val} (hx : ¬ x.Compound) :
    docOf sh name x = bodyOf sh name x := by
  cases x with
  | arr | obj => exact absurd trivial hx
  | _ => rw [docOf, bodyOf] <;> simp

theorem texts_eq (l : List Doc) : Doc.texts l = l.map Doc.text := by
  induction l with
  | nil => rfl
  | cons x l ih => rw [Doc.texts, ih]; rfl

theorem memberTexts_eq (l : List (Text × Doc)) :
    Doc.memberTexts l = l.map fun m => m.1 ++ ':' :: m.2.text := by
  induction l with
  | nil => rfl
  | cons x l ih => obtain ⟨k, x⟩ := x; rw [Doc.memberTexts, ih]; rfl

/-! ## Values that can be written -/

/-- the value can be written -/
def JsonOk (sh : Nat → Text) (v : Val) : Prop := ∃ t, writeJson sh v = .ok t

theorem forall₂_mem {α β : Type} {R : α → β → Prop} {l : List α} {m : List β}
    (h : List.Forall₂ R l m) {a : α} (ha : a ∈ l) : ∃ b ∈ m, R a b := by
  induction h with
  | nil => cases ha
  | cons h1 _ ih =>
    rcases List.mem_cons.1 ha with rfl | ha
    · exact ⟨_, by simp, h1⟩
    · obtain ⟨b, hb, h⟩ := ih ha; exact ⟨b, by simp [hb], h⟩

theorem forall₂_map {α β : Type} {R : α → β → Prop} {l : List α} {f : α → β}
    (h : ∀ a ∈ l, R a (f a)) : List.Forall₂ R l (l.map f) := by
  induction l with
  | nil => exact .nil
  | cons a l ih => exact .cons (h a (by simp)) (ih fun x hx => h x (by simp [hx]))

theorem forall₂_zip {α β : Type} {R : α → β → Prop} {l : List α} {m : List β}
    (h : List.Forall₂ R l m) : ∀ p ∈ l.zip m, R p.1 p.2 := by
  induction h with
  | nil => simp
  | cons h1 _ ih =>
    intro p hp
    rw [List.zip_cons_cons, List.mem_cons] at hp
    rcases hp with rfl | hp
    · exact h1
    · exact ih p hp

theorem json_arr {i : Nat} {l : List Val} {t : Text} (h : writeJson sh (.arr i l) = .ok t) :
    ∃ ts, List.Forall₂ (fun v t => writeJson sh v = .ok t) l ts ∧
      t = '[' :: commaSep ts ++ [']'] := by
  rw [writeJson] at h
  obtain ⟨ts, h1, h⟩ := bind_eq_ok.1 h
  refine ⟨ts, jsonItems_ok.1 h1, ?_⟩
  cases h
  rw [writeList, loop_commaSep]; rfl

theorem json_obj {i : Nat} {l : List (JsStr × Val)} {t : Text}
    (h : writeJson sh (.obj i l) = .ok t) :
    ∃ ts, List.Forall₂ (MemberText (writeJson sh)) l ts ∧ t = '{' :: commaSep ts ++ ['}'] := by
  rw [writeJson] at h
  obtain ⟨ts, h1, h⟩ := bind_eq_ok.1 h
  refine ⟨ts, jsonMembers_ok.1 h1, ?_⟩
  cases h
  rw [writeList, loop_commaSep]; rfl

theorem JsonOk.kid {v x : Val} (h : JsonOk sh v) (hx : x ∈ v.kids) : JsonOk sh x := by
  obtain ⟨t, h⟩ := h
  cases v with
  | arr i l =>
    obtain ⟨ts, h1, -⟩ := json_arr h
    obtain ⟨t, -, h⟩ := forall₂_mem h1 hx
    exact ⟨t, h⟩
  | obj i l =>
    obtain ⟨ts, h1, -⟩ := json_obj h
    obtain ⟨m, hm, rfl⟩ := List.mem_map.1 hx
    obtain ⟨t, -, a, b, -, h, -⟩ := forall₂_mem h1 hm
    exact ⟨b, h⟩
  | _ => cases hx

theorem JsonOk.sub {v x : Val} (h : JsonOk sh v) (hx : x.Sub v) : JsonOk sh x := by
  induction hx with
  | refl => exact h
  | arr i l y hy _ ih => exact ih (h.kid hy)
  | obj i l m hm _ ih => exact ih (h.kid (List.mem_map.2 ⟨m, hm, rfl⟩))

theorem JsonOk.key {i : Nat} {l : List (JsStr × Val)} (h : JsonOk sh (.obj i l)) {m : JsStr × Val}
    (hm : m ∈ l) : writeJsString m.1 = .ok (okText (writeJsString m.1)) := by
  obtain ⟨t, h⟩ := h
  obtain ⟨ts, h1, -⟩ := json_obj h
  obtain ⟨t, -, a, b, h, -, -⟩ := forall₂_mem h1 hm
  rw [h]; rfl

/-- the text written is the text of the document -/
theorem write_doc (refs : HMap Nat) (x : Val) (h : JsonOk sh x) :
    writeWithConstRefs sh refs x = .ok (docOf sh refs.get x).text := by
  induction x using Val.ind with
  | null | bool | num | str | big =>
    obtain ⟨t, h⟩ := h
    rw [docOf, writeWithConstRefs, h]
    · rfl
    all_goals simp
  | arr i l ih =>
    rw [docOf, writeWithConstRefs]
    cases refs.get (.arr i) with
    | some n => rfl
    | none =>
      simp only
      rw [refItems_ok.2 (forall₂_map (f := fun v => (docOf sh refs.get v).text)
        fun v hv => ih v hv (h.kid hv)), Doc.text, texts_eq, docItems_eq, List.map_map]
      change Except.ok (writeList _ _ _) = _
      rw [writeList, loop_commaSep]
      rfl
  | obj i l ih =>
    rw [docOf, writeWithConstRefs]
    cases refs.get (.obj i) with
    | some n => rfl
    | none =>
      simp only
      rw [refMembers_ok.2 (forall₂_map
        (f := fun m => okText (writeJsString m.1) ++ ':' :: (docOf sh refs.get m.2).text)
        fun m hm => ⟨_, _, h.key hm, ih m hm (h.kid (List.mem_map.2 ⟨m, hm, rfl⟩)), rfl⟩), Doc.text,
        memberTexts_eq, docMembers_eq, List.map_map]
      change Except.ok (writeList _ _ _) = _
      rw [writeList, loop_commaSep]
      rfl

/-- the document depends on the names of the blocks in the value only -/
theorem docOf_congr {name name' : Word → Option Nat} (x : Val)
    (h : ∀ y : Val, y.Sub x → y.Compound → name y.word = name' y.word) :
    docOf sh name x = docOf sh name' x := by
  induction x using Val.ind with
  | null | bool | num | str | big => rw [docOf, docOf] <;> simp
  | arr i l ih =>
    have e := h (.arr i l) .refl trivial
    simp only [Val.word] at e
    rw [docOf, docOf, e, docItems_eq, docItems_eq,
      List.map_congr_left fun y hy => ih y hy fun z hz => h z (.arr i l y hy hz)]
  | obj i l ih =>
    have e := h (.obj i l) .refl trivial
    simp only [Val.word] at e
    rw [docOf, docOf, e, docMembers_eq, docMembers_eq,
      List.map_congr_left fun m hm => by rw [ih m hm fun z hz => h z (.obj i l m hm hz)]]

theorem bodyOf_congr {name name' : Word → Option Nat} (x : Val)
    (h : ∀ k ∈ x.kids, ∀ y : Val, y.Sub k → y.Compound → name y.word = name' y.word) :
    bodyOf sh name x = bodyOf sh name' x := by
  cases x with
  | arr i l =>
    have e : ∀ y ∈ l, docOf sh name y = docOf sh name' y := fun y hy => docOf_congr y (h y hy)
    rw [bodyOf, bodyOf, docItems_eq, docItems_eq, List.map_congr_left e]
  | obj i l =>
    rw [bodyOf, bodyOf, docMembers_eq, docMembers_eq,
      List.map_congr_left fun m hm => by
        rw [docOf_congr m.2 (h m.2 (List.mem_map.2 ⟨m, hm, rfl⟩))]]
  | _ => rw [bodyOf, bodyOf] <;> simp

/-! ## Names of constants -/

/-- the place of a block in a list of constants -/
def nameIn (cs : List Val) (w : Word) : Option Nat := HMap.get cs.zipIdx w

theorem get_append {α : Type} (a b : HMap α) (w : Word) :
    HMap.get (a ++ b) w = (HMap.get a w).or (HMap.get b w) := by
  induction a with
  | nil => simp [HMap.get]
  | cons x a ih =>
    obtain ⟨k, y⟩ := x
    rw [List.cons_append, HMap.get, HMap.get]
    split
    · rfl
    · exact ih

theorem insert_new {α : Type} {m : HMap α} {v : Val} {a : α} (h : m.get v.word = none) :
    m.insert v a = m ++ [(v, a)] := by
  induction m with
  | nil => rfl
  | cons x m ih =>
    obtain ⟨k, b⟩ := x
    rw [HMap.get] at h
    split at h
    · cases h
    · rename_i hk
      rw [HMap.insert, if_neg hk, ih h]
      rfl

theorem get_some_mem {α : Type} {m : HMap α} {w : Word} {a : α} (h : m.get w = some a) :
    ∃ k, (k, a) ∈ m ∧ k.word = w := by
  induction m with
  | nil => cases h
  | cons x m ih =>
    obtain ⟨k, b⟩ := x
    rw [HMap.get] at h
    split at h
    · rename_i hk
      cases h
      exact ⟨k, by simp, hk⟩
    · obtain ⟨k', h1, h2⟩ := ih h
      exact ⟨k', by simp [h1], h2⟩

theorem nameIn_some {cs : List Val} {w : Word} {n : Nat} (h : nameIn cs w = some n) :
    ∃ c, cs[n]? = some c ∧ c.word = w := by
  obtain ⟨k, h1, h2⟩ := get_some_mem h
  exact ⟨k, List.mem_zipIdx_iff_getElem?.1 h1, h2⟩

theorem nameIn_none {cs : List Val} {w : Word} : nameIn cs w = none ↔ ∀ c ∈ cs, c.word ≠ w := by
  rw [nameIn, get_none]
  constructor
  · intro h c hc
    obtain ⟨n, hn⟩ := List.mem_iff_getElem?.1 hc
    exact h (c, n) (List.mem_zipIdx_iff_getElem?.2 hn)
  · intro h x hx
    exact h x.1 (List.mem_of_getElem? (List.mem_zipIdx_iff_getElem?.1 hx))

theorem nameIn_append {a b : List Val} {w : Word} {n : Nat} (h : nameIn a w = some n) :
    nameIn (a ++ b) w = some n := by
  rw [nameIn, List.zipIdx_append, get_append, ← nameIn, h]
  rfl

/-! ## The invariant of the loops -/

/-- `y` lies in `x` and is not `x` -/
def Below (y x : Val) : Prop := ∃ k ∈ x.kids, y.Sub k

/-- what holds while constants are written: `cs` are the blocks whose constants have been written -/
structure Inv (sh : Nat → Text) (v : Val) (cs : List Val) (st : St) : Prop where
  refs : st.refs = cs.zipIdx
  shared : ∀ c ∈ cs, v.Shared c
  nodup : cs.Nodup
  todo : ∀ c, v.Shared c → (st.todo.get c.word ≠ none ↔ c ∉ cs)
  todoSub : ∀ x ∈ st.todo, v.Shared x.1
  closed : ∀ i c, cs[i]? = some c → ∀ y, Below y c → v.Shared y → y ∈ cs.take i
  out : ∃ ds, st.out = constsText 0 ds ∧ ds.length = cs.length ∧
    ∀ i c, cs[i]? = some c → ds[i]? = some (bodyOf sh (nameIn (cs.take i)) c)

theorem shared_sub {v c : Val} (h : v.Shared c) : c.Sub v := by
  obtain ⟨-, r, -, -, h, -⟩ := h
  exact at_sub h

theorem constsText_append (n : Nat) (ds : List Doc) (d : Doc) :
    constsText n (ds ++ [d]) = constsText n ds ++
      ("const _".toList ++ (decimal (n + ds.length) ++ '=' :: (d.text ++ [';']))) := by
  have cons : ∀ n d l, constsText n (d :: l) =
    "const _".toList ++ Nat.toDigits 10 n ++ '=' :: d.text ++ ';' :: constsText (n + 1) l :=
    fun _ _ _ => rfl
  have nil : ∀ n, constsText n [] = [] := fun _ => rfl
  generalize "const _".toList = w at *
  induction ds generalizing n with
  | nil => rw [List.nil_append, cons, nil, nil]; simp [decimal]
  | cons d' ds ih =>
    rw [List.cons_append, cons, cons, ih]
    simp only [List.append_assoc, List.cons_append, List.length_cons]
    rw [Nat.add_assoc, Nat.add_comm 1]

/-- the effect of writing the constants in some part -/
structure Wrote (sh : Nat → Text) (v : Val) (cs : List Val) (st st' : St) (P : Val → Prop) :
    Prop where
  inv : ∃ new, Inv sh v (cs ++ new) st' ∧ ∀ y, P y → v.Shared y → y ∈ cs ++ new
  todo : st'.todo.Sublist st.todo

theorem define_ok {v : Val} (hv : v.Consistent) (hj : JsonOk sh v) {cs : List Val} {st : St}
    (h : Inv sh v cs st) {x : Val} (hs : x.Sub v) (hx : x.Compound)
    (hb : ∀ y, Below y x → v.Shared y → y ∈ cs) :
    ∃ st', defineConst sh x st = .ok st' ∧ Wrote sh v cs st st' (fun y => y.Sub x) := by
  rw [defineConst]
  cases hg : st.todo.get x.word with
  | none =>
    refine ⟨st, rfl, ⟨[], by rwa [List.append_nil], fun y hy hys => ?_⟩, List.Sublist.refl _⟩
    rw [List.append_nil]
    rcases Val.sub_cases hy with rfl | hy
    · by_contra hc
      exact (h.todo y hys).2 hc hg
    · exact hb y hy hys
  | some s =>
    have hxs : v.Shared x := by
      obtain ⟨k, hk, hkw⟩ := get_some_mem hg
      have := h.todoSub _ hk
      rwa [hv k x (shared_sub this) hs this.1 hx hkw] at this
    have hxc : x ∉ cs := (h.todo x hxs).1 (by rw [hg]; simp)
    have hname : nameIn cs x.word = none := nameIn_none.2 fun c hc e => by
      have := h.shared c hc
      rw [hv c x (shared_sub this) hs this.1 hx e] at hc
      exact hxc hc
    have hget : st.refs.get x.word = none := by rw [h.refs]; exact hname
    simp only
    rw [write_doc _ _ (hj.sub hs), docOf_eq _ hx, hget]
    obtain ⟨ds, ho, hl, hd⟩ := h.out
    refine ⟨_, rfl, ⟨[x], ⟨?_, ?_, ?_, ?_, ?_, ?_, ?_⟩, fun y hy hys => ?_⟩, ?_⟩
    · rw [insert_new hget, h.refs, List.zipIdx_append]
      simp
    · intro c hc
      rcases List.mem_append.1 hc with hc | hc
      · exact h.shared c hc
      · rw [List.mem_singleton] at hc; subst hc; exact hxs
    · rw [List.nodup_append]
      refine ⟨h.nodup, by simp, fun a ha b hb => ?_⟩
      rw [List.mem_singleton] at hb
      subst hb
      rintro rfl
      exact hxc ha
    · intro c hc
      simp only [get_remove]
      by_cases e : c.word = x.word
      · obtain rfl := hv c x (shared_sub hc) hs hc.1 hx e
        simp
      · rw [if_neg e, h.todo c hc]
        have : c ≠ x := fun h => e (by rw [h])
        simp [this]
    · intro y hy
      exact h.todoSub y (List.mem_of_mem_filter hy)
    · intro i c hi y hy hys
      rcases Nat.lt_trichotomy i cs.length with hlt | rfl | hgt
      · rw [List.getElem?_append_left hlt] at hi
        rw [List.take_append_of_le_length hlt.le]
        exact h.closed i c hi y hy hys
      · simp at hi
        subst hi
        simp only [List.take_left]
        exact hb y hy hys
      · rw [List.getElem?_eq_none (by simp; omega)] at hi
        cases hi
    · refine ⟨ds ++ [bodyOf sh st.refs.get x], ?_, by simp [hl], ?_⟩
      · rw [constsText_append, ho, h.refs, Nat.zero_add, hl, List.length_zipIdx]
      · intro i c hi
        rcases Nat.lt_trichotomy i cs.length with hlt | rfl | hgt
        · rw [List.getElem?_append_left hlt] at hi
          rw [List.take_append_of_le_length hlt.le, List.getElem?_append_left (by omega)]
          exact hd i c hi
        · simp at hi
          subst hi
          rw [List.take_left, ← hl, h.refs]
          simp
          rfl
        · rw [List.getElem?_eq_none (by simp; omega)] at hi
          cases hi
    · rcases Val.sub_cases hy with rfl | hy
      · simp
      · exact List.mem_append_left _ (hb y hy hys)
    · exact List.filter_sublist

theorem constMembers_eq (l : List (JsStr × Val)) (st : St) :
    constMembers sh l st = constItems sh (l.map (·.2)) st := by
  induction l generalizing st with
  | nil => rfl
  | cons x l ih =>
    obtain ⟨k, x⟩ := x
    rw [constMembers, List.map_cons, constItems]
    congr 1
    funext st'
    exact ih st'

theorem writeConstsAndAny_eq {x : Val} (hx : x.Compound) (st : St) :
    writeConstsAndAny sh x st = constItems sh x.kids st >>= defineConst sh x := by
  cases x with
  | arr i l => rw [writeConstsAndAny]; rfl
  | obj i l => rw [writeConstsAndAny, constMembers_eq]; rfl
  | _ => cases hx

theorem consts_items {v : Val} (l : List Val)
    (ih : ∀ x ∈ l, ∀ cs st, Inv sh v cs st → ∃ st', writeConstsAndAny sh x st = .ok st' ∧
      Wrote sh v cs st st' (fun y => y.Sub x)) :
    ∀ cs st, Inv sh v cs st → ∃ st', constItems sh l st = .ok st' ∧
      Wrote sh v cs st st' (fun y => ∃ x ∈ l, y.Sub x) := by
  induction l with
  | nil =>
    intro cs st h
    refine ⟨st, rfl, ⟨[], by rwa [List.append_nil], ?_⟩, List.Sublist.refl _⟩
    rintro y ⟨x, hx, -⟩
    cases hx
  | cons x l ih' =>
    intro cs st h
    obtain ⟨st1, h1, ⟨n1, h2, h3⟩, h4⟩ := ih x (by simp) cs st h
    obtain ⟨st2, h5, ⟨n2, h6, h7⟩, h8⟩ := ih' (fun x hx => ih x (by simp [hx])) _ st1 h2
    refine ⟨st2, by rw [constItems, h1]; exact h5, ⟨n1 ++ n2, by rwa [← List.append_assoc], ?_⟩,
      h8.trans h4⟩
    rintro y ⟨z, hz, hy⟩ hys
    rw [← List.append_assoc]
    rcases List.mem_cons.1 hz with rfl | hz
    · exact List.mem_append_left _ (h3 y hy hys)
    · exact h7 y ⟨z, hz, hy⟩ hys

theorem consts_any {v : Val} (hv : v.Consistent) (hj : JsonOk sh v) (x : Val) (hs : x.Sub v) :
    ∀ cs st, Inv sh v cs st → ∃ st', writeConstsAndAny sh x st = .ok st' ∧
      Wrote sh v cs st st' (fun y => y.Sub x) := by
  induction x using Val.indK with
  | h x ih =>
  intro cs st h
  by_cases hx : x.Compound
  · obtain ⟨st1, h1, ⟨n1, h2, h3⟩, h4⟩ := consts_items x.kids
      (fun y hy => ih y hy ((Val.kid_sub hy).trans hs)) cs st h
    obtain ⟨st2, h5, ⟨n2, h6, h7⟩, h8⟩ := define_ok hv hj h2 hs hx h3
    refine ⟨st2, by rw [writeConstsAndAny_eq hx, h1]; exact h5,
      ⟨n1 ++ n2, by rwa [← List.append_assoc], ?_⟩, h8.trans h4⟩
    rw [← List.append_assoc]
    exact h7
  · refine ⟨st, ?_, ⟨[], by rwa [List.append_nil], ?_⟩, List.Sublist.refl _⟩
    · cases x with
      | arr | obj => exact absurd trivial hx
      | _ => rfl
    · intro y hy hys
      rcases Val.sub_cases hy with rfl | ⟨k, hk, -⟩
      · exact absurd hys.1 hx
      · exact absurd (Val.compound_of_kid hk) hx

theorem peek_none {pick : HMap Seen → HMap Nat → Nat} {st : St} (h : peek pick st = none) :
    st.todo = [] := by
  rw [peek, Option.map_eq_none_iff, List.getElem?_eq_none_iff] at h
  rcases Nat.eq_zero_or_pos st.todo.length with h0 | h0
  · exact List.length_eq_zero_iff.1 h0
  · have := Nat.mod_lt (pick st.todo st.refs) h0
    omega

theorem writeConsts_ok {v : Val} (hv : v.Consistent) (hj : JsonOk sh v)
    (pick : HMap Seen → HMap Nat → Nat) (fuel : Nat) :
    ∀ cs st, Inv sh v cs st → st.todo.length < fuel →
      ∃ cs' st', writeConsts sh pick fuel st = .ok st' ∧ Inv sh v cs' st' ∧ st'.todo = [] := by
  induction fuel with
  | zero => intro _ _ _ h; omega
  | succ fuel ih =>
    intro cs st h hf
    rw [writeConsts]
    cases hp : peek pick st with
    | none => exact ⟨cs, st, rfl, h, peek_none hp⟩
    | some x =>
      rw [peek, Option.map_eq_some_iff] at hp
      obtain ⟨y, hy, rfl⟩ := hp
      have hym := List.mem_of_getElem? hy
      have hys := h.todoSub y hym
      obtain ⟨st1, h1, ⟨n1, h2, h3⟩, h4⟩ := consts_any hv hj y.1 (shared_sub hys) cs st h
      simp only
      rw [h1]
      refine ih _ st1 h2 ?_
      have hlen := h4.length_le
      rcases Nat.lt_or_ge st1.todo.length st.todo.length with hlt | hge
      · omega
      · have e := h4.eq_of_length (by omega)
        have hin := h3 y.1 .refl hys
        have hn : ¬ (st1.todo.get y.1.word ≠ none) := fun h => (h2.todo y.1 hys).1 h hin
        rw [not_not, e, get_none] at hn
        exact absurd rfl (hn y hym)

/-- the loop starts with the repeated blocks -/
theorem inv_start {v : Val} (hv : v.Consistent) :
    Inv sh v [] ⟨[], (track [] v).filter fun x => decide (x.2 = .repeatedly), []⟩ := by
  obtain ⟨h1, h2, h3⟩ := track_shared hv
  have hget : ∀ w, HMap.get ((track [] v).filter fun x => decide (x.2 = .repeatedly)) w =
      ((track [] v).get w).filter (fun a => decide (a = Seen.repeatedly)) :=
    fun w => get_filter h1 (fun a => decide (a = Seen.repeatedly)) w
  refine ⟨rfl, by simp, by simp, fun c hc => ?_, fun x hx => ?_, by simp, [], rfl, rfl, by simp⟩
  · simp only [hget]
    rw [(h3 c (shared_sub hc) hc.1).2 hc]
    simp [Option.filter]
  · rw [List.mem_filter] at hx
    obtain ⟨hx, hr⟩ := hx
    obtain ⟨hs, hc⟩ := h2 x hx
    refine (h3 x.1 hs hc).1 ?_
    obtain ⟨k, a⟩ := x
    simp only [decide_eq_true_eq] at hr
    subst hr
    have key : ∀ m : HMap Seen, (keys m).Nodup → ∀ k a, (k, a) ∈ m → m.get k.word = some a := by
      intro m hm k a hk
      induction m with
      | nil => cases hk
      | cons y m ih =>
        obtain ⟨k', a'⟩ := y
        rw [keys_cons, List.nodup_cons] at hm
        rw [HMap.get]
        rcases List.mem_cons.1 hk with e | hk
        · cases e; rw [if_pos rfl]
        · rw [if_neg, ih hm.2 hk]
          intro e
          refine hm.1 ?_
          simp only at e ⊢
          rw [e]
          exact List.mem_map.2 ⟨(k, a), hk, rfl⟩
    exact key _ h1 k _ hx

/-- the text of `toDjs` -/
theorem djs_text {v : Val} (hv : v.Consistent) (hj : JsonOk sh v)
    (pick : HMap Seen → HMap Nat → Nat) (fuel : Nat) (hf : (track [] v).length < fuel)
    (commonJs : Bool) : ∃ cs : List Val,
    toDjs sh pick fuel v commonJs = .ok (constsText 0 (cs.map (bodyOf sh (nameIn cs))) ++
      (exportText commonJs ++ (docOf sh (nameIn cs) v).text)) ∧
    cs.Nodup ∧ (∀ c, c ∈ cs ↔ v.Shared c) ∧
    (∀ i c, cs[i]? = some c → ∀ y, Below y c → v.Shared y → y ∈ cs.take i) := by
  have h0 := inv_start (sh := sh) hv
  obtain ⟨cs, st, h4, h5, h6⟩ := writeConsts_ok hv hj pick fuel [] _ h0
    (lt_of_le_of_lt (List.length_filter_le _ _) hf)
  have hsh : ∀ c, c ∈ cs ↔ v.Shared c := by
    refine fun c => ⟨h5.shared c, fun hc => ?_⟩
    by_contra hn
    refine (h5.todo c hc).2 hn ?_
    rw [h6]; rfl
  refine ⟨cs, ?_, h5.nodup, hsh, h5.closed⟩
  obtain ⟨ds, ho, hl, hd⟩ := h5.out
  have hds : ds = cs.map (bodyOf sh (nameIn cs)) := by
    refine List.ext_getElem? fun i => ?_
    rw [List.getElem?_map]
    cases hi : cs[i]? with
    | none =>
      rw [List.getElem?_eq_none_iff] at hi
      rw [List.getElem?_eq_none (by omega)]; rfl
    | some c =>
      rw [hd i c hi, Option.map_some]
      congr 1
      refine bodyOf_congr c fun k hk y hy hyc => ?_
      have hcv := shared_sub (h5.shared c (List.mem_of_getElem? hi))
      have hyv : y.Sub v := hy.trans ((Val.kid_sub hk).trans hcv)
      by_cases hys : v.Shared y
      · have hin := h5.closed i c hi y ⟨k, hk, hy⟩ hys
        cases hn : nameIn (cs.take i) y.word with
        | none => exact absurd rfl (nameIn_none.1 hn y hin)
        | some n =>
          have := nameIn_append (b := cs.drop i) hn
          rw [List.take_append_drop] at this
          exact this.symm
      · have hno : ∀ c ∈ cs, c.word ≠ y.word := fun c hc e => by
          have hcs := (hsh c).1 hc
          rw [hv c y (shared_sub hcs) hyv hcs.1 hyc e] at hcs
          exact hys hcs
        rw [nameIn_none.2 hno, nameIn_none.2 fun c hc => hno c (List.mem_of_mem_take hc)]
  rw [toDjs]
  rw [h4]
  change (writeWithConstRefs sh st.refs v >>= _) = _
  rw [write_doc _ _ hj]
  change Except.ok _ = _
  rw [h5.refs, ho, hds]
  rfl

/-! ## Replacing references -/

/-- the names stand for the blocks in the list -/
structure Names (v : Val) (cs : List Val) : Prop where
  cons : v.Consistent
  nodup : cs.Nodup
  shared : ∀ c, c ∈ cs ↔ v.Shared c
  closed : ∀ i c, cs[i]? = some c → ∀ y, Below y c → v.Shared y → y ∈ cs.take i

theorem Names.get {v : Val} {cs : List Val} (h : Names v cs) {y : Val} (hy : y.Sub v)
    (hc : y.Compound) {n : Nat} (hn : nameIn cs y.word = some n) : cs[n]? = some y := by
  obtain ⟨c, h1, h2⟩ := nameIn_some hn
  have hcs := (h.shared c).1 (List.mem_of_getElem? h1)
  rwa [h.cons c y (shared_sub hcs) hy hcs.1 hc h2] at h1

theorem Names.none {v : Val} {cs : List Val} (h : Names v cs) {y : Val} (hy : y.Sub v)
    (hc : y.Compound) : nameIn cs y.word = none ↔ ¬ v.Shared y := by
  constructor
  · intro hn hs
    exact nameIn_none.1 hn y ((h.shared y).2 hs) rfl
  · intro hs
    cases hn : nameIn cs y.word with
    | none => rfl
    | some n => exact absurd ((h.shared y).1 (List.mem_of_getElem? (h.get hy hc hn))) hs

theorem doc_expands {v : Val} {cs : List Val} (h : Names v cs) (x : Val) (hx : x.Sub v) (t : Text) (ht : writeJson sh x = .ok t) :
    (bodyOf sh (nameIn cs) x).Expands (cs.map (bodyOf sh (nameIn cs))) t ∧
    (docOf sh (nameIn cs) x).Expands (cs.map (bodyOf sh (nameIn cs))) t := by
  have key : (bodyOf sh (nameIn cs) x).Expands (cs.map (bodyOf sh (nameIn cs))) t →
    (docOf sh (nameIn cs) x).Expands (cs.map (bodyOf sh (nameIn cs))) t := by
    intro hb
    by_cases hc : x.Compound
    · rw [docOf_eq _ hc]
      cases hn : nameIn cs x.word with
      | none => exact hb
      | some n =>
        refine .ref n _ t ?_ hb
        rw [List.getElem?_map, h.get hx hc hn]
        rfl
    · rwa [docOf_simple _ hc]
  suffices (bodyOf sh (nameIn cs) x).Expands (cs.map (bodyOf sh (nameIn cs))) t from ⟨this, key this⟩
  clear key
  induction x using Val.ind generalizing t with
  | null | bool | num | str | big =>
    rw [bodyOf, ht]
    · exact .leaf t
    all_goals simp
  | arr i l ih =>
    have ih' : ∀ y ∈ l, ∀ t, writeJson sh y = .ok t →
        (docOf sh (nameIn cs) y).Expands (cs.map (bodyOf sh (nameIn cs))) t := by
      intro y hy t ht
      have hys : y.Sub v := (Val.kid_sub (v := .arr i l) hy).trans hx
      have hb := ih y hy hys t ht
      by_cases hc : y.Compound
      · rw [docOf_eq _ hc]
        cases hn : nameIn cs y.word with
        | none => exact hb
        | some n =>
          refine .ref n _ t ?_ hb
          rw [List.getElem?_map, h.get hys hc hn]
          rfl
      · rwa [docOf_simple _ hc]
    obtain ⟨ts, h1, rfl⟩ := json_arr ht
    rw [bodyOf, docItems_eq]
    refine .arr i _ ts (by simp [h1.length_eq]) fun p hp => ?_
    rw [List.zip_map_left, List.mem_map] at hp
    obtain ⟨⟨y, u⟩, hq, rfl⟩ := hp
    exact ih' y (List.of_mem_zip hq).1 u (forall₂_zip h1 _ hq)
  | obj i l ih =>
    have ih' : ∀ y ∈ l, ∀ t, writeJson sh y.2 = .ok t →
        (docOf sh (nameIn cs) y.2).Expands (cs.map (bodyOf sh (nameIn cs))) t := by
      intro y hy t ht
      have hys : y.2.Sub v :=
        (Val.kid_sub (v := .obj i l) (List.mem_map.2 ⟨y, hy, rfl⟩)).trans hx
      have hb := ih y hy hys t ht
      by_cases hc : y.2.Compound
      · rw [docOf_eq _ hc]
        cases hn : nameIn cs y.2.word with
        | none => exact hb
        | some n =>
          refine .ref n _ t ?_ hb
          rw [List.getElem?_map, h.get hys hc hn]
          rfl
      · rwa [docOf_simple _ hc]
    obtain ⟨ts, h1, rfl⟩ := json_obj ht
    have hval : ∀ m ∈ l, writeJson sh m.2 = .ok (okText (writeJson sh m.2)) := fun m hm => by
      obtain ⟨t, -, a, b, -, h, -⟩ := forall₂_mem h1 hm
      rw [h]; rfl
    have hts : ts = List.zipWith (fun (m : Text × Doc) t => m.1 ++ ':' :: t)
        (l.map fun m => (okText (writeJsString m.1), docOf sh (nameIn cs) m.2))
        (l.map fun m => okText (writeJson sh m.2)) := by
      clear * - h1
      induction h1 with
      | nil => rfl
      | cons h1 _ ih =>
        obtain ⟨a, b, h2, h3, rfl⟩ := h1
        simp only [List.map_cons, List.zipWith_cons_cons]
        rw [← ih, h2, h3]
        rfl
    rw [bodyOf, docMembers_eq, hts]
    refine .obj i _ _ (by simp) fun p hp => ?_
    rw [List.zip_map, List.mem_map] at hp
    obtain ⟨⟨y, u⟩, hq, rfl⟩ := hp
    have : y = u := by
      clear * - hq
      induction l with
      | nil => cases hq
      | cons a l ih =>
        rw [List.zip_cons_cons, List.mem_cons] at hq
        rcases hq with e | hq
        · cases e; rfl
        · exact ih hq
    subst this
    have hm := (List.of_mem_zip hq).1
    exact ih' y hm _ (hval y hm)

theorem doc_refers {name : Word → Option Nat} (x : Val) (n : Nat)
    (h : (docOf sh name x).RefersTo n) : ∃ y : Val, y.Sub x ∧ y.Compound ∧ name y.word = some n := by
  induction x using Val.ind with
  | null | bool | num | str | big =>
    rw [docOf] at h
    · cases h
    all_goals simp
  | arr i l ih =>
    rw [docOf] at h
    cases hn : name (.arr i) with
    | some m =>
      rw [hn] at h
      cases h
      exact ⟨_, .refl, trivial, hn⟩
    | none =>
      rw [hn, docItems_eq] at h
      cases h with
      | arr _ _ d hd h =>
        obtain ⟨y, hy, rfl⟩ := List.mem_map.1 hd
        obtain ⟨z, h1, h2⟩ := ih y hy h
        exact ⟨z, .arr i l y hy h1, h2⟩
  | obj i l ih =>
    rw [docOf] at h
    cases hn : name (.obj i) with
    | some m =>
      rw [hn] at h
      cases h
      exact ⟨_, .refl, trivial, hn⟩
    | none =>
      rw [hn, docMembers_eq] at h
      cases h with
      | obj _ _ d hd h =>
        obtain ⟨y, hy, rfl⟩ := List.mem_map.1 hd
        obtain ⟨z, h1, h2⟩ := ih y hy h
        exact ⟨z, .obj i l y hy h1, h2⟩

theorem body_refers {name : Word → Option Nat} (x : Val) (n : Nat)
    (h : (bodyOf sh name x).RefersTo n) : ∃ y, Below y x ∧ y.Compound ∧ name y.word = some n := by
  cases x with
  | arr i l =>
    rw [bodyOf, docItems_eq] at h
    cases h with
    | arr _ _ d hd h =>
      obtain ⟨y, hy, rfl⟩ := List.mem_map.1 hd
      obtain ⟨z, h1, h2⟩ := doc_refers y n h
      exact ⟨z, ⟨y, hy, h1⟩, h2⟩
  | obj i l =>
    rw [bodyOf, docMembers_eq] at h
    cases h with
    | obj _ _ d hd h =>
      obtain ⟨y, hy, rfl⟩ := List.mem_map.1 hd
      obtain ⟨z, h1, h2⟩ := doc_refers y.2 n h
      exact ⟨z, ⟨y.2, List.mem_map.2 ⟨y, hy, rfl⟩, h1⟩, h2⟩
  | _ =>
    rw [bodyOf] at h
    · cases h
    all_goals simp

/-- a definition refers to earlier constants only -/
theorem refers_earlier {v : Val} {cs : List Val} (h : Names v cs) {i : Nat} {c : Val}
    (hi : cs[i]? = some c) {n : Nat} (hr : (bodyOf sh (nameIn cs) c).RefersTo n) : n < i := by
  obtain ⟨y, hy, hyc, hn⟩ := body_refers c n hr
  have hcs := (h.shared c).1 (List.mem_of_getElem? hi)
  have hyv : y.Sub v := by
    obtain ⟨k, hk, hy⟩ := hy
    exact hy.trans ((Val.kid_sub hk).trans (shared_sub hcs))
  have hy1 := h.get hyv hyc hn
  have hys := (h.shared y).1 (List.mem_of_getElem? hy1)
  obtain ⟨m, hm⟩ := List.mem_iff_getElem?.1 (h.closed i c hi y hy hys)
  obtain ⟨hlt, -⟩ := List.getElem?_eq_some_iff.1 hm
  rw [List.length_take] at hlt
  rw [List.getElem?_take, if_pos (by omega)] at hm
  obtain ⟨a1, a2⟩ := List.getElem?_eq_some_iff.1 hm
  obtain ⟨b1, b2⟩ := List.getElem?_eq_some_iff.1 hy1
  have := (List.Nodup.getElem_inj_iff h.nodup (hi := a1) (hj := b1)).1 (a2.trans b2.symm)
  omega

/-! ## Literals -/

/-- the arrays and objects directly in `x` that have no name -/
def inlined (name : Word → Option Nat) (x : Val) : List Val :=
  x.kids.filter fun k => decide (k.Compound ∧ name k.word = none)

/-- the blocks written in the literal for `x` -/
def literalsIn (name : Word → Option Nat) (x : Val) : List Val :=
  x :: (inlined name x).attach.flatMap fun ⟨y, _⟩ => literalsIn name y
termination_by sizeOf x
decreasing_by
  rename_i h
  exact Val.sizeOf_kid (List.mem_of_mem_filter h)

theorem literalsIn_eq (name : Word → Option Nat) (x : Val) :
    literalsIn name x = x :: (inlined name x).flatMap (literalsIn name) := by
  rw [literalsIn]
  congr 1
  have := List.flatMap_map (f := Subtype.val) (g := literalsIn name) (l := (inlined name x).attach)
  rw [List.attach_map_subtype_val] at this
  exact this.symm

theorem literalsL_eq (l : List Doc) : Doc.literalsL l = l.flatMap Doc.literals := by
  induction l with
  | nil => rfl
  | cons x l ih => rw [Doc.literalsL, ih]; rfl

theorem literalsM_eq (l : List (Text × Doc)) :
    Doc.literalsM l = l.flatMap fun m => m.2.literals := by
  induction l with
  | nil => rfl
  | cons x l ih => obtain ⟨k, x⟩ := x; rw [Doc.literalsM, ih]; rfl

theorem body_literals_kids (name : Word → Option Nat) {x : Val} (hx : x.Compound) :
    (bodyOf sh name x).literals = x.word :: x.kids.flatMap fun k => (docOf sh name k).literals := by
  cases x with
  | arr i l => rw [bodyOf, Doc.literals, literalsL_eq, docItems_eq, List.flatMap_map]; rfl
  | obj i l =>
    rw [bodyOf, Doc.literals, literalsM_eq, docMembers_eq, List.flatMap_map, Val.kids,
      List.flatMap_map]
    rfl
  | _ => cases hx

theorem body_literals (name : Word → Option Nat) (x : Val) (hx : x.Compound) :
    (bodyOf sh name x).literals = (literalsIn name x).map Val.word := by
  induction x using Val.indK with
  | h x ih =>
  rw [body_literals_kids name hx, literalsIn_eq, List.map_cons, List.map_flatMap, inlined]
  congr 1
  generalize x.kids = l at ih
  induction l with
  | nil => rfl
  | cons k l ih' =>
    rw [List.flatMap_cons, ih' fun y hy => ih y (by simp [hy]), List.filter_cons]
    by_cases hk : k.Compound
    · rw [docOf_eq _ hk]
      cases hn : name k.word with
      | none => simp [hk, hn, ih k (by simp) hk]
      | some n => simp [hn, Doc.literals]
    · have : (docOf sh name k).literals = [] := by
        rw [docOf_simple _ hk]
        cases k with
        | arr | obj => exact absurd trivial hk
        | _ => rfl
      simp [hk, this]

theorem literalsIn_perm (name : Word → Option Nat) (x : Val) :
    (literalsIn name x).Perm (x :: (literalsIn name x).flatMap (inlined name)) := by
  induction x using Val.indK with
  | h x ih =>
  rw [literalsIn_eq, List.flatMap_cons]
  refine List.Perm.cons x ?_
  have ih' : ∀ y ∈ inlined name x, _ := fun y hy => ih y (List.mem_of_mem_filter hy)
  generalize inlined name x = l at ih'
  clear ih
  induction l with
  | nil => exact List.Perm.refl _
  | cons y l ih =>
    rw [List.flatMap_cons, List.flatMap_append]
    have h1 := ih' y (by simp)
    have h2 := ih fun z hz => ih' z (by simp [hz])
    refine (h1.append h2).trans ?_
    simp only [List.cons_append]
    refine List.Perm.cons y ?_
    rw [← List.append_assoc, ← List.append_assoc]
    exact List.perm_append_comm.append_right _

theorem heads_perm (name : Word → Option Nat) (hs : List Val) :
    (hs.flatMap (literalsIn name)).Perm
      (hs ++ (hs.flatMap (literalsIn name)).flatMap (inlined name)) := by
  induction hs with
  | nil => exact List.Perm.refl _
  | cons y l ih =>
    rw [List.flatMap_cons, List.flatMap_append]
    refine ((literalsIn_perm name y).append ih).trans ?_
    simp only [List.cons_append]
    refine List.Perm.cons y ?_
    rw [← List.append_assoc, ← List.append_assoc]
    exact List.perm_append_comm.append_right _

open Classical in
theorem sum_ite (p : Val) (f : Val → Nat) (l : List Val)
    (h : ∀ q ∈ l, f q = if q = p then 1 else 0) : (l.map f).sum = l.count p := by
  induction l with
  | nil => rfl
  | cons q l ih =>
    rw [List.map_cons, List.sum_cons, h q (by simp), ih fun z hz => h z (by simp [hz]),
      List.count_cons]
    by_cases e : q = p
    · simp [e]; omega
    · simp [e]

open Classical in
theorem two_places (x : Val) (l : List Val) (h : 2 ≤ l.count x) :
    ∃ i j : Nat, i ≠ j ∧ l[i]? = some x ∧ l[j]? = some x := by
  induction l with
  | nil => simp at h
  | cons y l ih =>
    by_cases e : y = x
    · subst e
      rw [List.count_cons_self] at h
      have : y ∈ l := List.count_pos_iff.1 (by omega)
      obtain ⟨j, hj⟩ := List.mem_iff_getElem?.1 this
      exact ⟨0, j + 1, by omega, rfl, by simpa using hj⟩
    · rw [List.count_cons_of_ne e] at h
      obtain ⟨i, j, h1, h2, h3⟩ := ih h
      exact ⟨i + 1, j + 1, by omega, by simpa using h2, by simpa using h3⟩

/-- the root is in no block -/
theorem root_not_shared (v : Val) : ¬ v.Shared v := by
  have key : ∀ r, v.At r v → r = none := by
    intro r h
    generalize hw : v = w at h
    rw [← hw] at h
    cases h with
    | root => rfl
    | kid p i c hp _ hi =>
      exfalso
      subst hw
      have h1 := Val.sizeOf_kid (List.mem_of_getElem? hi)
      have h2 := Val.sizeOf_sub hp
      omega
  rintro ⟨-, r, r', hr, h1, h2⟩
  exact hr ((key r h1).trans (key r' h2).symm)

/-- what is written is part of the value -/
theorem literals_sub {v : Val} {cs : List Val} (h : Names v cs) (hvc : v.Compound) :
    ∀ y ∈ (v :: cs).flatMap (literalsIn (nameIn cs)), y.Sub v ∧ y.Compound := by
  have key : ∀ y : Val, y.Compound → ∀ z ∈ literalsIn (nameIn cs) y, z.Sub y ∧ z.Compound := by
    intro y
    induction y using Val.indK with
    | h y ih =>
    intro hy z hz
    rw [literalsIn_eq] at hz
    rcases List.mem_cons.1 hz with rfl | hz
    · exact ⟨.refl, hy⟩
    · obtain ⟨k, hk, hz⟩ := List.mem_flatMap.1 hz
      obtain ⟨hk, hk'⟩ := List.mem_filter.1 hk
      simp only [decide_eq_true_eq] at hk'
      obtain ⟨h1, h2⟩ := ih k hk hk'.1 z hz
      exact ⟨Val.sub_kid hk h1, h2⟩
  intro y hy
  obtain ⟨k, hk, hy'⟩ := List.mem_flatMap.1 hy
  rcases List.mem_cons.1 hk with rfl | hk
  · exact key k hvc y hy'
  · have hs := (h.shared k).1 hk
    obtain ⟨h1, h2⟩ := key k hs.1 y hy'
    exact ⟨h1.trans (shared_sub hs), h2⟩

open Classical in
/-- every block is written once -/
theorem count_literals {v : Val} {cs : List Val} (h : Names v cs) (hvc : v.Compound) (n : Nat) :
    ∀ x : Val, sizeOf v - sizeOf x = n → x.Sub v → x.Compound →
      ((v :: cs).flatMap (literalsIn (nameIn cs))).count x = 1 := by
  have hT := literals_sub h hvc
  have hperm := heads_perm (nameIn cs) (v :: cs)
  generalize (v :: cs).flatMap (literalsIn (nameIn cs)) = T at *
  have hcount : ∀ x, T.count x =
      (v :: cs).count x + (T.map fun q => (inlined (nameIn cs) q).count x).sum := by
    intro x
    rw [hperm.count_eq, List.count_append, List.count_flatMap]
    rfl
  induction n using Nat.strong_induction_on with
  | _ n ih =>
  intro x hn hx hxc
  have hroot : ∀ q ∈ T, v ∉ q.kids := fun q hq hk => by
    have h1 := Val.sizeOf_kid hk
    have h2 := Val.sizeOf_sub (hT q hq).1
    omega
  have zero : ∀ (x : Val), (∀ q ∈ T, x ∉ inlined (nameIn cs) q) →
      (T.map fun q => (inlined (nameIn cs) q).count x).sum = 0 := by
    intro x hx
    rw [List.sum_eq_zero]
    intro a ha
    obtain ⟨q, hq, rfl⟩ := List.mem_map.1 ha
    exact List.count_eq_zero.2 (hx q hq)
  by_cases hxv : x = v
  · subst hxv
    rw [hcount, zero x fun q hq hk => hroot q hq (List.mem_of_mem_filter hk),
      List.count_cons_self, List.count_eq_zero.2 fun hm => root_not_shared x ((h.shared x).1 hm)]
  · have hvx : v ≠ x := fun e => hxv e.symm
    by_cases hs : v.Shared x
    · rw [hcount, zero x fun q hq hk => ?_, List.count_cons_of_ne hvx,
        List.count_eq_one_of_mem h.nodup ((h.shared x).2 hs)]
      have := (List.mem_filter.1 hk).2
      simp only [decide_eq_true_eq] at this
      exact (h.none hx hxc).1 this.2 hs
    · obtain hx' | ⟨p, hp, hpx⟩ := Val.sub_parent hx
      · exact absurd hx' hxv
      have hpc := Val.compound_of_kid hpx
      have hsz := Val.sizeOf_kid hpx
      have hsz' := Val.sizeOf_sub hp
      have hin : decide (x.Compound ∧ nameIn cs x.word = none) = true := by
        simp [hxc, (h.none hx hxc).2 hs]
      obtain ⟨i, hi⟩ := List.mem_iff_getElem?.1 hpx
      rw [hcount, List.count_eq_zero.2, Nat.zero_add, sum_ite p _ T, ih (sizeOf v - sizeOf p)
        (by omega) p rfl hp hpc]
      · intro q hq
        rw [inlined]
        split
        · rename_i e
          subst e
          rw [List.count_filter (p := fun k : Val => decide (k.Compound ∧ nameIn cs k.word = none))
            hin]
          have hpos := List.count_pos_iff.2 hpx
          rcases Nat.lt_or_ge (q.kids.count x) 2 with hlt | hge
          · omega
          · obtain ⟨a, b, hab, h1, h2⟩ := two_places x q.kids hge
            exact absurd ⟨hxc, _, _, fun e => hab (by cases e; rfl), .kid q a x hp hpc h1,
              .kid q b x hp hpc h2⟩ hs
        · rename_i e
          refine List.count_eq_zero.2 fun hm => ?_
          obtain ⟨j, hj⟩ := List.mem_iff_getElem?.1 (List.mem_of_mem_filter hm)
          obtain ⟨hqs, hqc⟩ := hT q hq
          refine hs ⟨hxc, _, _, fun e' => ?_, .kid p i x hp hpc hi, .kid q j x hqs hqc hj⟩
          have : p.word = q.word := by injection e' with e'; exact congrArg Prod.fst e'
          exact e (h.cons q p hqs hp hqc hpc this.symm)
      · intro hm
        rcases List.mem_cons.1 hm with e | hm
        · exact hxv e
        · exact hs ((h.shared x).1 hm)

/-- every block is written once -/
theorem literals_once {v : Val} {cs : List Val} (h : Names v cs) :
    (((cs.map (bodyOf sh (nameIn cs))) ++ [docOf sh (nameIn cs) v]).flatMap Doc.literals).Nodup ∧
    ∀ w, w ∈ ((cs.map (bodyOf sh (nameIn cs))) ++ [docOf sh (nameIn cs) v]).flatMap Doc.literals ↔
      ∃ x : Val, x.Sub v ∧ x.Compound ∧ x.word = w := by
  classical
  by_cases hvc : v.Compound
  · have hdoc : docOf sh (nameIn cs) v = bodyOf sh (nameIn cs) v := by
      rw [docOf_eq _ hvc, (h.none .refl hvc).2 (root_not_shared v)]
    have e : ((cs.map (bodyOf sh (nameIn cs))) ++ [docOf sh (nameIn cs) v]).flatMap Doc.literals =
        ((cs ++ [v]).flatMap (literalsIn (nameIn cs))).map Val.word := by
      rw [hdoc, ← List.map_singleton (f := bodyOf sh (nameIn cs)), ← List.map_append,
        List.flatMap_map, List.map_flatMap]
      refine List.flatMap_congr fun x hx => body_literals _ x ?_
      rcases List.mem_append.1 hx with hx | hx
      · exact ((h.shared x).1 hx).1
      · rw [List.mem_singleton] at hx; subst hx; exact hvc
    have hp : ((cs ++ [v]).flatMap (literalsIn (nameIn cs))).Perm
        ((v :: cs).flatMap (literalsIn (nameIn cs))) :=
      List.Perm.flatMap_right _ List.perm_append_comm
    have hone := count_literals h hvc
    have hT := literals_sub h hvc
    rw [e, (hp.map Val.word).nodup_iff]
    constructor
    · refine List.pairwise_map.2 (List.Pairwise.imp_of_mem ?_ (List.nodup_iff_count.2 fun x => ?_))
      · intro a b ha hb hab e
        exact hab (h.cons a b (hT a ha).1 (hT b hb).1 (hT a ha).2 (hT b hb).2 e)
      · by_cases hx : x ∈ (v :: cs).flatMap (literalsIn (nameIn cs))
        · exact (hone _ x rfl (hT x hx).1 (hT x hx).2).le
        · rw [List.count_eq_zero.2 hx]; omega
    · intro w
      rw [(hp.map Val.word).mem_iff, List.mem_map]
      constructor
      · rintro ⟨x, hx, rfl⟩
        exact ⟨x, (hT x hx).1, (hT x hx).2, rfl⟩
      · rintro ⟨x, h1, h2, rfl⟩
        refine ⟨x, List.count_pos_iff.1 ?_, rfl⟩
        rw [hone _ x rfl h1 h2]; omega
  · have hno : ∀ x : Val, x.Sub v → ¬ x.Compound := by
      intro x hx hc
      rcases Val.sub_cases hx with rfl | ⟨k, hk, -⟩
      · exact hvc hc
      · exact hvc (Val.compound_of_kid hk)
    have hcs : cs = [] := List.eq_nil_iff_forall_not_mem.2 fun c hc =>
      hno c (shared_sub ((h.shared c).1 hc)) ((h.shared c).1 hc).1
    subst hcs
    have hl : (docOf sh (nameIn []) v).literals = [] := by
      rw [docOf_simple _ hvc]
      cases v with
      | arr | obj => exact absurd trivial hvc
      | _ => rfl
    simp only [List.map_nil, List.nil_append, List.flatMap_cons, List.flatMap_nil, hl,
      List.append_nil]
    refine ⟨List.nodup_nil, fun w => ⟨fun h => (by cases h), ?_⟩⟩
    rintro ⟨x, h1, h2, -⟩
    exact absurd h2 (hno x h1)

end Ser
end Nanvm
