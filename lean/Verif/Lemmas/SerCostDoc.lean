import Verif.Lemmas.SerCost
/-!
# Counting calls of the serializer: what is written
-/
namespace Nanvm
namespace Ser

variable {sh : Nat → Text}

mutual
/-- the number of values, references and literals in a document -/
def _root_.Nanvm.Doc.nodes : Doc → Nat
  | .leaf _ => 1
  | .ref _ => 1
  | .arr _ l => 1 + Doc.nodesL l
  | .obj _ l => 1 + Doc.nodesM l
def _root_.Nanvm.Doc.nodesL : List Doc → Nat
  | [] => 0
  | d :: l => d.nodes + Doc.nodesL l
def _root_.Nanvm.Doc.nodesM : List (List Char × Doc) → Nat
  | [] => 0
  | (_, d) :: l => d.nodes + Doc.nodesM l
end

/-- one call for each node of the document -/
theorem writeC_cost (refs : HMap Nat) (x : Val) :
    ∀ r, writeC sh refs x = .ok r → r.2 = (docOf sh refs.get x).nodes := by
  have hitems : ∀ l : List Val, (∀ y ∈ l, ∀ r, writeC sh refs y = .ok r →
      r.2 = (docOf sh refs.get y).nodes) →
      ∀ r, refItemsC sh refs l = .ok r → r.2 = Doc.nodesL (docItems sh refs.get l) := by
    intro l h
    induction l with
    | nil => intro r hr; cases hr; rfl
    | cons y l ih =>
      intro r hr
      rw [refItemsC] at hr
      obtain ⟨a, ha, hr⟩ := bind_eq_ok.1 hr
      obtain ⟨b, hb, hr⟩ := bind_eq_ok.1 hr
      cases hr
      rw [docItems, Doc.nodesL, ← h y (by simp) a ha, ← ih (fun z hz => h z (by simp [hz])) b hb]
  have hmem : ∀ l : List (JsStr × Val), (∀ y ∈ l, ∀ r, writeC sh refs y.2 = .ok r →
      r.2 = (docOf sh refs.get y.2).nodes) →
      ∀ r, refMembersC sh refs l = .ok r → r.2 = Doc.nodesM (docMembers sh refs.get l) := by
    intro l h
    induction l with
    | nil => intro r hr; cases hr; rfl
    | cons y l ih =>
      intro r hr
      have h1 := h y (by simp)
      obtain ⟨k, y⟩ := y
      rw [refMembersC] at hr
      obtain ⟨t, ht, hr⟩ := bind_eq_ok.1 hr
      obtain ⟨a, ha, hr⟩ := bind_eq_ok.1 hr
      obtain ⟨b, hb, hr⟩ := bind_eq_ok.1 hr
      cases hr
      rw [docMembers, Doc.nodesM, ← h1 a ha, ← ih (fun z hz => h z (by simp [hz])) b hb]
  induction x using Val.ind with
  | arr i l ih =>
    intro r hr
    rw [writeC] at hr
    rw [docOf]
    cases hg : refs.get (.arr i) with
    | some n => rw [hg] at hr; cases hr; rfl
    | none =>
      rw [hg] at hr
      obtain ⟨a, ha, hr⟩ := bind_eq_ok.1 hr
      cases hr
      rw [Doc.nodes, ← hitems l ih a ha]
  | obj i l ih =>
    intro r hr
    rw [writeC] at hr
    rw [docOf]
    cases hg : refs.get (.obj i) with
    | some n => rw [hg] at hr; cases hr; rfl
    | none =>
      rw [hg] at hr
      obtain ⟨a, ha, hr⟩ := bind_eq_ok.1 hr
      cases hr
      rw [Doc.nodes, ← hmem l ih a ha]
  | null | bool | num | str | big =>
    intro r hr
    rw [writeC] at hr
    · obtain ⟨a, ha, hr⟩ := bind_eq_ok.1 hr
      cases hr
      rw [docOf]
      · rfl
      all_goals simp
    all_goals simp

/-- the nodes of the definitions of `cs`, where the names are those of `pre` at first -/
def docCost (sh : Nat → Text) (pre : List Val) : List Val → Nat
  | [] => 0
  | c :: cs => (bodyOf sh (nameIn pre) c).nodes + docCost sh (pre ++ [c]) cs

theorem docCost_append (pre cs : List Val) (x : Val) : docCost sh pre (cs ++ [x]) =
    docCost sh pre cs + (bodyOf sh (nameIn (pre ++ cs)) x).nodes := by
  induction cs generalizing pre with
  | nil => simp [docCost]
  | cons c cs ih =>
    rw [List.cons_append, docCost, docCost, ih, List.append_assoc]
    simp only [List.cons_append, List.nil_append]
    omega

/-- the nodes of the definitions written so far -/
def defined (sh : Nat → Text) (refs : HMap Nat) : Nat := docCost sh [] (refs.map (·.1))

theorem defineC_cost {v : Val} (hv : v.Consistent) {cs : List Val} {s s' : St × Nat}
    (h : Inv sh v cs s.1) {x : Val} (hs : x.Sub v) (hx : x.Compound)
    (hd : defineConstC sh x s = .ok s') :
    s'.2 + defined sh s.1.refs = s.2 + defined sh s'.1.refs := by
  rw [defineConstC] at hd
  cases hg : s.1.todo.get x.word with
  | none => rw [hg] at hd; cases hd; rfl
  | some a =>
    rw [hg] at hd
    obtain ⟨r, hr, hd⟩ := bind_eq_ok.1 hd
    cases hd
    have hxs : v.Shared x := by
      obtain ⟨k, hk, hkw⟩ := get_some_mem hg
      have := h.todoSub _ hk
      rwa [hv k x (shared_sub this) hs this.1 hx hkw] at this
    have hxc : x ∉ cs := (h.todo x hxs).1 (by rw [hg]; simp)
    have hname : nameIn cs x.word = none := nameIn_none.2 fun c hc e => by
      have := h.shared c hc
      rw [hv c x (shared_sub this) hs this.1 hx e] at hc
      exact hxc hc
    have hget : s.1.refs.get x.word = none := by rw [h.refs]; exact hname
    have hcost := writeC_cost _ x r hr
    rw [docOf_eq _ hx, hget] at hcost
    simp only at hcost ⊢
    rw [insert_new hget, defined, defined, List.map_append, List.map_singleton, docCost_append,
      List.nil_append, hcost]
    have e : s.1.refs.map (·.1) = cs := by rw [h.refs]; simp
    have e2 : s.1.refs.get = nameIn cs := by rw [h.refs]; rfl
    rw [e, e2]
    simp only
    omega

theorem consts_cost {v : Val} (hv : v.Consistent) (hj : JsonOk sh v) (x : Val) (hs : x.Sub v) :
    ∀ cs s s', Inv sh v cs s.1 → constsAndAnyC sh x s = .ok s' →
      s'.2 + defined sh s.1.refs = s.2 + x.nodes + defined sh s'.1.refs := by
  induction x using Val.indK with
  | _ x ih =>
  intro cs s s' h hc
  have hl : ∀ l : List Val, (∀ y ∈ l, y.Sub v) → (∀ y ∈ l, ∀ cs s s', Inv sh v cs s.1 →
      constsAndAnyC sh y s = .ok s' →
      s'.2 + defined sh s.1.refs = s.2 + y.nodes + defined sh s'.1.refs) →
      ∀ cs s s', Inv sh v cs s.1 → constItemsC sh l s = .ok s' →
      s'.2 + defined sh s.1.refs = s.2 + Val.nodesL l + defined sh s'.1.refs := by
    intro l hsub h
    induction l with
    | nil => intro cs s s' _ hs; cases hs; rfl
    | cons y l ihl =>
      intro cs s s' hi hs
      rw [constItemsC] at hs
      obtain ⟨s1, h1, hs⟩ := bind_eq_ok.1 hs
      have a := h y (by simp) cs s s1 hi h1
      obtain ⟨st1, h2, ⟨n1, h3, -⟩, -⟩ := consts_any hv hj y (hsub y (by simp)) cs s.1 hi
      have e := constsAndAnyC_fst (sh := sh) y s
      rw [h1, h2] at e
      have e : s1.1 = st1 := Except.ok.inj e
      have b := ihl (fun z hz => hsub z (by simp [hz])) (fun z hz => h z (by simp [hz])) _ s1 s'
        (by rw [e]; exact h3) hs
      rw [Val.nodesL]
      omega
  by_cases hx : x.Compound
  · have hkids : ∀ y ∈ x.kids, y.Sub v := fun y hy => (Val.kid_sub hy).trans hs
    rw [constsAndAnyC_eq hx] at hc
    obtain ⟨s1, h1, hc⟩ := bind_eq_ok.1 hc
    have a := hl x.kids hkids (fun y hy => ih y hy (hkids y hy)) cs (s.1, s.2 + 1) _ h h1
    obtain ⟨st1, h2, ⟨n1, h3, -⟩, -⟩ := consts_items x.kids
      (fun y hy => consts_any hv hj y (hkids y hy)) cs s.1 h
    have e : (constItemsC sh x.kids (s.1, s.2 + 1)).map (·.1) = constItems sh x.kids s.1 :=
      constItemsC_fst x.kids (s.1, s.2 + 1)
    rw [h1, h2] at e
    have e : s1.1 = st1 := Except.ok.inj e
    have b := defineC_cost hv (by rw [e]; exact h3) hs hx hc
    rw [nodes_eq]
    simp only at a
    omega
  · rw [(constsAndAnyC_simple hx s).1] at hc
    cases hc
    cases x with
    | arr | obj => exact absurd trivial hx
    | _ => rfl

/-- the loop walks over one value for each constant at most -/
theorem writeConsts_cost {v : Val} (hv : v.Consistent) (hj : JsonOk sh v)
    (pick : HMap Seen → HMap Nat → Nat) (fuel : Nat) :
    ∀ cs s s', Inv sh v cs s.1 → writeConstsC sh pick fuel s = .ok s' →
      (∃ cs', Inv sh v cs' s'.1 ∧ s'.1.todo = []) ∧ ∃ walks, walks ≤ s.1.todo.length * v.nodes ∧
        s'.2 + defined sh s.1.refs = s.2 + walks + defined sh s'.1.refs := by
  induction fuel with
  | zero => intro _ _ _ _ h; cases h
  | succ fuel ih =>
    intro cs s s' h hw
    rw [writeConstsC] at hw
    cases hp : peek pick s.1 with
    | none =>
      rw [hp] at hw
      cases hw
      exact ⟨⟨cs, h, peek_none hp⟩, 0, Nat.zero_le _, rfl⟩
    | some x =>
      rw [hp] at hw
      simp only at hw
      obtain ⟨s1, hc, hw'⟩ := bind_eq_ok.1 hw
      clear hw
      rename' hw' => hw
      rw [peek, Option.map_eq_some_iff] at hp
      obtain ⟨y, hy, rfl⟩ := hp
      have hym := List.mem_of_getElem? hy
      have hys := h.todoSub y hym
      obtain ⟨st1, h1, ⟨n1, h2, h3⟩, h4⟩ := consts_any hv hj y.1 (shared_sub hys) cs s.1 h
      have e := constsAndAnyC_fst (sh := sh) y.1 s
      rw [hc, h1] at e
      have e : s1.1 = st1 := Except.ok.inj e
      subst e
      have hcost := consts_cost hv hj y.1 (shared_sub hys) cs s s1 h hc
      obtain ⟨h5, walks, h6, h7⟩ := ih _ s1 s' h2 hw
      have hlt : s1.1.todo.length < s.1.todo.length := by
        rcases Nat.lt_or_ge s1.1.todo.length s.1.todo.length with hlt | hge
        · exact hlt
        · have hlen := h4.length_le
          have e := h4.eq_of_length (by omega)
          have hin := h3 y.1 .refl hys
          have hn : ¬ (s1.1.todo.get y.1.word ≠ none) := fun h => (h2.todo y.1 hys).1 h hin
          rw [not_not, e, get_none] at hn
          exact absurd rfl (hn y hym)
      refine ⟨h5, y.1.nodes + walks, ?_, by omega⟩
      have hn := nodes_sub (shared_sub hys)
      calc y.1.nodes + walks ≤ v.nodes + s1.1.todo.length * v.nodes := by omega
        _ = (s1.1.todo.length + 1) * v.nodes := by ring
        _ ≤ s.1.todo.length * v.nodes := Nat.mul_le_mul_right _ hlt

/-! ## Nodes of documents and places of blocks -/

/-- a document has one node and one more for each place of a literal -/
theorem docOf_nodes (name : Word → Option Nat) (deg : Word → Nat) (x : Val)
    (hd : ∀ y : Val, y.Sub x → y.Compound → deg y.word = y.kids.length) :
    (docOf sh name x).nodes = 1 + ((docOf sh name x).literals.map deg).sum ∧
    (bodyOf sh name x).nodes = 1 + ((bodyOf sh name x).literals.map deg).sum := by
  induction x using Val.ind with
  | null | bool | num | str | big =>
    rw [docOf, bodyOf]
    · exact ⟨rfl, rfl⟩
    all_goals simp
  | arr i l ih =>
    have hk : ∀ y ∈ l, (docOf sh name y).nodes = 1 + ((docOf sh name y).literals.map deg).sum :=
      fun y hy => (ih y hy fun z hz => hd z (.arr i l y hy hz)).1
    have hL : Doc.nodesL (docItems sh name l) =
        l.length + ((Doc.literalsL (docItems sh name l)).map deg).sum := by
      clear ih hd
      induction l with
      | nil => rfl
      | cons y l ihl =>
        rw [docItems, Doc.nodesL, Doc.literalsL, hk y (by simp), ihl fun z hz => hk z (by simp [hz]),
          List.map_append, List.sum_append, List.length_cons]
        omega
    have h0 : deg (.arr i) = l.length := hd (.arr i l) .refl trivial
    have hb : (bodyOf sh name (.arr i l)).nodes =
        1 + ((bodyOf sh name (.arr i l)).literals.map deg).sum := by
      rw [bodyOf, Doc.nodes, Doc.literals, hL, List.map_cons, List.sum_cons, h0]
    refine ⟨?_, hb⟩
    rw [docOf_eq (x := Val.arr i l) name trivial]
    split
    · rfl
    · exact hb
  | obj i l ih =>
    have hk : ∀ y ∈ l, (docOf sh name y.2).nodes = 1 + ((docOf sh name y.2).literals.map deg).sum :=
      fun y hy => (ih y hy fun z hz => hd z (.obj i l y hy hz)).1
    have hL : Doc.nodesM (docMembers sh name l) =
        l.length + ((Doc.literalsM (docMembers sh name l)).map deg).sum := by
      clear ih hd
      induction l with
      | nil => rfl
      | cons y l ihl =>
        have h1 := hk y (by simp)
        obtain ⟨k, y⟩ := y
        simp only at h1
        rw [docMembers, Doc.nodesM, Doc.literalsM, h1, ihl fun z hz => hk z (by simp [hz]),
          List.map_append, List.sum_append, List.length_cons]
        omega
    have h0 : deg (.obj i) = l.length := by
      have := hd (.obj i l) .refl trivial
      simpa [Val.kids, Val.word] using this
    have hb : (bodyOf sh name (.obj i l)).nodes =
        1 + ((bodyOf sh name (.obj i l)).literals.map deg).sum := by
      rw [bodyOf, Doc.nodes, Doc.literals, hL, List.map_cons, List.sum_cons, h0]
    refine ⟨?_, hb⟩
    rw [docOf_eq (x := Val.obj i l) name trivial]
    split
    · rfl
    · exact hb

/-- all names may be used instead of those known when a constant is written -/
theorem docCost_eq {v : Val} {cs : List Val} (h : Names v cs) :
    ∀ pre l, cs = pre ++ l →
      docCost sh pre l = ((l.map (bodyOf sh (nameIn cs))).map Doc.nodes).sum := by
  intro pre l
  induction l generalizing pre with
  | nil => intro _; rfl
  | cons c l ih =>
    intro e
    rw [docCost, ih (pre ++ [c]) (by rw [e]; simp), List.map_cons, List.map_cons, List.sum_cons]
    congr 2
    have hi : cs[pre.length]? = some c := by rw [e]; simp
    have ht : cs.take pre.length = pre := by rw [e]; simp
    refine bodyOf_congr c fun k hk y hy hyc => ?_
    have hcv := shared_sub ((h.shared c).1 (List.mem_of_getElem? hi))
    have hyv : y.Sub v := hy.trans ((Val.kid_sub hk).trans hcv)
    by_cases hys : v.Shared y
    · have hin := h.closed _ c hi y ⟨k, hk, hy⟩ hys
      rw [ht] at hin
      cases hn : nameIn pre y.word with
      | none => exact absurd rfl (nameIn_none.1 hn y hin)
      | some n => rw [e, nameIn_append hn]
    · have hno : ∀ c ∈ cs, c.word ≠ y.word := fun c hc e => by
        have hcs := (h.shared c).1 hc
        rw [h.cons c y (shared_sub hcs) hyv hcs.1 hyc e] at hcs
        exact hys hcs
      rw [nameIn_none.2 hno, nameIn_none.2 fun c hc => hno c (by rw [e]; simp [hc])]

/-- the nodes of all that is written -/
theorem written_nodes {v : Val} {cs : List Val} (h : Names v cs) (bs : List Val)
    (hb : bs.Nodup ∧ ∀ x : Val, x ∈ bs ↔ x.Sub v ∧ x.Compound) :
    ((cs.map (bodyOf sh (nameIn cs))).map Doc.nodes).sum + (docOf sh (nameIn cs) v).nodes =
      cs.length + 1 + (bs.map fun b => b.kids.length).sum := by
  classical
  let deg : Word → Nat := fun w =>
    if hw : ∃ x : Val, x.Sub v ∧ x.Compound ∧ x.word = w then hw.choose.kids.length else 0
  have hdeg : ∀ y : Val, y.Sub v → y.Compound → deg y.word = y.kids.length := by
    intro y hy hc
    have hw : ∃ x : Val, x.Sub v ∧ x.Compound ∧ x.word = y.word := ⟨y, hy, hc, rfl⟩
    simp only [deg]
    rw [dif_pos hw, h.cons _ y hw.choose_spec.1 hy hw.choose_spec.2.1 hc hw.choose_spec.2.2]
  obtain ⟨l1, l2⟩ := literals_once (sh := sh) h
  have hsum : ((cs.map (bodyOf sh (nameIn cs))).map Doc.nodes).sum =
      cs.length + ((((cs.map (bodyOf sh (nameIn cs)))).flatMap Doc.literals).map deg).sum := by
    have hcs : ∀ c ∈ cs, c.Sub v := fun c hc => shared_sub ((h.shared c).1 hc)
    generalize nameIn cs = name
    clear * - hcs hdeg
    induction cs with
    | nil => rfl
    | cons c cs ih =>
      have h1 := (docOf_nodes (sh := sh) name deg c fun y hy hc =>
        hdeg y (hy.trans (hcs c (by simp))) hc).2
      have h2 := ih fun c hc => hcs c (by simp [hc])
      simp only [List.map_cons, List.sum_cons, List.flatMap_cons, List.map_append, List.sum_append,
        List.length_cons]
      omega
  have hroot := (docOf_nodes (sh := sh) (nameIn cs) deg v hdeg).1
  rw [List.flatMap_append, List.flatMap_singleton] at l1 l2
  have hperm : ((cs.map (bodyOf sh (nameIn cs))).flatMap Doc.literals ++
      (docOf sh (nameIn cs) v).literals).Perm (bs.map Val.word) := by
    refine (List.perm_ext_iff_of_nodup l1 ?_).2 fun w => ?_
    · refine (List.nodup_map_iff_inj_on hb.1).2 fun x hx y hy e => ?_
      obtain ⟨x1, x2⟩ := (hb.2 x).1 hx
      obtain ⟨y1, y2⟩ := (hb.2 y).1 hy
      exact h.cons x y x1 y1 x2 y2 e
    · rw [l2, List.mem_map]
      constructor
      · rintro ⟨x, h1, h2, h3⟩; exact ⟨x, (hb.2 x).2 ⟨h1, h2⟩, h3⟩
      · rintro ⟨x, h1, h2⟩; exact ⟨x, ((hb.2 x).1 h1).1, ((hb.2 x).1 h1).2, h2⟩
  have hs := (hperm.map deg).sum_eq
  rw [List.map_append, List.sum_append, List.map_map] at hs
  have he : (bs.map (deg ∘ Val.word)).sum = (bs.map fun b => b.kids.length).sum := by
    congr 1
    refine List.map_congr_left fun x hx => ?_
    exact hdeg x ((hb.2 x).1 hx).1 ((hb.2 x).1 hx).2
  omega

end Ser
end Nanvm
