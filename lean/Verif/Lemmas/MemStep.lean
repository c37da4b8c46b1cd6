import Verif.Lemmas.MemDecode
/-! Lemmas for C80: operations that make no block and store nothing -/
namespace Nanvm
open Graph

/-- memory and handles store the graph -/
structure Sim (φ : Nat → Nat) (g : GMem) (m : MMem) : Prop where
  st : St g
  rel : Rel φ g.heap m.ram
  roots : PW (Enc φ) g.roots m.roots
  made : m.made = g.heap.length

/-- a handle reads as a value -/
def HoldsIn (r : Ram) (hd : Hnd) (v : Kind × Tree) : Prop := hd.kind = v.1 ∧ Decodes r hd v.2

theorem holding_iff {m : MMem} {ts : Vals} : Holding m ts ↔ PW (HoldsIn m.ram) m.roots ts := Iff.rfl

/-- the number of characters or limbs of a new string or bigint -/
def MMem.Op.width : MMem.Op → Nat
  | .string us _ => us.length
  | .bigint _ ls _ => ls.length
  | _ => 0

/-- what an operation does to the graph; operations on characters and limbs do nothing -/
def gopOf (g : GMem) : MMem.Op → Option GMem.Op
  | .value _ => some .value
  | .string _ _ => some (.new .string [])
  | .bigint _ _ _ => some (.new .bigint [])
  | .array is _ => some (.new .array is)
  | .object is _ => some (.new .object is)
  | .clone i => some (.clone i)
  | .toRef i => some (.toRef i)
  | .toAny i =>
    match g.roots[i]? with
    | some (.typed t _) => some (.toAny t i)
    | _ => none
  | .tryMove t i => some (.tryMove t i)
  | .tryToMutRef i => some (.tryToMutRef i)
  | .getItem i j => some (.getItem i j)
  | .setItem i j k => some (.setItem i j k)
  | .setUnit _ _ _ => none
  | .setLimb _ _ _ => none
  | .drop i => some (.drop i)

/-- a step of the graph -/
def GStep (g : GMem) (op : MMem.Op) (g' : GMem) : Prop :=
  match gopOf g op with
  | some gop => g.step gop = .ok g'
  | none => g' = g

/-- why an operation panics -/
def Cause (g : GMem) (op : MMem.Op) : Prop :=
  (∃ gop, g.step gop = .error .panic) ∨ 2 ^ 59 ≤ (all g).length ∨ 2 ^ 59 ≤ op.width

/-- an operation in memory does what it does to values and to the graph -/
def StepSim (g : GMem) (m : MMem) (ts : Vals) (op : MMem.Op) : Prop :=
  (∃ φ' g' m' ts', m.step op = .ok m' ∧ Sim φ' g' m' ∧ VStep ts op ts' ∧ Holding m' ts' ∧
    GStep g op g') ∨
  m.step op = .error .notRust ∨ (m.step op = .error .panic ∧ Cause g op)

variable {φ : Nat → Nat}

theorem Graph.Inv.liveOf {h : Heap} {P : List Own} (i : Inv h P) {b : Nat} {n : Node} (e : h[b]? = some n)
    (l : n.phase = .live) : ∀ o ∈ n.kids, ∀ t c, Own.link o = some (t, c) → LiveAt h t c :=
  fun o ho t c hl => i.ok o (List.mem_append.2 (.inr ((mem_edges _ _).2 ⟨b, n, e, l, ho⟩))) t c hl

theorem keep_decodes {h h' : Heap} {r r' : Ram} {P : List Own} (R : Rel φ h r) (R' : Rel φ h' r')
    (i : Inv h' P) (k : Keep h h') (on : Only φ h r r') {hd : Hnd} {v : Tree} (d : Decodes r hd v)
    {o : Own} (E : Enc φ o hd) (lv : ∀ t b, Own.link o = some (t, b) → LiveAt h' t b) : Decodes r' hd v := by
  refine decodes_keep R' (fun b => ∃ n, h'[b]? = some n ∧ n.phase = .live) ?_ ?_ d o E ?_
  · rintro b ⟨n, e, l⟩
    refine ⟨n, e, l, fun o ho t c hl => ?_⟩
    have := i.liveOf e l o ho t c hl
    obtain ⟨n', e', l', -⟩ := this
    exact ⟨⟨n', e', l'⟩, i.liveOf e l o ho t c hl⟩
  · rintro b n ⟨n', e', l'⟩ e a h1 h2
    rw [e] at e'; cases e'
    obtain ⟨n0, e0, l0, t0, -⟩ := k.live e l'
    have N := R.node b n0 e0 (by rw [l0]; simp)
    have c8 : lenAt r' n.ty (φ b) = lenAt r n.ty (φ b) := by
      unfold lenAt
      rw [on.cell R N.block (by simp) (by simp only [blkSize]; omega)]
    rw [c8] at h2
    rw [t0] at h2
    exact on.cell R N.block h1 h2
  · intro t b hl
    obtain ⟨n, e, l, ty⟩ := lv t b hl
    exact ⟨⟨n, e, l⟩, n, e, l, ty⟩

/-- the handles still read as they did -/
theorem keep_holds {h h' : Heap} {r r' : Ram} (R : Rel φ h r) (R' : Rel φ h' r')
    (k : Keep h h') (on : Only φ h r r') {os : List Own} {hs : List Hnd} {ts : Vals} (i : Inv h' os)
    (E : PW (Enc φ) os hs) (H : PW (HoldsIn r) hs ts) : PW (HoldsIn r') hs ts := by
  refine H.mono (fun j hd v h1 h2 hv => ⟨hv.1, ?_⟩)
  obtain ⟨o, ho, eo⟩ := E.left h1
  exact keep_decodes R R' i k on hv.2 eo (fun t b hl =>
    i.ok o (List.mem_append.2 (.inl (List.mem_of_getElem? ho))) t b hl)

theorem cnt_le_length (b : Nat) (os : List Own) : cnt b os ≤ os.length := List.countP_le_length

theorem clone_sim {h : Heap} {r : Ram} {P : List Own} {o : Own} {hd : Hnd} (i : Inv h P)
    (ho : o ∈ P ++ edges h) (nm : Own.isMut o = false) (R : Rel φ h r) (E : Enc φ o hd) :
    (∃ h' r', GMem.cloneOwn h o = .ok h' ∧ r.clone hd = .ok r' ∧ Rel φ h' r' ∧ Keep h h' ∧
      Inv h' (P ++ [o]) ∧ Only φ h r r') ∨
    (r.clone hd = .error .panic ∧ 2 ^ 63 ≤ (P ++ edges h).length) := by
  obtain ⟨h', q1, q2, q3⟩ := i.clone ho nm
  have key : ∀ t b, Own.link o = some (t, b) → GMem.cloneOwn h o = (·.2) <$> refCounterUpdate h t b ADD_REF →
      ((φ b < 2 ^ 48) → r.clone hd = (·.2) <$> r.counterUpdate (φ b) ADD_REF) →
      (∃ h' r', GMem.cloneOwn h o = .ok h' ∧ r.clone hd = .ok r' ∧ Rel φ h' r' ∧ Keep h h' ∧
        Inv h' (P ++ [o]) ∧ Only φ h r r') ∨
      (r.clone hd = .error .panic ∧ 2 ^ 63 ≤ (P ++ edges h).length) := by
    intro t b hl hc hr
    obtain ⟨n, e, l, ty⟩ := i.ok o ho t b hl
    have fr : n.phase ≠ .freed := by rw [l]; simp
    replace hr := hr (R.addr e fr).2.1
    rw [refCounterUpdate_ok e l ty] at hc
    rcases R.counterUpdate e fr ADD_REF with ⟨c, q⟩ | ⟨r', c1, R1, o1⟩
    · right
      refine ⟨by rw [hr, q]; rfl, ?_⟩
      have h1 := i.count b n e l
      have h2 := i.nonneg b n e l
      have h3 := cnt_le_length b (P ++ edges h)
      unfold ADD_REF at c
      omega
    · left
      rw [hc] at q1
      change Except.ok _ = _ at q1
      injection q1 with q1
      subst q1
      exact ⟨_, r', hc, by rw [hr, c1]; rfl, R1, q3, q2, o1⟩
  cases E with
  | simple w0 =>
    left
    cases q1
    exact ⟨h, r, rfl, by simp [Ram.clone, plain_blockAddr w0], R, q3, q2, .refl φ h r⟩
  | @any t b =>
    refine key t b rfl rfl (fun hp => ?_)
    simp only [Ram.clone, anyWord_blockAddr t hp, addr_toNat hp]
  | @typed t b => exact key t b rfl rfl (fun _ => rfl)
  | mutRef => simp [Own.isMut] at nm

/-! ### reading values -/

theorem decodes_ty {r : Ram} {t : RefTy} {p : Nat} {v : Tree} (d : Decodes r (.ref t p) v) :
    v.ty = some t := by
  cases d <;> rfl

theorem mutRef_inv {r : Ram} {t : RefTy} {p : Nat} {v : Tree} (d : Decodes r (.mutRef t p) v) :
    Decodes r (.ref t p) v := by
  cases d; assumption

theorem any_inv {r : Ram} {t : RefTy} {p : Nat} {v : Tree} (hp : p < 2 ^ 48)
    (d : Decodes r (.any (anyWord t p)) v) : Decodes r (.ref t p) v := by
  have hv := anyWord_visitor t hp
  cases d with
  | null x => rw [hv] at x; injection x with x; cases t <;> cases x
  | bool x => rw [hv] at x; injection x with x; cases t <;> cases x
  | number x => rw [hv] at x; injection x with x; cases t <;> cases x
  | any x d =>
    rw [hv] at x; injection x with x
    obtain ⟨rfl, rfl⟩ := tval_inj x
    rwa [addr_toNat hp] at d

theorem plain_inv {r : Ram} {w : W} {v : Tree} (h : isRef w = false) (d : Decodes r (.any w) v) : v.ty = none := by
  cases d with
  | null x => rfl
  | bool x => rfl
  | number x => rfl
  | any x d => exact (visitor_not_plain h x).elim

/-- the items of a value are the fields of its block -/
theorem decodes_item {r : Ram} {t : RefTy} {p : Nat} {v : Tree} (d : Decodes r (.ref t p) v) {w : W}
    (hw : r.header t p = .ok w) : v.items.length = ownedFields t (headerLen t w) ∧
    ∀ (j : Nat) x, v.items[j]? = some x →
      ∃ hd, r.owned t p j = .ok hd ∧ Decodes r hd x ∧ itemKind t j = some hd.kind := by
  have ik : ∀ (t : RefTy) (j : Nat) (hd : Hnd), (t = .array ∨ t = .object) → r.owned t p j = .ok hd →
      itemKind t j = some hd.kind := by
    intro t j hd ht ho
    rw [owned_ok (by rcases ht with rfl | rfl <;> rfl) ho]
    unfold ownedAt
    rcases ht with rfl | rfl
    · rfl
    · by_cases c : j % 2 = 0 <;> simp [c, itemKind, Hnd.kind]
  cases d with
  | string x1 x2 x3 => exact ⟨rfl, fun j x h => by simp [Tree.items] at h⟩
  | bigint x1 x2 x3 => exact ⟨rfl, fun j x h => by simp [Tree.items] at h⟩
  | array hs x1 x2 x3 x4 =>
    rw [x1] at hw; cases hw
    refine ⟨x2.symm, fun j x h => ⟨hs j, x3 j x h, x4 j x h, ik _ _ _ (.inl rfl) (x3 j x h)⟩⟩
  | object hs x1 x2 x3 x4 =>
    rw [x1] at hw; cases hw
    refine ⟨x2.symm, fun j x h => ⟨hs j, x3 j x h, x4 j x h, ik _ _ _ (.inr rfl) (x3 j x h)⟩⟩

theorem fits_enc {o : Own} {hd : Hnd} (E : Enc φ o hd) (t : RefTy) (k : Nat) :
    Graph.fits t k o = hd.fits t k := by
  cases E with
  | simple => rfl
  | any => rfl
  | @typed t' b => cases t' <;> rfl
  | mutRef => rfl

theorem kind_item {t : RefTy} {k : Nat} {hd : Hnd} (f : hd.fits t k = true) : itemKind t k = some hd.kind := by
  cases hd with
  | any w =>
    simp only [Hnd.fits, Bool.or_eq_true, decide_eq_true_eq, Bool.and_eq_true] at f
    rcases f with rfl | ⟨rfl, h⟩
    · rfl
    · simp [itemKind, h, Hnd.kind]
  | ref t' p =>
    cases t' with
    | string =>
      simp only [Hnd.fits, decide_eq_true_eq, Bool.and_eq_true] at f
      obtain ⟨rfl, h⟩ := f
      simp [itemKind, h, Hnd.kind]
    | _ => simp [Hnd.fits] at f
  | mutRef t' p => simp [Hnd.fits] at f

theorem ts_at {ts : Vals} {i : Nat} {v : Kind × Tree} {hd : Hnd} (e : ts[i]? = some v) (k : hd.kind = v.1) :
    ts[i]? = some (hd.kind, v.2) := by rw [e, k]

/-! ### dropping a handle -/

theorem dropRoot_sim {g : GMem} {m : MMem} {ts : Vals} (S : Sim φ g m) (H : Holding m ts) {i : Nat} {o : Own}
    {hd : Hnd} (e : g.roots[i]? = some o) (eh : m.roots[i]? = some hd) :
    (∃ h' r', Graph.drop g.fuel g.heap o = .ok h' ∧ m.ram.drop m.fuel hd = .ok r' ∧
      Sim φ ⟨h', g.roots.eraseIdx i⟩ { m with ram := r', roots := m.roots.eraseIdx i } ∧
      Holding { m with ram := r', roots := m.roots.eraseIdx i } (ts.eraseIdx i)) ∨
    (Graph.drop g.fuel g.heap o = .error .panic ∧ m.ram.drop m.fuel hd = .error .panic) := by
  have fe : m.fuel = g.fuel := by unfold MMem.fuel GMem.fuel; rw [S.made]
  rw [fe]
  rcases drop_sim g.fuel g.heap m.ram o hd (g.roots.eraseIdx i) (S.st.inv.perm (perm_eraseIdx e)) (fuel_ok g)
    S.rel (S.roots.2 i o hd e eh) with ⟨h', r', q1, q2, R', i', k', o'⟩ | q
  · refine .inl ⟨h', r', q1, q2, ⟨⟨i', k'.noDying S.st.nd⟩, R', S.roots.erase i, ?_⟩, ?_⟩
    · rw [k'.len]; exact S.made
    · exact keep_holds S.rel R' k' o' i' (S.roots.erase i) (PW.erase H i)
  · exact .inr q

/-! ### the operations -/

theorem step_value {g : GMem} {m : MMem} {ts : Vals} (S : Sim φ g m) (H : Holding m ts) (s : Simple)
    (cl : CleanOp (.value s)) : StepSim g m ts (.value s) := by
  obtain ⟨h1, h2⟩ := simple_visitor s cl
  have st : g.step .value = .ok { g with roots := g.roots ++ [.simple] } := rfl
  refine .inl ⟨φ, { g with roots := g.roots ++ [.simple] }, { m with roots := m.roots ++ [.any s.word] },
    ts ++ [(.any, .simple s)], rfl, ⟨step_st S.st st, S.rel, S.roots.append1 (.simple h1), S.made⟩, .value, ?_,
    st⟩
  refine PW.append1 H ⟨rfl, ?_⟩
  cases s with
  | null => exact .null h2
  | bool b => exact .bool h2
  | number x => exact .number h2

theorem step_clone {g : GMem} {m : MMem} {ts : Vals} (S : Sim φ g m) (H : Holding m ts) (i : Nat) :
    StepSim g m ts (.clone i) := by
  cases hr : m.roots[i]? with
  | none => exact .inr (.inl (by simp [MMem.step, hr]))
  | some hd =>
    obtain ⟨o, ho, E⟩ := S.roots.left hr
    obtain ⟨v, hv, kv⟩ := PW.right H hr
    have hst : m.step (.clone i) = do
        return { m with ram := ← m.ram.clone hd, roots := m.roots ++ [hd] } := by simp [MMem.step, hr]
    by_cases mu : Own.isMut o = true
    · cases E with
      | mutRef => exact .inr (.inl (by rw [hst]; rfl))
      | _ => simp [Own.isMut] at mu
    · have nm : Own.isMut o = false := by simpa using mu
      have ho' : o ∈ g.roots ++ edges g.heap := List.mem_append.2 (.inl (List.mem_of_getElem? ho))
      rcases clone_sim S.st.inv ho' nm S.rel E with ⟨h', r', q1, q2, R', k', i', o'⟩ | ⟨q, c⟩
      · have st : g.step (.clone i) = .ok ⟨h', g.roots ++ [o]⟩ := by
          simp only [GMem.step, ho, q1]; rfl
        have E' : PW (Enc φ) (g.roots ++ [o]) (m.roots ++ [hd]) := S.roots.append1 E
        refine .inl ⟨φ, ⟨h', g.roots ++ [o]⟩, { m with ram := r', roots := m.roots ++ [hd] }, ts ++ [v],
          by rw [hst, q2]; rfl, ⟨step_st S.st st, R', E', by rw [k'.len]; exact S.made⟩, ?_, ?_,
          st⟩
        · refine .clone hv (fun t => ?_)
          rw [← kv.1]
          cases E with
          | mutRef => simp [Own.isMut] at nm
          | _ => simp [Hnd.kind]
        · exact keep_holds S.rel R' k' o' i' E' (PW.append1 H kv)
      · refine .inr (.inr ⟨by rw [hst, q]; rfl, .inr (.inl ?_)⟩)
        unfold all
        omega

theorem step_toRef {g : GMem} {m : MMem} {ts : Vals} (S : Sim φ g m) (H : Holding m ts) (i : Nat) :
    StepSim g m ts (.toRef i) := by
  cases hr : m.roots[i]? with
  | none => exact .inr (.inl (by simp [MMem.step, hr]))
  | some hd =>
    obtain ⟨o, ho, E⟩ := S.roots.left hr
    obtain ⟨v, hv, kv⟩ := PW.right H hr
    cases E with
    | @mutRef t b =>
      have st : g.step (.toRef i) = .ok { g with roots := g.roots.set i (.typed t b) } := by
        simp [GMem.step, ho]
      refine .inl ⟨φ, { g with roots := g.roots.set i (.typed t b) },
        { m with roots := m.roots.set i (.ref t (φ b)) }, ts.set i (.ref t, v.2), by simp [MMem.step, hr],
        ⟨step_st S.st st, S.rel, S.roots.set i .typed, S.made⟩, .toRef ?_, ?_, st⟩
      · exact ts_at hv kv.1
      · exact PW.set H i ⟨rfl, mutRef_inv kv.2⟩
    | _ => exact .inr (.inl (by simp [MMem.step, hr]))

theorem step_toAny {g : GMem} {m : MMem} {ts : Vals} (S : Sim φ g m) (H : Holding m ts) (i : Nat) :
    StepSim g m ts (.toAny i) := by
  cases hr : m.roots[i]? with
  | none => exact .inr (.inl (by simp [MMem.step, hr]))
  | some hd =>
    obtain ⟨o, ho, E⟩ := S.roots.left hr
    obtain ⟨v, hv, kv⟩ := PW.right H hr
    cases E with
    | @typed t b =>
      have st : g.step (.toAny t i) = .ok { g with roots := g.roots.set i (.any t b) } := by
        simp [GMem.step, ho]
      obtain ⟨n, e, l, -⟩ := S.st.inv.ok (.typed t b) (List.mem_append.2 (.inl (List.mem_of_getElem? ho))) t b rfl
      have A := S.rel.addr e (by rw [l]; simp)
      refine .inl ⟨φ, { g with roots := g.roots.set i (.any t b) },
        { m with roots := m.roots.set i (.any (anyWord t (φ b))) }, ts.set i (.any, v.2), by simp [MMem.step, hr],
        ⟨step_st S.st st, S.rel, S.roots.set i .any, S.made⟩, .toAny (t := t) ?_, ?_,
        by simp only [GStep, gopOf, ho]; exact st⟩
      · exact ts_at hv kv.1
      · refine PW.set H i ⟨rfl, .any (anyWord_visitor t A.2.1) ?_⟩
        rw [addr_toNat A.2.1]
        exact kv.2
    | _ => exact .inr (.inl (by simp [MMem.step, hr]))

theorem step_tryMove {g : GMem} {m : MMem} {ts : Vals} (S : Sim φ g m) (H : Holding m ts) (t : RefTy) (i : Nat) :
    StepSim g m ts (.tryMove t i) := by
  cases hr : m.roots[i]? with
  | none => exact .inr (.inl (by simp [MMem.step, hr]))
  | some hd =>
    obtain ⟨o, ho, E⟩ := S.roots.left hr
    obtain ⟨v, hv, kv⟩ := PW.right H hr
    cases E with
    | @simple w w0 =>
      have hst : m.step (.tryMove t i) = do
          return { m with ram := ← m.ram.drop m.fuel (.any w), roots := m.roots.eraseIdx i } := by
        simp [MMem.step, hr, plain_tryMove w0]
      have hg : g.step (.tryMove t i) = do
          let h ← Graph.drop g.fuel g.heap .simple
          return ⟨h, g.roots.eraseIdx i⟩ := by simp [GMem.step, ho]
      rcases dropRoot_sim S H ho hr with ⟨h', r', q1, q2, S', H'⟩ | ⟨q1, q2⟩
      · refine .inl ⟨φ, _, _, ts.eraseIdx i, by rw [hst, q2]; rfl, S', .tryMove_fail (v := v.2) ?_ ?_, H',
          by change g.step _ = _; rw [hg, q1]; rfl⟩
        · exact ts_at hv kv.1
        · rw [plain_inv w0 kv.2]; simp
      · exact .inr (.inr ⟨by rw [hst, q2]; rfl, .inl ⟨.tryMove t i, by rw [hg, q1]; rfl⟩⟩)
    | @any t' b =>
      obtain ⟨n, e, l, -⟩ := S.st.inv.ok (.any t' b) (List.mem_append.2 (.inl (List.mem_of_getElem? ho))) t' b rfl
      have A := S.rel.addr e (by rw [l]; simp)
      have hts : ts[i]? = some (Kind.any, v.2) := by
        exact ts_at hv kv.1
      have dv := any_inv A.2.1 kv.2
      by_cases c : t = t'
      · subst c
        have st : g.step (.tryMove t i) = .ok { g with roots := g.roots.set i (.typed t b) } := by
          simp [GMem.step, ho]
        refine .inl ⟨φ, { g with roots := g.roots.set i (.typed t b) },
          { m with roots := m.roots.set i (.ref t (φ b)) }, ts.set i (.ref t, v.2), ?_,
          ⟨step_st S.st st, S.rel, S.roots.set i .typed, S.made⟩, .tryMove hts (decodes_ty dv), ?_,
          st⟩
        · simp only [MMem.step, hr, anyWord_tryMove t t A.2.1, if_true]
          have : (t.val (BitVec.ofNat 64 (φ b))).addr = BitVec.ofNat 64 (φ b) := by cases t <;> rfl
          rw [this, addr_toNat A.2.1]
        · exact PW.set H i ⟨rfl, dv⟩
      · have hst : m.step (.tryMove t i) = do
            return { m with ram := ← m.ram.drop m.fuel (.any (anyWord t' (φ b))), roots := m.roots.eraseIdx i } := by
          simp [MMem.step, hr, anyWord_tryMove t' t A.2.1, c]
        have hg : g.step (.tryMove t i) = do
            let h ← Graph.drop g.fuel g.heap (.any t' b)
            return ⟨h, g.roots.eraseIdx i⟩ := by simp [GMem.step, ho, c]
        rcases dropRoot_sim S H ho hr with ⟨h', r', q1, q2, S', H'⟩ | ⟨q1, q2⟩
        · refine .inl ⟨φ, _, _, ts.eraseIdx i, by rw [hst, q2]; rfl, S', .tryMove_fail hts ?_, H',
            by change g.step _ = _; rw [hg, q1]; rfl⟩
          rw [decodes_ty dv]
          simpa using fun h => c h.symm
        · exact .inr (.inr ⟨by rw [hst, q2]; rfl, .inl ⟨.tryMove t i, by rw [hg, q1]; rfl⟩⟩)
    | _ => exact .inr (.inl (by simp [MMem.step, hr]))

theorem step_drop {g : GMem} {m : MMem} {ts : Vals} (S : Sim φ g m) (H : Holding m ts) (i : Nat) :
    StepSim g m ts (.drop i) := by
  cases hr : m.roots[i]? with
  | none => exact .inr (.inl (by simp [MMem.step, hr]))
  | some hd =>
    obtain ⟨o, ho, E⟩ := S.roots.left hr
    obtain ⟨v, hv, kv⟩ := PW.right H hr
    have hst : m.step (.drop i) = do
        return { m with ram := ← m.ram.drop m.fuel hd, roots := m.roots.eraseIdx i } := by
      simp [MMem.step, hr]
    have hg : g.step (.drop i) = do
        let h ← Graph.drop g.fuel g.heap o
        return ⟨h, g.roots.eraseIdx i⟩ := by simp [GMem.step, ho]
    rcases dropRoot_sim S H ho hr with ⟨h', r', q1, q2, S', H'⟩ | ⟨q1, q2⟩
    · exact .inl ⟨φ, _, _, ts.eraseIdx i, by rw [hst, q2]; rfl, S', .drop (getElem?_lt hv), H',
        by change g.step _ = _; rw [hg, q1]; rfl⟩
    · exact .inr (.inr ⟨by rw [hst, q2]; rfl, .inl ⟨.drop i, by rw [hg, q1]; rfl⟩⟩)

theorem step_tryToMutRef {g : GMem} {m : MMem} {ts : Vals} (S : Sim φ g m) (H : Holding m ts) (i : Nat) :
    StepSim g m ts (.tryToMutRef i) := by
  cases hr : m.roots[i]? with
  | none => exact .inr (.inl (by simp [MMem.step, hr]))
  | some hd =>
    obtain ⟨o, ho, E⟩ := S.roots.left hr
    obtain ⟨v, hv, kv⟩ := PW.right H hr
    cases E with
    | @typed t b =>
      obtain ⟨n, e, l, ty⟩ := S.st.inv.ok (.typed t b) (List.mem_append.2 (.inl (List.mem_of_getElem? ho))) t b rfl
      have fr : n.phase ≠ .freed := by rw [l]; simp
      have hts : ts[i]? = some (Kind.ref t, v.2) := by
        exact ts_at hv kv.1
      have hs : g.heap.set b { n with counter := n.counter + READ } = g.heap := by
        apply List.ext_getElem?
        intro c
        rw [getElem?_set_of e]
        by_cases y : c = b
        · subst y; simp [e, READ]
        · simp [y]
      have hg : g.step (.tryToMutRef i) =
          .ok ⟨g.heap, if n.counter = 0 then g.roots.set i (.mutRef t b) else g.roots⟩ := by
        simp only [GMem.step, ho]
        rw [refCounterUpdate_ok e l ty, hs]
        by_cases z : n.counter = 0 <;> simp [z, bind, Except.bind, pure, Except.pure]
      rcases S.rel.counterUpdate e fr READ with ⟨c, -⟩ | ⟨r', c1, R1, o1⟩
      · exfalso
        have h1 := S.st.inv.nonneg b n e l
        have h2 := (S.rel.node b n e fr).counter
        have := (m.ram.cell (φ b)).toInt_lt
        unfold READ at c
        omega
      · rw [hs] at R1
        have hst : m.step (.tryToMutRef i) = .ok { m with ram := r', roots := (if n.counter = 0 then
            m.roots.set i (.mutRef t (φ b)) else m.roots) } := by
          simp only [MMem.step, hr, c1]
          by_cases z : n.counter = 0 <;> simp [z, bind, Except.bind, pure, Except.pure]
        have st' := step_st S.st hg
        by_cases z : n.counter = 0
        · rw [if_pos z] at hg hst st'
          have E' : PW (Enc φ) (g.roots.set i (.mutRef t b)) (m.roots.set i (.mutRef t (φ b))) :=
            S.roots.set i .mutRef
          refine .inl ⟨φ, _, _, ts.set i (.mutRef t, v.2), hst, ⟨st', R1, E', S.made⟩, .tryToMutRef hts, ?_,
            hg⟩
          exact keep_holds S.rel R1 (.refl _) o1 st'.inv E' (PW.set H i ⟨rfl, .mutRef kv.2⟩)
        · rw [if_neg z] at hg hst st'
          refine .inl ⟨φ, _, _, ts, hst, ⟨st', R1, S.roots, S.made⟩, .tryToMutRef_fail hts, ?_,
            hg⟩
          exact keep_holds S.rel R1 (.refl _) o1 st'.inv S.roots H
    | _ => exact .inr (.inl (by simp [MMem.step, hr]))

theorem step_getItem {g : GMem} {m : MMem} {ts : Vals} (S : Sim φ g m) (H : Holding m ts) (i j : Nat) :
    StepSim g m ts (.getItem i j) := by
  cases hr : m.roots[i]? with
  | none => exact .inr (.inl (by simp [MMem.step, hr]))
  | some hd =>
    obtain ⟨o, ho, E⟩ := S.roots.left hr
    obtain ⟨v, hv, kv⟩ := PW.right H hr
    have key : ∀ t b, Own.link o = some (t, b) → (φ b < 2 ^ 48 → MMem.target hd = some (t, φ b)) →
        (φ b < 2 ^ 48 → Decodes m.ram (.ref t (φ b)) v.2) →
        GMem.derefOwn g.heap o = access g.heap t b → StepSim g m ts (.getItem i j) := by
      intro t b hl ht hd' hg
      obtain ⟨n, ea, e, l, ty⟩ :=
        access_ok (S.st.inv.ok o (List.mem_append.2 (.inl (List.mem_of_getElem? ho))) t b hl)
      subst ty
      have fr : n.phase ≠ .freed := by rw [l]; simp
      have A := S.rel.addr e fr
      have N := S.rel.node b n e fr
      replace ht := ht A.2.1
      replace hd' := hd' A.2.1
      have hh := N.header A.1
      obtain ⟨len, it⟩ := decodes_item hd' hh
      have lk : v.2.items.length = n.kids.length := by rw [len]; exact N.len
      have lk' : ownedFields n.ty (headerLen n.ty (m.ram.cell (φ b + 8))) = n.kids.length := N.len
      have hts : ts[i]? = some (v.1, v.2) := hv
      have hst : m.step (.getItem i j) = if j < n.kids.length then do
            let h ← m.ram.owned n.ty (φ b) j
            return { m with ram := ← m.ram.clone h, roots := m.roots ++ [h] }
          else .ok m := by
        simp only [MMem.step, hr, Option.bind_some, ht, hh, bind, Except.bind, lk']
        rfl
      have hgs : g.step (.getItem i j) = match n.kids[j]? with
            | some k => do
              let h ← GMem.cloneOwn g.heap k
              return ⟨h, g.roots ++ [k]⟩
            | none => .ok g := by
        simp only [GMem.step, ho, hg, ea, bind, Except.bind]
        rfl
      cases hk : n.kids[j]? with
      | none =>
        have lj : ¬ j < n.kids.length := by
          rw [List.getElem?_eq_none_iff] at hk; omega
        rw [if_neg lj] at hst
        rw [hk] at hgs
        refine .inl ⟨φ, g, m, ts, hst, S, .getItem_none hts (decodes_ty hd') ?_, H, hgs⟩
        rw [List.getElem?_eq_none_iff, lk]; omega
      | some k =>
        have lj := getElem?_lt hk
        rw [if_pos lj, N.owned A.1 lj] at hst
        rw [hk] at hgs
        have hke : k ∈ edges g.heap := (mem_edges _ _).2 ⟨b, n, e, l, List.mem_of_getElem? hk⟩
        obtain ⟨x, hx⟩ : ∃ x, v.2.items[j]? = some x :=
          ⟨v.2.items[j]'(by rw [lk]; exact lj), by simp⟩
        obtain ⟨hd2, y1, y2, y3⟩ := it j x hx
        rw [N.owned A.1 lj] at y1
        injection y1 with y1
        have Ek := N.kids j k hk
        have hka : k ∈ g.roots ++ edges g.heap := List.mem_append.2 (.inr hke)
        rcases clone_sim S.st.inv hka (S.st.inv.nomut k hke) S.rel Ek with
          ⟨h', r', q1, q2, R', k', i', o'⟩ | ⟨q, c⟩
        · have st : g.step (.getItem i j) = .ok ⟨h', g.roots ++ [k]⟩ := by
            rw [hgs]; simp only [q1]; rfl
          have E' : PW (Enc φ) (g.roots ++ [k]) (m.roots ++ [ownedAt m.ram n.ty (φ b) j]) := S.roots.append1 Ek
          refine .inl ⟨φ, ⟨h', g.roots ++ [k]⟩,
            { m with ram := r', roots := m.roots ++ [ownedAt m.ram n.ty (φ b) j] }, ts ++ [(hd2.kind, x)],
            by rw [hst]; simp only [bind, Except.bind, q2]; rfl,
            ⟨step_st S.st st, R', E', by rw [k'.len]; exact S.made⟩, .getItem hts (decodes_ty hd') y3 hx, ?_,
            st⟩
          exact keep_holds S.rel R' k' o' i' E' (PW.append1 H ⟨by rw [y1], by rw [y1]; exact y2⟩)
        · refine .inr (.inr ⟨by rw [hst]; simp only [bind, Except.bind, q], .inr (.inl ?_)⟩)
          unfold all
          omega
    cases E with
    | @simple w w0 =>
      refine .inr (.inl ?_)
      simp [MMem.step, hr, plain_target w0]
    | @any t b => exact key t b rfl (anyWord_target t) (fun hp => any_inv hp kv.2) rfl
    | @typed t b => exact key t b rfl (fun _ => rfl) (fun _ => kv.2) rfl
    | @mutRef t b => exact key t b rfl (fun _ => rfl) (fun _ => mutRef_inv kv.2) rfl

end Nanvm
