import Verif.Lemmas.MemStep
/-! Lemmas for C80: operations that store something in a block -/
namespace Nanvm
open Graph
variable {φ : Nat → Nat}

theorem set_self {h : Heap} {b : Nat} {n : Node} (e : h[b]? = some n) : h.set b n = h := by
  apply List.ext_getElem?
  intro c
  rw [getElem?_set_of e]
  by_cases y : c = b
  · subst y; simp [e]
  · simp [y]

/-- nobody but a `MutRef` refers to its block -/
theorem other_root {g : GMem} (s : St g) {i j : Nat} {t : RefTy} {b : Nat} {o : Own}
    (ei : g.roots[i]? = some (.mutRef t b)) (ej : g.roots[j]? = some o) (ne : j ≠ i) : o.target ≠ some b := by
  intro c
  have h1 := s.inv.mutc t b (List.mem_of_getElem? ei)
  rw [cnt_append, cnt_perm (perm_eraseIdx ei), cnt_cons, if_pos (show (Own.mutRef t b).target = some b from rfl)] at h1
  have : o ∈ g.roots.eraseIdx i := List.mem_eraseIdx_iff_getElem?.2 ⟨j, ne, ej⟩
  have := cnt_mem this c
  omega

theorem other_edge {g : GMem} (s : St g) {i : Nat} {t : RefTy} {b : Nat} {o : Own}
    (ei : g.roots[i]? = some (.mutRef t b)) (ho : o ∈ edges g.heap) : o.target ≠ some b := by
  intro c
  have h1 := s.inv.mutc t b (List.mem_of_getElem? ei)
  rw [cnt_append, cnt_perm (perm_eraseIdx ei), cnt_cons, if_pos (show (Own.mutRef t b).target = some b from rfl)] at h1
  have := cnt_mem ho c
  omega

/-- a change in the block of a `MutRef` is not seen by others -/
theorem store_decodes {g : GMem} {m : MMem} (S : Sim φ g m) {i : Nat} {t : RefTy} {b : Nat} {n n' : Node}
    {a : Nat} {w : W} (ei : g.roots[i]? = some (.mutRef t b)) (e : g.heap[b]? = some n) (l : n.phase = .live)
    (h1 : φ b ≤ a) (h2 : a < φ b + blkSize n.ty (lenAt m.ram n.ty (φ b)))
    (R' : Rel φ (g.heap.set b n') (m.ram.put a w)) {hd : Hnd} {v : Tree} (d : Decodes m.ram hd v) {o : Own}
    (E : Enc φ o hd) (ho : o ∈ g.roots ++ edges g.heap) (nt : o.target ≠ some b) :
    Decodes (m.ram.put a w) hd v := by
  have ls : ∀ o ∈ g.roots ++ edges g.heap, o.target ≠ some b → ∀ t c, Own.link o = some (t, c) →
      (∃ n, g.heap[c]? = some n ∧ n.phase = .live ∧ c ≠ b) ∧ LiveAt (g.heap.set b n') t c := by
    intro o ho nt t c hl
    have ne : c ≠ b := by
      rintro rfl
      exact nt (by rw [target_link, hl]; rfl)
    obtain ⟨x, ex, lx, tx⟩ := S.st.inv.ok o ho t c hl
    exact ⟨⟨x, ex, lx, ne⟩, x, by rw [getElem?_set_of e, if_neg ne]; exact ex, lx, tx⟩
  refine decodes_keep R' (fun c => ∃ n, g.heap[c]? = some n ∧ n.phase = .live ∧ c ≠ b) ?_ ?_ d o E
    (ls o ho nt)
  · rintro c ⟨x, ex, lx, ne⟩
    refine ⟨x, by rw [getElem?_set_of e, if_neg ne]; exact ex, lx, fun o ho => ?_⟩
    have he : o ∈ edges g.heap := (mem_edges _ _).2 ⟨c, x, ex, lx, ho⟩
    exact ls o (List.mem_append.2 (.inr he)) (other_edge S.st ei he)
  · rintro c y ⟨x, ex, lx, ne⟩ ey z g1 g2
    rw [getElem?_set_of e, if_neg ne, ex] at ey; cases ey
    have fr : n.phase ≠ .freed := by rw [l]; simp
    have fx : y.phase ≠ .freed := by rw [lx]; simp
    have N := S.rel.node b n e fr
    have X := S.rel.node c y ex fx
    have np : φ b ≠ φ c := fun q => ne (S.rel.inj b c n y e fr ex fx q).symm
    have ea : ∀ z, φ c ≤ z → z < φ c + blkSize y.ty (lenAt m.ram y.ty (φ c)) → z ≠ a := by
      rintro z k1 k2 rfl
      exact S.rel.other N.block X.block np h1 h2 ⟨k1, k2⟩
    have c8 : lenAt (m.ram.put a w) y.ty (φ c) = lenAt m.ram y.ty (φ c) := by
      unfold lenAt
      rw [put_ne _ _ (ea _ (by omega) (by unfold blkSize; omega))]
    rw [c8] at g2
    exact put_ne _ _ (ea z (by omega) g2)

/-- all handles read as before, the changed one as `v` -/
theorem store_holds {g : GMem} {m : MMem} {ts : Vals} (S : Sim φ g m) (H : Holding m ts) {i : Nat} {t : RefTy}
    {b : Nat} {n n' : Node} {a : Nat} {w : W} (ei : g.roots[i]? = some (.mutRef t b)) (e : g.heap[b]? = some n)
    (l : n.phase = .live) (h1 : φ b ≤ a) (h2 : a < φ b + blkSize n.ty (lenAt m.ram n.ty (φ b)))
    (R' : Rel φ (g.heap.set b n') (m.ram.put a w)) {v : Tree} (d : Decodes (m.ram.put a w) (.ref t (φ b)) v) :
    PW (HoldsIn (m.ram.put a w)) m.roots (ts.set i (.mutRef t, v)) := by
  refine ⟨by rw [List.length_set]; exact H.1, fun j hd x hj xj => ?_⟩
  by_cases c : j = i
  · subst c
    obtain ⟨hd', e1, E1⟩ := S.roots.right ei
    rw [hj] at e1; cases e1
    have lt : j < ts.length := by rw [← H.1]; exact getElem?_lt hj
    rw [List.getElem?_set_self lt] at xj
    cases xj
    cases E1
    exact ⟨rfl, .mutRef d⟩
  · rw [List.getElem?_set_ne (fun q => c q.symm)] at xj
    have hx := H.2 j hd x hj xj
    obtain ⟨o, ho, E⟩ := S.roots.left hj
    exact ⟨hx.1, store_decodes S ei e l h1 h2 R' hx.2 E (List.mem_append.2 (.inl (List.mem_of_getElem? ho)))
      (other_root S.st ei ho c)⟩

/-! ### strings and bigints -/

/-- a block that owns nothing -/
theorem raw_store {h : Heap} {r : Ram} (R : Rel φ h r) {b : Nat} {n : Node} (e : h[b]? = some n)
    (f : n.phase ≠ .freed) (nk : n.kids = []) {a : Nat} (h1 : φ b + 16 ≤ a)
    (h2 : a < φ b + blkSize n.ty (lenAt r n.ty (φ b))) (w : W) : Rel φ (h.set b n) (r.put a w) := by
  have N := R.node b n e f
  have c8 : lenAt (r.put a w) n.ty (φ b) = lenAt r n.ty (φ b) := by
    unfold lenAt
    rw [put_ne _ _ (by omega)]
  refine R.put e f f (by omega) h2 ⟨by rw [c8]; exact N.block, ?_, by rw [c8]; exact N.len, ?_⟩
  · rw [put_ne _ _ (by omega)]; exact N.counter
  · intro k o ho
    rw [nk] at ho; simp at ho

theorem step_setUnit {g : GMem} {m : MMem} {ts : Vals} (S : Sim φ g m) (H : Holding m ts) (i j : Nat)
    (u : BitVec 16) : StepSim g m ts (.setUnit i j u) := by
  by_cases hx : ∃ p, m.roots[i]? = some (.mutRef .string p)
  · obtain ⟨p, hr⟩ := hx
    obtain ⟨o, ho, E⟩ := S.roots.left hr
    obtain ⟨v, hv, kv⟩ := PW.right H hr
    cases E with
    | @mutRef t b =>
      obtain ⟨n, e, l, ty⟩ := S.st.inv.ok _ (List.mem_append.2 (.inl (List.mem_of_getElem? ho))) .string b rfl
      have fr : n.phase ≠ .freed := by rw [l]; simp
      have A := S.rel.addr e fr
      have N := S.rel.node b n e fr
      have hh := N.header A.1
      rw [ty] at hh
      have nk : n.kids = [] := by
        have := N.len
        rw [ty] at this
        exact List.eq_nil_of_length_eq_zero this.symm
      obtain ⟨us, ve, wl, fl⟩ : ∃ us, v.2 = .string us ∧ (m.ram.cell (φ b + 8)).toNat = us.length ∧
          ∀ (j : Nat) u, us[j]? = some u → m.ram.field .string (φ b) j = .ok (u.setWidth 64) := by
        have d := mutRef_inv kv.2
        generalize v.2 = v2 at d
        cases d with
        | string x1 x2 x3 => rw [hh] at x1; cases x1; exact ⟨_, rfl, x2, x3⟩
      have hts : ts[i]? = some (Kind.mutRef .string, .string us) := by
        rw [← ve]; exact ts_at hv kv.1
      have ln : headerLen .string (m.ram.cell (φ b + 8)) = us.length := wl
      have ln' : lenAt m.ram n.ty (φ b) = us.length := by rw [ty]; exact wl
      by_cases lj : j < us.length
      · have bd : φ b + 16 + j * 2 + 2 ≤ φ b + blkSize n.ty (lenAt m.ram n.ty (φ b)) := by
          rw [ln', ty]; simp only [blkSize, itemType]; omega
        have hst : m.step (.setUnit i j u) = .ok { m with ram := m.ram.put (φ b + 16 + j * 2) (u.setWidth 64) } := by
          simp only [MMem.step, hr, hh, bind, Except.bind, ln, if_pos lj, itemsOf_ok]
          rw [write_of N.block (by omega) (by simp only; omega) (by simp only; omega)]
          rfl
        have R' := raw_store S.rel e fr nk (a := φ b + 16 + j * 2) (by omega) (by omega) (u.setWidth 64)
        have R1 := R'
        rw [set_self e] at R1
        have N1 := R1.node b n e fr
        refine .inl ⟨φ, g, _, ts.set i (.mutRef .string, .string (us.set j u)), hst,
          ⟨S.st, R1, S.roots, S.made⟩, .setUnit hts, ?_, rfl⟩
        refine store_holds S H ho e l (by omega) (by omega) R' ?_
        have c8 : (m.ram.put (φ b + 16 + j * 2) (u.setWidth 64)).cell (φ b + 8) = m.ram.cell (φ b + 8) :=
          put_ne _ _ (by omega)
        refine .string (w := m.ram.cell (φ b + 8)) ?_ (by rw [wl, List.length_set]) (fun k x hk => ?_)
        · rw [← ty, N1.header A.1, c8]
        · have lk : k < us.length := by have := getElem?_lt hk; rwa [List.length_set] at this
          have f1 := N1.field A.1 (by rw [ty]; simp) (k := k) (by rw [ty]; unfold lenAt; rw [c8, ln]; exact lk)
          have f0 := N.field A.1 (by rw [ty]; simp) (k := k) (by rw [ln']; exact lk)
          rw [ty] at f1 f0
          rw [f1]
          simp only [fieldSize] at f0 ⊢
          by_cases y : k = j
          · subst y
            rw [List.getElem?_set_self lk] at hk
            cases hk
            rw [put_same]
          · rw [List.getElem?_set_ne (fun q => y q.symm)] at hk
            rw [put_ne _ _ (by omega), ← f0]
            exact fl k x hk
      · have hst : m.step (.setUnit i j u) = .ok m := by
          simp only [MMem.step, hr, hh, bind, Except.bind, ln, if_neg lj]
          rfl
        refine .inl ⟨φ, g, m, ts.set i (.mutRef .string, .string (us.set j u)), hst, S, .setUnit hts, ?_, rfl⟩
        rw [List.set_eq_of_length_le (l := us) (by omega)]
        have : ts.set i (.mutRef .string, .string us) = ts := by
          apply List.ext_getElem?
          intro c
          rw [List.getElem?_set]
          by_cases y : i = c
          · subst y; rw [if_pos rfl, if_pos (getElem?_lt hts), hts]
          · rw [if_neg y]
        rw [this]
        exact H
  · refine .inr (.inl ?_)
    simp only [MMem.step]
    split
    · rename_i p hp; exact absurd ⟨p, hp⟩ hx
    · rfl

theorem step_setLimb {g : GMem} {m : MMem} {ts : Vals} (S : Sim φ g m) (H : Holding m ts) (i j : Nat)
    (u : W) : StepSim g m ts (.setLimb i j u) := by
  by_cases hx : ∃ p, m.roots[i]? = some (.mutRef .bigint p)
  · obtain ⟨p, hr⟩ := hx
    obtain ⟨o, ho, E⟩ := S.roots.left hr
    obtain ⟨v, hv, kv⟩ := PW.right H hr
    cases E with
    | @mutRef t b =>
      obtain ⟨n, e, l, ty⟩ := S.st.inv.ok _ (List.mem_append.2 (.inl (List.mem_of_getElem? ho))) .bigint b rfl
      have fr : n.phase ≠ .freed := by rw [l]; simp
      have A := S.rel.addr e fr
      have N := S.rel.node b n e fr
      have hh := N.header A.1
      rw [ty] at hh
      have nk : n.kids = [] := by
        have := N.len
        rw [ty] at this
        exact List.eq_nil_of_length_eq_zero this.symm
      obtain ⟨neg, us, ve, wl, nz, fl⟩ : ∃ neg us, v.2 = .bigint neg us ∧ (m.ram.cell (φ b + 8)).toInt =
          (if neg then -(us.length : Int) else us.length) ∧ (neg = true → us ≠ []) ∧
          ∀ (j : Nat) u, us[j]? = some u → m.ram.field .bigint (φ b) j = .ok u := by
        have d := mutRef_inv kv.2
        generalize v.2 = v2 at d
        cases d with
        | bigint x1 x2 x3 x4 => rw [hh] at x1; cases x1; exact ⟨_, _, rfl, x2, x3, x4⟩
      have hts : ts[i]? = some (Kind.mutRef .bigint, .bigint neg us) := by
        rw [← ve]; exact ts_at hv kv.1
      have ln : headerLen .bigint (m.ram.cell (φ b + 8)) = us.length := by
        simp only [headerLen, wl]
        cases neg <;> simp
      have ln' : lenAt m.ram n.ty (φ b) = us.length := by rw [ty]; exact ln
      by_cases lj : j < us.length
      · have bd : φ b + 16 + j * 8 + 8 ≤ φ b + blkSize n.ty (lenAt m.ram n.ty (φ b)) := by
          rw [ln', ty]; simp only [blkSize, itemType]; omega
        have hst : m.step (.setLimb i j u) = .ok { m with ram := m.ram.put (φ b + 16 + j * 8) u } := by
          simp only [MMem.step, hr, hh, bind, Except.bind, ln, if_pos lj, itemsOf_ok]
          rw [write_of N.block (by omega) (by simp only; omega) (by simp only; omega)]
          rfl
        have R' := raw_store S.rel e fr nk (a := φ b + 16 + j * 8) (by omega) (by omega) u
        have R1 := R'
        rw [set_self e] at R1
        have N1 := R1.node b n e fr
        refine .inl ⟨φ, g, _, ts.set i (.mutRef .bigint, .bigint neg (us.set j u)), hst,
          ⟨S.st, R1, S.roots, S.made⟩, .setLimb hts, ?_, rfl⟩
        refine store_holds S H ho e l (by omega) (by omega) R' ?_
        have c8 : (m.ram.put (φ b + 16 + j * 8) u).cell (φ b + 8) = m.ram.cell (φ b + 8) :=
          put_ne _ _ (by omega)
        refine .bigint (w := m.ram.cell (φ b + 8)) ?_ (by rw [wl, List.length_set]) (fun hn => ?_) (fun k x hk => ?_)
        · rw [← ty, N1.header A.1, c8]
        · have := nz hn
          intro q
          apply this
          apply List.eq_nil_of_length_eq_zero
          rw [← List.length_set (i := j) (a := u), q]; rfl
        · have lk : k < us.length := by have := getElem?_lt hk; rwa [List.length_set] at this
          have f1 := N1.field A.1 (by rw [ty]; simp) (k := k) (by rw [ty]; unfold lenAt; rw [c8, ln]; exact lk)
          have f0 := N.field A.1 (by rw [ty]; simp) (k := k) (by rw [ln']; exact lk)
          rw [ty] at f1 f0
          rw [f1]
          simp only [fieldSize] at f0 ⊢
          by_cases y : k = j
          · subst y
            rw [List.getElem?_set_self lk] at hk
            cases hk
            rw [put_same]
          · rw [List.getElem?_set_ne (fun q => y q.symm)] at hk
            rw [put_ne _ _ (by omega), ← f0]
            exact fl k x hk
      · have hst : m.step (.setLimb i j u) = .ok m := by
          simp only [MMem.step, hr, hh, bind, Except.bind, ln, if_neg lj]
          rfl
        refine .inl ⟨φ, g, m, ts.set i (.mutRef .bigint, .bigint neg (us.set j u)), hst, S, .setLimb hts, ?_, rfl⟩
        rw [List.set_eq_of_length_le (l := us) (by omega)]
        have : ts.set i (.mutRef .bigint, .bigint neg us) = ts := by
          apply List.ext_getElem?
          intro c
          rw [List.getElem?_set]
          by_cases y : i = c
          · subst y; rw [if_pos rfl, if_pos (getElem?_lt hts), hts]
          · rw [if_neg y]
        rw [this]
        exact H
  · refine .inr (.inl ?_)
    simp only [MMem.step]
    split
    · rename_i p hp; exact absurd ⟨p, hp⟩ hx
    · rfl

/-! ### items -/

/-- a word in a field is the owned value that was stored -/
theorem word_owned {o : Own} {hd : Hnd} (E : Enc φ o hd) {t : RefTy} {k : Nat} (f : hd.fits t k = true)
    (lt : ∀ b, o.target = some b → φ b < 2 ^ 48) {r : Ram} {p : Nat} (c : r.cell (p + 16 + k * 8) = hd.word) :
    ownedAt r t p k = hd := by
  unfold ownedAt
  rw [c]
  cases E with
  | simple w0 =>
    simp only [Hnd.fits, Bool.or_eq_true, decide_eq_true_eq, Bool.and_eq_true] at f
    rw [if_neg]
    · rfl
    · rintro ⟨rfl, h⟩
      rcases f with f | f
      · cases f
      · omega
  | any =>
    simp only [Hnd.fits, Bool.or_eq_true, decide_eq_true_eq, Bool.and_eq_true] at f
    rw [if_neg]
    · rfl
    · rintro ⟨rfl, h⟩
      rcases f with f | f
      · cases f
      · omega
  | @typed t' b =>
    cases t' with
    | string =>
      simp only [Hnd.fits, decide_eq_true_eq, Bool.and_eq_true] at f
      rw [if_pos f]
      simp only [Hnd.word]
      rw [addr_toNat (lt b rfl)]
    | _ => simp [Hnd.fits] at f
  | mutRef => simp [Hnd.fits] at f

theorem Rel.lt {h : Heap} {r : Ram} (R : Rel φ h r) {o : Own}
    (lv : ∀ t b, Own.link o = some (t, b) → LiveAt h t b) : ∀ b, o.target = some b → φ b < 2 ^ 48 := by
  intro b hb
  rw [target_link] at hb
  cases hl : Own.link o with
  | none => rw [hl] at hb; cases hb
  | some tb =>
    obtain ⟨t, c⟩ := tb
    rw [hl] at hb
    simp at hb
    subst hb
    obtain ⟨n, e, l, -⟩ := lv t c hl
    exact (R.addr e (by rw [l]; simp)).2.1

theorem item_store {h : Heap} {r : Ram} (R : Rel φ h r) {b : Nat} {n : Node} (e : h[b]? = some n)
    (fr : n.phase ≠ .freed) {j : Nat} (lj : j < n.kids.length) {o : Own} {hd : Hnd} (E : Enc φ o hd)
    (f : hd.fits n.ty j = true) (lt : ∀ b, o.target = some b → φ b < 2 ^ 48) :
    Rel φ (h.set b { n with kids := n.kids.set j o }) (r.put (φ b + 16 + j * 8) hd.word) := by
  have N := R.node b n e fr
  have bd := field_bound (t := n.ty) (n := lenAt r n.ty (φ b)) (k := j) (by rw [N.len]; exact lj)
  have c8 : lenAt (r.put (φ b + 16 + j * 8) hd.word) n.ty (φ b) = lenAt r n.ty (φ b) := by
    unfold lenAt
    rw [put_ne _ _ (by omega)]
  refine R.put (n' := { n with kids := n.kids.set j o }) e fr fr (by omega) (by omega)
    ⟨by simp only [c8]; exact N.block, ?_, by simp only [c8, List.length_set]; exact N.len, ?_⟩
  · rw [put_ne _ _ (by omega)]; exact N.counter
  · intro k x hk
    by_cases y : k = j
    · subst y
      simp only at hk
      rw [List.getElem?_set_self lj] at hk
      cases hk
      rw [word_owned E f lt (put_same _ _ _)]
      exact E
    · simp only at hk
      rw [List.getElem?_set_ne (fun q => y q.symm)] at hk
      have : ownedAt (r.put (φ b + 16 + j * 8) hd.word) n.ty (φ b) k = ownedAt r n.ty (φ b) k := by
        unfold ownedAt
        rw [put_ne _ _ (by omega)]
      simp only
      rw [this]
      exact N.kids k x hk

/-- an array or object with a new item -/
theorem withItems_decodes {r : Ram} {t : RefTy} {p : Nat} {v : Tree} (d : Decodes r (.ref t p) v) {r' : Ram}
    {w : W} (h1 : r'.header t p = .ok w) (h2 : r.header t p = .ok w) {j : Nat} {x : Tree} {hd : Hnd}
    (lj : j < v.items.length) (ow : r'.owned t p j = .ok hd) (dx : Decodes r' hd x)
    (oth : ∀ (k : Nat) hd y, v.items[k]? = some y → k ≠ j → r.owned t p k = .ok hd → Decodes r hd y →
      r'.owned t p k = .ok hd ∧ Decodes r' hd y) :
    Decodes r' (.ref t p) (v.withItems (v.items.set j x)) := by
  cases d with
  | string x1 x2 x3 => simp [Tree.items] at lj
  | bigint x1 x2 x3 => simp [Tree.items] at lj
  | @array _ _ ts hs x1 x2 x3 x4 =>
    rw [x1] at h2; cases h2
    have key : ∀ (k : Nat) y, (ts.set j x)[k]? = some y → r'.owned .array p k =
        .ok (if k = j then hd else hs k) ∧ Decodes r' (if k = j then hd else hs k) y := by
      intro k y hk
      by_cases c : k = j
      · subst c
        rw [List.getElem?_set_self (by exact lj)] at hk
        cases hk
        rw [if_pos rfl]
        exact ⟨ow, dx⟩
      · rw [List.getElem?_set_ne (fun q => c q.symm)] at hk
        rw [if_neg c]
        exact oth k _ y hk c (x3 k y hk) (x4 k y hk)
    exact .array (fun k => if k = j then hd else hs k) h1 (by rw [x2]; simp [Tree.items])
      (fun k y hk => (key k y hk).1) (fun k y hk => (key k y hk).2)
  | @object _ _ ts hs x1 x2 x3 x4 =>
    rw [x1] at h2; cases h2
    have key : ∀ (k : Nat) y, (ts.set j x)[k]? = some y → r'.owned .object p k =
        .ok (if k = j then hd else hs k) ∧ Decodes r' (if k = j then hd else hs k) y := by
      intro k y hk
      by_cases c : k = j
      · subst c
        rw [List.getElem?_set_self (by exact lj)] at hk
        cases hk
        rw [if_pos rfl]
        exact ⟨ow, dx⟩
      · rw [List.getElem?_set_ne (fun q => c q.symm)] at hk
        rw [if_neg c]
        exact oth k _ y hk c (x3 k y hk) (x4 k y hk)
    exact .object (fun k => if k = j then hd else hs k) h1 (by rw [x2]; simp [Tree.items])
      (fun k y hk => (key k y hk).1) (fun k y hk => (key k y hk).2)

theorem step_setItem {g : GMem} {m : MMem} {ts : Vals} (S : Sim φ g m) (H : Holding m ts) (i j k : Nat) :
    StepSim g m ts (.setItem i j k) := by
  by_cases hx : ∃ t p hd, m.roots[i]? = some (.mutRef t p) ∧ m.roots[k]? = some hd ∧ hd.fits t j = true
  · obtain ⟨t, p, hd, hr, hk, f⟩ := hx
    obtain ⟨o, ho, E⟩ := S.roots.left hr
    obtain ⟨v, hv, kv⟩ := PW.right H hr
    obtain ⟨ok, hok, Ek⟩ := S.roots.left hk
    obtain ⟨x, hxv, kx⟩ := PW.right H hk
    cases E with
    | @mutRef _ b =>
      obtain ⟨n, ea, e, l, ty⟩ :=
        access_ok (S.st.inv.ok _ (List.mem_append.2 (.inl (List.mem_of_getElem? ho))) t b rfl)
      subst ty
      have fr : n.phase ≠ .freed := by rw [l]; simp
      have A := S.rel.addr e fr
      have N := S.rel.node b n e fr
      have hh := N.header A.1
      have d := mutRef_inv kv.2
      obtain ⟨len, it⟩ := decodes_item d hh
      have lk : v.2.items.length = n.kids.length := by rw [len]; exact N.len
      have lk' : ownedFields n.ty (headerLen n.ty (m.ram.cell (φ b + 8))) = n.kids.length := N.len
      have hts : ts[i]? = some (Kind.mutRef n.ty, v.2) := ts_at hv kv.1
      have htk : ts[k]? = some (hd.kind, x.2) := ts_at hxv kx.1
      have fg : Graph.fits n.ty j ok = true := by rw [fits_enc Ek]; exact f
      have nki : k ≠ i := by
        rintro rfl
        rw [hr] at hk; cases hk
        simp [Hnd.fits] at f
      have hgs : g.step (.setItem i j k) = match n.kids[j]? with
          | some old => do
            let h ← Graph.drop g.fuel (g.heap.set b { n with kids := n.kids.set j ok }) old
            return ⟨h, g.roots.eraseIdx k⟩
          | none => .ok g := by
        simp only [GMem.step, ho, hok, fg, if_true, ea, bind, Except.bind]
        rfl
      by_cases lj : j < n.kids.length
      · obtain ⟨old, hold⟩ : ∃ old, n.kids[j]? = some old := ⟨n.kids[j], by simp⟩
        have fs : fieldSize n.ty = 8 := fieldSize_owner (n := lenAt m.ram n.ty (φ b)) (k := j) (by rw [N.len]; exact lj)
        have bd := field_bound (t := n.ty) (n := lenAt m.ram n.ty (φ b)) (k := j) (by rw [N.len]; exact lj)
        have hst : m.step (.setItem i j k) = do
            return { m with ram := ← (m.ram.put (φ b + 16 + j * 8) hd.word).drop m.fuel (ownedAt m.ram n.ty (φ b) j),
                            roots := m.roots.eraseIdx k } := by
          simp only [MMem.step, hr, hk, f, if_true, hh, bind, Except.bind, lk', if_pos lj, N.owned A.1 lj,
            itemsOf_ok, fs]
          rw [write_of N.block (by omega) (by simp only; omega) (by simp only; omega)]
        have lvk := S.st.inv.ok ok (List.mem_append.2 (.inl (List.mem_of_getElem? hok)))
        have R1 := item_store S.rel e fr lj Ek f (S.rel.lt lvk)
        have N1 := R1.node b { n with kids := n.kids.set j ok } (by rw [getElem?_set_of e, if_pos rfl]) fr
        -- what the handles read as after the store
        have c8 : (m.ram.put (φ b + 16 + j * 8) hd.word).cell (φ b + 8) = m.ram.cell (φ b + 8) :=
          put_ne _ _ (by omega)
        have oe : ∀ q, q < n.kids.length → (m.ram.put (φ b + 16 + j * 8) hd.word).owned n.ty (φ b) q =
            .ok (ownedAt (m.ram.put (φ b + 16 + j * 8) hd.word) n.ty (φ b) q) := by
          intro q hq
          exact N1.owned A.1 (by simpa using hq)
        have d1 : Decodes (m.ram.put (φ b + 16 + j * 8) hd.word) (.ref n.ty (φ b))
            (v.2.withItems (v.2.items.set j x.2)) := by
          refine withItems_decodes d (w := m.ram.cell (φ b + 8)) ?_ hh (hd := hd) (by rw [lk]; exact lj) ?_ ?_ ?_
          · have := N1.header A.1
            rw [c8] at this
            exact this
          · rw [oe j lj, word_owned Ek f (S.rel.lt lvk) (put_same _ _ _)]
          · exact store_decodes S ho e l (by omega) (by omega) R1 kx.2 Ek
              (List.mem_append.2 (.inl (List.mem_of_getElem? hok))) (other_root S.st ho hok nki)
          · intro q hd2 y hy nq ow dq
            have lq : q < n.kids.length := by rw [← lk]; exact getElem?_lt hy
            obtain ⟨oq, hq⟩ : ∃ oq, n.kids[q]? = some oq := ⟨n.kids[q], by simp⟩
            have he : oq ∈ edges g.heap := (mem_edges _ _).2 ⟨b, n, e, l, List.mem_of_getElem? hq⟩
            have Eq := N.kids q oq hq
            rw [N.owned A.1 lq] at ow
            injection ow with ow
            constructor
            · rw [oe q lq, ← ow]
              unfold ownedAt
              rw [put_ne _ _ (by omega)]
            · rw [← ow] at dq ⊢
              exact store_decodes S ho e l (by omega) (by omega) R1 dq Eq (List.mem_append.2 (.inr he))
                (other_edge S.st ho he)
        have H1 := store_holds S H ho e l (by omega) (by omega) R1 d1
        -- dropping the old value
        have p1 := perm_eraseIdx hok
        have mem : Own.mutRef n.ty b ∈ g.roots.eraseIdx k :=
          List.mem_eraseIdx_iff_getElem?.2 ⟨i, fun q => nki q.symm, ho⟩
        have p2 := List.perm_cons_erase mem
        have p3 : g.roots.Perm (.mutRef n.ty b :: ok :: (g.roots.eraseIdx k).erase (.mutRef n.ty b)) :=
          p1.trans ((p2.cons ok).trans (List.Perm.swap _ _ _))
        have i2 := (S.st.inv.perm p3).setKid (fits_nomut fg) e hold
        have i3 := i2.perm (p2.symm.cons old)
        have lc : liveCount (g.heap.set b { n with kids := n.kids.set j ok }) < g.fuel := by
          have := liveCount_le (g.heap.set b { n with kids := n.kids.set j ok })
          simp at this
          unfold GMem.fuel; omega
        have fe : m.fuel = g.fuel := by unfold MMem.fuel GMem.fuel; rw [S.made]
        have nd1 : NoDying (g.heap.set b { n with kids := n.kids.set j ok }) := by
          intro c y hy
          rw [getElem?_set_of e] at hy
          by_cases z : c = b
          · rw [if_pos z] at hy; cases hy; exact S.st.nd b n e
          · rw [if_neg z] at hy; exact S.st.nd c y hy
        have Eold : Enc φ old (ownedAt m.ram n.ty (φ b) j) := N.kids j old hold
        rw [hold] at hgs
        rcases drop_sim g.fuel _ _ old _ (g.roots.eraseIdx k) i3 lc R1 Eold with
          ⟨h', r', q1, q2, R', i', k', o'⟩ | ⟨q1, q2⟩
        · have st : g.step (.setItem i j k) = .ok ⟨h', g.roots.eraseIdx k⟩ := by
            rw [hgs]; simp only [q1]; rfl
          have E' : PW (Enc φ) (g.roots.eraseIdx k) (m.roots.eraseIdx k) := S.roots.erase k
          refine .inl ⟨φ, ⟨h', g.roots.eraseIdx k⟩, { m with ram := r', roots := m.roots.eraseIdx k },
            (ts.set i (.mutRef n.ty, v.2.withItems (v.2.items.set j x.2))).eraseIdx k,
            by rw [hst, fe, q2]; rfl, ⟨step_st S.st st, R', E', ?_⟩,
            .setItem hts htk (kind_item f) (by rw [lk]; exact lj), ?_, st⟩
          · rw [k'.len, List.length_set]; exact S.made
          · exact keep_holds R1 R' k' o' i' E' (H1.erase k)
        · refine .inr (.inr ⟨by rw [hst, fe, q2]; rfl, .inl ⟨.setItem i j k, ?_⟩⟩)
          rw [hgs]; simp only [q1]; rfl
      · have hst : m.step (.setItem i j k) = .ok m := by
          simp only [MMem.step, hr, hk, f, if_true, hh, bind, Except.bind, lk', if_neg lj]
          rfl
        rw [List.getElem?_eq_none (by omega)] at hgs
        exact .inl ⟨φ, g, m, ts, hst, S, .setItem_none hts htk (kind_item f) (by rw [lk]; omega), H, hgs⟩
  · refine .inr (.inl ?_)
    simp only [MMem.step]
    split
    · rename_i t p v h1 h2
      split
      · rename_i f; exact absurd ⟨t, p, v, h1, h2, f⟩ hx
      · rfl
    · rfl

end Nanvm
