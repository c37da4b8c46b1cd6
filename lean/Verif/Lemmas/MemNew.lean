import Verif.Lemmas.MemStore
/-! Lemmas for C80: new blocks -/
namespace Nanvm
open Graph
variable {φ : Nat → Nat}

theorem writeFields_ok {x : Nat × Layout} {s : Nat} : ∀ (ws : List W) (r : Ram) (a : Nat), x ∈ r.live → a % s = 0 →
    x.1 ≤ a → a + ws.length * s ≤ x.1 + x.2.size → 0 < s →
    ∃ r', r.writeFields s a ws = .ok r' ∧ r'.live = r.live ∧
      (∀ (k : Nat) w, ws[k]? = some w → r'.cell (a + k * s) = w) ∧
      ∀ y, y < a ∨ a + ws.length * s ≤ y → r'.cell y = r.cell y := by
  intro ws
  induction ws with
  | nil => intro r a _ _ _ _ _; exact ⟨r, rfl, rfl, fun k w h => by simp at h, fun _ _ => rfl⟩
  | cons w ws ih =>
    intro r a hx al h1 h2 hs
    have e1 : (w :: ws).length * s = s + ws.length * s := by
      simp only [List.length_cons]; rw [Nat.add_mul, Nat.one_mul, Nat.add_comm]
    rw [e1] at h2
    obtain ⟨r', q1, q2, q3, q4⟩ := ih (r.put a w) (a + s) hx (by rw [Nat.add_mod_right]; exact al) (by omega)
      (by omega) hs
    refine ⟨r', ?_, q2, fun k v hk => ?_, fun y hy => ?_⟩
    · unfold Ram.writeFields
      rw [write_of hx al h1 (by omega)]
      exact q1
    · cases k with
      | zero =>
        simp only [List.getElem?_cons_zero, Option.some.injEq] at hk
        rw [Nat.zero_mul, Nat.add_zero, q4 a (.inl (by omega)), put_same, hk]
      | succ k =>
        simp only [List.getElem?_cons_succ] at hk
        rw [show a + (k + 1) * s = a + s + k * s by rw [Nat.add_mul]; omega]
        exact q3 k v hk
    · rw [e1] at hy
      rw [q4 y (by omega), put_ne]
      omega

/-- what memory looks like after a block was made -/
structure Made (r r' : Ram) (t : RefTy) (header : W) (fields : List W) (p : Nat) : Prop where
  fresh : ∀ b ∈ r.live, p + blkSize t (headerLen t header) ≤ b.1 ∨ b.1 + b.2.size ≤ p
  place : 0 < p ∧ p % 8 = 0 ∧ p + blkSize t (headerLen t header) ≤ 2 ^ 48
  live : r'.live = (p, ⟨blkSize t (headerLen t header), 8⟩) :: r.live
  counter : r'.cell p = 0
  head : r'.cell (p + 8) = header
  field : ∀ (k : Nat) w, fields[k]? = some w → r'.cell (p + 16 + k * fieldSize t) = w
  rest : ∀ y, ¬ (p ≤ y ∧ y < p + blkSize t (headerLen t header)) → r'.cell y = r.cell y

theorem new_ok (r : Ram) (t : RefTy) (header : W) (fields : List W) (p : Nat)
    (hf : 16 + fields.length * fieldSize t = blkSize t (headerLen t header)) :
    (∃ r', r.new t header fields p = .ok r' ∧ Made r r' t header fields p) ∨
    r.new t header fields p = .error .notRust ∨
    (r.new t header fields p = .error .panic ∧ 2 ^ 64 ≤ blkSize t (headerLen t header)) := by
  set sz := blkSize t (headerLen t header) with hsz
  unfold Ram.new
  rw [layoutOf_eq, ← hsz]
  by_cases c : sz < 2 ^ 64
  · rw [if_pos c]
    simp only [bind, Except.bind]
    by_cases fr : r.Fresh p ⟨sz, 8⟩
    · left
      rw [if_pos fr]
      obtain ⟨f1, f2, f3, f4⟩ := fr
      simp only at f2 f3 f4
      have hx : (p, (⟨sz, 8⟩ : Layout)) ∈ (p, (⟨sz, 8⟩ : Layout)) :: r.live := by simp
      have s16 : 16 ≤ sz := by omega
      rw [show wordType.size = 8 from rfl, objectOf_ok, itemsOf_ok]
      rw [write_of (r := ⟨r.cell, (p, (⟨sz, 8⟩ : Layout)) :: r.live⟩) hx f2 (Nat.le_refl _) (by simp only; omega)]
      simp only
      rw [write_of (r := Ram.put ⟨r.cell, (p, (⟨sz, 8⟩ : Layout)) :: r.live⟩ p 0) hx (by omega) (by simp)
        (by simp only; omega)]
      simp only
      have fs : fieldSize t = 2 ∨ fieldSize t = 8 := by cases t <;> simp [fieldSize]
      obtain ⟨r', q1, q2, q3, q4⟩ := writeFields_ok (x := (p, (⟨sz, 8⟩ : Layout))) (s := fieldSize t) fields
        (Ram.put (Ram.put ⟨r.cell, (p, (⟨sz, 8⟩ : Layout)) :: r.live⟩ p 0) (p + 8) header) (p + 16) hx
        (by rcases fs with h | h <;> rw [h] <;> omega) (by simp) (by simp only; omega)
        (by rcases fs with h | h <;> rw [h] <;> omega)
      refine ⟨r', q1, ⟨f4, ⟨f1, f2, f3⟩, q2, ?_, ?_, q3, fun y hy => ?_⟩⟩
      · rw [q4 p (.inl (by omega)), put_ne _ _ (by omega), put_same]
      · rw [q4 (p + 8) (.inl (by omega)), put_same]
      · rw [← hsz] at hy
        rw [q4 y (by omega), put_ne _ _ (by omega), put_ne _ _ (by omega)]
    · right; left
      rw [if_neg fr]
  · right; right
    rw [if_neg c]
    exact ⟨rfl, by omega⟩

/-- the addresses after a block was made -/
def atNew (φ : Nat → Nat) (c p : Nat) : Nat → Nat := fun b => if b = c then p else φ b

theorem target_lt {h : Heap} {o : Own} (lv : ∀ t b, Own.link o = some (t, b) → LiveAt h t b) :
    ∀ b, o.target = some b → b < h.length := by
  intro b hb
  rw [target_link] at hb
  cases hl : Own.link o with
  | none => rw [hl] at hb; cases hb
  | some tb =>
    obtain ⟨t, c⟩ := tb
    rw [hl] at hb
    simp at hb
    subst hb
    obtain ⟨n, e, -⟩ := lv t c hl
    exact getElem?_lt e

theorem Enc.atNew {h : Heap} {o : Own} {hd : Hnd} (E : Enc φ o hd) (p : Nat)
    (lv : ∀ t b, Own.link o = some (t, b) → LiveAt h t b) : Enc (atNew φ h.length p) o hd := by
  refine E.congr (fun b hb => ?_)
  have := target_lt lv b hb
  unfold Nanvm.atNew
  rw [if_neg (by omega)]

theorem live_of {h : Heap} (nd : NoDying h) {b : Nat} {n : Node} (e : h[b]? = some n) (f : n.phase ≠ .freed) :
    n.phase = .live := by
  have := nd b n e
  cases q : n.phase <;> simp_all

/-- a block that was there -/
theorem Made.old {h : Heap} {r r' : Ram} {t : RefTy} {header : W} {fields : List W} {p : Nat} (R : Rel φ h r)
    (M : Made r r' t header fields p) {b : Nat} {n : Node} (e : h[b]? = some n) (f : n.phase ≠ .freed) :
    (∀ y, φ b ≤ y → y < φ b + blkSize n.ty (lenAt r n.ty (φ b)) → r'.cell y = r.cell y) ∧ φ b ≠ p := by
  have N := R.node b n e f
  have fr := M.fresh _ N.block
  simp only at fr
  have s1 : 16 ≤ blkSize t (headerLen t header) := by unfold blkSize; omega
  have s2 : 16 ≤ blkSize n.ty (lenAt r n.ty (φ b)) := by unfold blkSize; omega
  exact ⟨fun y h1 h2 => M.rest y (by omega), by omega⟩

theorem new_rel {h : Heap} {r r' : Ram} {P os : List Own} (R : Rel φ h r) (i : Inv h P) (nd : NoDying h)
    {t : RefTy} {header : W} {fields : List W} {p : Nat} (M : Made r r' t header fields p)
    (sub : ∀ o ∈ os, o ∈ P)
    (len : ownedFields t (headerLen t header) = os.length)
    (kids : ∀ (k : Nat) o, os[k]? = some o → ∃ hd, Enc φ o hd ∧ hd.fits t k = true ∧ fields[k]? = some hd.word) :
    Rel (atNew φ h.length p) (h ++ [⟨t, 0, os, .live⟩]) r' := by
  have split : ∀ {b : Nat} {n : Node}, (h ++ [(⟨t, 0, os, .live⟩ : Node)])[b]? = some n →
      (b < h.length ∧ h[b]? = some n ∧ atNew φ h.length p b = φ b) ∨
      (b = h.length ∧ n = ⟨t, 0, os, .live⟩ ∧ atNew φ h.length p b = p) := by
    intro b n e
    by_cases c : b < h.length
    · rw [List.getElem?_append_left c] at e
      refine .inl ⟨c, e, ?_⟩
      unfold atNew
      rw [if_neg (by omega)]
    · have := getElem?_lt e
      simp at this
      have hb : b = h.length := by omega
      subst hb
      simp at e
      exact .inr ⟨rfl, e.symm, by simp [atNew]⟩
  have okx : ∀ o ∈ P ++ edges h, ∀ t b, Own.link o = some (t, b) → LiveAt h t b := i.ok
  refine ⟨fun b n e f => ?_, fun b b' n n' e f e' f' q => ?_, ?_, ?_, ?_⟩
  · rcases split e with ⟨lt, e0, a0⟩ | ⟨rfl, rfl, a0⟩
    · rw [a0]
      have N := R.node b n e0 f
      obtain ⟨cells, -⟩ := M.old R e0 f
      have c8 : lenAt r' n.ty (φ b) = lenAt r n.ty (φ b) := by
        unfold lenAt
        rw [cells _ (by omega) (by unfold blkSize; omega)]
      refine ⟨?_, ?_, by rw [c8]; exact N.len, fun k o ho => ?_⟩
      · rw [c8, M.live]; exact List.mem_cons_of_mem _ N.block
      · rw [cells _ (by omega) (by unfold blkSize; omega)]; exact N.counter
      · have hk : k < ownedFields n.ty (lenAt r n.ty (φ b)) := by rw [N.len]; exact getElem?_lt ho
        have := field_bound hk
        have eo : ownedAt r' n.ty (φ b) k = ownedAt r n.ty (φ b) k := by
          unfold ownedAt
          rw [cells _ (by omega) (by omega)]
        rw [eo]
        refine (N.kids k o ho).atNew p (okx o (List.mem_append.2 (.inr ?_)))
        exact (mem_edges _ _).2 ⟨b, n, e0, live_of nd e0 f, List.mem_of_getElem? ho⟩
    · rw [a0]
      have c8 : lenAt r' t p = headerLen t header := by unfold lenAt; rw [M.head]
      refine ⟨by simp only [c8, M.live]; simp, by simp [M.counter], by simp only [c8]; exact len, ?_⟩
      intro k o ho
      obtain ⟨hd, E, ft, fk⟩ := kids k o ho
      have fs : fieldSize t = 8 :=
        fieldSize_owner (n := headerLen t header) (k := k) (by rw [len]; exact getElem?_lt ho)
      have c := M.field k _ fk
      rw [fs] at c
      have lv := okx o (List.mem_append.2 (.inl (sub o (List.mem_of_getElem? ho))))
      simp only
      rw [word_owned E ft (R.lt lv) c]
      exact E.atNew p lv
  · rcases split e with ⟨lt, e0, a0⟩ | ⟨rfl, rfl, a0⟩ <;> rcases split e' with ⟨lt', e0', a0'⟩ | ⟨rfl, rfl, a0'⟩
    · rw [a0, a0'] at q
      exact R.inj b b' n n' e0 f e0' f' q
    · rw [a0, a0'] at q
      exact absurd q (M.old R e0 f).2
    · rw [a0, a0'] at q
      exact absurd q.symm (M.old R e0' f').2
    · rfl
  · rw [M.live]
    refine List.pairwise_cons.2 ⟨fun b hb => ?_, R.apart⟩
    have := M.fresh b hb
    unfold Apart
    exact this
  · intro x hx
    rw [M.live] at hx
    rcases List.mem_cons.1 hx with rfl | hx
    · have := M.place
      exact ⟨this.1, this.2.1, by simp only [blkSize]; omega, this.2.2⟩
    · exact R.shape x hx
  · intro x hx
    rw [M.live] at hx
    rcases List.mem_cons.1 hx with rfl | hx
    · exact ⟨h.length, ⟨t, 0, os, .live⟩, by simp, by simp, by simp [atNew]⟩
    · obtain ⟨b, n, e, f, q⟩ := R.own x hx
      have := getElem?_lt e
      refine ⟨b, n, by rw [List.getElem?_append_left this]; exact e, f, ?_⟩
      unfold atNew
      rw [if_neg (by omega)]
      exact q

theorem new_decodes {h : Heap} {r r' : Ram} {P : List Own} (R : Rel φ h r) (i : Inv h P)
    {t : RefTy} {header : W} {fields : List W} {p : Nat} (M : Made r r' t header fields p) {x : Node}
    (R' : Rel (atNew φ h.length p) (h ++ [x]) r')
    {hd : Hnd} {v : Tree} (d : Decodes r hd v) {o : Own} (E : Enc φ o hd) (ho : o ∈ P) : Decodes r' hd v := by
  have lv : ∀ o ∈ P ++ edges h, ∀ t c, Own.link o = some (t, c) →
      (∃ n, h[c]? = some n ∧ n.phase = .live) ∧ LiveAt (h ++ [x]) t c := by
    intro o ho t c hl
    obtain ⟨n, e, l, ty⟩ := i.ok o ho t c hl
    exact ⟨⟨n, e, l⟩, n, by rw [List.getElem?_append_left (getElem?_lt e)]; exact e, l, ty⟩
  refine decodes_keep R' (fun c => ∃ n, h[c]? = some n ∧ n.phase = .live) ?_ ?_ d o
    (E.atNew p (i.ok o (List.mem_append.2 (.inl ho)))) (lv o (List.mem_append.2 (.inl ho)))
  · rintro c ⟨n, e, l⟩
    refine ⟨n, by rw [List.getElem?_append_left (getElem?_lt e)]; exact e, l, fun o ho => ?_⟩
    exact lv o (List.mem_append.2 (.inr ((mem_edges _ _).2 ⟨c, n, e, l, ho⟩)))
  · rintro c n ⟨n', e', l'⟩ e y h1 h2
    rw [List.getElem?_append_left (getElem?_lt e'), e'] at e
    cases e
    have ac : atNew φ h.length p c = φ c := by
      have := getElem?_lt e'
      unfold atNew; rw [if_neg (by omega)]
    rw [ac] at h1 h2
    obtain ⟨cells, -⟩ := M.old R e' (by rw [l']; simp)
    have c8 : lenAt r' n.ty (φ c) = lenAt r n.ty (φ c) := by
      unfold lenAt
      rw [cells _ (by omega) (by unfold blkSize; omega)]
    rw [c8] at h2
    exact cells y (by omega) h2

/-- a new block; `os` are the owned values that move into it, `rs` those that remain -/
theorem create_sim {g g' : GMem} {m : MMem} (S : Sim φ g m) {os rs : List Own} (pm : g.roots.Perm (os ++ rs))
    {hs : List Hnd} (Er : PW (Enc φ) rs hs) {t : RefTy} {header : W} {fields : List W} {p : Nat}
    {gop : GMem.Op} (eg : g.step gop = .ok g')
    (eg' : g' = ⟨g.heap ++ [⟨t, 0, os, .live⟩], rs ++ [.mutRef t g.heap.length]⟩)
    (hf : 16 + fields.length * fieldSize t = blkSize t (headerLen t header))
    (len : ownedFields t (headerLen t header) = os.length)
    (kids : ∀ (k : Nat) o, os[k]? = some o → ∃ hd, Enc φ o hd ∧ hd.fits t k = true ∧ fields[k]? = some hd.word) :
    (∃ m', m.create hs t header fields p = .ok m' ∧ Made m.ram m'.ram t header fields p ∧
      Sim (atNew φ g.heap.length p) g' m' ∧ m'.roots = hs ++ [.mutRef t p] ∧
      ∀ {hd v o}, Decodes m.ram hd v → Enc φ o hd → o ∈ g.roots → Decodes m'.ram hd v) ∨
    m.create hs t header fields p = .error .notRust ∨
    (m.create hs t header fields p = .error .panic ∧ 2 ^ 64 ≤ blkSize t (headerLen t header)) := by
  unfold MMem.create
  by_cases c : fields.length < 2 ^ 63
  · rw [if_pos c]
    rcases new_ok m.ram t header fields p hf with ⟨r', q, M⟩ | q | ⟨q, z⟩
    · left
      rw [q]
      have R' := new_rel S.rel S.st.inv S.st.nd M (os := os)
        (fun o ho => pm.mem_iff.2 (List.mem_append.2 (.inl ho))) len kids
      refine ⟨_, rfl, M, ⟨step_st S.st eg, by rw [eg']; exact R', ?_, ?_⟩, rfl, ?_⟩
      · rw [eg']
        refine PW.append1 (Er.mono fun k o hd h1 h2 E => ?_) ?_
        · exact E.atNew p (S.st.inv.ok o (List.mem_append.2 (.inl (pm.mem_iff.2 (List.mem_append.2
            (.inr (List.mem_of_getElem? h1)))))))
        · have : p = atNew φ g.heap.length p g.heap.length := by simp [atNew]
          conv => rhs; rw [this]
          exact .mutRef
      · rw [eg']; simp [S.made]
      · intro hd v o d E ho
        exact new_decodes S.rel S.st.inv M R' d E ho
    · right; left
      rw [q]; rfl
    · right; right
      rw [q]; exact ⟨rfl, z⟩
  · right; left
    rw [if_neg c]

theorem holds_new {m m' : MMem} {hs : List Hnd} {ts : Vals} {os : List Own} {roots : List Own}
    (H : PW (HoldsIn m.ram) hs ts) (E : PW (Enc φ) os hs) (sub : ∀ o ∈ os, o ∈ roots)
    (k : ∀ {hd v o}, Decodes m.ram hd v → Enc φ o hd → o ∈ roots → Decodes m'.ram hd v) :
    PW (HoldsIn m'.ram) hs ts := by
  refine H.mono (fun j hd v h1 h2 hv => ⟨hv.1, ?_⟩)
  obtain ⟨o, ho, eo⟩ := E.left h1
  exact k hv.2 eo (sub o (List.mem_of_getElem? ho))

theorem step_string {g : GMem} {m : MMem} {ts : Vals} (S : Sim φ g m) (H : Holding m ts) (us : List (BitVec 16))
    (p : Nat) : StepSim g m ts (.string us p) := by
  have eg : g.step (.new .string []) = .ok ⟨g.heap ++ [⟨.string, 0, [], .live⟩],
      g.roots ++ [.mutRef .string g.heap.length]⟩ := by simp [GMem.step, GMem.takeRoots]
  by_cases big : us.length < 2 ^ 63
  · have hl : headerLen .string (BitVec.ofNat 64 us.length) = us.length := by
      simp only [headerLen, BitVec.toNat_ofNat]; omega
    rcases create_sim S (os := []) (rs := g.roots) (by simp) S.roots (t := .string)
      (header := BitVec.ofNat 64 us.length) (fields := us.map (·.setWidth 64)) (p := p) eg rfl
      (by rw [hl]; simp [blkSize, fieldSize, itemType]) rfl (fun k o h => by simp at h) with
      ⟨m', q, M, S', rt, k⟩ | q | ⟨q, z⟩
    · refine .inl ⟨_, _, m', ts ++ [(.mutRef .string, .string us)], q, S', .string, ?_, eg⟩
      rw [holding_iff, rt]
      refine PW.append1 (holds_new H S.roots (fun _ => id) k) ⟨rfl, .mutRef ?_⟩
      have N := S'.rel.node g.heap.length ⟨.string, 0, [], .live⟩ (by simp) (by simp)
      have ep : atNew φ g.heap.length p g.heap.length = p := by simp [atNew]
      rw [ep] at N
      refine .string (w := BitVec.ofNat 64 us.length) ?_ hl (fun j u hj => ?_)
      · have := N.header M.place.2.1
        rw [M.head] at this
        exact this
      · have lj := getElem?_lt hj
        have := N.field M.place.2.1 (by simp) (k := j) (by
          simp only; unfold lenAt; rw [M.head, hl]; exact lj)
        simp only at this
        rw [this, M.field j (u.setWidth 64) (by simp [hj])]
    · exact .inr (.inl q)
    · refine .inr (.inr ⟨q, .inr (.inr ?_)⟩)
      rw [hl] at z
      simp only [blkSize, itemType] at z
      simp only [MMem.Op.width]
      omega
  · refine .inr (.inl ?_)
    simp only [MMem.step, MMem.create, List.length_map]
    rw [if_neg big]

theorem bigintHeader_toInt (neg : Bool) {n : Nat} (h : n < 2 ^ 63) :
    (MMem.bigintHeader neg n).toInt = if neg then -(n : Int) else n := by
  unfold MMem.bigintHeader
  rw [BitVec.toInt_ofInt]
  cases neg <;> simp [Int.bmod] <;> omega

theorem step_bigint {g : GMem} {m : MMem} {ts : Vals} (S : Sim φ g m) (H : Holding m ts) (neg : Bool) (us : List W)
    (p : Nat) : StepSim g m ts (.bigint neg us p) := by
  have eg : g.step (.new .bigint []) = .ok ⟨g.heap ++ [⟨.bigint, 0, [], .live⟩],
      g.roots ++ [.mutRef .bigint g.heap.length]⟩ := by simp [GMem.step, GMem.takeRoots]
  by_cases big : us.length < 2 ^ 63
  · have ht := bigintHeader_toInt neg big
    have hl : headerLen .bigint (MMem.bigintHeader neg us.length) = us.length := by
      simp only [headerLen, ht]
      cases neg <;> simp
    rcases create_sim S (os := []) (rs := g.roots) (by simp) S.roots (t := .bigint)
      (header := MMem.bigintHeader neg us.length) (fields := us) (p := p) eg rfl
      (by rw [hl]; simp [blkSize, fieldSize, itemType]) rfl (fun k o h => by simp at h) with
      ⟨m', q, M, S', rt, k⟩ | q | ⟨q, z⟩
    · refine .inl ⟨_, _, m', ts ++ [(.mutRef .bigint, .bigint (neg && !us.isEmpty) us)], q, S', .bigint, ?_,
        eg⟩
      rw [holding_iff, rt]
      refine PW.append1 (holds_new H S.roots (fun _ => id) k) ⟨rfl, .mutRef ?_⟩
      have N := S'.rel.node g.heap.length ⟨.bigint, 0, [], .live⟩ (by simp) (by simp)
      have ep : atNew φ g.heap.length p g.heap.length = p := by simp [atNew]
      rw [ep] at N
      refine .bigint (w := MMem.bigintHeader neg us.length) ?_ ?_ ?_ (fun j u hj => ?_)
      · have := N.header M.place.2.1
        rw [M.head] at this
        exact this
      · rw [ht]
        cases us <;> cases neg <;> simp
      · intro q
        rintro rfl
        simp at q
      · have lj := getElem?_lt hj
        have := N.field M.place.2.1 (by simp) (k := j) (by
          simp only; unfold lenAt; rw [M.head, hl]; exact lj)
        simp only at this
        rw [this, M.field j u hj]
    · exact .inr (.inl q)
    · refine .inr (.inr ⟨q, .inr (.inr ?_)⟩)
      rw [hl] at z
      simp only [blkSize, itemType] at z
      simp only [MMem.Op.width]
      omega
  · refine .inr (.inl ?_)
    simp only [MMem.step, MMem.create]
    rw [if_neg big]

/-! ### arrays and objects -/

theorem takeRoots_eq : ∀ (is : List Nat) (rs : List Own), GMem.takeRoots rs is = takeAt rs is := by
  intro is
  induction is with
  | nil => intro rs; rfl
  | cons i is ih =>
    intro rs
    unfold GMem.takeRoots takeAt
    cases rs[i]? with
    | none => rfl
    | some o => simp only [ih]

theorem takeAt_picks : ∀ (is : List Nat) (ts vs rest : Vals), takeAt ts is = some (vs, rest) → Picks ts is vs rest := by
  intro is
  induction is with
  | nil =>
    intro ts vs rest e
    simp only [takeAt, Option.some.injEq, Prod.mk.injEq] at e
    obtain ⟨rfl, rfl⟩ := e
    exact .nil
  | cons i is ih =>
    intro ts vs rest e
    unfold takeAt at e
    cases hr : ts[i]? with
    | none => rw [hr] at e; cases e
    | some o =>
      rw [hr] at e
      simp only [Option.map_eq_some_iff] at e
      obtain ⟨⟨vs2, rest2⟩, e2, e3⟩ := e
      simp only [Prod.mk.injEq] at e3
      obtain ⟨rfl, rfl⟩ := e3
      have P := ih _ _ _ e2
      have lt := getElem?_lt hr
      have e4 : ts = ts.take i ++ o :: ts.drop (i + 1) := by
        have : o = ts[i] := by rw [List.getElem?_eq_getElem lt] at hr; exact (Option.some.inj hr).symm
        rw [this, List.getElem_cons_drop, List.take_append_drop]
      have e5 : ts.eraseIdx i = ts.take i ++ ts.drop (i + 1) := List.eraseIdx_eq_take_drop_succ ..
      have e6 : (ts.take i).length = i := by simp; omega
      rw [e5] at P
      have := Picks.cons (ts.take i) o (ts.drop (i + 1)) P
      rw [e6, ← e4] at this
      exact this

theorem PW.flip {α β : Type} {R : α → β → Prop} {xs : List α} {ys : List β} (p : PW R xs ys) :
    PW (fun y x => R x y) ys xs := ⟨p.1.symm, fun i y x h1 h2 => p.2 i x y h2 h1⟩

/-- an array or object of the given values -/
def treeOf (t : RefTy) (vs : List Tree) : Tree := if t = .object then .object vs else .array vs

theorem createFrom_sim {g : GMem} {m : MMem} {ts : Vals} (S : Sim φ g m) (H : Holding m ts) {t : RefTy}
    (ht : t = .array ∨ t = .object) (is : List Nat) (p : Nat) :
    (∃ φ' g' m' vs rest, m.createFrom t is p = .ok m' ∧ Sim φ' g' m' ∧ Picks ts is vs rest ∧
      (∀ (k : Nat) v, vs[k]? = some v → itemKind t k = some v.1) ∧ (t = .object → vs.length % 2 = 0) ∧
      Holding m' (rest ++ [(.mutRef t, treeOf t (vs.map (·.2)))]) ∧ g.step (.new t is) = .ok g') ∨
    m.createFrom t is p = .error .notRust ∨
    (m.createFrom t is p = .error .panic ∧ 2 ^ 59 ≤ (all g).length) := by
  unfold MMem.createFrom
  cases tk : takeAt m.roots is with
  | none => exact .inr (.inl rfl)
  | some x =>
    obtain ⟨hs, rs'⟩ := x
    simp only
    obtain ⟨os, rs, tg, Es, Er⟩ := S.roots.take is _ _ _ _ tk
    obtain ⟨vs, rest, tv, Hs, Hr⟩ := (PW.flip H).take is _ _ _ _ tk
    by_cases c : (hs.zipIdx.all fun (h, k) => h.fits t k) ∧ (t = .object → hs.length % 2 = 0)
    · rw [if_pos c]
      have ft : ∀ (k : Nat) hd, hs[k]? = some hd → hd.fits t k = true := by
        intro k hd hk
        have := c.1
        rw [List.all_eq_true] at this
        exact this (hd, k) (List.mem_zipIdx_iff_getElem?.2 hk)
      have lo : os.length = hs.length := Es.1
      have lv : vs.length = hs.length := Hs.1
      have eg : g.step (.new t is) = .ok ⟨g.heap ++ [⟨t, 0, os, .live⟩], rs ++ [.mutRef t g.heap.length]⟩ := by
        simp only [GMem.step, takeRoots_eq, tg]
        rw [if_pos]
        refine ⟨?_, by rw [lo]; exact c.2⟩
        rw [List.all_eq_true]
        rintro ⟨o, k⟩ hm
        have hm := List.mem_zipIdx_iff_getElem?.1 hm
        obtain ⟨hd, hk, E⟩ := Es.right hm
        simp only
        rw [fits_enc E]
        exact ft k hd hk
      have pm : g.roots.Perm (os ++ rs) := takeRoots_perm is _ _ _ (by rw [takeRoots_eq]; exact tg)
      by_cases big : hs.length < 2 ^ 63
      · set n := if t = .object then hs.length / 2 else hs.length with hn
        have nb : n < 2 ^ 63 := by rw [hn]; split <;> omega
        have hl : headerLen t (BitVec.ofNat 64 n) = n := by
          rcases ht with rfl | rfl <;> simp only [headerLen, BitVec.toNat_ofNat] <;> omega
        have hof : ownedFields t n = hs.length := by
          rcases ht with rfl | rfl
          · simp [ownedFields, hn]
          · have := c.2 rfl
            simp only [ownedFields, hn, if_true]; omega
        have hsz : 16 + hs.length * 8 = blkSize t n := by
          rw [← hof]
          rcases ht with rfl | rfl <;> simp only [ownedFields, blkSize, itemType] <;> omega
        have fs : fieldSize t = 8 := by rcases ht with rfl | rfl <;> rfl
        rcases create_sim S (os := os) (rs := rs) pm Er (t := t)
          (header := BitVec.ofNat 64 n) (fields := hs.map Hnd.word) (p := p) eg rfl
          (by rw [hl, fs, List.length_map]; exact hsz) (by rw [hl, lo]; exact hof) (fun k o h => by
            obtain ⟨hd, hk, E⟩ := Es.right h
            exact ⟨hd, E, ft k hd hk, by simp [hk]⟩) with ⟨m', q, M, S', rt, k⟩ | q | ⟨q, z⟩
        · refine .inl ⟨_, _, m', vs, rest, q, S', takeAt_picks _ _ _ _ tv, ?_, by rw [lv]; exact c.2, ?_, eg⟩
          · intro k v hk
            obtain ⟨hd, hh, x1, -⟩ := Hs.right hk
            rw [← x1]
            exact kind_item (ft k hd hh)
          · rw [holding_iff, rt]
            refine PW.append1 (holds_new Hr.flip Er
              (fun o ho => pm.mem_iff.2 (List.mem_append.2 (.inr ho))) k) ⟨rfl, .mutRef ?_⟩
            have N := S'.rel.node g.heap.length ⟨t, 0, os, .live⟩ (by simp) (by simp)
            have ep : atNew φ g.heap.length p g.heap.length = p := by simp [atNew]
            rw [ep] at N
            have hh : m'.ram.header t p = .ok (BitVec.ofNat 64 n) := by
              have := N.header M.place.2.1
              rw [M.head] at this
              exact this
            have it : ∀ (j : Nat) v, (vs.map (·.2))[j]? = some v →
                m'.ram.owned t p j = .ok (ownedAt m'.ram t p j) ∧ Decodes m'.ram (ownedAt m'.ram t p j) v := by
              intro j v hj
              rw [List.getElem?_map, Option.map_eq_some_iff] at hj
              obtain ⟨kv, hj, rfl⟩ := hj
              obtain ⟨hd, hh, x1, x2⟩ := Hs.right hj
              obtain ⟨o, ho, E⟩ := Es.left hh
              have om : o ∈ g.roots := pm.mem_iff.2 (List.mem_append.2 (.inl (List.mem_of_getElem? ho)))
              have e1 : ownedAt m'.ram t p j = hd := by
                have cc := M.field j hd.word (by simp [hh])
                rw [fs] at cc
                exact word_owned E (ft j hd hh) (S.rel.lt (S.st.inv.ok o (List.mem_append.2 (.inl om)))) cc
              refine ⟨N.owned M.place.2.1 (getElem?_lt ho), ?_⟩
              rw [e1]
              exact k x2 E om
            have ln : (BitVec.ofNat 64 n).toNat = n := by
              rw [BitVec.toNat_ofNat]; omega
            rcases ht with rfl | rfl
            · simp only [treeOf]
              exact .array _ hh (by rw [ln, List.length_map, lv]; exact hof) (fun j v hj => (it j v hj).1)
                (fun j v hj => (it j v hj).2)
            · simp only [treeOf, if_true]
              exact .object _ hh (by rw [ln, List.length_map, lv]; exact hof) (fun j v hj => (it j v hj).1)
                (fun j v hj => (it j v hj).2)
        · exact .inr (.inl q)
        · refine .inr (.inr ⟨q, ?_⟩)
          rw [hl, ← hsz] at z
          have := pm.length_eq
          unfold all
          simp only [List.length_append] at this ⊢
          omega
      · refine .inr (.inl ?_)
        unfold MMem.create
        rw [if_neg (by rw [List.length_map]; exact big)]
    · rw [if_neg c]; exact .inr (.inl rfl)

theorem step_array {g : GMem} {m : MMem} {ts : Vals} (S : Sim φ g m) (H : Holding m ts) (is : List Nat)
    (p : Nat) : StepSim g m ts (.array is p) := by
  rcases createFrom_sim S H (t := .array) (.inl rfl) is p with ⟨φ', g', m', vs, rest, q, S', P, kd, -, H', eg⟩ | q | ⟨q, z⟩
  · refine .inl ⟨φ', g', m', _, q, S', .array P (fun v hv => ?_), H', eg⟩
    obtain ⟨k, hk⟩ := List.mem_iff_getElem?.1 hv
    have := kd k v hk
    simp only [itemKind, Option.some.injEq] at this
    exact this.symm
  · exact .inr (.inl q)
  · exact .inr (.inr ⟨q, .inr (.inl z)⟩)

theorem step_object {g : GMem} {m : MMem} {ts : Vals} (S : Sim φ g m) (H : Holding m ts) (is : List Nat)
    (p : Nat) : StepSim g m ts (.object is p) := by
  rcases createFrom_sim S H (t := .object) (.inr rfl) is p with ⟨φ', g', m', vs, rest, q, S', P, kd, ev, H', eg⟩ | q | ⟨q, z⟩
  · refine .inl ⟨φ', g', m', _, q, S', .object P (ev rfl) (fun k v hv => ?_), H', eg⟩
    have := kd k v hv
    simp only [itemKind, Option.some.injEq] at this
    exact this.symm
  · exact .inr (.inl q)
  · exact .inr (.inr ⟨q, .inr (.inl z)⟩)

theorem step_sim {g : GMem} {m : MMem} {ts : Vals} (S : Sim φ g m) (H : Holding m ts) (op : MMem.Op)
    (cl : CleanOp op) : StepSim g m ts op := by
  cases op with
  | value s => exact step_value S H s cl
  | string us p => exact step_string S H us p
  | bigint neg us p => exact step_bigint S H neg us p
  | array is p => exact step_array S H is p
  | object is p => exact step_object S H is p
  | clone i => exact step_clone S H i
  | toRef i => exact step_toRef S H i
  | toAny i => exact step_toAny S H i
  | tryMove t i => exact step_tryMove S H t i
  | tryToMutRef i => exact step_tryToMutRef S H i
  | getItem i j => exact step_getItem S H i j
  | setItem i j k => exact step_setItem S H i j k
  | setUnit i j u => exact step_setUnit S H i j u
  | setLimb i j w => exact step_setLimb S H i j w
  | drop i => exact step_drop S H i

end Nanvm
