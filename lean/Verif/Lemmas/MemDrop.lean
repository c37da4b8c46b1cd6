import Verif.Lemmas.MemRel
/-! Lemmas for C80: dropping in memory -/
namespace Nanvm
open Graph

variable {φ : Nat → Nat}

/-- dropping in memory and in the graph have the same outcome -/
def DropSim (φ : Nat → Nat) (h : Heap) (r : Ram) (P : List Own) (x : Except GErr Heap)
    (y : Except GErr Ram) : Prop :=
  (∃ h' r', x = .ok h' ∧ y = .ok r' ∧ Rel φ h' r' ∧ Inv h' P ∧ Keep h h' ∧ Only φ h r r') ∨
  (x = .error .panic ∧ y = .error .panic)

theorem fields_sim (f : Nat)
    (ih : ∀ h r o hd P, Inv h (o :: P) → liveCount h < f → Rel φ h r → Enc φ o hd →
      DropSim φ h r P (Graph.drop f h o) (Ram.drop f r hd))
    {b : Nat} {nd : Node} (dy : nd.phase = .dying) :
    ∀ (ks : List Own) (k : Nat) (h : Heap) (r : Ram) (P : List Own), nd.kids.drop k = ks →
      h[b]? = some nd → Inv h (ks ++ P) → liveCount h < f → Rel φ h r →
      DropSim φ h r P (ks.foldlM (Graph.drop f) h)
        (Ram.dropFields (Ram.drop f) nd.ty (φ b) ks.length k r) := by
  intro ks
  induction ks with
  | nil =>
    intro k h r P _ _ i _ R
    exact .inl ⟨h, r, rfl, rfl, R, i, .refl h, .refl φ h r⟩
  | cons o ks ihk =>
    intro k h r P hk hb i lc R
    have f0 : nd.phase ≠ .freed := by rw [dy]; simp
    have N := R.node b nd hb f0
    have A := R.addr hb f0
    have ho : nd.kids[k]? = some o := by
      have := congrArg (·[0]?) hk
      simpa using this
    have hk' : nd.kids.drop (k + 1) = ks := by
      rw [← List.tail_drop, hk]; rfl
    simp only [List.foldlM_cons, List.length_cons, Ram.dropFields]
    rw [N.owned A.1 (getElem?_lt ho)]
    simp only [bind, Except.bind]
    rcases ih h r o _ (ks ++ P) i lc R (N.kids k o ho) with ⟨h', r', e1, e2, R', i', kp, on⟩ | ⟨e1, e2⟩
    · rw [e1, e2]
      have hb' : h'[b]? = some nd := by
        have lb : b < h'.length := by rw [kp.len]; exact getElem?_lt hb
        obtain ⟨m, em⟩ : ∃ m, h'[b]? = some m := ⟨h'[b], by simp⟩
        obtain ⟨n0, en0, _, _, d0, _⟩ := kp.pt b m em
        rw [hb] at en0; cases en0
        rw [em, d0 (by rw [dy]; simp)]
      rcases ihk (k + 1) h' r' P hk' hb' i' (lt_of_le_of_lt kp.liveCount lc) R' with
        ⟨h2, r2, q1, q2, R2, i2, k2, o2⟩ | ⟨q1, q2⟩
      · exact .inl ⟨h2, r2, q1, q2, R2, i2, kp.trans k2, on.trans kp o2⟩
      · exact .inr ⟨q1, q2⟩
    · rw [e1, e2]
      exact .inr ⟨rfl, rfl⟩

theorem delete_sim (f : Nat)
    (ih : ∀ h r o hd P, Inv h (o :: P) → liveCount h < f → Rel φ h r → Enc φ o hd →
      DropSim φ h r P (Graph.drop f h o) (Ram.drop f r hd))
    {h : Heap} {r : Ram} {o : Own} {P : List Own} {b} {n : Node} (k : Int) (i : Inv h (o :: P))
    (lc : liveCount h < f + 1) (ot : o.target = some b) (e : h[b]? = some n) (l : n.phase = .live)
    (one : cnt b (o :: P ++ edges h) = 1) (R : Rel φ (h.set b { n with counter := k }) r) :
    DropSim φ h r P (Graph.delete (Graph.drop f) (h.set b { n with counter := k }) n.ty b)
      (Ram.delete (Ram.drop f) r n.ty (φ b)) := by
  set n1 : Node := { n with counter := k } with hn1
  have e1 : (h.set b n1)[b]? = some n1 := by
    rw [getElem?_set_of e]; simp
  have l1 : n1.phase = .live := l
  have f1 : n1.phase ≠ .freed := by rw [l1]; simp
  have N := R.node b n1 e1 f1
  have A := R.addr e1 f1
  -- the graph
  unfold Graph.delete access
  rw [e1]
  simp only [l1, true_and]
  rw [if_pos (show n1.ty = n.ty from rfl)]
  set nd : Node := { n1 with phase := .dying } with hnd
  have lnd : nd.phase ≠ .live := by simp [hnd]
  have fnd : nd.phase ≠ .freed := by simp [hnd]
  change DropSim φ h r P (do
    let h ← n.kids.foldlM (Graph.drop f) ((h.set b n1).set b nd)
    match h[b]? with
    | some n => if n.phase = .dying then .ok (h.set b { n with phase := .freed }) else .error .memory
    | none => .error .memory) _
  have ss : (h.set b n1).set b nd = h.set b nd := List.set_set ..
  have R2 : Rel φ (h.set b nd) r := by
    have := R.phase (n' := nd) e1 f1 fnd rfl rfl rfl
    rwa [ss] at this
  rw [ss]
  have e2 : (h.set b nd)[b]? = some nd := by rw [getElem?_set_of e]; simp
  have lc' : liveCount (h.set b nd) < f := by
    have := liveCount_kill (n' := nd) e l lnd; omega
  have i' : Inv (h.set b nd) (n.kids ++ P) := i.kill ot e l one lnd
  -- memory
  unfold Ram.delete
  rw [show n.ty = n1.ty from rfl, N.header A.1]
  simp only [bind, Except.bind]
  have sz : blkSize n1.ty (lenAt r n1.ty (φ b)) < 2 ^ 64 := by
    have := R.shape _ N.block
    unfold OkBlock at this
    simp only at this
    omega
  have lay : layoutOf n1.ty (headerLen n1.ty (r.cell (φ b + 8))) =
      .ok ⟨blkSize n1.ty (lenAt r n1.ty (φ b)), 8⟩ := by
    rw [layoutOf_eq]; exact if_pos sz
  rw [lay]
  simp only
  have len : ownedFields n1.ty (headerLen n1.ty (r.cell (φ b + 8))) = n.kids.length := N.len
  rw [len]
  rcases fields_sim f ih (nd := nd) rfl n.kids 0 (h.set b nd) r P (by rfl) e2 i' lc' R2 with
    ⟨h', r', q1, q2, R', i3, kp, on⟩ | ⟨q1, q2⟩
  · rw [q1]
    change Ram.dropFields (Ram.drop f) n1.ty (φ b) n.kids.length 0 r = _ at q2
    rw [q2]
    have hb' : h'[b]? = some nd := by
      have lb : b < h'.length := by rw [kp.len]; exact getElem?_lt e2
      obtain ⟨m, em⟩ : ∃ m, h'[b]? = some m := ⟨h'[b], by simp⟩
      obtain ⟨n0, en0, _, _, d0, _⟩ := kp.pt b m em
      rw [e2] at en0; cases en0
      rw [em, d0 lnd]
    simp only [hb']
    rw [if_pos (show nd.phase = .dying from rfl)]
    have c8 : lenAt r' n1.ty (φ b) = lenAt r n1.ty (φ b) := by
      unfold lenAt
      rw [on.cell R2 N.block (by simp) (by simp only [blkSize]; omega)]
    obtain ⟨r2, d1, d2, d3⟩ := R'.dealloc (n' := { nd with phase := .freed }) hb' fnd rfl
    change r'.dealloc (φ b) ⟨blkSize n1.ty (lenAt r' n1.ty (φ b)), 8⟩ = _ at d1
    rw [c8] at d1
    refine .inl ⟨_, r2, rfl, d1, d2, i3.bury hb' lnd (by simp), ?_, ?_⟩
    · refine ⟨by simpa using kp.len, fun c n' ec => ?_⟩
      rw [getElem?_set_of hb'] at ec
      by_cases y : c = b
      · subst y
        rw [if_pos rfl] at ec; cases ec
        exact ⟨n, e, rfl, rfl, fun z => absurd l z, fun z => by simp at z⟩
      · rw [if_neg y] at ec
        obtain ⟨n3, en3, r⟩ := kp.pt c n' ec
        rw [getElem?_set_of e, if_neg y] at en3
        exact ⟨n3, en3, r⟩
    · intro a ha
      rw [d3] at ha
      obtain ⟨c, m, g1, g2, g3⟩ := on a ha
      rw [getElem?_set_of e] at g1
      by_cases y : c = b
      · subst y; exact ⟨c, n, e, by rw [l]; simp, g3⟩
      · rw [if_neg y] at g1; exact ⟨c, m, g1, g2, g3⟩
  · rw [q1]
    change Ram.dropFields (Ram.drop f) n1.ty (φ b) n.kids.length 0 r = _ at q2
    rw [q2]
    exact .inr ⟨rfl, rfl⟩

/-- `RELEASE` does not overflow -/
theorem release_sim {h : Heap} {r : Ram} {b : Nat} {n : Node} (R : Rel φ h r) (e : h[b]? = some n)
    (f : n.phase ≠ .freed) (z : 0 ≤ n.counter) : ∃ r',
      r.counterUpdate (φ b) RELEASE = .ok (decide (n.counter = 0), r') ∧
      Rel φ (h.set b { n with counter := n.counter + RELEASE }) r' ∧ Only φ h r r' := by
  rcases R.counterUpdate e f RELEASE with ⟨c, -⟩ | x
  · exfalso
    have := (R.node b n e f).counter
    have := (r.cell (φ b)).toInt_lt
    unfold RELEASE at c
    omega
  · exact x

theorem DropSim.before {h : Heap} {r r' : Ram} {P : List Own} {x y} (o : Only φ h r r')
    (d : DropSim φ h r' P x y) : DropSim φ h r P x y := by
  rcases d with ⟨h', r', q1, q2, R', i', k', o'⟩ | q
  · exact .inl ⟨h', r', q1, q2, R', i', k', o.trans (.refl h) o'⟩
  · exact .inr q

theorem drop_sim : ∀ (f : Nat) (h : Heap) (r : Ram) (o : Own) (hd : Hnd) (P : List Own),
    Inv h (o :: P) → liveCount h < f → Rel φ h r → Enc φ o hd →
    DropSim φ h r P (Graph.drop f h o) (Ram.drop f r hd) := by
  intro f
  induction f with
  | zero => intro h r o hd P _ lc; omega
  | succ f ih =>
    intro h r o hd P i lc R E
    cases E with
    | simple w0 =>
      rcases drop_good (f + 1) h .simple P i lc with ⟨h', q, i', -⟩ | ⟨q, -⟩
      · cases q
        refine .inl ⟨h, r, rfl, ?_, R, i', .refl h, .refl φ h r⟩
        unfold Ram.drop
        rw [plain_blockAddr w0]
      · cases q
    | @any t b =>
      obtain ⟨n, e, l, ty⟩ := i.ok (.any t b) (by simp) t b rfl
      subst ty
      have fr : n.phase ≠ .freed := by rw [l]; simp
      have A := R.addr e fr
      obtain ⟨r1, c1, R1, o1⟩ := release_sim R e fr (i.nonneg b n e l)
      unfold Graph.drop Ram.drop
      rw [refCounterUpdate_ok e l rfl, anyWord_blockAddr n.ty A.2.1]
      simp only [addr_toNat A.2.1, c1]
      by_cases z : n.counter = 0
      · have one : cnt b (Own.any n.ty b :: P ++ edges h) = 1 := by
          have := i.count b n e l; rw [z] at this; omega
        have := DropSim.before o1 (delete_sim f ih (n.counter + RELEASE) i lc rfl e l one R1)
        simp only [z, decide_true, bind, Except.bind, if_true]
        rw [anyWord_deleteType n.ty A.2.1]
        rw [z] at this
        cases t : n.ty with
        | bigint => exact .inr ⟨rfl, rfl⟩
        | string => rw [t] at this; exact this
        | object => rw [t] at this; exact this
        | array => rw [t] at this; exact this
      · simp only [z, decide_false, bind, Except.bind]
        exact .inl ⟨_, r1, rfl, rfl, R1, release_good i rfl e l z, keep_recount e l _, o1⟩
    | @typed t b =>
      obtain ⟨n, e, l, ty⟩ := i.ok (.typed t b) (by simp) t b rfl
      subst ty
      have fr : n.phase ≠ .freed := by rw [l]; simp
      obtain ⟨r1, c1, R1, o1⟩ := release_sim R e fr (i.nonneg b n e l)
      unfold Graph.drop Ram.drop
      rw [refCounterUpdate_ok e l rfl, c1]
      by_cases z : n.counter = 0
      · have one : cnt b (Own.typed n.ty b :: P ++ edges h) = 1 := by
          have := i.count b n e l; rw [z] at this; omega
        have := DropSim.before o1 (delete_sim f ih (n.counter + RELEASE) i lc rfl e l one R1)
        simp only [z, decide_true, bind, Except.bind, if_true]
        rw [z] at this
        exact this
      · simp only [z, decide_false, bind, Except.bind]
        exact .inl ⟨_, r1, rfl, rfl, R1, release_good i rfl e l z, keep_recount e l _, o1⟩
    | @mutRef t b =>
      obtain ⟨n, e, l, ty⟩ := i.ok (.mutRef t b) (by simp) t b rfl
      subst ty
      have one : cnt b (Own.mutRef n.ty b :: P ++ edges h) = 1 := i.mutc n.ty b (by simp)
      have s : h.set b { n with counter := n.counter } = h := by
        apply List.ext_getElem?
        intro c
        rw [getElem?_set_of e]
        by_cases y : c = b
        · subst y; simp [e]
        · simp [y]
      have := delete_sim f ih n.counter i lc rfl e l one (by rw [s]; exact R)
      rw [s] at this
      exact this

end Nanvm
