import Verif.Lemmas.Div
/-! Both division loops for every divisor: what a result means, and when there is none. -/
namespace Nanvm

/-- the estimate only looks at the lengths and the top limbs -/
theorem qEstimate_hiVec (a lo : List Nat) (b0 : Nat) :
    JsBig.qEstimate a (lo ++ [b0]) = JsBig.qEstimate a (hiVec lo.length b0) := by
  unfold JsBig.qEstimate
  have e1 : (lo ++ [b0]).length = lo.length + 1 := by simp
  have e2 : idx (hiVec lo.length b0) lo.length = .ok b0 := by
    have := idx_append_last (List.replicate lo.length 0) b0
    rwa [List.length_replicate] at this
  rw [e1, hiVec_length]
  rw [subU_ok (show 1 ≤ lo.length + 1 by omega)]
  simp only [bind, Except.bind, Nat.add_sub_cancel]
  rw [idx_append_last, e2]

/-- the estimate for every divisor -/
theorem est_any {a b : List Nat} (ha : Limbs a) (na : Norm a) (hb : Limbs b) (nb : Norm b)
    (hb0 : b ≠ []) (hge : val b ≤ val a) :
    ∃ qi qd, JsBig.qEstimate a b = .ok (qi, qd) ∧ 0 < qd ∧ qd < B ∧
      b.getLast hb0 * (val b * (qd * B ^ qi)) ≤ (b.getLast hb0 + 1) * val a := by
  rcases List.eq_nil_or_concat b with rfl | ⟨lo, u, rfl⟩
  · exact absurd rfl hb0
  simp only [List.concat_eq_append] at *
  have hu : u ≠ 0 := norm_append_singleton.1 nb
  rw [limbs_append, limbs_cons] at hb
  have hle : val (hiVec lo.length u) ≤ val a := by
    refine le_trans ?_ hge
    rw [val_hiVec, val_append]; simp only [val_cons, val_nil]
    rw [Nat.mul_zero, Nat.add_zero, Nat.mul_comm]; omega
  obtain ⟨qi, qd, h⟩ := est_exists ha na hb.2.1 (by omega) hle
  refine ⟨qi, qd, by rw [qEstimate_hiVec]; exact h.run, h.pos, h.lt, ?_⟩
  rw [List.getLast_append_of_ne_nil _ (by simp)]
  simp only [List.getLast_singleton]
  have hlo := val_lt hb.1
  have hvb : val (lo ++ [u]) ≤ (u + 1) * B ^ lo.length := by
    rw [val_append]; simp only [val_cons, val_nil]
    rw [Nat.mul_zero, Nat.add_zero, Nat.add_mul, Nat.one_mul, Nat.mul_comm (B ^ lo.length)]; omega
  calc u * (val (lo ++ [u]) * (qd * B ^ qi))
      ≤ u * ((u + 1) * B ^ lo.length * (qd * B ^ qi)) := by gcongr
    _ = (u + 1) * (u * B ^ lo.length * (qd * B ^ qi)) := by ring
    _ ≤ (u + 1) * val a := Nat.mul_le_mul_left _ h.le

/-- `sub_vec` computes modulo `B ^ a.length` -/
theorem subVec_mod {a b : List Nat} (ha : Limbs a) (hb : Limbs b) :
    ∃ k : Nat, val (subVec a b) + val b = val a + k * B ^ a.length := by
  have h3 : val (subVec a b) < B ^ a.length := by
    have := val_lt (subVec_limbs a b); rwa [subVec_length] at this
  -- the limbs of `b` that are looked at
  have hz : ∃ j : Nat, val b = val ((zipPad 0 a b).map Prod.snd) + j * B ^ a.length := by
    clear h3 ha hb
    induction a generalizing b with
    | nil => exact ⟨val b, by simp [zipPad]⟩
    | cons x xs ih =>
      cases b with
      | nil =>
        obtain ⟨j, hj⟩ := ih (b := [])
        refine ⟨j, ?_⟩
        simp only [zipPad, List.map_cons, val_cons, List.length_cons, val_nil] at hj ⊢
        have h0 : val (List.map Prod.snd (zipPad 0 xs [])) = 0 := by omega
        have h1 : j * B ^ xs.length = 0 := by omega
        rw [h0, pow_succ, ← Nat.mul_assoc, h1]; simp
      | cons y ys =>
        obtain ⟨j, hj⟩ := ih (b := ys)
        refine ⟨j, ?_⟩
        simp only [zipPad, List.map_cons, val_cons, List.length_cons]
        rw [hj, pow_succ]; ring
  obtain ⟨k, hk, hv⟩ := subLoop_val (zipPad 0 a b) 0 (Or.inl rfl)
    (by rw [zipPad_fst]; exact ha) (zipPad_snd_limbs hb)
  rw [zipPad_fst, zipPad_length] at hv
  obtain ⟨j, hj⟩ := hz
  rcases hk with rfl | rfl
  · refine ⟨j, ?_⟩
    unfold subVec
    rw [hj]; zify; rw [hv]; ring
  · refine ⟨j + 1, ?_⟩
    unfold subVec
    rw [hj]; zify; rw [hv]; ring

/-! ## js_bigint.rs -/

/-- the loop does not come to an end: the digit of the quotient is corrected to 0 -/
def JsBig.Stuck (a b : List Nat) : Prop :=
  ∀ res, ∃ res', JsBig.divStep a b res = .ok (a, res')

theorem JsBig.stuck_fuel {a b : List Nat} (h : JsBig.Stuck a b) (hc : cmpVec a b ≠ .lt)
    (fuel : Nat) (res : List Nat) : JsBig.divLoop b fuel a res = .error .fuel := by
  induction fuel generalizing res with
  | zero => rfl
  | succ fuel ih =>
    unfold JsBig.divLoop
    rw [if_neg hc]
    obtain ⟨res', e⟩ := h res
    rw [e]
    exact ih res'

/-- one step with any divisor -/
theorem JsBig.divStep_any {a b : List Nat} (ha : Limbs a) (na : Norm a) (hb : Limbs b)
    (nb : Norm b) (hb0 : b ≠ []) (hge : val b ≤ val a) :
    JsBig.Stuck a b ∨ ∀ res, Limbs res → Norm res →
      ∃ a' res', JsBig.divStep a b res = .ok (a', res') ∧ Limbs a' ∧ Norm a' ∧ Limbs res' ∧
        Norm res' ∧ ∃ k, val a' + val b * val res' = val a + val b * val res + k * B ^ a.length := by
  obtain ⟨qi, qd, hrun, hpos, hlt, -⟩ := est_any ha na hb nb hb0 hge
  obtain ⟨m, em, vm, lm, nm⟩ := mulVec_ok hb (limbs_hiVec (k := qi) hlt) hb0 (hiVec_ne _ _)
  have em' : mulVec b (List.replicate qi 0 ++ [qd]) = .ok m := em
  obtain ⟨m2, em2, vm2, lm2, nm2⟩ := mulVec_ok hb (limbs_hiVec (k := qi) (show qd - 1 < B by omega))
    hb0 (hiVec_ne _ _)
  have em2' : mulVec b (List.replicate qi 0 ++ [qd - 1]) = .ok m2 := em2
  have key : ∀ (d : Nat) (m res : List Nat), 0 < d → d < B → Limbs m → val m = val b * val (hiVec qi d) →
      Limbs res → Norm res →
      Limbs (normalizeVec (subVec a m)) ∧ Norm (normalizeVec (subVec a m)) ∧
      Limbs (addVec res (hiVec qi d)) ∧ Norm (addVec res (hiVec qi d)) ∧
      ∃ k, val (normalizeVec (subVec a m)) + val b * val (addVec res (hiVec qi d)) =
        val a + val b * val res + k * B ^ a.length := by
    intro d m res hd hdB lm vm hr nr
    obtain ⟨k, hk⟩ := subVec_mod ha lm
    refine ⟨limbs_normalize (subVec_limbs _ _), norm_normalize _, addVec_limbs _ _,
      addVec_norm hr (limbs_hiVec hdB) nr (norm_hiVec (by omega)), k, ?_⟩
    rw [val_normalize, addVec_val hr (limbs_hiVec hdB), Nat.mul_add, ← vm]
    omega
  by_cases hl : lexCmp a m = .lt
  · by_cases h1 : qd = 1
    · left
      intro res
      subst h1
      refine ⟨addVec res (List.replicate qi 0 ++ [0]), ?_⟩
      have hm2 : m2 = [] := by
        refine val_inj lm2 (by simp [Limbs]) nm2 (by simp [Norm]) ?_
        rw [vm2, val_hiVec]; simp
      have hs : normalizeVec (subVec a []) = a := by
        refine val_inj (limbs_normalize (subVec_limbs _ _)) ha (norm_normalize _) na ?_
        have := subVecNorm_val ha (b := []) (by simp [Limbs]) (by simp [Norm]) (by simp)
        simpa [subVecNorm] using this
      unfold JsBig.divStep
      rw [hrun]
      simp only [bind, Except.bind]
      rw [em']
      dsimp only
      rw [if_pos hl, subU_ok (by omega)]
      dsimp only
      rw [em2', hm2]
      simp only [Nat.sub_self, hs]; rfl
    · right
      intro res hr nr
      unfold JsBig.divStep
      rw [hrun]
      simp only [bind, Except.bind]
      rw [em']
      dsimp only
      rw [if_pos hl, subU_ok (by omega)]
      dsimp only
      rw [em2']
      exact ⟨_, _, rfl, key (qd - 1) m2 res (by omega) (by omega) lm2 vm2 hr nr⟩
  · right
    intro res hr nr
    unfold JsBig.divStep
    rw [hrun]
    simp only [bind, Except.bind]
    rw [em']
    dsimp only
    rw [if_neg hl]
    exact ⟨_, _, rfl, key qd m res hpos hlt lm vm hr nr⟩

theorem JsBig.divLoop_any {b : List Nat} (hb : Limbs b) (nb : Norm b) (hb0 : b ≠ []) (fuel : Nat) :
    ∀ a res : List Nat, Limbs a → Norm a → Limbs res → Norm res →
    JsBig.divLoop b fuel a res = .error .fuel ∨
    ∃ q r, JsBig.divLoop b fuel a res = .ok (q, r) ∧ Limbs q ∧ Norm q ∧ Limbs r ∧
      Norm r ∧ val r < val b ∧
      ∃ k, val r + val b * val q = val a + val b * val res + k * B ^ b.length := by
  induction fuel with
  | zero => intro a res _ _ _ _; exact .inl rfl
  | succ fuel ih =>
    intro a res ha na hr nr
    have go : val b ≤ val a → cmpVec a b ≠ .lt →
        JsBig.divLoop b (fuel + 1) a res = .error .fuel ∨
        ∃ q r, JsBig.divLoop b (fuel + 1) a res = .ok (q, r) ∧ Limbs q ∧ Norm q ∧ Limbs r ∧
          Norm r ∧ val r < val b ∧
          ∃ k, val r + val b * val q = val a + val b * val res + k * B ^ b.length := by
      intro hge hc
      rcases JsBig.divStep_any ha na hb nb hb0 hge with h | h
      · exact .inl (JsBig.stuck_fuel h hc _ _)
      · obtain ⟨a', res', e, la', na', lr', nr', k, heq⟩ := h res hr nr
        unfold JsBig.divLoop
        rw [if_neg hc, e]
        rcases ih a' res' la' na' lr' nr' with h | ⟨q, r, e2, h1, h2, h3, h4, h5, k', h6⟩
        · exact .inl h
        · refine .inr ⟨q, r, e2, h1, h2, h3, h4, h5, k * B ^ (a.length - b.length) + k', ?_⟩
          have hlen := length_le_of_val_le nb ha hge
          rw [Nat.add_mul, Nat.mul_assoc, ← pow_add, Nat.sub_add_cancel hlen]
          omega
    rcases cmpVec_cases ha hb na nb with ⟨h, hv⟩ | ⟨h, hv⟩ | ⟨h, hv⟩
    · unfold JsBig.divLoop
      rw [if_pos h]
      exact .inr ⟨res, a, rfl, hr, nr, ha, na, hv, 0, by simp⟩
    · exact go (by omega) (by rw [h]; simp)
    · exact go (by omega) (by rw [h]; simp)

/-! ## big_uint.rs -/

/-- the loop does not come to an end: the digit of the quotient is corrected to 0 -/
def BigUint.Stuck (a b : List Nat) : Prop :=
  ∀ res, ∃ res', BigUint.divStep a b res = .ok (a, res')

theorem BigUint.stuck_fuel {a b : List Nat} (h : BigUint.Stuck a b) (hc : BigUint.cmp a b ≠ .lt)
    (fuel : Nat) (res : List Nat) : BigUint.divLoop b fuel a res = .error .fuel := by
  induction fuel generalizing res with
  | zero => rfl
  | succ fuel ih =>
    unfold BigUint.divLoop
    rw [if_neg hc]
    obtain ⟨res', e⟩ := h res
    rw [e]
    exact ih res'

theorem BigUint.sub_spec {a m : List Nat} (ha : Limbs a) (na : Norm a) (lm : Limbs m) (nm : Norm m) :
    Limbs (BigUint.sub a m) ∧ Norm (BigUint.sub a m) ∧
      val (BigUint.sub a m) = val a - val m := by
  unfold BigUint.sub BigUint.cmp
  rcases cmpVec_cases ha lm na nm with ⟨h, hv⟩ | ⟨h, hv⟩ | ⟨h, hv⟩
  · rw [h]; simp [Limbs, Norm]; omega
  · rw [h]; simp [hv, Limbs, Norm]
  · rw [h]
    exact ⟨limbs_normalize (subVec_limbs _ _), norm_normalize _,
      subVecNorm_val ha lm nm (by omega)⟩

/-- one step with any divisor: the dividend becomes smaller, exactly or to 0 -/
theorem BigUint.divStep_any {a b : List Nat} (ha : Limbs a) (na : Norm a) (hb : Limbs b)
    (nb : Norm b) (hb0 : b ≠ []) (hge : val b ≤ val a) :
    BigUint.Stuck a b ∨ ∀ res, Limbs res → Norm res →
      ∃ a' res', BigUint.divStep a b res = .ok (a', res') ∧ Limbs a' ∧ Norm a' ∧ Limbs res' ∧
        Norm res' ∧ val a' < val a ∧
        (val a' + val b * val res' = val a + val b * val res ∨
          val a' = 0 ∧ val a + val b * val res < val b * val res' ∧
          b.getLast hb0 * (val b * val res') ≤
            b.getLast hb0 * (val a + val b * val res) + val a) := by
  obtain ⟨qi, qd, hrun, hpos, hlt, hbound⟩ := est_any ha na hb nb hb0 hge
  have hmul : ∀ d, BigUint.mul b (List.replicate qi 0 ++ [d]) = mulVec b (hiVec qi d) := by
    intro d
    unfold BigUint.mul
    rw [if_neg (by simp [BigUint.isZero, hb0])]; rfl
  obtain ⟨m, em, vm, lm, nm⟩ := mulVec_ok hb (limbs_hiVec (k := qi) hlt) hb0 (hiVec_ne _ _)
  obtain ⟨m2, em2, vm2, lm2, nm2⟩ := mulVec_ok hb (limbs_hiVec (k := qi) (show qd - 1 < B by omega))
    hb0 (hiVec_ne _ _)
  have hbpos : 0 < val b := val_pos nb hb0
  have key : ∀ (d : Nat) (m res : List Nat), 0 < d → d < B → Limbs m → Norm m →
      val m = val b * val (hiVec qi d) → d ≤ qd → Limbs res → Norm res →
      Limbs (BigUint.sub a m) ∧ Norm (BigUint.sub a m) ∧
      Limbs (BigUint.add res (hiVec qi d)) ∧ Norm (BigUint.add res (hiVec qi d)) ∧
      val (BigUint.sub a m) < val a ∧
      (val (BigUint.sub a m) + val b * val (BigUint.add res (hiVec qi d)) =
        val a + val b * val res ∨ val (BigUint.sub a m) = 0 ∧
        val a + val b * val res < val b * val (BigUint.add res (hiVec qi d)) ∧
        b.getLast hb0 * (val b * val (BigUint.add res (hiVec qi d))) ≤
          b.getLast hb0 * (val a + val b * val res) + val a) := by
    intro d m res hd hdB lm nm vm hdq hr nr
    obtain ⟨h1, h2, h3⟩ := BigUint.sub_spec ha na lm nm
    have hmpos : 0 < val m := by
      rw [vm, val_hiVec]; have := B_pos; positivity
    refine ⟨h1, h2, addVec_limbs _ _,
      addVec_norm hr (limbs_hiVec hdB) nr (norm_hiVec (by omega)), by omega, ?_⟩
    have e : val (BigUint.add res (hiVec qi d)) = val res + val (hiVec qi d) :=
      addVec_val hr (limbs_hiVec hdB)
    have hm : b.getLast hb0 * val m ≤ b.getLast hb0 * val a + val a := by
      rw [vm, val_hiVec]
      refine le_trans (Nat.mul_le_mul_left _ (Nat.mul_le_mul_left _ (Nat.mul_le_mul_right _ hdq))) ?_
      rw [Nat.add_mul, Nat.one_mul] at hbound
      exact hbound
    rw [h3, e, Nat.mul_add, ← vm]
    by_cases hle : val m ≤ val a
    · left; omega
    · right
      refine ⟨by omega, by omega, ?_⟩
      rw [Nat.mul_add, Nat.mul_add]
      omega
  by_cases hl : BigUint.cmp a m = .lt
  · by_cases h1 : qd = 1
    · left
      intro res
      subst h1
      refine ⟨BigUint.add res (List.replicate qi 0 ++ [0]), ?_⟩
      have hm2 : m2 = [] := by
        refine val_inj lm2 (by simp [Limbs]) nm2 (by simp [Norm]) ?_
        rw [vm2, val_hiVec]; simp
      have hs : BigUint.sub a [] = a := by
        obtain ⟨h1, h2, h3⟩ := BigUint.sub_spec ha na (m := []) (by simp [Limbs]) (by simp [Norm])
        exact val_inj h1 ha h2 na (by simpa using h3)
      unfold BigUint.divStep
      rw [hrun]
      simp only [bind, Except.bind, hmul]
      rw [em]
      dsimp only
      rw [if_pos hl, subU_ok (by omega)]
      dsimp only
      rw [em2, hm2]
      simp only [Nat.sub_self, hs]; rfl
    · right
      intro res hr nr
      unfold BigUint.divStep
      rw [hrun]
      simp only [bind, Except.bind, hmul]
      rw [em]
      dsimp only
      rw [if_pos hl, subU_ok (by omega)]
      dsimp only
      rw [em2]
      exact ⟨_, _, rfl, key (qd - 1) m2 res (by omega) (by omega) lm2 nm2 vm2 (by omega) hr nr⟩
  · right
    intro res hr nr
    unfold BigUint.divStep
    rw [hrun]
    simp only [bind, Except.bind, hmul]
    rw [em]
    dsimp only
    rw [if_neg hl]
    exact ⟨_, _, rfl, key qd m res hpos hlt lm nm vm le_rfl hr nr⟩

/-- the loop with any divisor: it never ends, or it ends within `val a + 1` iterations -/
theorem BigUint.divLoop_any {b : List Nat} (hb : Limbs b) (nb : Norm b) (hb0 : b ≠ []) (n : Nat) :
    ∀ a res : List Nat, val a < n → Limbs a → Norm a → Limbs res → Norm res →
    (∀ fuel, BigUint.divLoop b fuel a res = .error .fuel) ∨
    ∃ q r, (∀ fuel, n ≤ fuel → BigUint.divLoop b fuel a res = .ok (q, r)) ∧ Limbs q ∧ Norm q ∧
      Limbs r ∧ Norm r ∧ val r < val b ∧
      (val r + val b * val q = val a + val b * val res ∨
        val r = 0 ∧ val a + val b * val res < val b * val q ∧
        b.getLast hb0 * (val b * val q) ≤ b.getLast hb0 * (val a + val b * val res) + val a) := by
  have hbpos : 0 < val b := val_pos nb hb0
  induction n with
  | zero => intro a res h; omega
  | succ n ih =>
    intro a res hn ha na hr nr
    have go : val b ≤ val a → BigUint.cmp a b ≠ .lt →
        (∀ fuel, BigUint.divLoop b fuel a res = .error .fuel) ∨
        ∃ q r, (∀ fuel, n + 1 ≤ fuel → BigUint.divLoop b fuel a res = .ok (q, r)) ∧ Limbs q ∧
          Norm q ∧ Limbs r ∧ Norm r ∧ val r < val b ∧
          (val r + val b * val q = val a + val b * val res ∨
            val r = 0 ∧ val a + val b * val res < val b * val q ∧
            b.getLast hb0 * (val b * val q) ≤
              b.getLast hb0 * (val a + val b * val res) + val a) := by
      intro hge hc
      rcases BigUint.divStep_any ha na hb nb hb0 hge with h | h
      · exact .inl fun fuel => BigUint.stuck_fuel h hc _ _
      · obtain ⟨a', res', e, la', na', lr', nr', hlt, heq⟩ := h res hr nr
        have step : ∀ fuel, BigUint.divLoop b (fuel + 1) a res = BigUint.divLoop b fuel a' res' := by
          intro fuel
          conv_lhs => unfold BigUint.divLoop
          rw [if_neg hc, e]; rfl
        rcases ih a' res' (by omega) la' na' lr' nr' with h | ⟨q, r, e2, h1, h2, h3, h4, h5, h6⟩
        · refine .inl fun fuel => ?_
          cases fuel with
          | zero => rfl
          | succ fuel => rw [step, h]
        · refine .inr ⟨q, r, ?_, h1, h2, h3, h4, h5, ?_⟩
          · intro fuel hf
            obtain ⟨fuel, rfl⟩ : ∃ f, fuel = f + 1 := ⟨fuel - 1, by omega⟩
            rw [step, e2 fuel (by omega)]
          · rcases heq with heq | ⟨h0, hlt', hbd⟩
            · rcases h6 with h6 | ⟨h6, h7, h8⟩
              · left; omega
              · right
                refine ⟨h6, by omega, ?_⟩
                rw [heq] at h8
                omega
            · -- the rest is 0: the loop ends
              have ha' : a' = [] := by
                refine val_inj la' (by simp [Limbs]) na' (by simp [Norm]) ?_
                simpa using h0
              have hend := e2 (n + 1) (by omega)
              unfold BigUint.divLoop at hend
              have hc' : BigUint.cmp a' b = .lt := by
                unfold BigUint.cmp
                rcases cmpVec_cases la' hb na' nb with ⟨h, _⟩ | ⟨_, hv⟩ | ⟨_, hv⟩
                · exact h
                all_goals omega
              rw [if_pos hc'] at hend
              cases hend
              right; omega
    rcases cmpVec_cases ha hb na nb with ⟨h, hv⟩ | ⟨h, hv⟩ | ⟨h, hv⟩
    · refine .inr ⟨res, a, ?_, hr, nr, ha, na, hv, .inl rfl⟩
      intro fuel hf
      obtain ⟨fuel, rfl⟩ : ∃ f, fuel = f + 1 := ⟨fuel - 1, by omega⟩
      unfold BigUint.divLoop BigUint.cmp
      rw [if_pos h]
    · exact go (by omega) (by unfold BigUint.cmp; rw [h]; simp)
    · exact go (by omega) (by unfold BigUint.cmp; rw [h]; simp)

end Nanvm
