import Verif.Lemmas.Shift
import Verif.Model.BigInt
/-! Division by `b0 * 2^(64 k)` for both division loops. -/
namespace Nanvm

theorem subU_ok {a b : Nat} (h : b ≤ a) : subU a b = .ok (a - b) := by simp [subU, h]

/-- the divisor `b0 * B^k` -/
def hiVec (k b0 : Nat) : List Nat := List.replicate k 0 ++ [b0]

theorem val_hiVec (k b0 : Nat) : val (hiVec k b0) = b0 * B ^ k := by
  rw [hiVec, val_append, val_replicate]; simp [val_cons]; ring

theorem limbs_hiVec {k b0 : Nat} (h : b0 < B) : Limbs (hiVec k b0) := by
  rw [hiVec, limbs_append]; exact ⟨limbs_replicate _, by simpa using h⟩

theorem norm_hiVec {k b0 : Nat} (h : b0 ≠ 0) : Norm (hiVec k b0) := by
  rw [hiVec, norm_append_singleton]; exact h

theorem hiVec_ne (k b0 : Nat) : hiVec k b0 ≠ [] := by simp [hiVec]

theorem hiVec_length (k b0 : Nat) : (hiVec k b0).length = k + 1 := by simp [hiVec]

theorem idx_append_last (l : List Nat) (d : Nat) : idx (l ++ [d]) l.length = .ok d := by
  simp [idx]

theorem idx_append_last2 (l : List Nat) (d e : Nat) : idx (l ++ [d, e]) l.length = .ok d := by
  simp [idx]

/-- first case of the estimate: the top limb is at least that of the divisor -/
theorem qEstimate_ge {lo : List Nat} {u k b0 : Nat} (hk : k ≤ lo.length) (hb0 : 0 < b0)
    (h : b0 ≤ u) :
    JsBig.qEstimate (lo ++ [u]) (hiVec k b0) = .ok (lo.length - k, u / b0) := by
  unfold JsBig.qEstimate
  have e1 : (lo ++ [u]).length = lo.length + 1 := by simp
  rw [e1, hiVec_length, subU_ok (by omega), subU_ok (by omega)]
  simp only [bind, Except.bind, Nat.add_sub_cancel]
  rw [idx_append_last]
  have : idx (hiVec k b0) k = .ok b0 := by
    have := idx_append_last (List.replicate k 0) b0
    rwa [List.length_replicate] at this
  rw [this]
  simp only [h, if_true, subU_ok hk, divU, Nat.ne_of_gt hb0, if_false]; rfl

/-- second case: two limbs of the dividend against one of the divisor -/
theorem qEstimate_lt {lo : List Nat} {v u k b0 : Nat} (hk : k ≤ lo.length) (h : u < b0) :
    JsBig.qEstimate (lo ++ [v, u]) (hiVec k b0) =
      .ok (lo.length - k, (u * B + v) / b0 % B) := by
  unfold JsBig.qEstimate
  have e1 : (lo ++ [v, u]).length = lo.length + 2 := by simp
  rw [e1, hiVec_length, subU_ok (by omega), subU_ok (by omega)]
  simp only [bind, Except.bind, Nat.add_sub_cancel]
  have i1 : idx (lo ++ [v, u]) (lo.length + 2 - 1) = .ok u := by
    have := idx_append_last (lo ++ [v]) u
    simpa using this
  have : idx (hiVec k b0) k = .ok b0 := by
    have := idx_append_last (List.replicate k 0) b0
    rwa [List.length_replicate] at this
  rw [this, i1]
  simp only [Nat.not_le.2 h, if_false, show lo.length + 2 - 1 = lo.length + 1 by omega]
  rw [subU_ok (by omega), subU_ok (show k ≤ lo.length + 1 by omega)]
  simp only [Nat.add_sub_cancel, idx_append_last2]
  rw [subU_ok (by omega)]
  simp only [pure, Except.pure]
  congr 2; omega

/-- what one division estimate yields for a divisor `b0 * B^k`, `a ≥ b` -/
structure Est (a : List Nat) (k b0 qi qd : Nat) : Prop where
  run : JsBig.qEstimate a (hiVec k b0) = .ok (qi, qd)
  pos : 0 < qd
  lt : qd < B
  le : b0 * B ^ k * (qd * B ^ qi) ≤ val a
  hi : val a < b0 * B ^ k * ((qd + 1) * B ^ qi)
  /-- either the lexicographic test cannot fire or there is room to decrement -/
  lex : (∀ m : List Nat, Limbs m → Norm m → val m = b0 * B ^ k * (qd * B ^ qi) →
      lexCmp a m ≠ .lt) ∨ (b0 ≤ 2 ^ 63 → 2 ≤ qd)

theorem lexCmp_zeros (lo : List Nat) (u x : Nat) (h : x ≤ u) :
    lexCmp (lo ++ [u]) (List.replicate lo.length 0 ++ [x]) ≠ .lt := by
  induction lo with
  | nil =>
    simp only [List.nil_append, List.length_nil, List.replicate_zero, lexCmp]
    split
    · omega
    · split <;> simp
  | cons d ds ih =>
    simp only [List.cons_append, List.length_cons, List.replicate_succ, lexCmp]
    split
    · omega
    · split
      · simp
      · exact ih

theorem est_exists {a : List Nat} {k b0 : Nat} (ha : Limbs a) (na : Norm a)
    (hb : b0 < B) (hb0 : 0 < b0) (hge : val (hiVec k b0) ≤ val a) :
    ∃ qi qd, Est a k b0 qi qd := by
  have hlen := length_le_of_val_le (norm_hiVec (k := k) (by omega : b0 ≠ 0)) ha hge
  rw [hiVec_length] at hlen
  rcases List.eq_nil_or_concat a with rfl | ⟨lo, u, rfl⟩
  · simp at hlen
  rw [List.concat_eq_append] at *
  simp only [List.length_append, List.length_cons, List.length_nil] at hlen
  have hk : k ≤ lo.length := by omega
  have hu : u ≠ 0 := norm_append_singleton.1 na
  rw [limbs_append, limbs_cons] at ha
  have hval : val (lo ++ [u]) = val lo + B ^ lo.length * u := by
    rw [val_append]; simp [val_cons]
  by_cases hcmp : b0 ≤ u
  · refine ⟨lo.length - k, u / b0, qEstimate_ge hk hb0 hcmp, Nat.div_pos hcmp hb0,
      Nat.lt_of_le_of_lt (Nat.div_le_self _ _) ha.2.1, ?_, ?_, ?_⟩
    · have : b0 * B ^ k * (u / b0 * B ^ (lo.length - k)) = b0 * (u / b0) * B ^ lo.length := by
        rw [show B ^ lo.length = B ^ k * B ^ (lo.length - k) by rw [← pow_add]; congr 1; omega]
        ring
      rw [this, hval]
      have := Nat.mul_div_le u b0
      nlinarith [Nat.zero_le (val lo), Nat.pow_pos (n := lo.length) B_pos]
    · have : b0 * B ^ k * ((u / b0 + 1) * B ^ (lo.length - k)) =
          b0 * (u / b0 + 1) * B ^ lo.length := by
        rw [show B ^ lo.length = B ^ k * B ^ (lo.length - k) by rw [← pow_add]; congr 1; omega]
        ring
      rw [this, hval]
      have h1 : u + 1 ≤ b0 * (u / b0 + 1) := Nat.lt_mul_div_succ u hb0
      have h2 := val_lt ha.1
      have h3 := Nat.mul_le_mul_right (B ^ lo.length) h1
      rw [Nat.add_mul, Nat.one_mul, Nat.mul_comm u] at h3
      omega
    · left
      intro m hm nm hv
      have e : b0 * B ^ k * (u / b0 * B ^ (lo.length - k)) = b0 * (u / b0) * B ^ lo.length := by
        rw [show B ^ lo.length = B ^ k * B ^ (lo.length - k) by rw [← pow_add]; congr 1; omega]
        ring
      rw [e] at hv
      have hle := Nat.mul_div_le u b0
      have hne : b0 * (u / b0) ≠ 0 := by
        have := Nat.div_pos hcmp hb0
        positivity
      have hm' : m = hiVec lo.length (b0 * (u / b0)) :=
        val_inj hm (limbs_hiVec (by have := ha.2.1; omega)) nm (norm_hiVec hne)
          (by rw [hv, val_hiVec])
      rw [hm']
      exact lexCmp_zeros lo u _ hle
  · push Not at hcmp
    -- the dividend is longer than the divisor
    have hk2 : k < lo.length := by
      by_contra hcon
      have hkk : k = lo.length := by omega
      subst hkk
      rw [val_hiVec, hval] at hge
      have h1 := val_lt ha.1
      have h2 : (u + 1) * B ^ lo.length ≤ b0 * B ^ lo.length := Nat.mul_le_mul_right _ hcmp
      nlinarith
    rcases List.eq_nil_or_concat lo with rfl | ⟨lo', v, rfl⟩
    · simp at hk2
    rw [List.concat_eq_append] at *
    simp only [List.append_assoc, List.cons_append, List.nil_append]
    simp only [List.length_append, List.length_cons, List.length_nil] at hk2
    have hk' : k ≤ lo'.length := by omega
    rw [limbs_append, limbs_cons] at ha
    have hq : (u * B + v) / b0 < B := by
      rw [Nat.div_lt_iff_lt_mul hb0]
      have := ha.1.2.1
      nlinarith
    have hval' : val (lo' ++ [v, u]) = val lo' + B ^ lo'.length * (u * B + v) := by
      rw [val_append]; simp only [val_cons, val_nil]; ring
    have hmul := Nat.mul_div_le (u * B + v) b0
    have hBu : B ≤ u * B := Nat.le_mul_of_pos_left _ (by omega)
    refine ⟨lo'.length - k, (u * B + v) / b0, ?_, ?_, hq, ?_, ?_, ?_⟩
    · rw [qEstimate_lt hk' hcmp, Nat.mod_eq_of_lt hq]
    · apply Nat.div_pos _ hb0; omega
    · have e : b0 * B ^ k * ((u * B + v) / b0 * B ^ (lo'.length - k)) =
          b0 * ((u * B + v) / b0) * B ^ lo'.length := by
        rw [show B ^ lo'.length = B ^ k * B ^ (lo'.length - k) by rw [← pow_add]; congr 1; omega]
        ring
      rw [e, hval']
      nlinarith [Nat.zero_le (val lo'), Nat.pow_pos (n := lo'.length) B_pos]
    · have e : b0 * B ^ k * (((u * B + v) / b0 + 1) * B ^ (lo'.length - k)) =
          b0 * ((u * B + v) / b0 + 1) * B ^ lo'.length := by
        rw [show B ^ lo'.length = B ^ k * B ^ (lo'.length - k) by rw [← pow_add]; congr 1; omega]
        ring
      rw [e, hval']
      have h1 : u * B + v + 1 ≤ b0 * ((u * B + v) / b0 + 1) := Nat.lt_mul_div_succ _ hb0
      have h2 := val_lt ha.1.1
      have h3 := Nat.mul_le_mul_right (B ^ lo'.length) h1
      rw [Nat.add_mul, Nat.one_mul, Nat.mul_comm (u * B + v)] at h3
      omega
    · right
      intro h63
      rw [Nat.le_div_iff_mul_le hb0]
      have : 2 * 2 ^ 63 = B := by decide
      omega

theorem pow_lt_pow_B {i n : Nat} (h : B ^ i < B ^ n) : i < n :=
  (Nat.pow_lt_pow_iff_right (by decide)).1 h

theorem Est.index {a : List Nat} {k b0 qi qd : Nat} (h : Est a k b0 qi qd) (hb0 : 0 < b0) {n : Nat}
    (hlt : val a < val (hiVec k b0) * B ^ n) : qi < n := by
  rw [val_hiVec] at hlt
  have h1 := lt_of_le_of_lt h.le hlt
  have h2 : qd * B ^ qi < B ^ n := Nat.lt_of_mul_lt_mul_left h1
  have := h.pos
  exact pow_lt_pow_B (lt_of_le_of_lt (Nat.le_mul_of_pos_left _ h.pos) h2)

theorem Est.index_le {a : List Nat} {k b0 qi qd : Nat} (h : Est a k b0 qi qd) (hb0 : 0 < b0) {n : Nat}
    (hge : val (hiVec k b0) * B ^ n ≤ val a) : n ≤ qi := by
  rw [val_hiVec] at hge
  have h1 := lt_of_le_of_lt hge h.hi
  have h2 : B ^ n < (qd + 1) * B ^ qi := Nat.lt_of_mul_lt_mul_left h1
  have h3 : (qd + 1) * B ^ qi ≤ B * B ^ qi := Nat.mul_le_mul_right _ h.lt
  have h4 : n < qi + 1 := pow_lt_pow_B (by rw [Nat.pow_succ']; exact lt_of_lt_of_le h2 h3)
  omega

/-- one step of the `js_bigint` division loop -/
theorem JsBig.divStep_ok {a res : List Nat} {k b0 : Nat} (ha : Limbs a) (na : Norm a)
    (hr : Limbs res) (nr : Norm res) (hb63 : b0 ≤ 2 ^ 63) (hb0 : 0 < b0)
    (hge : val (hiVec k b0) ≤ val a) :
    ∃ a' res', JsBig.divStep a (hiVec k b0) res = .ok (a', res') ∧ Limbs a' ∧ Norm a' ∧
      Limbs res' ∧ Norm res' ∧ val a' < val a ∧
      val a' + val (hiVec k b0) * val res' = val a + val (hiVec k b0) * val res ∧
      (∀ n, val a < val (hiVec k b0) * B ^ (n + 1) → val a' < 2 * (val (hiVec k b0) * B ^ n)) ∧
      (∀ n, val (hiVec k b0) * B ^ n ≤ val a → val a < 2 * (val (hiVec k b0) * B ^ n) →
        val a' < val (hiVec k b0) * B ^ n) := by
  have hb : b0 < B := Nat.lt_of_le_of_lt hb63 (by decide)
  obtain ⟨qi, qd, hest⟩ := est_exists ha na hb hb0 hge
  have hest' := hest
  obtain ⟨hrun, hpos, hlt, hle, hhi, hlex⟩ := hest'
  obtain ⟨m, em, vm, lm, nm⟩ := mulVec_ok (limbs_hiVec (k := k) hb) (limbs_hiVec (k := qi) hlt)
    (hiVec_ne _ _) (hiVec_ne _ _)
  rw [val_hiVec, val_hiVec] at vm
  have key : ∀ (d : Nat) (m : List Nat), 0 < d → d ≤ qd → Limbs m → Norm m →
      val m = b0 * B ^ k * (d * B ^ qi) →
      Limbs (normalizeVec (subVec a m)) ∧ Norm (normalizeVec (subVec a m)) ∧
      Limbs (addVec res (hiVec qi d)) ∧ Norm (addVec res (hiVec qi d)) ∧
      val (normalizeVec (subVec a m)) < val a ∧
      val (normalizeVec (subVec a m)) + val (hiVec k b0) * val (addVec res (hiVec qi d)) =
        val a + val (hiVec k b0) * val res ∧
      val (normalizeVec (subVec a m)) < (qd + 1 - d) * (val (hiVec k b0) * B ^ qi) := by
    intro d m hd hdq lm nm vm
    have hmle : val m ≤ val a := by
      rw [vm]; refine le_trans ?_ hle
      exact Nat.mul_le_mul_left _ (Nat.mul_le_mul_right _ hdq)
    have hmpos : 0 < val m := by
      rw [vm]; have := B_pos; positivity
    have hv : val (normalizeVec (subVec a m)) = val a - val m :=
      subVecNorm_val ha lm nm hmle
    have hdB : d < B := by omega
    refine ⟨limbs_normalize (subVec_limbs _ _), norm_normalize _, addVec_limbs _ _,
      addVec_norm hr (limbs_hiVec hdB) nr (norm_hiVec (by omega)), by omega, ?_, ?_⟩
    · rw [hv, addVec_val hr (limbs_hiVec hdB), val_hiVec qi d, val_hiVec, Nat.mul_add]
      rw [← vm]
      omega
    · have e : (qd + 1 - d) * (val (hiVec k b0) * B ^ qi) + val m =
          b0 * B ^ k * ((qd + 1) * B ^ qi) := by
        obtain ⟨x, hx⟩ : ∃ x, qd + 1 = d + x := ⟨qd + 1 - d, by omega⟩
        rw [val_hiVec, vm, hx, Nat.add_sub_cancel_left]; ring
      omega
  have le1 : ∀ n, val a < val (hiVec k b0) * B ^ (n + 1) → B ^ qi ≤ B ^ n := by
    intro n hn
    have := hest.index hb0 hn
    exact Nat.pow_le_pow_right B_pos (by omega)
  have one : ∀ n, val (hiVec k b0) * B ^ n ≤ val a → val a < 2 * (val (hiVec k b0) * B ^ n) →
      qi = n ∧ qd = 1 := by
    intro n h1 h2
    have i1 := hest.index_le hb0 h1
    have hbp : 0 < val (hiVec k b0) * B ^ n := by
      rw [val_hiVec]; have := B_pos; positivity
    have i2 : qi < n + 1 := hest.index hb0 (lt_of_lt_of_le h2 (by
      rw [Nat.pow_succ', Nat.mul_left_comm (val _)]
      exact Nat.mul_le_mul_right _ (show 2 ≤ B by decide)))
    have i3 : qi = n := by omega
    subst i3
    refine ⟨rfl, ?_⟩
    by_contra hc
    rw [val_hiVec] at h2
    have : b0 * B ^ k * (2 * B ^ qi) ≤ b0 * B ^ k * (qd * B ^ qi) :=
      Nat.mul_le_mul_left _ (Nat.mul_le_mul_right _ (by omega))
    have e : b0 * B ^ k * (2 * B ^ qi) = 2 * (b0 * B ^ k * B ^ qi) := by ring
    omega
  unfold JsBig.divStep
  rw [hrun]
  simp only [bind, Except.bind]
  have em' : mulVec (hiVec k b0) (List.replicate qi 0 ++ [qd]) = .ok m := em
  rw [em']
  dsimp only
  by_cases hl : lexCmp a m = .lt
  · rw [if_pos hl]
    have h2 : 2 ≤ qd := by
      rcases hlex with h | h
      · exact absurd hl (h m lm nm vm)
      · exact h hb63
    rw [subU_ok (by omega)]
    dsimp only
    obtain ⟨m2, em2, vm2, lm2, nm2⟩ := mulVec_ok (limbs_hiVec (k := k) hb)
      (limbs_hiVec (k := qi) (show qd - 1 < B by omega)) (hiVec_ne _ _) (hiVec_ne _ _)
    rw [val_hiVec, val_hiVec] at vm2
    have em2' : mulVec (hiVec k b0) (List.replicate qi 0 ++ [qd - 1]) = .ok m2 := em2
    rw [em2']
    obtain ⟨k1, k2, k3, k4, k5, k6, k7⟩ := key (qd - 1) m2 (by omega) (by omega) lm2 nm2 vm2
    refine ⟨_, _, rfl, k1, k2, k3, k4, k5, k6, fun n hn => ?_, fun n h1 h2 => ?_⟩
    · rw [show qd + 1 - (qd - 1) = 2 by omega] at k7
      have := Nat.mul_le_mul_left (val (hiVec k b0)) (le1 n hn)
      omega
    · have := (one n h1 h2).2
      omega
  · rw [if_neg hl]
    obtain ⟨k1, k2, k3, k4, k5, k6, k7⟩ := key qd m hpos le_rfl lm nm vm
    rw [show qd + 1 - qd = 1 by omega, Nat.one_mul] at k7
    refine ⟨_, _, rfl, k1, k2, k3, k4, k5, k6, fun n hn => ?_, fun n h1 h2 => ?_⟩
    · have := Nat.mul_le_mul_left (val (hiVec k b0)) (le1 n hn)
      omega
    · rw [(one n h1 h2).1] at k7; exact k7

/-- the `js_bigint` division loop computes quotient and remainder, in at most two iterations
per limb of the quotient -/
theorem JsBig.divLoop_ok {k b0 : Nat} (hb63 : b0 ≤ 2 ^ 63) (hb0 : 0 < b0) (fuel : Nat) :
    ∀ (a res : List Nat) (n : Nat), Limbs a → Norm a → Limbs res → Norm res →
    (val a < val (hiVec k b0) * B ^ n ∧ 2 * n < fuel ∨
      val a < 2 * (val (hiVec k b0) * B ^ n) ∧ 2 * n + 1 < fuel) →
    ∃ q r, JsBig.divLoop (hiVec k b0) fuel a res = .ok (q, r) ∧ Limbs q ∧ Norm q ∧ Limbs r ∧
      Norm r ∧ val r < val (hiVec k b0) ∧
      val r + val (hiVec k b0) * val q = val a + val (hiVec k b0) * val res := by
  have hb : b0 < B := Nat.lt_of_le_of_lt hb63 (by decide)
  induction fuel with
  | zero => intro a res n _ _ _ _ h; omega
  | succ fuel ih =>
    intro a res n ha na hr nr hf
    unfold JsBig.divLoop
    have fin : val (hiVec k b0) ≤ val a → ∃ q r, (do
        let (a', result') ← JsBig.divStep a (hiVec k b0) res
        JsBig.divLoop (hiVec k b0) fuel a' result') = .ok (q, r) ∧ Limbs q ∧ Norm q ∧ Limbs r ∧
        Norm r ∧ val r < val (hiVec k b0) ∧
        val r + val (hiVec k b0) * val q = val a + val (hiVec k b0) * val res := by
      intro hge
      obtain ⟨a', res', e, la', na', lr', nr', hlt, heq, s1, s2⟩ :=
        JsBig.divStep_ok (k := k) ha na hr nr hb63 hb0 hge
      have hnext : ∃ n', val a' < val (hiVec k b0) * B ^ n' ∧ 2 * n' < fuel ∨
          val a' < 2 * (val (hiVec k b0) * B ^ n') ∧ 2 * n' + 1 < fuel := by
        rcases hf with ⟨h1, h2⟩ | ⟨h1, h2⟩
        · cases n with
          | zero => simp at h1; omega
          | succ n => exact ⟨n, .inr ⟨s1 n h1, by omega⟩⟩
        · rcases Nat.lt_or_ge (val a) (val (hiVec k b0) * B ^ n) with h3 | h3
          · cases n with
            | zero => simp at h3; omega
            | succ n => exact ⟨n, .inr ⟨s1 n h3, by omega⟩⟩
          · exact ⟨n, .inl ⟨s2 n h3 h1, by omega⟩⟩
      obtain ⟨n', hn'⟩ := hnext
      obtain ⟨q, r, e2, h1, h2, h3, h4, h5, h6⟩ := ih a' res' n' la' na' lr' nr' hn'
      refine ⟨q, r, ?_, h1, h2, h3, h4, h5, by omega⟩
      rw [e]; exact e2
    rcases cmpVec_cases ha (limbs_hiVec (k := k) hb) na (norm_hiVec (by omega : b0 ≠ 0)) with
      ⟨h, hv⟩ | ⟨h, hv⟩ | ⟨h, hv⟩
    · rw [if_pos h]
      exact ⟨res, a, rfl, hr, nr, ha, na, hv, rfl⟩
    all_goals
      rw [if_neg (by rw [h]; simp)]
      exact fin (by omega)

/-- one step of the `BigUint` division loop -/
theorem BigUint.divStep_ok {a res : List Nat} {k b0 : Nat} (ha : Limbs a) (na : Norm a)
    (hr : Limbs res) (nr : Norm res) (hb : b0 < B) (hb0 : 0 < b0)
    (hge : val (hiVec k b0) ≤ val a) :
    ∃ a' res', BigUint.divStep a (hiVec k b0) res = .ok (a', res') ∧ Limbs a' ∧ Norm a' ∧
      Limbs res' ∧ Norm res' ∧ val a' < val a ∧
      val a' + val (hiVec k b0) * val res' = val a + val (hiVec k b0) * val res ∧
      (∀ n, val a < val (hiVec k b0) * B ^ (n + 1) → val a' < val (hiVec k b0) * B ^ n) := by
  obtain ⟨qi, qd, hest⟩ := est_exists ha na hb hb0 hge
  have hest' := hest
  obtain ⟨hrun, hpos, hlt, hle, hhi, -⟩ := hest'
  obtain ⟨m, em, vm, lm, nm⟩ := mulVec_ok (limbs_hiVec (k := k) hb) (limbs_hiVec (k := qi) hlt)
    (hiVec_ne _ _) (hiVec_ne _ _)
  rw [val_hiVec, val_hiVec] at vm
  have hmle : val m ≤ val a := by rw [vm]; exact hle
  have hmpos : 0 < val m := by
    rw [vm]; have := B_pos; positivity
  have em' : BigUint.mul (hiVec k b0) (List.replicate qi 0 ++ [qd]) = .ok m := by
    unfold BigUint.mul
    rw [if_neg (by simp [BigUint.isZero, hiVec])]; exact em
  have hsub : Limbs (BigUint.sub a m) ∧ Norm (BigUint.sub a m) ∧
      val (BigUint.sub a m) = val a - val m := by
    unfold BigUint.sub BigUint.cmp
    rcases cmpVec_cases ha lm na nm with ⟨h, hv⟩ | ⟨h, hv⟩ | ⟨h, hv⟩
    · omega
    · rw [h]; simp [hv]
    · rw [h]
      exact ⟨limbs_normalize (subVec_limbs _ _), norm_normalize _,
        subVecNorm_val ha lm nm hmle⟩
  have hcmp : ¬ BigUint.cmp a m = .lt := by
    unfold BigUint.cmp
    rcases cmpVec_cases ha lm na nm with ⟨h, hv⟩ | ⟨h, hv⟩ | ⟨h, hv⟩
    · omega
    · rw [h]; simp
    · rw [h]; simp
  unfold BigUint.divStep
  rw [hrun]
  simp only [bind, Except.bind]
  rw [em']
  dsimp only
  rw [if_neg hcmp]
  refine ⟨_, _, rfl, hsub.1, hsub.2.1, addVec_limbs _ _,
    addVec_norm hr (limbs_hiVec (k := qi) hlt) nr (norm_hiVec (by omega)), by omega, ?_,
    fun n hn => ?_⟩
  rotate_left
  · have hqi : B ^ qi ≤ B ^ n := by
      have := hest.index hb0 hn
      exact Nat.pow_le_pow_right B_pos (by omega)
    have h1 := Nat.mul_le_mul_left (val (hiVec k b0)) hqi
    have e : b0 * B ^ k * ((qd + 1) * B ^ qi) = val m + val (hiVec k b0) * B ^ qi := by
      rw [vm, val_hiVec]; ring
    omega
  have h3 : val (BigUint.add res (List.replicate qi 0 ++ [qd])) = val res + qd * B ^ qi := by
    have := addVec_val hr (limbs_hiVec (k := qi) hlt)
    rw [val_hiVec] at this; exact this
  rw [hsub.2.2, h3, val_hiVec, Nat.mul_add, ← vm]
  omega

/-- the `BigUint` division loop computes quotient and remainder, in at most one iteration per
limb of the quotient -/
theorem BigUint.divLoop_ok {k b0 : Nat} (hb : b0 < B) (hb0 : 0 < b0) (fuel : Nat) :
    ∀ (a res : List Nat) (n : Nat), Limbs a → Norm a → Limbs res → Norm res →
    val a < val (hiVec k b0) * B ^ n → n < fuel →
    ∃ q r, BigUint.divLoop (hiVec k b0) fuel a res = .ok (q, r) ∧ Limbs q ∧ Norm q ∧ Limbs r ∧
      Norm r ∧ val r < val (hiVec k b0) ∧
      val r + val (hiVec k b0) * val q = val a + val (hiVec k b0) * val res := by
  induction fuel with
  | zero => intro a res n _ _ _ _ _ h; omega
  | succ fuel ih =>
    intro a res n ha na hr nr hn hf
    unfold BigUint.divLoop BigUint.cmp
    rcases cmpVec_cases ha (limbs_hiVec (k := k) hb) na (norm_hiVec (by omega : b0 ≠ 0)) with
      ⟨h, hv⟩ | ⟨h, hv⟩ | ⟨h, hv⟩
    · rw [if_pos h]
      exact ⟨res, a, rfl, hr, nr, ha, na, hv, rfl⟩
    all_goals
      rw [if_neg (by rw [h]; simp)]
      obtain ⟨n, rfl⟩ : ∃ n', n = n' + 1 := by
        cases n with
        | zero => simp at hn; omega
        | succ n => exact ⟨n, rfl⟩
      obtain ⟨a', res', e, la', na', lr', nr', hlt, heq, s1⟩ :=
        BigUint.divStep_ok (k := k) ha na hr nr hb hb0 (by omega)
      obtain ⟨q, r, e2, h1, h2, h3, h4, h5, h6⟩ := ih a' res' n la' na' lr' nr' (s1 n hn) (by omega)
      refine ⟨q, r, ?_, h1, h2, h3, h4, h5, by omega⟩
      rw [e]; exact e2

/-- the number of limbs of a dividend bounds the number of limbs of the quotient -/
theorem val_lt_hiVec {a : List Nat} (ha : Limbs a) {k b0 : Nat} (hb0 : 0 < b0) :
    val a < val (hiVec k b0) * B ^ a.length := by
  refine lt_of_lt_of_le (val_lt ha) (Nat.le_mul_of_pos_left _ ?_)
  rw [val_hiVec]; have := B_pos; positivity

end Nanvm
