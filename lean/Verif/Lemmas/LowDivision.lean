import Verif.Spec.LowDivision
import Verif.Lemmas.DivExact
/-!
# Lemmas: the division of `js_bigint.rs` on numbers
-/
namespace Nanvm
namespace LongDiv

theorem low_mod {x u k : Nat} (hx : x < B) : (x + B * u) % B ^ (k + 1) = x + B * (u % B ^ k) := by
  rw [pow_succ', Nat.mod_mul, Nat.add_mul_mod_self_left, Nat.mod_eq_of_lt hx,
    Nat.add_mul_div_left _ _ B_pos, Nat.div_eq_of_lt hx, Nat.zero_add]

theorem low_div {x u k : Nat} (hx : x < B) : (x + B * u) / B ^ (k + 1) = u / B ^ k := by
  rw [pow_succ', ← Nat.div_div_eq_div_mul, Nat.add_mul_div_left _ _ B_pos, Nat.div_eq_of_lt hx,
    Nat.zero_add]

theorem lowBefore_cons {x y u v : Nat} (hx : x < B) (hy : y < B) :
    LowBefore (x + B * u) (y + B * v) ↔ x < y ∨ (x = y ∧ LowBefore u v) := by
  unfold LowBefore
  rw [base_eq]
  constructor
  · rintro ⟨k, h1, h2⟩
    cases k with
    | zero =>
      left
      simpa [Nat.mod_eq_of_lt hx, Nat.mod_eq_of_lt hy] using h2
    | succ k =>
      right
      rw [low_mod hx, low_mod hy] at h1
      rw [low_div hx, low_div hy] at h2
      have e := congrArg (· % B) h1
      simp only [Nat.add_mul_mod_self_left, Nat.mod_eq_of_lt hx, Nat.mod_eq_of_lt hy] at e
      subst e
      exact ⟨rfl, k, Nat.eq_of_mul_eq_mul_left B_pos (Nat.add_left_cancel h1), h2⟩
  · rintro (h | ⟨rfl, k, h1, h2⟩)
    · exact ⟨0, by simp [Nat.mod_one], by simpa [Nat.mod_eq_of_lt hx, Nat.mod_eq_of_lt hy] using h⟩
    · refine ⟨k + 1, ?_, ?_⟩
      · rw [low_mod hx, low_mod hx, h1]
      · rw [low_div hx, low_div hx]; exact h2

theorem lowBefore_zero {m : List Nat} (hm : Limbs m) : LowBefore 0 (val m) ↔ 0 < val m := by
  induction m with
  | nil =>
    simp only [val_nil, lt_self_iff_false, iff_false]
    rintro ⟨k, -, h⟩
    simp at h
  | cons y ys ih =>
    rw [limbs_cons] at hm
    have h := lowBefore_cons (u := 0) (v := val ys) B_pos hm.1
    simp only [Nat.mul_zero, Nat.add_zero] at h
    rw [val_cons, h, ih hm.2]
    constructor
    · rintro (h | ⟨rfl, h'⟩)
      · omega
      · have := Nat.mul_pos B_pos h'; omega
    · intro h
      rcases Nat.eq_zero_or_pos y with rfl | hy
      · right
        refine ⟨rfl, ?_⟩
        by_contra hc
        have : val ys = 0 := by omega
        rw [this] at h
        omega
      · exact .inl hy

/-- the order of vectors is that of the numbers read from the lowest digit -/
theorem lexCmp_lt {a m : List Nat} (ha : Limbs a) (hm : Limbs m) (nm : Norm m) :
    lexCmp a m = .lt ↔ LowBefore (val a) (val m) := by
  induction a generalizing m with
  | nil =>
    rw [val_nil, lowBefore_zero hm]
    cases m with
    | nil => simp [lexCmp]
    | cons y ys =>
      simp only [lexCmp, true_iff]
      by_contra hc
      have : y :: ys = [] := val_inj hm (by simp [Limbs]) nm (by simp [Norm]) (by simp; omega)
      cases this
  | cons x xs ih =>
    rw [limbs_cons] at ha
    cases m with
    | nil =>
      simp only [lexCmp, reduceCtorEq, val_nil, false_iff]
      rintro ⟨k, -, h⟩
      simp at h
    | cons y ys =>
      rw [limbs_cons] at hm
      have nys : Norm ys := by
        unfold Norm at nm ⊢
        cases ys with
        | nil => simp
        | cons z zs => simpa using nm
      rw [val_cons, val_cons, lowBefore_cons ha.1 hm.1, ← ih ha.2 hm.2 nys]
      rw [show lexCmp (x :: xs) (y :: ys) =
        if x < y then .lt else if x > y then .gt else lexCmp xs ys from rfl]
      by_cases h1 : x < y
      · simp [h1]
      · rw [if_neg h1]
        by_cases h2 : x > y
        · rw [if_pos h2]
          simp only [reduceCtorEq, false_iff, not_or, not_and]
          exact ⟨h1, fun e => by omega⟩
        · rw [if_neg h2]
          have : x = y := by omega
          simp [this]

/-- the digit taken by a step -/
theorem js_step {a b : List Nat} {c : Nat} (hb : Divisor b c) (ha : Limbs a) (na : Norm a)
    (hge : val b ≤ val a) : ∃ d, Takes (val a) (val b) d ∧
      ((d = 0 ∧ JsBig.Stuck a b) ∨ (0 < d ∧ ∀ res, Limbs res → Norm res →
        ∃ a' res', JsBig.divStep a b res = .ok (a', res') ∧ Limbs a' ∧ Norm a' ∧ Limbs res' ∧ Norm res' ∧
          val res' = val res + d * base ^ place (val a) (val b) ∧
          (val b * (d * base ^ place (val a) (val b)) ≤ val a →
            val a' = val a - val b * (d * base ^ place (val a) (val b))))) := by
  have hcle : c ≤ val a := le_trans hb.le hge
  have hq : 0 < val a / c := Nat.div_pos hcle hb.pos
  have h1 : c * B ^ place (val a) (val b) ≤ val a := by
    have := Nat.pow_log_le_self base hq.ne'
    rw [base_eq] at this
    unfold place
    rw [hb.lead, base_eq]
    calc c * B ^ Nat.log B (val a / c) ≤ c * (val a / c) := Nat.mul_le_mul_left _ this
      _ ≤ val a := Nat.mul_div_le _ _
  have h2 : val a < c * B ^ (place (val a) (val b) + 1) := by
    have := Nat.lt_pow_succ_log_self (b := base) (by decide) (val a / c)
    rw [base_eq] at this
    unfold place
    rw [hb.lead, base_eq]
    exact (Nat.div_lt_iff_lt_mul hb.pos).1 this |>.trans_eq (Nat.mul_comm _ _)
  obtain ⟨hrun, hlt⟩ := hb.est ha na h1 h2
  have htr : val a / (c * B ^ place (val a) (val b)) = tried (val a) (val b) := by
    unfold tried; rw [hb.lead, base_eq]
  have hBn : 0 < B ^ place (val a) (val b) := by have := B_pos; positivity
  have hpos : 0 < tried (val a) (val b) := by
    rw [← htr]; exact Nat.div_pos h1 (Nat.mul_pos hb.pos hBn)
  rw [htr] at hrun hlt
  have hTd : ∀ d, Takes (val a) (val b) d ↔
      (LowBefore (val a) (val b * (tried (val a) (val b) * B ^ place (val a) (val b))) →
        d = tried (val a) (val b) - 1) ∧
      (¬ LowBefore (val a) (val b * (tried (val a) (val b) * B ^ place (val a) (val b))) →
        d = tried (val a) (val b)) := fun d => Iff.rfl
  rw [base_eq]
  generalize tried (val a) (val b) = g at *
  generalize place (val a) (val b) = n at *
  obtain ⟨m, em, vm, lm, nm⟩ := mulVec_ok hb.limbs (limbs_hiVec (k := n) hlt) hb.ne (hiVec_ne _ _)
  have em' : mulVec b (List.replicate n 0 ++ [g]) = .ok m := em
  obtain ⟨m2, em2, vm2, lm2, nm2⟩ := mulVec_ok hb.limbs (limbs_hiVec (k := n) (show g - 1 < B by omega))
    hb.ne (hiVec_ne _ _)
  have em2' : mulVec b (List.replicate n 0 ++ [g - 1]) = .ok m2 := em2
  have hlow := lexCmp_lt ha lm nm
  rw [vm, val_hiVec] at hlow
  have key : ∀ (d : Nat) (m res : List Nat), 0 < d → d < B → Limbs m → Norm m →
      val m = val b * val (hiVec n d) → Limbs res → Norm res →
      Limbs (normalizeVec (subVec a m)) ∧ Norm (normalizeVec (subVec a m)) ∧
      Limbs (addVec res (hiVec n d)) ∧ Norm (addVec res (hiVec n d)) ∧
      val (addVec res (hiVec n d)) = val res + d * B ^ n ∧
      (val b * (d * B ^ n) ≤ val a → val (normalizeVec (subVec a m)) = val a - val b * (d * B ^ n)) := by
    intro d m res hd hdB lm nm vm hr nr
    refine ⟨limbs_normalize (subVec_limbs _ _), norm_normalize _, addVec_limbs _ _,
      addVec_norm hr (limbs_hiVec hdB) nr (norm_hiVec (by omega)), ?_, fun hle => ?_⟩
    · rw [addVec_val hr (limbs_hiVec hdB), val_hiVec]
    · rw [val_hiVec] at vm
      rw [← vm]
      exact subVecNorm_val ha lm nm (by omega)
  by_cases hl : lexCmp a m = .lt
  · refine ⟨g - 1, (hTd _).2 ⟨fun _ => rfl, fun h => absurd (hlow.1 hl) h⟩, ?_⟩
    by_cases h1 : g = 1
    · left
      subst h1
      refine ⟨rfl, fun res => ⟨addVec res (List.replicate n 0 ++ [0]), ?_⟩⟩
      have hm2 : m2 = [] := by
        refine val_inj lm2 (by simp [Limbs]) nm2 (by simp [Norm]) ?_
        rw [vm2, val_hiVec]; simp
      have hs : normalizeVec (subVec a []) = a := by
        refine val_inj (limbs_normalize (subVec_limbs _ _)) ha (norm_normalize _) na ?_
        have := subVecNorm_val ha (b := []) (by simp [Limbs]) (by simp [Norm]) (by simp)
        simpa [subVecNorm] using this
      unfold JsBig.divStep
      rw [hrun]
      simp only [bind, Except.bind]
      rw [em']
      dsimp only
      rw [if_pos hl, subU_ok (by omega)]
      dsimp only
      rw [em2', hm2]
      simp only [Nat.sub_self, hs]; rfl
    · refine .inr ⟨by omega, fun res hr nr => ?_⟩
      unfold JsBig.divStep
      rw [hrun]
      simp only [bind, Except.bind]
      rw [em']
      dsimp only
      rw [if_pos hl, subU_ok (by omega)]
      dsimp only
      rw [em2']
      exact ⟨_, _, rfl, key (g - 1) m2 res (by omega) (by omega) lm2 nm2 vm2 hr nr⟩
  · refine ⟨g, (hTd _).2 ⟨fun h => absurd (hlow.2 h) hl, fun _ => rfl⟩, .inr ⟨hpos, fun res hr nr => ?_⟩⟩
    unfold JsBig.divStep
    rw [hrun]
    simp only [bind, Except.bind]
    rw [em']
    dsimp only
    rw [if_neg hl]
    exact ⟨_, _, rfl, key g m res hpos hlt lm nm vm hr nr⟩

theorem takes_unique {a b d d' : Nat} (h : Takes a b d) (h' : Takes a b d') : d = d' := by
  by_cases hl : LowBefore a (b * (tried a b * base ^ place a b))
  · rw [h.1 hl, h'.1 hl]
  · rw [h.2 hl, h'.2 hl]

theorem jsLoop_end {a b res : List Nat} (ha : Limbs a) (na : Norm a) (hb : Limbs b) (nb : Norm b)
    (h : val a < val b) (fuel : Nat) : JsBig.divLoop b (fuel + 1) a res = .ok (res, a) := by
  unfold JsBig.divLoop
  rcases cmpVec_cases ha hb na nb with ⟨h, _⟩ | ⟨_, hv⟩ | ⟨_, hv⟩
  · rw [if_pos h]
  all_goals omega

theorem jsCmp_ge {a b : List Nat} (ha : Limbs a) (na : Norm a) (hb : Limbs b) (nb : Norm b)
    (h : val b ≤ val a) : cmpVec a b ≠ .lt := by
  rcases cmpVec_cases ha hb na nb with ⟨_, hv⟩ | ⟨h, _⟩ | ⟨h, _⟩
  · omega
  all_goals rw [h]; simp

theorem jsLoop_step {a a' b res res' : List Nat} (hc : cmpVec a b ≠ .lt)
    (e : JsBig.divStep a b res = .ok (a', res')) (fuel : Nat) :
    JsBig.divLoop b (fuel + 1) a res = JsBig.divLoop b fuel a' res' := by
  conv_lhs => unfold JsBig.divLoop
  rw [if_neg hc, e]; rfl

theorem goesWell_loop {b : List Nat} {c : Nat} (hb : Divisor b c) {n : Nat} (h : GoesWell (val b) n) :
    ∀ a res : List Nat, val a = n → Limbs a → Norm a → Limbs res → Norm res →
    ∃ q r, (∀ fuel, n < fuel → JsBig.divLoop b fuel a res = .ok (q, r)) ∧
      val q = val res + n / val b ∧ val r = n % val b := by
  have hb0 : 0 < val b := lt_of_lt_of_le hb.pos hb.le
  induction h with
  | small hlt =>
    rintro a res rfl ha na hr nr
    refine ⟨res, a, fun fuel hf => ?_, ?_, ?_⟩
    · obtain ⟨fuel, rfl⟩ : ∃ f, fuel = f + 1 := ⟨fuel - 1, by omega⟩
      exact jsLoop_end ha na hb.limbs hb.norm hlt fuel
    · rw [Nat.div_eq_of_lt hlt]; rfl
    · rw [Nat.mod_eq_of_lt hlt]
  | @digit x d hge ht hd hle _ ih =>
    rintro a res rfl ha na hr nr
    obtain ⟨d', ht', h⟩ := js_step hb ha na hge
    obtain rfl := takes_unique ht ht'
    rcases h with ⟨h0, -⟩ | ⟨-, h⟩
    · omega
    obtain ⟨a', res', e, la', na', lr', nr', vr, va⟩ := h res hr nr
    have va := va hle
    have hB : 0 < base ^ place (val a) (val b) := by have : 0 < base := by decide
                                                     positivity
    have hpos : 0 < val b * (d * base ^ place (val a) (val b)) := by positivity
    obtain ⟨q, r, hl, hq, hr'⟩ := ih a' res' va la' na' lr' nr'
    generalize d * base ^ place (val a) (val b) = t at *
    refine ⟨q, r, fun fuel hf => ?_, ?_, ?_⟩
    · obtain ⟨fuel, rfl⟩ : ∃ f, fuel = f + 1 := ⟨fuel - 1, by omega⟩
      rw [jsLoop_step (jsCmp_ge ha na hb.limbs hb.norm hge) e]
      exact hl fuel (by omega)
    · rw [hq, vr, Nat.sub_mul_div]
      have : t ≤ val a / val b := (Nat.le_div_iff_mul_le hb0).2 (by rw [Nat.mul_comm]; exact hle)
      omega
    · rw [hr', Nat.sub_mul_mod hle]

theorem loop_goesWell {b : List Nat} {c : Nat} (hb : Divisor b c) (fuel : Nat) :
    ∀ a res q r : List Nat, Limbs a → Norm a → Limbs res → Norm res →
    JsBig.divLoop b fuel a res = .ok (q, r) → val q = val res + val a / val b →
    GoesWell (val b) (val a) := by
  have hb0 : 0 < val b := lt_of_lt_of_le hb.pos hb.le
  induction fuel with
  | zero => intro a res q r _ _ _ _ e; cases e
  | succ fuel ih =>
    intro a res q r ha na hr nr e hq
    by_cases hlt : val a < val b
    · exact .small hlt
    have hge : val b ≤ val a := by omega
    have hc := jsCmp_ge ha na hb.limbs hb.norm hge
    obtain ⟨d, ht, ⟨-, h⟩ | ⟨hd, h⟩⟩ := js_step hb ha na hge
    · rw [JsBig.stuck_fuel h hc] at e; cases e
    obtain ⟨a', res', e1, la', na', lr', nr', vr, va⟩ := h res hr nr
    rw [jsLoop_step hc e1] at e
    rcases JsBig.divLoop_any hb.limbs hb.norm hb.ne fuel a' res' la' na' lr' nr' with
      h2 | ⟨q', r', h2, -, -, -, -, hrlt, k, hk⟩
    · rw [h2] at e; cases e
    rw [h2] at e
    cases e
    have hmono : val res' ≤ val q := by
      by_contra hcon
      have : val b * (val q + 1) ≤ val b * val res' := Nat.mul_le_mul_left _ (by omega)
      rw [Nat.mul_add, Nat.mul_one] at this
      omega
    have hle : val b * (d * base ^ place (val a) (val b)) ≤ val a := by
      have : d * base ^ place (val a) (val b) ≤ val a / val b := by omega
      rw [Nat.mul_comm]
      exact (Nat.le_div_iff_mul_le hb0).1 this
    have va := va hle
    refine .digit hge ht hd hle ?_
    rw [← va]
    refine ih a' res' q r la' na' lr' nr' h2 ?_
    have : d * base ^ place (val a) (val b) ≤ val a / val b :=
      (Nat.le_div_iff_mul_le hb0).2 (by rw [Nat.mul_comm]; exact hle)
    rw [va, Nat.sub_mul_div, hq, vr]
    omega

end LongDiv
end Nanvm
