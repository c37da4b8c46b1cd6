import Verif.Lemmas.DivAny
import Verif.Spec.LongDivision
/-!
# The division of `big_uint.rs`, exactly (C11)
-/
namespace Nanvm
namespace LongDiv

theorem base_eq : base = B := rfl

/-- the loop of the division, on numbers: `c` is the divisor with only its first digit -/
def outcome (c b : Nat) : Nat → Nat → Option (Nat × Nat)
  | 0, a => some (0, a)
  | n + 1, a =>
    if a / (b * B ^ n) + 1 < a / (c * B ^ n) then some ((a / (c * B ^ n) - 1) * B ^ n, 0)
    else if 0 < n ∧ c * B ^ n ≤ a % (b * B ^ n) then none
    else (outcome c b n (a % (b * B ^ n))).map fun x => (a / (b * B ^ n) * B ^ n + x.1, x.2)

/-! ## The loop -/

theorem leading_val {lo : List Nat} {u : Nat} (hl : Limbs lo) (hu : u < B) (h0 : 0 < u) :
    leading (val (lo ++ [u])) = val (hiVec lo.length u) := by
  have hv : val (lo ++ [u]) = val lo + B ^ lo.length * u := by
    rw [val_append]; simp [val_cons]
  have hlt := val_lt hl
  have hlog : Nat.log base (val (lo ++ [u])) = lo.length := by
    rw [base_eq]
    refine (Nat.log_eq_iff (.inr ⟨by decide, by rw [hv]; have := B_pos; positivity⟩)).2 ⟨?_, ?_⟩
    · rw [hv]
      calc B ^ lo.length = B ^ lo.length * 1 := (Nat.mul_one _).symm
        _ ≤ B ^ lo.length * u := Nat.mul_le_mul_left _ h0
        _ ≤ _ := Nat.le_add_left _ _
    · rw [hv, pow_succ]
      calc val lo + B ^ lo.length * u < B ^ lo.length + B ^ lo.length * u := by omega
        _ = B ^ lo.length * (u + 1) := by ring
        _ ≤ B ^ lo.length * B := Nat.mul_le_mul_left _ hu
  unfold leading
  rw [hlog, base_eq, hv, val_hiVec]
  congr 1
  rw [Nat.add_mul_div_left _ _ (by have := B_pos; positivity), Nat.div_eq_of_lt hlt, Nat.zero_add]

/-- a divisor and its first digit -/
structure Divisor (b : List Nat) (c : Nat) : Prop where
  limbs : Limbs b
  norm : Norm b
  ne : b ≠ []
  lead : leading (val b) = c
  pos : 0 < c
  le : c ≤ val b
  lt : val b < 2 * c
  est : ∀ {a : List Nat} {n : Nat}, Limbs a → Norm a → c * B ^ n ≤ val a → val a < c * B ^ (n + 1) →
    JsBig.qEstimate a b = .ok (n, val a / (c * B ^ n)) ∧ val a / (c * B ^ n) < B

theorem divisor {b : List Nat} (hb : Limbs b) (nb : Norm b) (hb0 : b ≠ []) :
    Divisor b (leading (val b)) := by
  rcases List.eq_nil_or_concat b with rfl | ⟨lo, u, rfl⟩
  · exact absurd rfl hb0
  simp only [List.concat_eq_append] at *
  have hu : u ≠ 0 := norm_append_singleton.1 nb
  have hb' := hb
  rw [limbs_append, limbs_cons] at hb'
  have e := leading_val hb'.1 hb'.2.1 (Nat.pos_of_ne_zero hu)
  have hpos : 0 < val (hiVec lo.length u) := by
    rw [val_hiVec]; have := B_pos; have := Nat.pos_of_ne_zero hu; positivity
  have hlo := val_lt hb'.1
  have hv : val (lo ++ [u]) = val lo + val (hiVec lo.length u) := by
    rw [val_append, val_hiVec]; simp [val_cons, Nat.mul_comm]
  have hge : B ^ lo.length ≤ val (hiVec lo.length u) := by
    rw [val_hiVec]; exact Nat.le_mul_of_pos_left _ (Nat.pos_of_ne_zero hu)
  refine ⟨hb, nb, hb0, rfl, by rw [e]; exact hpos, by rw [e]; omega, by rw [e]; omega, ?_⟩
  rw [e]
  intro a n ha na h1 h2
  have hle : val (hiVec lo.length u) ≤ val a :=
    le_trans (Nat.le_mul_of_pos_right _ (by have := B_pos; positivity)) h1
  obtain ⟨qi, qd, h⟩ := est_exists ha na hb'.2.1 (Nat.pos_of_ne_zero hu) hle
  have hqi : qi = n := by
    have := h.index (Nat.pos_of_ne_zero hu) h2
    have := h.index_le (Nat.pos_of_ne_zero hu) h1
    omega
  subst hqi
  have hqd : val a / (val (hiVec lo.length u) * B ^ qi) = qd := by
    rw [val_hiVec]
    refine Nat.div_eq_of_lt_le ?_ ?_
    · calc qd * (u * B ^ lo.length * B ^ qi) = u * B ^ lo.length * (qd * B ^ qi) := by ring
        _ ≤ _ := h.le
    · calc val a < u * B ^ lo.length * ((qd + 1) * B ^ qi) := h.hi
        _ = _ := by ring
  rw [hqd]
  exact ⟨by rw [qEstimate_hiVec]; exact h.run, h.lt⟩

theorem mul_hiVec {b : List Nat} (hb0 : b ≠ []) (qi d : Nat) :
    BigUint.mul b (List.replicate qi 0 ++ [d]) = mulVec b (hiVec qi d) := by
  unfold BigUint.mul
  rw [if_neg (by simp [BigUint.isZero, hb0])]; rfl

theorem step_stuck {a b : List Nat} (ha : Limbs a) (na : Norm a) (hb : Limbs b) (hb0 : b ≠ []) {n : Nat}
    (hrun : JsBig.qEstimate a b = .ok (n, 1)) (hlt : val a < val b * B ^ n) : BigUint.Stuck a b := by
  intro res
  obtain ⟨m, em, vm, lm, nm⟩ := mulVec_ok hb (limbs_hiVec (k := n) (show 1 < B by decide)) hb0 (hiVec_ne _ _)
  obtain ⟨m2, em2, vm2, lm2, nm2⟩ := mulVec_ok hb (limbs_hiVec (k := n) (show 1 - 1 < B by decide))
    hb0 (hiVec_ne _ _)
  have hl : BigUint.cmp a m = .lt := by
    unfold BigUint.cmp
    rw [val_hiVec, Nat.one_mul] at vm
    rcases cmpVec_cases ha lm na nm with ⟨h, _⟩ | ⟨_, hv⟩ | ⟨_, hv⟩
    · exact h
    all_goals omega
  refine ⟨BigUint.add res (List.replicate n 0 ++ [0]), ?_⟩
  have hm2 : m2 = [] := by
    refine val_inj lm2 (by simp [Limbs]) nm2 (by simp [Norm]) ?_
    rw [vm2, val_hiVec]; simp
  have hs : BigUint.sub a [] = a := by
    obtain ⟨h1, h2, h3⟩ := BigUint.sub_spec ha na (m := []) (by simp [Limbs]) (by simp [Norm])
    exact val_inj h1 ha h2 na (by simpa using h3)
  unfold BigUint.divStep
  rw [hrun]
  simp only [bind, Except.bind, mul_hiVec hb0]
  rw [em]
  dsimp only
  rw [if_pos hl, subU_ok (by omega)]
  dsimp only
  rw [em2, hm2]
  simp only [Nat.sub_self, hs]; rfl

theorem step_moves {a b res : List Nat} (ha : Limbs a) (na : Norm a) (hb : Limbs b) (hb0 : b ≠ [])
    (hr : Limbs res) (nr : Norm res) {n g : Nat} (hg : g < B) (d : Nat) (hd : 0 < d)
    (hrun : JsBig.qEstimate a b = .ok (n, g))
    (hdg : d = if val a < val b * (g * B ^ n) then g - 1 else g) :
    ∃ a' res', BigUint.divStep a b res = .ok (a', res') ∧ Limbs a' ∧ Norm a' ∧ Limbs res' ∧ Norm res' ∧
      val a' = val a - val b * (d * B ^ n) ∧ val res' = val res + d * B ^ n := by
  obtain ⟨m, em, vm, lm, nm⟩ := mulVec_ok hb (limbs_hiVec (k := n) hg) hb0 (hiVec_ne _ _)
  obtain ⟨m2, em2, vm2, lm2, nm2⟩ := mulVec_ok hb (limbs_hiVec (k := n) (show g - 1 < B by omega))
    hb0 (hiVec_ne _ _)
  have key : ∀ m : List Nat, Limbs m → Norm m → val m = val b * val (hiVec n d) → d < B →
      Limbs (BigUint.sub a m) ∧ Norm (BigUint.sub a m) ∧
      Limbs (BigUint.add res (hiVec n d)) ∧ Norm (BigUint.add res (hiVec n d)) ∧
      val (BigUint.sub a m) = val a - val b * (d * B ^ n) ∧
      val (BigUint.add res (hiVec n d)) = val res + d * B ^ n := by
    intro m lm nm vm hdB
    obtain ⟨h1, h2, h3⟩ := BigUint.sub_spec ha na lm nm
    refine ⟨h1, h2, addVec_limbs _ _, addVec_norm hr (limbs_hiVec hdB) nr (norm_hiVec (by omega)), ?_, ?_⟩
    · rw [h3, vm, val_hiVec]
    · have : val (BigUint.add res (hiVec n d)) = val res + val (hiVec n d) :=
        addVec_val hr (limbs_hiVec hdB)
      rw [this, val_hiVec]
  unfold BigUint.divStep
  rw [hrun]
  simp only [bind, Except.bind, mul_hiVec hb0]
  rw [em]
  dsimp only
  rw [val_hiVec] at vm
  by_cases hlt : val a < val b * (g * B ^ n)
  · rw [if_pos hlt] at hdg
    have hl : BigUint.cmp a m = .lt := by
      unfold BigUint.cmp
      rcases cmpVec_cases ha lm na nm with ⟨h, _⟩ | ⟨_, hv⟩ | ⟨_, hv⟩
      · exact h
      all_goals omega
    rw [if_pos hl, subU_ok (by omega)]
    dsimp only
    rw [em2]
    subst hdg
    exact ⟨_, _, rfl, key m2 lm2 nm2 vm2 (by omega)⟩
  · rw [if_neg hlt] at hdg
    have hl : BigUint.cmp a m ≠ .lt := by
      unfold BigUint.cmp
      rcases cmpVec_cases ha lm na nm with ⟨_, hv⟩ | ⟨h, _⟩ | ⟨h, _⟩
      · omega
      all_goals rw [h]; simp
    rw [if_neg hl]
    subst hdg
    exact ⟨_, _, rfl, key m lm nm (by rw [vm, val_hiVec]) hg⟩

theorem loop_end {a b res : List Nat} (ha : Limbs a) (na : Norm a) (hb : Limbs b) (nb : Norm b)
    (h : val a < val b) (fuel : Nat) : BigUint.divLoop b (fuel + 1) a res = .ok (res, a) := by
  unfold BigUint.divLoop BigUint.cmp
  rcases cmpVec_cases ha hb na nb with ⟨h, _⟩ | ⟨_, hv⟩ | ⟨_, hv⟩
  · rw [if_pos h]
  all_goals omega

theorem cmp_ge {a b : List Nat} (ha : Limbs a) (na : Norm a) (hb : Limbs b) (nb : Norm b)
    (h : val b ≤ val a) : BigUint.cmp a b ≠ .lt := by
  unfold BigUint.cmp
  rcases cmpVec_cases ha hb na nb with ⟨_, hv⟩ | ⟨h, _⟩ | ⟨h, _⟩
  · omega
  all_goals rw [h]; simp

theorem loop_step {a a' b res res' : List Nat} (hc : BigUint.cmp a b ≠ .lt)
    (e : BigUint.divStep a b res = .ok (a', res')) (fuel : Nat) :
    BigUint.divLoop b (fuel + 1) a res = BigUint.divLoop b fuel a' res' := by
  conv_lhs => unfold BigUint.divLoop
  rw [if_neg hc, e]; rfl

/-- what the loop does -/
def Does (b : List Nat) (n : Nat) (a res : List Nat) : Option (Nat × Nat) → Prop
  | none => ∀ fuel, BigUint.divLoop b fuel a res = .error .fuel
  | some (x, y) => ∃ q r, (∀ fuel, n < fuel → BigUint.divLoop b fuel a res = .ok (q, r)) ∧
      Limbs q ∧ Norm q ∧ Limbs r ∧ Norm r ∧ val q = val res + x ∧ val r = y

theorem loop_outcome {b : List Nat} {c : Nat} (hb : Divisor b c) (n : Nat) (a res : List Nat)
    (ha : Limbs a) (na : Norm a) (hr : Limbs res) (nr : Norm res) (h1 : val a < val b * B ^ n)
    (h2 : 0 < n → val a < c * B ^ n) : Does b n a res (outcome c (val b) n (val a)) := by
  induction n generalizing a res with
  | zero =>
    rw [pow_zero, Nat.mul_one] at h1
    refine ⟨res, a, fun fuel hf => ?_, hr, nr, ha, na, rfl, rfl⟩
    obtain ⟨fuel, rfl⟩ : ∃ f, fuel = f + 1 := ⟨fuel - 1, by omega⟩
    exact loop_end ha na hb.limbs hb.norm h1 fuel
  | succ n ih =>
    have h2 := h2 (by omega)
    have hBn : 0 < B ^ n := by have := B_pos; positivity
    have hbn : 0 < val b * B ^ n := Nat.mul_pos (lt_of_lt_of_le hb.pos hb.le) hBn
    have hcn : 0 < c * B ^ n := Nat.mul_pos hb.pos hBn
    have hcb : c * B ^ n ≤ val b * B ^ n := Nat.mul_le_mul_right _ hb.le
    have hb2 : val b * B ^ n < 2 * (c * B ^ n) := by
      rw [← Nat.mul_assoc]; exact Nat.mul_lt_mul_of_pos_right hb.lt hBn
    have hbge {a : Nat} (hn : 0 < n) (h : c * B ^ n ≤ a) : val b ≤ a := by
      refine le_trans ?_ h
      calc val b ≤ 2 * c := by have := hb.lt; omega
        _ ≤ B * c := Nat.mul_le_mul_right _ (by decide)
        _ = c * B ^ 1 := by ring
        _ ≤ c * B ^ n := Nat.mul_le_mul_left _ (Nat.pow_le_pow_right (by decide) hn)
    -- the loop at a position where a digit 1 is guessed that is 0
    have stuck {a res : List Nat} (ha : Limbs a) (na : Norm a) (hn : 0 < n) (h : c * B ^ n ≤ val a)
        (h' : val a < val b * B ^ n) (fuel : Nat) : BigUint.divLoop b fuel a res = .error .fuel := by
      refine BigUint.stuck_fuel (step_stuck ha na hb.limbs hb.ne (n := n) ?_ h')
        (cmp_ge ha na hb.limbs hb.norm (hbge hn h)) _ _
      have he := (hb.est ha na h (by
        rw [pow_succ]
        calc val a < 2 * (c * B ^ n) := by omega
          _ ≤ B * (c * B ^ n) := Nat.mul_le_mul_right _ (by decide)
          _ = c * (B ^ n * B) := by ring)).1
      have : val a / (c * B ^ n) = 1 := Nat.div_eq_of_lt_le (by omega) (by omega)
      rw [this] at he
      exact he
    unfold outcome
    by_cases hd : val a < val b * B ^ n
    · -- the digit is 0
      have hg : val a / (c * B ^ n) ≤ 1 := by
        have : val a / (c * B ^ n) < 2 := Nat.div_lt_of_lt_mul (by rw [Nat.mul_comm]; omega)
        omega
      rw [Nat.div_eq_of_lt hd, if_neg (by omega), Nat.mod_eq_of_lt hd]
      by_cases hs : 0 < n ∧ c * B ^ n ≤ val a
      · rw [if_pos hs]
        exact fun fuel => stuck ha na hs.1 hs.2 hd fuel
      · rw [if_neg hs]
        have hi := ih a res ha na hr nr hd (fun hn => by
          by_contra hc; exact hs ⟨hn, by omega⟩)
        cases ho : outcome c (val b) n (val a) with
        | none => rw [ho] at hi; exact hi
        | some x =>
          obtain ⟨x, y⟩ := x
          rw [ho] at hi
          obtain ⟨q, r, e, hq, nq, hr', nr', e1, e2⟩ := hi
          exact ⟨q, r, fun fuel hf => e fuel (by omega), hq, nq, hr', nr', by simpa using e1, e2⟩
    · -- the digit is not 0
      have hd : val b * B ^ n ≤ val a := by omega
      have hge : val b ≤ val a := le_trans (Nat.le_mul_of_pos_right _ hBn) hd
      have hc := cmp_ge ha na hb.limbs hb.norm hge
      obtain ⟨hrun, hgB⟩ := hb.est ha na (le_trans hcb hd) h2
      generalize hgd : val a / (c * B ^ n) = g at *
      generalize hdd : val a / (val b * B ^ n) = d at *
      have hd1 : 0 < d := by rw [← hdd]; exact Nat.div_pos hd hbn
      have hdle : val b * B ^ n * d ≤ val a := by rw [← hdd]; exact Nat.mul_div_le _ _
      have hdlt : val a < val b * B ^ n * (d + 1) := by rw [← hdd]; exact Nat.lt_mul_div_succ _ hbn
      have hdg : d ≤ g := by
        rw [← hdd, ← hgd]
        exact Nat.div_le_div_left hcb hcn
      have hm {k : Nat} : val b * (k * B ^ n) = val b * B ^ n * k := by ring
      by_cases ho : d + 1 < g
      · rw [if_pos ho]
        have hbig : val b * B ^ n * (d + 1) ≤ val b * B ^ n * (g - 1) := Nat.mul_le_mul_left _ (by omega)
        have hbig' : val b * B ^ n * (g - 1) ≤ val b * B ^ n * g := Nat.mul_le_mul_left _ (by omega)
        obtain ⟨a', res', e, la', na', lr', nr', va', vr'⟩ := step_moves ha na hb.limbs hb.ne hr nr hgB
          (g - 1) (by omega) hrun (by rw [if_pos (by rw [hm]; omega)])
        rw [hm] at va'
        have va0 : val a' = 0 := by omega
        refine ⟨res', a', fun fuel hf => ?_, lr', nr', la', na', vr', va0⟩
        obtain ⟨fuel, rfl⟩ : ∃ f, fuel = f + 2 := ⟨fuel - 2, by omega⟩
        rw [loop_step hc e]
        exact loop_end la' na' hb.limbs hb.norm (by rw [va0]; have := hb.pos; have := hb.le; omega) fuel
      · rw [if_neg ho]
        obtain ⟨a', res', e, la', na', lr', nr', va', vr'⟩ := step_moves ha na hb.limbs hb.ne hr nr hgB
          d hd1 hrun (by
            rw [hm]
            split
            · rename_i hlt
              have : g ≠ d := fun e => by rw [e] at hlt; omega
              omega
            · rename_i hlt
              by_contra hne
              have : g = d + 1 := by omega
              rw [this] at hlt
              omega)
        rw [hm] at va'
        have hmod : val a % (val b * B ^ n) = val a' := by
          have := Nat.div_add_mod (val a) (val b * B ^ n)
          rw [hdd] at this
          omega
        have hlt' : val a' < val b * B ^ n := by rw [← hmod]; exact Nat.mod_lt _ hbn
        rw [hmod]
        by_cases hs : 0 < n ∧ c * B ^ n ≤ val a'
        · rw [if_pos hs]
          intro fuel
          cases fuel with
          | zero => rfl
          | succ fuel => rw [loop_step hc e]; exact stuck la' na' hs.1 hs.2 hlt' fuel
        · rw [if_neg hs]
          have hi := ih a' res' la' na' lr' nr' hlt' (fun hn => by
            by_contra hc; exact hs ⟨hn, by omega⟩)
          cases ho : outcome c (val b) n (val a') with
          | none =>
            rw [ho] at hi
            intro fuel
            cases fuel with
            | zero => rfl
            | succ fuel => rw [loop_step hc e]; exact hi fuel
          | some x =>
            obtain ⟨x, y⟩ := x
            rw [ho] at hi
            obtain ⟨q, r, e', hq, nq, hr', nr', e1, e2⟩ := hi
            refine ⟨q, r, fun fuel hf => ?_, hq, nq, hr', nr', by simp only [e1, vr']; omega, e2⟩
            obtain ⟨fuel, rfl⟩ : ∃ f, fuel = f + 1 := ⟨fuel - 1, by omega⟩
            rw [loop_step hc e]
            exact e' fuel (by omega)

/-! ## What the outcome is -/

theorem mod_low {a b i n : Nat} (h : i ≤ n) : a % (b * B ^ n) % (b * B ^ i) = a % (b * B ^ i) :=
  Nat.mod_mod_of_dvd _ (Nat.mul_dvd_mul_left _ (pow_dvd_pow _ h))

theorem digit_low {a b i n : Nat} (h : i < n) : digit (a % (b * B ^ n)) b i = digit a b i := by
  unfold digit; rw [base_eq, mod_low h]

theorem guess_low {a b i n : Nat} (h : i < n) : guess (a % (b * B ^ n)) b i = guess a b i := by
  unfold guess; rw [base_eq, mod_low h]

theorem overshoots_low {a b i n : Nat} (h : i < n) :
    Overshoots (a % (b * B ^ n)) b i ↔ Overshoots a b i := by
  unfold Overshoots; rw [digit_low h, guess_low h]

theorem sticks_low {a b i n : Nat} (h : i ≤ n) : Sticks (a % (b * B ^ n)) b i ↔ Sticks a b i := by
  unfold Sticks; rw [base_eq, mod_low h]

theorem digit_top {a b n : Nat} (h : a < b * B ^ (n + 1)) : digit a b n = a / (b * B ^ n) := by
  unfold digit; rw [base_eq, Nat.mod_eq_of_lt h]

theorem guess_top {a b n : Nat} (h : a < b * B ^ (n + 1)) : guess a b n = a / (leading b * B ^ n) := by
  unfold guess; rw [base_eq, Nat.mod_eq_of_lt h]

/-- the last position to look at -/
structure Bounded (a b n : Nat) : Prop where
  pos : 0 < leading b
  le : leading b ≤ b
  lt : b < 2 * leading b
  num : a < b * B ^ n
  first : 0 < n → a < leading b * B ^ n

theorem Bounded.beyond {a b n : Nat} (h : Bounded a b n) {j : Nat} (hj : n ≤ j) :
    ¬ Overshoots a b j ∧ ¬ Sticks a b j := by
  have hB : 0 < B := B_pos
  have hlt : a < b * B ^ j := lt_of_lt_of_le h.num (Nat.mul_le_mul_left _ (Nat.pow_le_pow_right hB hj))
  have hlt' : a < b * B ^ (j + 1) :=
    lt_of_lt_of_le hlt (Nat.mul_le_mul_left _ (Nat.pow_le_pow_right hB (by omega)))
  have h2 : b * B ^ j < 2 * (leading b * B ^ j) := by
    rw [← Nat.mul_assoc]; exact Nat.mul_lt_mul_of_pos_right h.lt (by positivity)
  constructor
  · unfold Overshoots
    rw [digit_top hlt', guess_top hlt', Nat.div_eq_of_lt hlt]
    have : a / (leading b * B ^ j) < 2 := Nat.div_lt_of_lt_mul (by rw [Nat.mul_comm]; omega)
    omega
  · rintro ⟨h0, hs⟩
    rw [base_eq, Nat.mod_eq_of_lt hlt] at hs
    rcases Nat.eq_zero_or_pos n with rfl | hn
    · have h1 := h.num
      rw [pow_zero, Nat.mul_one] at h1
      have : 2 * leading b ≤ leading b * B ^ j := by
        rw [Nat.mul_comm 2]
        refine Nat.mul_le_mul_left _ ?_
        calc 2 ≤ B ^ 1 := by decide
          _ ≤ B ^ j := Nat.pow_le_pow_right hB h0
      have := h.lt
      omega
    · have h1 := h.first hn
      have : leading b * B ^ n ≤ leading b * B ^ j :=
        Nat.mul_le_mul_left _ (Nat.pow_le_pow_right hB hj)
      omega

theorem Bounded.next {a b n : Nat} (h : Bounded a b (n + 1)) (hs : ¬ Sticks a b n) :
    Bounded (a % (b * B ^ n)) b n where
  pos := h.pos
  le := h.le
  lt := h.lt
  num := Nat.mod_lt _ (Nat.mul_pos (lt_of_lt_of_le h.pos h.le) (by have := B_pos; positivity))
  first hn := by
    by_contra hc
    exact hs ⟨hn, by rw [base_eq]; omega⟩

theorem div_add {a b n : Nat} (h : 0 < b) (i : Nat) (hi : i ≤ n) :
    a / (b * B ^ n) * B ^ (n - i) + a % (b * B ^ n) / (b * B ^ i) = a / (b * B ^ i) := by
  have hB : 0 < B ^ i := by have := B_pos; positivity
  have e : b * B ^ n = b * B ^ i * B ^ (n - i) := by
    rw [Nat.mul_assoc, ← pow_add]; congr 2; omega
  conv_rhs => rw [← Nat.div_add_mod a (b * B ^ n)]
  rw [e, Nat.mul_assoc (b * B ^ i), Nat.mul_add_div (Nat.mul_pos h hB), Nat.mul_comm (B ^ (n - i))]

theorem outcome_fine {n a b : Nat} (h : Bounded a b n) (hf : ∀ i, ¬ Overshoots a b i ∧ ¬ Sticks a b i) :
    outcome (leading b) b n a = some (a / b, a % b) := by
  have hb : 0 < b := lt_of_lt_of_le h.pos h.le
  induction n generalizing a with
  | zero =>
    have := h.num
    rw [pow_zero, Nat.mul_one] at this
    rw [outcome, Nat.div_eq_of_lt this, Nat.mod_eq_of_lt this]
  | succ n ih =>
    have ho := (hf n).1
    have hs := (hf n).2
    have hn := h.next hs
    unfold outcome
    rw [if_neg (by unfold Overshoots at ho; rwa [digit_top h.num, guess_top h.num] at ho),
      if_neg (by unfold Sticks at hs; rwa [base_eq] at hs), ih hn ?_]
    · have h1 := div_add (a := a) (n := n) hb 0 (Nat.zero_le _)
      have h2 := mod_low (a := a) (b := b) (Nat.zero_le n)
      simp only [pow_zero, Nat.mul_one, Nat.sub_zero] at h1 h2
      simp only [Option.map_some, h1, h2]
    · intro i
      rcases Nat.lt_or_ge i n with hi | hi
      · rw [overshoots_low hi, sticks_low (by omega)]; exact hf i
      · exact hn.beyond hi

theorem FineAbove.low {a b i n : Nat} (hn : Bounded (a % (b * B ^ n)) b n) (hf : FineAbove a b i) :
    FineAbove (a % (b * B ^ n)) b i := by
  intro j hj
  rcases Nat.lt_or_ge j n with h | h
  · rw [overshoots_low h, sticks_low (by omega)]; exact hf j hj
  · exact hn.beyond h

theorem outcome_over {n a b i : Nat} (h : Bounded a b n) (ho : Overshoots a b i) (hf : FineAbove a b i) :
    outcome (leading b) b n a =
      some (a / (b * B ^ (i + 1)) * B ^ (i + 1) + (guess a b i - 1) * B ^ i, 0) := by
  have hb : 0 < b := lt_of_lt_of_le h.pos h.le
  induction n generalizing a with
  | zero => exact absurd ho (h.beyond (Nat.zero_le _)).1
  | succ n ih =>
    have hi : i ≤ n := by
      by_contra hc
      exact (h.beyond (j := i) (by omega)).1 ho
    unfold outcome
    rcases Nat.lt_or_ge i n with hlt | hge
    · have ho' := (hf n hlt).1
      have hs := (hf n hlt).2
      have hn := h.next hs
      rw [if_neg (by unfold Overshoots at ho'; rwa [digit_top h.num, guess_top h.num] at ho'),
        if_neg (by unfold Sticks at hs; rwa [base_eq] at hs),
        ih hn ((overshoots_low hlt).2 ho) (hf.low hn)]
      rw [guess_low hlt]
      have h1 := div_add (a := a) (n := n) hb (i + 1) hlt
      simp only [Option.map_some, ← h1]
      rw [Nat.add_mul, Nat.mul_assoc, ← pow_add, Nat.sub_add_cancel hlt, Nat.add_assoc]
    · obtain rfl : i = n := by omega
      unfold Overshoots at ho
      rw [digit_top h.num, guess_top h.num] at ho
      rw [if_pos ho, guess_top h.num, Nat.div_eq_of_lt h.num]
      simp

theorem outcome_stuck {n a b i : Nat} (h : Bounded a b n) (ho : ¬ Overshoots a b i) (hs : Sticks a b i)
    (hf : FineAbove a b i) : outcome (leading b) b n a = none := by
  induction n generalizing a with
  | zero => exact absurd hs (h.beyond (Nat.zero_le _)).2
  | succ n ih =>
    have hi : i ≤ n := by
      by_contra hc
      exact (h.beyond (j := i) (by omega)).2 hs
    unfold outcome
    rcases Nat.lt_or_ge i n with hlt | hge
    · have ho' := (hf n hlt).1
      have hs' := (hf n hlt).2
      have hn := h.next hs'
      rw [if_neg (by unfold Overshoots at ho'; rwa [digit_top h.num, guess_top h.num] at ho'),
        if_neg (by unfold Sticks at hs'; rwa [base_eq] at hs'),
        ih hn (mt (overshoots_low hlt).1 ho) ((sticks_low (by omega)).2 hs) (hf.low hn)]
      rfl
    · obtain rfl : i = n := by omega
      unfold Overshoots at ho
      rw [digit_top h.num, guess_top h.num] at ho
      unfold Sticks at hs
      rw [base_eq] at hs
      rw [if_neg ho, if_pos hs]

/-- one of the three -/
theorem three {n a b : Nat} (h : Bounded a b n) :
    (∀ i, ¬ Overshoots a b i ∧ ¬ Sticks a b i) ∨
      (∃ i, Overshoots a b i ∧ FineAbove a b i) ∨
      ∃ i, ¬ Overshoots a b i ∧ Sticks a b i ∧ FineAbove a b i := by
  have key : ∀ m, m ≤ n → (∀ i, n - m ≤ i → ¬ Overshoots a b i ∧ ¬ Sticks a b i) ∨
      (∃ i, Overshoots a b i ∧ FineAbove a b i) ∨
      ∃ i, ¬ Overshoots a b i ∧ Sticks a b i ∧ FineAbove a b i := by
    intro m
    induction m with
    | zero => exact fun _ => .inl fun i hi => h.beyond (by omega)
    | succ m ih =>
      intro hm
      rcases ih (by omega) with hf | hf
      · have hfa : FineAbove a b (n - (m + 1)) := fun j hj => hf j (by omega)
        by_cases ho : Overshoots a b (n - (m + 1))
        · exact .inr (.inl ⟨_, ho, hfa⟩)
        · by_cases hs : Sticks a b (n - (m + 1))
          · exact .inr (.inr ⟨_, ho, hs, hfa⟩)
          · refine .inl fun i hi => ?_
            rcases Nat.lt_or_ge (n - (m + 1)) i with h1 | h1
            · exact hfa i h1
            · obtain rfl : i = n - (m + 1) := by omega
              exact ⟨ho, hs⟩
      · exact .inr hf
  rcases key n le_rfl with hf | hf
  · exact .inl fun i => hf i (by omega)
  · exact .inr hf

/-! ## `div_mod` -/

theorem divLoop_mono {b : List Nat} {f f' : Nat} (h : f ≤ f') {a res : List Nat}
    {x : List Nat × List Nat} (e : BigUint.divLoop b f a res = .ok x) :
    BigUint.divLoop b f' a res = .ok x := by
  induction f generalizing f' a res with
  | zero => cases e
  | succ f ih =>
    obtain ⟨f', rfl⟩ : ∃ g, f' = g + 1 := ⟨f' - 1, by omega⟩
    unfold BigUint.divLoop at e ⊢
    split
    · rename_i hc; rw [if_pos hc] at e; exact e
    · rename_i hc
      rw [if_neg hc] at e
      cases hs : BigUint.divStep a b res with
      | error x => rw [hs] at e; cases e
      | ok y => rw [hs] at e; exact ih (by omega) e

theorem divMod_mono {a b : List Nat} {f f' : Nat} (h : f ≤ f') {x : List Nat × List Nat}
    (e : BigUint.divMod f a b = .ok x) : BigUint.divMod f' a b = .ok x := by
  unfold BigUint.divMod at e ⊢
  split
  · rename_i hz; rw [if_pos hz] at e; cases e
  · rename_i hz
    rw [if_neg hz] at e
    cases hc : BigUint.cmp a b with
    | lt => rw [hc] at e; exact e
    | eq => rw [hc] at e; exact e
    | gt => rw [hc] at e; exact divLoop_mono h e

theorem bounded {a b : List Nat} (ha : Limbs a) (hb : Limbs b) (nb : Norm b) (hb0 : b ≠ []) :
    Bounded (val a) (val b) a.length := by
  have hd := divisor hb nb hb0
  have h1 : val a < leading (val b) * B ^ a.length :=
    lt_of_lt_of_le (val_lt ha) (Nat.le_mul_of_pos_left _ hd.pos)
  exact ⟨hd.pos, hd.le, hd.lt, lt_of_lt_of_le h1 (Nat.mul_le_mul_right _ hd.le), fun _ => h1⟩

/-- what the division does -/
theorem divMod_outcome {a b : List Nat} (ha : Limbs a) (na : Norm a) (hb : Limbs b) (nb : Norm b)
    (hb0 : b ≠ []) :
    match outcome (leading (val b)) (val b) a.length (val a) with
    | none => ∀ fuel, BigUint.divMod fuel a b = .error .fuel
    | some (x, y) => ∃ q r, (∀ fuel, a.length < fuel → BigUint.divMod fuel a b = .ok (q, r)) ∧
      Limbs q ∧ Norm q ∧ Limbs r ∧ Norm r ∧ val q = x ∧ val r = y := by
  have hd := divisor hb nb hb0
  have hbd := bounded ha hb nb hb0
  have hz : BigUint.isZero b = false := by simp [BigUint.isZero, hb0]
  unfold BigUint.divMod
  rw [hz]
  simp only [Bool.false_eq_true, if_false]
  rcases cmpVec_cases ha hb na nb with ⟨h, hv⟩ | ⟨h, hv⟩ | ⟨h, hv⟩
  · have hs : Bounded (val a) (val b) 0 := ⟨hd.pos, hd.le, hd.lt, by simpa using hv, by simp⟩
    rw [outcome_fine hbd fun i => hs.beyond (Nat.zero_le i), Nat.div_eq_of_lt hv, Nat.mod_eq_of_lt hv]
    simp only [BigUint.cmp, h]
    exact ⟨[], a, fun _ _ => rfl, by simp [Limbs], by simp [Norm], ha, na, rfl, rfl⟩
  · have hpos : 0 < val b := lt_of_lt_of_le hd.pos hd.le
    have hf : ∀ i, ¬ Overshoots (val a) (val b) i ∧ ¬ Sticks (val a) (val b) i := by
      have hs : Bounded (val a) (val b) 1 := ⟨hd.pos, hd.le, hd.lt, by
          rw [hv, pow_one]; exact lt_mul_of_one_lt_right hpos (by decide), fun _ => by
          rw [hv, pow_one]
          calc val b < 2 * leading (val b) := hd.lt
            _ ≤ B * leading (val b) := Nat.mul_le_mul_right _ (by decide)
            _ = _ := Nat.mul_comm _ _⟩
      intro i
      rcases Nat.eq_zero_or_pos i with rfl | hi
      · refine ⟨?_, fun h => absurd h.1 (by decide)⟩
        unfold Overshoots
        rw [digit_top hs.num, guess_top hs.num, pow_zero, Nat.mul_one, Nat.mul_one, hv, Nat.div_self hpos]
        have : val b / leading (val b) < 2 := Nat.div_lt_of_lt_mul (by rw [Nat.mul_comm]; exact hd.lt)
        omega
      · exact hs.beyond hi
    rw [outcome_fine hbd hf, hv, Nat.div_self hpos, Nat.mod_self]
    simp only [BigUint.cmp, h]
    exact ⟨[1], [], fun _ _ => rfl, by simp [Limbs, B], by simp [Norm], by simp [Limbs], by simp [Norm],
      by simp [val_cons], rfl⟩
  · simp only [BigUint.cmp, h]
    have := loop_outcome hd a.length a [] ha na (by simp [Limbs]) (by simp [Norm]) hbd.num hbd.first
    cases ho : outcome (leading (val b)) (val b) a.length (val a) with
    | none => rw [ho] at this; exact this
    | some x =>
      obtain ⟨x, y⟩ := x
      rw [ho] at this
      obtain ⟨q, r, h1, h2, h3, h4, h5, h6, h7⟩ := this
      exact ⟨q, r, h1, h2, h3, h4, h5, by simpa using h6, h7⟩

end LongDiv
end Nanvm
