import Verif.Spec.Num
import Mathlib.Tactic.Ring
import Mathlib.Tactic.Linarith
import Mathlib.Tactic.Positivity
import Mathlib.Tactic.LinearCombination
/-! Helper lemmas about limb vectors. -/
namespace Nanvm

theorem B_eq : B = 2 ^ 64 := rfl
theorem B_pos : 0 < B := by decide
theorem B2_eq : B2 = B * B := by decide

@[simp] theorem val_nil : val [] = 0 := rfl
theorem val_cons (d : Nat) (ds) : val (d :: ds) = d + B * val ds := rfl

@[simp] theorem limbs_nil : Limbs [] := by simp [Limbs]
@[simp] theorem limbs_cons {d ds} : Limbs (d :: ds) ↔ d < B ∧ Limbs ds := by
  simp [Limbs, B_eq]
theorem limbs_append {a b} : Limbs (a ++ b) ↔ Limbs a ∧ Limbs b := by
  simp only [Limbs, List.mem_append]
  constructor
  · intro h; exact ⟨fun d hd => h d (Or.inl hd), fun d hd => h d (Or.inr hd)⟩
  · rintro ⟨h1, h2⟩ d (hd | hd)
    · exact h1 d hd
    · exact h2 d hd

theorem limbs_replicate (n) : Limbs (List.replicate n 0) := by
  intro d hd
  have := List.eq_of_mem_replicate hd
  subst this; positivity

theorem val_append (a b : List Nat) : val (a ++ b) = val a + B ^ a.length * val b := by
  induction a with
  | nil => simp
  | cons d ds ih => simp only [List.cons_append, val_cons, ih, List.length_cons]; ring

@[simp] theorem val_replicate (n : Nat) : val (List.replicate n 0) = 0 := by
  induction n with
  | zero => rfl
  | succ n ih => simp [List.replicate_succ, val_cons, ih]

theorem val_lt {l : List Nat} (h : Limbs l) : val l < B ^ l.length := by
  induction l with
  | nil => simp
  | cons d ds ih =>
    rw [limbs_cons] at h
    have := ih h.2
    rw [val_cons, List.length_cons, pow_succ]
    nlinarith [h.1]

/-! ### normalize -/

theorem normalizeVec_append_zero (l : List Nat) : normalizeVec (l ++ [0]) = normalizeVec l := by
  simp [normalizeVec]

theorem normalizeVec_append_ne {l : List Nat} {d : Nat} (h : d ≠ 0) :
    normalizeVec (l ++ [d]) = l ++ [d] := by
  simp [normalizeVec, h]

@[simp] theorem normalizeVec_nil : normalizeVec [] = [] := rfl

theorem val_normalize (l : List Nat) : val (normalizeVec l) = val l := by
  induction l using List.reverseRecOn with
  | nil => rfl
  | append_singleton l d ih =>
    by_cases h : d = 0
    · subst h; rw [normalizeVec_append_zero, ih, val_append]; simp [val_cons]
    · rw [normalizeVec_append_ne h]

theorem norm_normalize (l : List Nat) : Norm (normalizeVec l) := by
  induction l using List.reverseRecOn with
  | nil => simp [Norm]
  | append_singleton l d ih =>
    by_cases h : d = 0
    · subst h; rw [normalizeVec_append_zero]; exact ih
    · rw [normalizeVec_append_ne h]; simpa [Norm] using h

theorem limbs_normalize {l : List Nat} (h : Limbs l) : Limbs (normalizeVec l) := by
  intro d hd
  unfold normalizeVec at hd
  rw [List.mem_reverse] at hd
  have := (List.dropWhile_sublist (p := (· == 0)) (l := l.reverse)).subset hd
  exact h d (List.mem_reverse.1 this)

theorem normalize_of_norm {l : List Nat} (h : Norm l) : normalizeVec l = l := by
  induction l using List.reverseRecOn with
  | nil => rfl
  | append_singleton l d _ =>
    have : d ≠ 0 := by simpa [Norm] using h
    exact normalizeVec_append_ne this

@[simp] theorem norm_nil : Norm [] := by simp [Norm]

theorem norm_append_singleton {l : List Nat} {d : Nat} : Norm (l ++ [d]) ↔ d ≠ 0 := by
  simp [Norm]

/-- a normalized non-empty vector has at least `B^(len-1)` -/
theorem norm_ge {l : List Nat} (h : Norm l) (hne : l ≠ []) : B ^ (l.length - 1) ≤ val l := by
  induction l using List.reverseRecOn with
  | nil => exact absurd rfl hne
  | append_singleton l d _ =>
    have hd : d ≠ 0 := norm_append_singleton.1 h
    rw [val_append]
    simp only [List.length_append, List.length_cons, List.length_nil, Nat.zero_add,
      Nat.add_sub_cancel, val_cons, val_nil, Nat.mul_zero, Nat.add_zero]
    have : 1 ≤ d := Nat.pos_of_ne_zero hd
    nlinarith [Nat.pow_pos (n := l.length) B_pos, Nat.zero_le (val l)]

theorem val_eq_zero_iff {l : List Nat} (h : Norm l) : val l = 0 ↔ l = [] := by
  constructor
  · intro h0
    by_contra hne
    have := norm_ge h hne
    have h2 : 0 < B ^ (l.length - 1) := Nat.pow_pos B_pos
    omega
  · rintro rfl; rfl

theorem val_pos {l : List Nat} (h : Norm l) (hne : l ≠ []) : 0 < val l := by
  rcases Nat.eq_zero_or_pos (val l) with h0 | h0
  · exact absurd ((val_eq_zero_iff h).1 h0) hne
  · exact h0

theorem length_le_of_val_le {a b : List Nat} (ha : Norm a) (hb : Limbs b)
    (h : val a ≤ val b) : a.length ≤ b.length := by
  by_cases hne : a = []
  · subst hne; simp
  · by_contra hlt
    push Not at hlt
    have h1 := norm_ge ha hne
    have h2 := val_lt hb
    have h3 : B ^ b.length ≤ B ^ (a.length - 1) := Nat.pow_le_pow_right B_pos (by omega)
    omega

/-- limb vectors are determined by value and length -/
theorem val_inj_of_length {a b : List Nat} (ha : Limbs a) (hb : Limbs b)
    (hl : a.length = b.length) (h : val a = val b) : a = b := by
  induction a generalizing b with
  | nil => cases b with
    | nil => rfl
    | cons => simp at hl
  | cons d ds ih =>
    cases b with
    | nil => simp at hl
    | cons e es =>
      rw [limbs_cons] at ha hb
      simp only [List.length_cons, Nat.add_right_cancel_iff] at hl
      rw [val_cons, val_cons] at h
      have hmod : d = e := by
        have := congrArg (· % B) h
        simpa [Nat.add_mul_mod_self_left, Nat.mod_eq_of_lt ha.1, Nat.mod_eq_of_lt hb.1] using this
      subst hmod
      have : val ds = val es := by
        have h' : B * val ds = B * val es := by omega
        exact Nat.eq_of_mul_eq_mul_left B_pos h'
      rw [ih ha.2 hb.2 hl this]

/-- canonical limb vectors are determined by their value -/
theorem val_inj {a b : List Nat} (ha : Limbs a) (hb : Limbs b) (na : Norm a) (nb : Norm b)
    (h : val a = val b) : a = b := by
  have h1 := length_le_of_val_le na hb (le_of_eq h)
  have h2 := length_le_of_val_le nb ha (le_of_eq h.symm)
  exact val_inj_of_length ha hb (by omega) h

/-! ### zipPad -/

theorem zipPad_fst (c : Nat) (a b : List Nat) : (zipPad c a b).map Prod.fst = a := by
  induction a generalizing b with
  | nil => simp [zipPad]
  | cons d ds ih => cases b <;> simp [zipPad, ih]

theorem zipPad_length (c : Nat) (a b : List Nat) : (zipPad c a b).length = a.length := by
  have := congrArg List.length (zipPad_fst c a b)
  simpa using this

theorem zipPad_snd (c : Nat) (a b : List Nat) :
    (zipPad c a b).map Prod.snd = b.take a.length ++ List.replicate (a.length - b.length) c := by
  induction a generalizing b with
  | nil => simp [zipPad]
  | cons d ds ih =>
    cases b with
    | nil => simp [zipPad, ih, List.replicate_succ]
    | cons e es => simp [zipPad, ih]

theorem zipPad_snd_val {a b : List Nat} (h : b.length ≤ a.length) :
    val ((zipPad 0 a b).map Prod.snd) = val b := by
  rw [zipPad_snd, val_append, List.take_of_length_le h]; simp

theorem zipPad_snd_limbs {a b : List Nat} (h : Limbs b) :
    Limbs ((zipPad 0 a b).map Prod.snd) := by
  rw [zipPad_snd, limbs_append]
  exact ⟨fun d hd => h d (List.mem_of_mem_take hd), limbs_replicate _⟩

/-! ### addition -/

theorem carry_lt {a b c : Nat} (ha : a < B) (hb : b < B) (hc : c < B) : (a + b + c) / B < B := by
  rw [Nat.div_lt_iff_lt_mul B_pos]
  have h : B * B = 340282366920938463463374607431768211456 := by decide
  have h' : B = 18446744073709551616 := rfl
  rw [h]; rw [h'] at ha hb hc
  omega

theorem addLoop_val (z : List (Nat × Nat)) (c : Nat) (hc : c < B)
    (h1 : Limbs (z.map Prod.fst)) (h2 : Limbs (z.map Prod.snd)) :
    val (addLoop z c) = val (z.map Prod.fst) + val (z.map Prod.snd) + c := by
  induction z generalizing c with
  | nil =>
    by_cases h : c = 0
    · simp [addLoop, h]
    · simp [addLoop, h, val_cons, Nat.mod_eq_of_lt hc]
  | cons p r ih =>
    obtain ⟨a, b⟩ := p
    simp only [List.map_cons, limbs_cons] at h1 h2
    have hlt := carry_lt h1.1 h2.1 hc
    simp only [addLoop, val_cons, List.map_cons]
    rw [ih _ hlt h1.2 h2.2]
    have := Nat.mod_add_div (a + b + c) B
    nlinarith

theorem addLoop_limbs (z : List (Nat × Nat)) (c : Nat) : Limbs (addLoop z c) := by
  induction z generalizing c with
  | nil =>
    by_cases h : c = 0
    · simp [addLoop, h]
    · simp [addLoop, h, Nat.mod_lt _ B_pos]
  | cons p r ih => simp [addLoop, ih, Nat.mod_lt _ B_pos]

theorem addLoop_length_ge (z : List (Nat × Nat)) (c : Nat) : z.length ≤ (addLoop z c).length := by
  induction z generalizing c with
  | nil => simp
  | cons p r ih => simp [addLoop, ih]

theorem addLoop_length_le (z : List (Nat × Nat)) (c : Nat) :
    (addLoop z c).length ≤ z.length + 1 := by
  induction z generalizing c with
  | nil => by_cases h : c = 0 <;> simp [addLoop, h]
  | cons p r ih => simp [addLoop, ih]

theorem addVec_val {a b : List Nat} (ha : Limbs a) (hb : Limbs b) :
    val (addVec a b) = val a + val b := by
  unfold addVec
  split
  · rw [addLoop_val _ _ B_pos (by rw [zipPad_fst]; exact hb) (zipPad_snd_limbs ha),
      zipPad_fst, zipPad_snd_val (by omega)]; omega
  · rw [addLoop_val _ _ B_pos (by rw [zipPad_fst]; exact ha) (zipPad_snd_limbs hb),
      zipPad_fst, zipPad_snd_val (by omega)]; omega

theorem addVec_limbs (a b : List Nat) : Limbs (addVec a b) := addLoop_limbs _ _

theorem addVec_length_ge (a b : List Nat) :
    a.length ≤ (addVec a b).length ∧ b.length ≤ (addVec a b).length := by
  unfold addVec
  split
  · have := addLoop_length_ge (zipPad 0 b a) 0
    rw [zipPad_length] at this; omega
  · have := addLoop_length_ge (zipPad 0 a b) 0
    rw [zipPad_length] at this; omega

/-- a vector that is at least `B^(len-1)` is normalized -/
theorem norm_of_ge {l : List Nat} (hl : Limbs l) (h : l ≠ [] → B ^ (l.length - 1) ≤ val l) :
    Norm l := by
  induction l using List.reverseRecOn with
  | nil => simp
  | append_singleton l d _ =>
    rw [norm_append_singleton]
    rintro rfl
    have h1 := h (by simp)
    rw [val_append] at h1
    simp [val_cons] at h1
    have := val_lt (limbs_append.1 hl).1
    omega

theorem addLoop_norm_aux (z : List (Nat × Nat)) (c : Nat) (hc : c < B)
    (h1 : Limbs (z.map Prod.fst)) (h2 : Limbs (z.map Prod.snd))
    (hn : Norm (z.map Prod.fst)) : Norm (addLoop z c) := by
  apply norm_of_ge (addLoop_limbs _ _)
  intro hne
  rw [addLoop_val z c hc h1 h2]
  by_cases hz : z = []
  · subst hz
    by_cases h : c = 0
    · simp [addLoop, h] at hne
    · simp [addLoop, h]; omega
  · have hge := norm_ge hn (by simpa using hz)
    simp only [List.length_map] at hge
    have hle := addLoop_length_le z c
    have hge' := addLoop_length_ge z c
    have hlen : (addLoop z c).length = z.length ∨ (addLoop z c).length = z.length + 1 := by omega
    rcases hlen with hlen | hlen
    · rw [hlen]; omega
    · -- the carry limb was pushed, so the sum overflowed `z.length` limbs
      have hs : ∀ (z : List (Nat × Nat)) (c : Nat), c < B → Limbs (z.map Prod.fst) →
          Limbs (z.map Prod.snd) → (addLoop z c).length = z.length + 1 →
          B ^ z.length ≤ val (addLoop z c) := by
        intro z
        induction z with
        | nil =>
          intro c hc _ _ h
          by_cases h0 : c = 0
          · simp [addLoop, h0] at h
          · simp [addLoop, h0, val_cons, Nat.mod_eq_of_lt hc]; omega
        | cons p r ih =>
          intro c hc h1 h2 h
          obtain ⟨a, b⟩ := p
          simp only [List.map_cons, limbs_cons] at h1 h2
          have hlt := carry_lt h1.1 h2.1 hc
          simp only [addLoop, List.length_cons, Nat.add_right_cancel_iff] at h
          have := ih _ hlt h1.2 h2.2 h
          simp only [addLoop, val_cons, List.length_cons, pow_succ]
          nlinarith [Nat.zero_le ((a + b + c) % B)]
      have := hs z c hc h1 h2 hlen
      rw [addLoop_val z c hc h1 h2] at this
      rw [hlen]; simpa using this

theorem addVec_norm {a b : List Nat} (ha : Limbs a) (hb : Limbs b) (na : Norm a) (nb : Norm b) :
    Norm (addVec a b) := by
  unfold addVec
  split
  · exact addLoop_norm_aux _ _ B_pos (by rw [zipPad_fst]; exact hb) (zipPad_snd_limbs ha)
      (by rw [zipPad_fst]; exact nb)
  · exact addLoop_norm_aux _ _ B_pos (by rw [zipPad_fst]; exact ha) (zipPad_snd_limbs hb)
      (by rw [zipPad_fst]; exact na)

/-! ### subtraction -/

theorem subLoop_limbs (z : List (Nat × Nat)) (c : Int) : Limbs (subLoop z c) := by
  induction z generalizing c with
  | nil => simp [subLoop]
  | cons p r ih =>
    simp only [subLoop, limbs_cons]
    refine ⟨?_, ih _⟩
    have h1 := Int.emod_nonneg ((p.1 : Int) - p.2 - c) (b := (B : Int)) (by decide)
    have h2 := Int.emod_lt_of_pos ((p.1 : Int) - p.2 - c) (b := (B : Int)) (by decide)
    omega

theorem subLoop_length (z : List (Nat × Nat)) (c : Int) : (subLoop z c).length = z.length := by
  induction z generalizing c with
  | nil => simp [subLoop]
  | cons p r ih => simp [subLoop, ih]

theorem subLoop_val (z : List (Nat × Nat)) (c : Int) (hc : c = 0 ∨ c = 1)
    (h1 : Limbs (z.map Prod.fst)) (h2 : Limbs (z.map Prod.snd)) :
    ∃ k : Int, (k = 0 ∨ k = 1) ∧
      (val (subLoop z c) : Int) =
        val (z.map Prod.fst) - val (z.map Prod.snd) - c + k * (B : Int) ^ z.length := by
  induction z generalizing c with
  | nil => exact ⟨c, hc, by simp [subLoop]⟩
  | cons p r ih =>
    obtain ⟨a, b⟩ := p
    simp only [List.map_cons, limbs_cons] at h1 h2
    have hbw : (((a : Int) - b - c) / (B : Int)) % 2 = 0 ∧ 0 ≤ (a : Int) - b - c ∧
        ((a : Int) - b - c) / (B : Int) = 0 ∨
        (((a : Int) - b - c) / (B : Int)) % 2 = 1 ∧ ((a : Int) - b - c) / (B : Int) = -1 := by
      have hB : (B : Int) = 18446744073709551616 := rfl
      have ha := h1.1; have hb := h2.1
      have hBn : B = 18446744073709551616 := rfl
      rw [hB]; rw [hBn] at ha hb
      rcases hc with rfl | rfl <;> omega
    have hmd := Int.emod_add_mul_ediv ((a : Int) - b - c) (B : Int)
    have hnn := Int.emod_nonneg ((a : Int) - b - c) (b := (B : Int)) (by decide)
    have hk : (((a : Int) - b - c) / (B : Int)) % 2 = 0 ∨
        (((a : Int) - b - c) / (B : Int)) % 2 = 1 := by omega
    obtain ⟨k, hk', hv⟩ := ih _ hk h1.2 h2.2
    refine ⟨k, hk', ?_⟩
    simp only [subLoop, val_cons, List.map_cons, List.length_cons]
    push_cast
    rw [hv, Int.toNat_of_nonneg hnn]
    rcases hbw with ⟨e1, _, e2⟩ | ⟨e1, e2⟩
    · rw [e1]; rw [e2] at hmd; linear_combination hmd
    · rw [e1]; rw [e2] at hmd; linear_combination hmd

theorem subVec_limbs (a b : List Nat) : Limbs (subVec a b) := subLoop_limbs _ _

theorem subVec_length (a b : List Nat) : (subVec a b).length = a.length := by
  rw [subVec, subLoop_length, zipPad_length]

theorem subVec_val {a b : List Nat} (ha : Limbs a) (hb : Limbs b) (hl : b.length ≤ a.length)
    (h : val b ≤ val a) : val (subVec a b) = val a - val b := by
  obtain ⟨k, hk, hv⟩ := subLoop_val (zipPad 0 a b) 0 (Or.inl rfl)
    (by rw [zipPad_fst]; exact ha) (zipPad_snd_limbs hb)
  rw [zipPad_fst, zipPad_snd_val hl, zipPad_length] at hv
  have h3 : (val (subLoop (zipPad 0 a b) 0) : Int) < (B : Int) ^ a.length := by
    have := val_lt (subLoop_limbs (zipPad 0 a b) 0)
    rw [subLoop_length, zipPad_length] at this
    exact_mod_cast this
  unfold subVec
  rcases hk with rfl | rfl
  · omega
  · omega

theorem subVecNorm_val {a b : List Nat} (ha : Limbs a) (hb : Limbs b) (nb : Norm b)
    (h : val b ≤ val a) : val (subVecNorm a b) = val a - val b := by
  rw [subVecNorm, val_normalize, subVec_val ha hb (length_le_of_val_le nb ha h) h]

/-! ### comparison -/

theorem cmpHigh_eq (a b : List Nat) (h : a.length = b.length)
    (ha : Limbs a) (hb : Limbs b) :
    cmpHigh a b = compare (val a.reverse) (val b.reverse) := by
  induction a generalizing b with
  | nil => cases b with
    | nil => simp [cmpHigh, compare, compareOfLessAndEq]
    | cons => simp at h
  | cons d ds ih =>
    cases b with
    | nil => simp at h
    | cons e es =>
      simp only [List.length_cons, Nat.add_right_cancel_iff] at h
      rw [limbs_cons] at ha hb
      have hr : ∀ l : List Nat, Limbs l → Limbs l.reverse := fun l hl d hd => hl d (List.mem_reverse.1 hd)
      have h1 := val_lt (hr _ ha.2)
      have h2 := val_lt (hr _ hb.2)
      simp only [List.length_reverse] at h1 h2
      rw [cmpHigh, List.reverse_cons, List.reverse_cons, val_append, val_append]
      simp only [List.length_reverse, val_cons, val_nil, Nat.mul_zero, Nat.add_zero]
      rw [h] at h1 ⊢
      by_cases hde : d = e
      · subst hde
        rw [if_neg (by simp), ih _ h ha.2 hb.2]
        simp only [compare, compareOfLessAndEq]
        simp
      · rw [if_pos hde]
        rcases Nat.lt_or_gt_of_ne hde with hlt | hgt
        · have : val ds.reverse + B ^ es.length * d < val es.reverse + B ^ es.length * e := by
            nlinarith [Nat.zero_le (val es.reverse)]
          simp [compare, compareOfLessAndEq, hlt, this]
        · have : val es.reverse + B ^ es.length * e < val ds.reverse + B ^ es.length * d := by
            nlinarith [Nat.zero_le (val ds.reverse)]
          have n1 : ¬ d < e := by omega
          have n2 : ¬ val ds.reverse + B ^ es.length * d < val es.reverse + B ^ es.length * e := by
            omega
          have n3 : val ds.reverse + B ^ es.length * d ≠ val es.reverse + B ^ es.length * e := by
            omega
          simp [compare, compareOfLessAndEq, n1, n2, n3, hde]

theorem cmpVec_eq {a b : List Nat} (ha : Limbs a) (hb : Limbs b) (na : Norm a) (nb : Norm b) :
    cmpVec a b = compare (val a) (val b) := by
  unfold cmpVec
  have hr : ∀ l : List Nat, Limbs l → Limbs l.reverse := fun l hl d hd => hl d (List.mem_reverse.1 hd)
  by_cases h : a.length = b.length
  · rw [if_neg (by simpa using h),
      cmpHigh_eq _ _ (by simpa using h) (hr _ ha) (hr _ hb)]
    simp
  · rw [if_pos h]
    rcases Nat.lt_or_gt_of_ne h with hlt | hgt
    · have : val a < val b := by
        by_contra hc
        have := length_le_of_val_le nb ha (Nat.le_of_not_lt hc)
        omega
      simp [compare, compareOfLessAndEq, hlt, this]
    · have : val b < val a := by
        by_contra hc
        have := length_le_of_val_le na hb (Nat.le_of_not_lt hc)
        omega
      have n1 : ¬ a.length < b.length := by omega
      have n2 : ¬ val a < val b := by omega
      have n3 : val a ≠ val b := by omega
      simp [compare, compareOfLessAndEq, n1, n2, n3, h]

theorem cmpVec_cases {a b : List Nat} (ha : Limbs a) (hb : Limbs b) (na : Norm a) (nb : Norm b) :
    (cmpVec a b = .lt ∧ val a < val b) ∨ (cmpVec a b = .eq ∧ val a = val b) ∨
    (cmpVec a b = .gt ∧ val b < val a) := by
  rw [cmpVec_eq ha hb na nb]
  rcases Nat.lt_trichotomy (val a) (val b) with h | h | h
  · left; exact ⟨by simp [compare, compareOfLessAndEq, h], h⟩
  · right; left; exact ⟨by simp [compare, compareOfLessAndEq, h], h⟩
  · right; right
    have n1 : ¬ val a < val b := by omega
    have n2 : val a ≠ val b := by omega
    exact ⟨by simp [compare, compareOfLessAndEq, n1, n2], h⟩

/-! ### constructing bigints -/

@[simp] theorem new_items (s : Sign) (l : List Nat) : (JsBig.new s l).items = l := rfl

theorem new_toInt (s : Sign) (l : List Nat) : (JsBig.new s l).toInt = signed s (val l) := by
  cases s with
  | pos =>
    have : ¬ ((l.length : Int) * 1 < 0) := by omega
    simp only [JsBig.new, JsBig.toInt, signed, Sign.toInt, this, if_false]
  | neg =>
    cases l with
    | nil => simp [JsBig.new, JsBig.toInt, signed]
    | cons d ds =>
      have : (((d :: ds).length : Int) * -1 < 0) := by simp only [List.length_cons]; omega
      simp only [JsBig.new, JsBig.toInt, signed, Sign.toInt, this, if_true]

theorem new_canon {s : Sign} {l : List Nat} (hl : Limbs l) (hn : Norm l) :
    (JsBig.new s l).Canon := by
  refine ⟨?_, hl, hn⟩
  cases s <;> simp [JsBig.new, Sign.toInt]

theorem new_sign {s : Sign} {l : List Nat} (h : l ≠ []) : (JsBig.new s l).sign = s := by
  have := List.length_pos_iff.2 h
  cases s with
  | pos =>
    have h2 : ¬ ((l.length : Int) * 1 < 0) := by omega
    simp only [JsBig.new, JsBig.sign, Sign.toInt, h2, if_false]
  | neg =>
    have h2 : ((l.length : Int) * -1 < 0) := by omega
    simp only [JsBig.new, JsBig.sign, Sign.toInt, h2, if_true]

theorem toInt_eq_signed (b : JsBig) : b.toInt = signed b.sign (val b.items) := by
  unfold JsBig.toInt JsBig.sign
  split <;> rfl

/-- a canonical bigint is `new` of its sign and limbs -/
theorem canon_eq_new {b : JsBig} (h : b.Canon) : b = JsBig.new b.sign b.items := by
  have := h.len
  cases b with
  | mk len items =>
    simp only [JsBig.new, JsBig.sign, JsBig.mk.injEq, and_true] at *
    split <;> simp only [Sign.toInt] <;> omega

@[simp] theorem norm_one : Norm [1] := by simp [Norm]
@[simp] theorem limbs_one : Limbs [1] := by simp [B_eq]

theorem zero_toInt : JsBig.zero.toInt = 0 := rfl
theorem zero_canon : JsBig.zero.Canon := by decide

theorem fromU64_toInt (s : Sign) (n : Nat) : (JsBig.fromU64 s n).toInt = signed s n := by
  unfold JsBig.fromU64
  split
  · rename_i h; subst h; cases s <;> rfl
  · rw [new_toInt]; simp [val_cons]

theorem fromU64_canon {s : Sign} {n : Nat} (h : n < B) : (JsBig.fromU64 s n).Canon := by
  unfold JsBig.fromU64
  split
  · exact zero_canon
  · rename_i h0
    exact new_canon (by simpa using h) (by simpa [Norm] using h0)

theorem isZero_iff {b : JsBig} : b.isZero = true ↔ b.items = [] := by simp [JsBig.isZero]

end Nanvm
