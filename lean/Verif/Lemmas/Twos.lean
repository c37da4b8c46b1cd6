import Verif.Lemmas.Shift
import Mathlib.Data.Int.Bitwise
import Mathlib.Data.Nat.Bitwise
/-! Two's complement conversions of `js_bigint.rs`. -/
namespace Nanvm

theorem Bpow (n : Nat) : B ^ n = 2 ^ (64 * n) := by rw [B_eq, pow_mul]

theorem int_testBit_ext {x y : Int} (h : ∀ i, Int.testBit x i = Int.testBit y i) : x = y := by
  have big : ∀ a b : Nat, ∃ i, a.testBit i = false ∧ b.testBit i = false := by
    intro a b
    refine ⟨a + b, ?_, ?_⟩
    · exact Nat.testBit_lt_two_pow (lt_of_lt_of_le Nat.lt_two_pow_self
        (Nat.pow_le_pow_right (by omega) (by omega)))
    · exact Nat.testBit_lt_two_pow (lt_of_lt_of_le Nat.lt_two_pow_self
        (Nat.pow_le_pow_right (by omega) (by omega)))
  cases x with
  | ofNat a =>
    cases y with
    | ofNat b =>
      congr 1; apply Nat.eq_of_testBit_eq; intro i; exact h i
    | negSucc b =>
      obtain ⟨i, h1, h2⟩ := big a b
      have := h i
      simp [Int.testBit, h1, h2] at this
  | negSucc a =>
    cases y with
    | ofNat b =>
      obtain ⟨i, h1, h2⟩ := big a b
      have := h i
      simp [Int.testBit, h1, h2] at this
    | negSucc b =>
      congr 1; apply Nat.eq_of_testBit_eq; intro i
      have := h i
      simp only [Int.testBit] at this
      simpa using this

/-- `w` (an `N`-limb number) together with the sign bit is the two's complement of `x` -/
structure Rep (N w : Nat) (x : Int) : Prop where
  lt : w < B ^ N
  lo : ∀ i < 64 * N, w.testBit i = Int.testBit x i
  hi : ∀ i, 64 * N ≤ i → Int.testBit x i = decide (x < 0)

theorem rep_pos {N m : Nat} (h : m < B ^ N) : Rep N m (m : Int) where
  lt := h
  lo := fun _ _ => rfl
  hi := fun i hi => by
    have : ¬ ((m : Int) < 0) := by omega
    simp only [this, decide_false]
    rw [Bpow] at h
    exact Nat.testBit_lt_two_pow (lt_of_lt_of_le h (Nat.pow_le_pow_right (by omega) hi))

theorem rep_neg {N m : Nat} (h0 : 0 < m) (h : m ≤ B ^ N) : Rep N (B ^ N - m) (-(m : Int)) := by
  obtain ⟨y, rfl⟩ : ∃ y, m = y + 1 := ⟨m - 1, by omega⟩
  have e : -((y + 1 : Nat) : Int) = Int.negSucc y := rfl
  rw [Bpow] at *
  refine ⟨by rw [Bpow]; omega, ?_, ?_⟩
  · intro i hi
    rw [e, Nat.testBit_two_pow_sub_succ (by omega)]
    simp [Int.testBit, hi]
  · intro i hi
    rw [e]
    have : Int.negSucc y < 0 := Int.negSucc_lt_zero y
    simp only [this, decide_true, Int.testBit]
    have : y.testBit i = false :=
      Nat.testBit_lt_two_pow (lt_of_lt_of_le (show y < 2 ^ (64 * N) by omega)
        (Nat.pow_le_pow_right (by omega) hi))
    simp [this]

theorem rep_ext {N w : Nat} {x y : Int} (hx : Rep N w x) (hy : Rep N w y)
    (hs : x < 0 ↔ y < 0) : x = y := by
  apply int_testBit_ext
  intro i
  by_cases h : i < 64 * N
  · rw [← hx.lo i h, hy.lo i h]
  · rw [hx.hi i (by omega), hy.hi i (by omega)]; simp [hs]

theorem subOne_map_not {v : List Nat} (hv : Limbs v) : Limbs (v.map JsBig.notLimb) ∧
    val (v.map JsBig.notLimb) + val v + 1 = B ^ v.length := by
  induction v with
  | nil => simp
  | cons d ds ih =>
    rw [limbs_cons] at hv
    obtain ⟨h1, h2⟩ := ih hv.2
    have h3 : JsBig.notLimb d + d + 1 = B := by
      unfold JsBig.notLimb; have := hv.1; omega
    refine ⟨?_, ?_⟩
    · rw [List.map_cons, limbs_cons]; exact ⟨by omega, h1⟩
    · rw [List.map_cons, val_cons, val_cons, List.length_cons, pow_succ]
      nlinarith

/-- subtract one then complement: `B^n - w` -/
theorem neg_vec_val {v : List Nat} (hv : Limbs v) (h0 : 0 < val v) :
    Limbs ((subVec v [1]).map JsBig.notLimb) ∧
      val ((subVec v [1]).map JsBig.notLimb) = B ^ v.length - val v ∧
      ((subVec v [1]).map JsBig.notLimb).length = v.length := by
  have hne : v ≠ [] := by rintro rfl; simp at h0
  have hlen : 1 ≤ v.length := List.length_pos_iff.2 hne
  have h1 : val (subVec v [1]) = val v - 1 := by
    have := subVec_val (b := [1]) hv (by simp [B_eq]) (by simpa using hlen)
      (by simp [val_cons]; omega)
    simpa [val_cons] using this
  obtain ⟨h2, h3⟩ := subOne_map_not (subVec_limbs v [1])
  refine ⟨h2, ?_, by simp [subVec_length]⟩
  rw [h1, subVec_length] at h3
  have := val_lt hv
  omega

theorem toTwos_rep {a : JsBig} (ha : a.Canon) :
    Limbs (JsBig.toTwos a).vec ∧ (JsBig.toTwos a).vec.length = a.items.length ∧
      Rep a.items.length (val (JsBig.toTwos a).vec) a.toInt ∧
      ((JsBig.toTwos a).sign = .neg ↔ a.toInt < 0) := by
  unfold JsBig.toTwos JsBig.toInt
  by_cases h : a.len < 0
  · have hs : a.sign = .neg := by simp [JsBig.sign, h]
    have hne : a.items ≠ [] := by
      intro h0
      have := ha.len; rw [h0] at this; simp at this; omega
    have hpos := val_pos ha.norm hne
    obtain ⟨h1, h2, h3⟩ := neg_vec_val ha.limbs hpos
    simp only [hs, h, if_true]
    refine ⟨h1, h3, ?_, ?_⟩
    · rw [h2]; exact rep_neg hpos (le_of_lt (val_lt ha.limbs))
    · simp; omega
  · have hs : a.sign = .pos := by simp [JsBig.sign, h]
    simp only [hs, h, if_false]
    refine ⟨ha.limbs, trivial, rep_pos (val_lt ha.limbs), ?_⟩
    simp

/-- sign-extending a representation to more limbs -/
theorem rep_pad {t : JsBig.TwosC} {n N : Nat} {x : Int} (hl : t.vec.length = n)
    (hr : Rep n (val t.vec) x) (hs : t.sign = .neg ↔ x < 0) (hN : n ≤ N) :
    Rep N (val (t.vec ++ List.replicate (N - n) t.rep)) x := by
  have hpow : B ^ N = B ^ n * B ^ (N - n) := by rw [← pow_add]; congr 1; omega
  by_cases hneg : x < 0
  · have hsg := hs.2 hneg
    have hrep : t.rep = B - 1 := by simp [JsBig.TwosC.rep, hsg]
    have hv : ∀ k, val (List.replicate k (B - 1)) = B ^ k - 1 := by
      intro k
      induction k with
      | zero => simp
      | succ k ih =>
        rw [List.replicate_succ, val_cons, ih, pow_succ]
        have := Nat.pow_pos (n := k) B_pos
        have hB : 1 ≤ B := B_pos
        generalize B ^ k = z at *
        obtain ⟨b, hb⟩ : ∃ b, B = b + 1 := ⟨B - 1, by omega⟩
        obtain ⟨y, rfl⟩ : ∃ y, z = y + 1 := ⟨z - 1, by omega⟩
        rw [hb]; simp; ring_nf; omega
    -- `x = val - B^n`
    have hx : x = -((B ^ n - val t.vec : Nat) : Int) := by
      have h1 := hr.lt
      have := rep_neg (N := n) (m := B ^ n - val t.vec) (by omega) (by omega)
      rw [show B ^ n - (B ^ n - val t.vec) = val t.vec by omega] at this
      exact rep_ext hr this (by constructor <;> intro <;> omega)
    rw [val_append, hl, hrep, hv]
    have h1 := hr.lt
    have h2 : 0 < B ^ (N - n) := Nat.pow_pos B_pos
    have hle : B ^ n ≤ B ^ N := Nat.pow_le_pow_right B_pos hN
    have e : val t.vec + B ^ n * (B ^ (N - n) - 1) = B ^ N - (B ^ n - val t.vec) := by
      rw [Nat.mul_sub, ← hpow]; omega
    rw [e, hx]
    exact rep_neg (by omega) (by omega)
  · have hsg : t.sign = .pos := by
      cases h : t.sign with
      | pos => rfl
      | neg => exact absurd (hs.1 h) hneg
    have hrep : t.rep = 0 := by simp [JsBig.TwosC.rep, hsg]
    have hx : x = (val t.vec : Int) := by
      exact rep_ext hr (rep_pos hr.lt) (by constructor <;> intro <;> omega)
    rw [val_append, hrep, val_replicate, Nat.mul_zero, Nat.add_zero, hx]
    exact rep_pos (lt_of_lt_of_le hr.lt (Nat.pow_le_pow_right B_pos hN))

theorem limbs_pad {t : JsBig.TwosC} (h : Limbs t.vec) (k : Nat) :
    Limbs (t.vec ++ List.replicate k t.rep) := by
  rw [limbs_append]
  refine ⟨h, ?_⟩
  intro d hd
  have := List.eq_of_mem_replicate hd
  subst this
  unfold JsBig.TwosC.rep
  split <;> decide

/-- limbwise operation on aligned vectors is the operation on the values -/
theorem val_map_bitwise (f : Nat → Nat → Nat) (g : Bool → Bool → Bool)
    (hf : ∀ a b i, (f a b).testBit i = g (a.testBit i) (b.testBit i))
    (hg : g false false = false) (z : List (Nat × Nat))
    (h1 : Limbs (z.map Prod.fst)) (h2 : Limbs (z.map Prod.snd)) :
    val (z.map fun p => f p.1 p.2) = f (val (z.map Prod.fst)) (val (z.map Prod.snd)) ∧
      Limbs (z.map fun p => f p.1 p.2) := by
  have hlt : ∀ a b, a < B → b < B → f a b < B := by
    intro a b ha hb
    rw [B_eq] at *
    apply Nat.lt_pow_two_of_testBit
    intro i hi
    rw [hf, Nat.testBit_lt_two_pow (lt_of_lt_of_le ha (Nat.pow_le_pow_right (by omega) hi)),
      Nat.testBit_lt_two_pow (lt_of_lt_of_le hb (Nat.pow_le_pow_right (by omega) hi)), hg]
  induction z with
  | nil =>
    refine ⟨?_, by simp⟩
    apply Nat.eq_of_testBit_eq
    intro i
    simp only [List.map_nil, val_nil, hf, Nat.zero_testBit, hg]
  | cons p r ih =>
    simp only [List.map_cons, limbs_cons] at h1 h2
    obtain ⟨ihv, ihl⟩ := ih h1.2 h2.2
    refine ⟨?_, ?_⟩
    · simp only [List.map_cons, val_cons]
      rw [ihv]
      have key : ∀ d v i, d < B → (d + B * v).testBit i =
          if i < 64 then d.testBit i else v.testBit (i - 64) := by
        intro d v i hd
        rw [Nat.add_comm, B_eq, Nat.testBit_two_pow_mul_add v (by rw [← B_eq]; exact hd)]
      apply Nat.eq_of_testBit_eq
      intro i
      rw [key _ _ _ (hlt _ _ h1.1 h2.1)]
      simp only [hf]
      rw [key _ _ _ h1.1, key _ _ _ h2.1]
      split <;> rfl
    · simp only [List.map_cons, limbs_cons]
      exact ⟨hlt _ _ h1.1 h2.1, ihl⟩

/-- the zipped pair of sign-extended vectors -/
theorem twosZip_spec {l r : JsBig.TwosC} {N : Nat} {x y : Int}
    (hl : Limbs l.vec) (hr : Limbs r.vec)
    (rx : Rep l.vec.length (val l.vec) x) (ry : Rep r.vec.length (val r.vec) y)
    (sx : l.sign = .neg ↔ x < 0) (sy : r.sign = .neg ↔ y < 0)
    (hN : N = max l.vec.length r.vec.length) :
    Limbs ((JsBig.twosZip l r).map Prod.fst) ∧ Limbs ((JsBig.twosZip l r).map Prod.snd) ∧
    (JsBig.twosZip l r).length = N ∧
    ((Rep N (val ((JsBig.twosZip l r).map Prod.fst)) x ∧
      Rep N (val ((JsBig.twosZip l r).map Prod.snd)) y) ∨
     (Rep N (val ((JsBig.twosZip l r).map Prod.fst)) y ∧
      Rep N (val ((JsBig.twosZip l r).map Prod.snd)) x)) := by
  unfold JsBig.twosZip
  split
  · rename_i h
    have hN' : N = r.vec.length := by omega
    rw [zipPad_fst, zipPad_snd, List.take_of_length_le (by omega), zipPad_length]
    refine ⟨hr, limbs_pad hl _, hN'.symm, Or.inr ⟨hN' ▸ ry, ?_⟩⟩
    rw [← hN']; exact rep_pad rfl rx sx (by omega)
  · rename_i h
    have hN' : N = l.vec.length := by omega
    rw [zipPad_fst, zipPad_snd, List.take_of_length_le (by omega), zipPad_length]
    refine ⟨hl, limbs_pad hr _, hN'.symm, Or.inl ⟨hN' ▸ rx, ?_⟩⟩
    rw [← hN']; exact rep_pad rfl ry sy (by omega)

/-- combining representations bitwise -/
theorem rep_bitwise {N u v : Nat} {x y z : Int} (f : Nat → Nat → Nat) (g : Bool → Bool → Bool)
    (hf : ∀ a b i, (f a b).testBit i = g (a.testBit i) (b.testBit i))
    (hg : g false false = false)
    (hx : Rep N u x) (hy : Rep N v y)
    (hz : ∀ i, Int.testBit z i = g (Int.testBit x i) (Int.testBit y i))
    (hsz : decide (z < 0) = g (decide (x < 0)) (decide (y < 0))) : Rep N (f u v) z := by
  refine ⟨?_, ?_, ?_⟩
  · rw [Bpow]
    apply Nat.lt_pow_two_of_testBit
    intro i hi
    have h1 := hx.lt; have h2 := hy.lt
    rw [Bpow] at h1 h2
    rw [hf, Nat.testBit_lt_two_pow (lt_of_lt_of_le h1 (Nat.pow_le_pow_right (by omega) hi)),
      Nat.testBit_lt_two_pow (lt_of_lt_of_le h2 (Nat.pow_le_pow_right (by omega) hi)), hg]
  · intro i hi
    rw [hf, hx.lo i hi, hy.lo i hi, hz]
  · intro i hi
    rw [hz, hx.hi i hi, hy.hi i hi, hsz]

/-- converting back: correct when nothing is stripped or the result is non-negative -/
theorem fromTwos_toInt {vec : List Nat} {s : Sign} {z : Int} (hv : Limbs vec)
    (hr : Rep vec.length (val vec) z) (hs : s = .neg ↔ z < 0)
    (hok : 0 ≤ z ∨ Norm vec) (hne : z < 0 → vec ≠ []) :
    (JsBig.fromTwos ⟨s, normalizeVec vec⟩).toInt = z ∧
      (JsBig.fromTwos ⟨s, normalizeVec vec⟩).Canon := by
  by_cases hneg : z < 0
  · have hsg := hs.2 hneg
    subst hsg
    have hn : Norm vec := by
      rcases hok with h | h
      · omega
      · exact h
    have hpos := val_pos hn (hne hneg)
    obtain ⟨h1, h2, h3⟩ := neg_vec_val hv hpos
    have hlt := val_lt hv
    have hx : z = -((B ^ vec.length - val vec : Nat) : Int) := by
      have := rep_neg (N := vec.length) (m := B ^ vec.length - val vec) (by omega) (by omega)
      rw [show B ^ vec.length - (B ^ vec.length - val vec) = val vec by omega] at this
      exact rep_ext hr this (by constructor <;> intro <;> omega)
    unfold JsBig.fromTwos
    simp only [normalize_of_norm hn]
    have hvn : val (normalizeVec ((subVec vec [1]).map JsBig.notLimb)) = B ^ vec.length - val vec := by
      rw [val_normalize, h2]
    have hnn : normalizeVec ((subVec vec [1]).map JsBig.notLimb) ≠ [] := by
      rw [Ne, ← val_eq_zero_iff (norm_normalize _), hvn]; omega
    have hemp : (normalizeVec ((subVec vec [1]).map JsBig.notLimb)).isEmpty = false := by
      simpa using hnn
    rw [hemp]
    simp only [Bool.false_eq_true, if_false]
    rw [new_toInt, hvn]
    exact ⟨hx.symm, new_canon (limbs_normalize h1) (norm_normalize _)⟩
  · have hsg : s = .pos := by
      cases s with
      | pos => rfl
      | neg => exact absurd (hs.1 rfl) hneg
    subst hsg
    have hx : z = (val vec : Int) := rep_ext hr (rep_pos hr.lt) (by constructor <;> intro <;> omega)
    unfold JsBig.fromTwos
    dsimp only
    rw [new_toInt, val_normalize]
    exact ⟨hx.symm, new_canon (limbs_normalize hv) (norm_normalize _)⟩

end Nanvm
