import Verif.Lemmas.Mul
/-! Shift loops and exponentiation loop. -/
namespace Nanvm

theorem or_eq_add {h x s : Nat} (hd : 2 ^ s ∣ h) (hx : x < 2 ^ s) : h ||| x = h + x := by
  obtain ⟨k, rfl⟩ := hd
  exact (Nat.two_pow_add_eq_or_of_lt hx k).symm

theorem B_split {s : Nat} (hs : s ≤ 64) : B = 2 ^ s * 2 ^ (64 - s) := by
  rw [← pow_add, B_eq]; congr 1; omega

theorem shlLoop_spec (s : Nat) (hs : s ≤ 64) (l : List Nat) (hl : Limbs l) :
    ∃ h t, shlLoop s l = h :: t ∧ 2 ^ s ∣ h ∧ h < B ∧ Limbs t ∧
      val (h :: t) = val l * 2 ^ s ∧ t.length = l.length := by
  induction l with
  | nil => exact ⟨0, [], rfl, by simp, B_pos, by simp, by simp [val_cons], rfl⟩
  | cons d ds ih =>
    rw [limbs_cons] at hl
    obtain ⟨h, t, e, hdvd, hlt, ht, hv, hlen⟩ := ih hl.2
    have hB := B_split hs
    have hp : 0 < 2 ^ s := by positivity
    have hx : d * 2 ^ s / B < 2 ^ s := by
      rw [Nat.div_lt_iff_lt_mul B_pos]; nlinarith [hl.1]
    have hor := or_eq_add hdvd hx
    have hdB : 2 ^ s ∣ B := ⟨_, hB⟩
    refine ⟨(d * 2 ^ s) % B, (h + d * 2 ^ s / B) :: t, ?_, ?_, Nat.mod_lt _ B_pos, ?_, ?_, ?_⟩
    · simp only [shlLoop, e, hor]
    · exact (Nat.dvd_mod_iff hdB).2 (Dvd.intro_left _ rfl)
    · rw [limbs_cons]; refine ⟨?_, ht⟩
      obtain ⟨k, rfl⟩ := hdvd
      have : k < 2 ^ (64 - s) := by
        rw [hB] at hlt; exact Nat.lt_of_mul_lt_mul_left hlt
      have h2 : 2 ^ s * (k + 1) ≤ 2 ^ s * 2 ^ (64 - s) := Nat.mul_le_mul_left _ this
      rw [← hB] at h2
      generalize d * 2 ^ s / B = q at *
      nlinarith
    · have hmd := Nat.mod_add_div (d * 2 ^ s) B
      rw [val_cons] at hv
      rw [val_cons, val_cons, val_cons]
      generalize d * 2 ^ s / B = q at *
      generalize d * 2 ^ s % B = m at *
      nlinarith
    · simp [hlen]

theorem shlLoop_val {s : Nat} (hs : s ≤ 64) {l : List Nat} (hl : Limbs l) :
    val (shlLoop s l) = val l * 2 ^ s ∧ Limbs (shlLoop s l) := by
  obtain ⟨h, t, e, -, hlt, ht, hv, -⟩ := shlLoop_spec s hs l hl
  rw [e]; exact ⟨hv, by rw [limbs_cons]; exact ⟨hlt, ht⟩⟩

/-- value of the right-shift loop when the mask extracts the low `s` bits of every
limb after the first -/
theorem shrLoop_val {s mask : Nat} (hs : s ≤ 64) (l : List Nat) (hl : Limbs l)
    (hm : ∀ e ∈ l.tail, e &&& mask = e % 2 ^ s) :
    val (shrLoop s mask l) = val l / 2 ^ s ∧ Limbs (shrLoop s mask l) := by
  have hB := B_split hs
  have hp : 0 < 2 ^ s := by positivity
  induction l with
  | nil => simp [shrLoop]
  | cons d ds ih =>
    cases ds with
    | nil =>
      simp only [shrLoop, val_cons, val_nil, Nat.mul_zero, Nat.add_zero, limbs_cons, limbs_nil,
        and_true, true_and]
      rw [limbs_cons] at hl
      exact Nat.lt_of_le_of_lt (Nat.div_le_self _ _) hl.1
    | cons e es =>
      rw [limbs_cons] at hl
      have hm' : e &&& mask = e % 2 ^ s := hm e (by simp)
      obtain ⟨hv, hlim⟩ := ih hl.2 (fun x hx => hm x (by
        simp only [List.tail_cons] at hx ⊢; exact List.mem_cons_of_mem _ hx))
      have hes := hl.2
      rw [limbs_cons] at hes
      have hq : d / 2 ^ s < 2 ^ (64 - s) := by
        rw [Nat.div_lt_iff_lt_mul hp, Nat.mul_comm, ← hB]; exact hl.1
      have hmod : e % 2 ^ s < 2 ^ s := Nat.mod_lt _ hp
      have hlt : e % 2 ^ s * 2 ^ (64 - s) < B := by
        rw [hB]; exact Nat.mul_lt_mul_of_pos_right hmod (by positivity)
      have hor : d / 2 ^ s ||| e % 2 ^ s * 2 ^ (64 - s) =
          e % 2 ^ s * 2 ^ (64 - s) + d / 2 ^ s := by
        rw [Nat.or_comm]; exact or_eq_add (Dvd.intro_left _ rfl) hq
      rw [shrLoop, hm', Nat.mod_eq_of_lt hlt, hor]
      constructor
      · rw [val_cons, hv]
        simp only [val_cons]
        -- arithmetic: (d + B (e + B w)) / 2^s
        generalize val es = w
        have h1 : d + B * (e + B * w) = d + 2 ^ s * (2 ^ (64 - s) * (e + B * w)) := by
          rw [← Nat.mul_assoc, ← hB]
        rw [h1, Nat.add_mul_div_left _ _ hp]
        have h2 := Nat.mod_add_div (e + B * w) (2 ^ s)
        have h3 : (e + B * w) % 2 ^ s = e % 2 ^ s := by
          rw [hB, Nat.mul_assoc, Nat.add_mul_mod_self_left]
        rw [h3] at h2
        have hB' : B * ((e + B * w) / 2 ^ s) = 2 ^ (64 - s) * (2 ^ s * ((e + B * w) / 2 ^ s)) := by
          rw [← Nat.mul_assoc, Nat.mul_comm (2 ^ (64 - s)), ← hB]
        rw [hB']
        generalize (e + B * w) / 2 ^ s = z at *
        generalize e % 2 ^ s = y at *
        rw [← h2]; ring
      · rw [limbs_cons]
        refine ⟨?_, hlim⟩
        have h2 : (e % 2 ^ s + 1) * 2 ^ (64 - s) ≤ 2 ^ s * 2 ^ (64 - s) :=
          Nat.mul_le_mul_right _ hmod
        rw [← hB] at h2
        generalize e % 2 ^ s = y at *
        generalize d / 2 ^ s = z at *
        nlinarith

theorem val_drop {l : List Nat} (hl : Limbs l) (k : Nat) : val (l.drop k) = val l / B ^ k := by
  induction k generalizing l with
  | zero => simp
  | succ k ih =>
    cases l with
    | nil => simp
    | cons d ds =>
      rw [limbs_cons] at hl
      rw [List.drop_succ_cons, ih hl.2, val_cons, pow_succ, Nat.mul_comm (B ^ k),
        ← Nat.div_div_eq_div_mul, Nat.add_mul_div_left _ _ B_pos, Nat.div_eq_of_lt hl.1,
        Nat.zero_add]

theorem and_63 (n : Nat) : n &&& 63 = n % 64 := Nat.and_two_pow_sub_one_eq_mod n 6

theorem and_one (n : Nat) : n &&& 1 = n % 2 := Nat.and_two_pow_sub_one_eq_mod n 1

/-! ### the exponentiation loop -/

theorem powLoop_ok (fuel : Nat) (res b : List Nat) (e : Nat) (he : e < 2 ^ fuel)
    (hr : Limbs res) (hb : Limbs b) (nr : Norm res) (nb : Norm b) (hr0 : res ≠ []) (hb0 : b ≠ []) :
    ∃ v, JsBig.powLoop (fuel + 1) res b e = .ok v ∧ val v = val res * val b ^ e ∧
      Limbs v ∧ Norm v := by
  induction fuel generalizing res b e with
  | zero =>
    have : e = 0 := by simpa using he
    subst this
    exact ⟨res, by simp [JsBig.powLoop], by simp, hr, nr⟩
  | succ fuel ih =>
    by_cases h0 : e = 0
    · subst h0
      exact ⟨res, by simp [JsBig.powLoop], by simp, hr, nr⟩
    · obtain ⟨b2, eb, vb, lb, nb2⟩ := mulVec_ok hb hb hb0 hb0
      have hb2 : b2 ≠ [] := by
        rw [Ne, ← val_eq_zero_iff nb2, vb]
        have := val_pos nb hb0
        positivity
      have he2 : e / 2 < 2 ^ fuel := by
        rw [pow_succ] at he; omega
      have hmd := Nat.mod_add_div e 2
      rw [JsBig.powLoop, if_neg h0, and_one]
      rcases Nat.mod_two_eq_zero_or_one e with hm | hm
      · rw [hm]
        obtain ⟨v, ev, hv, lv, nv⟩ := ih res b2 (e / 2) he2 hr lb nr nb2 hr0 hb2
        refine ⟨v, ?_, ?_, lv, nv⟩
        · simp only [gt_iff_lt, Nat.lt_irrefl, if_false, pure, Except.pure, bind, Except.bind, eb]
          exact ev
        · rw [hv, vb, ← pow_two, ← pow_mul]; congr 2; omega
      · rw [hm]
        obtain ⟨r2, er, vr, lr, nr2⟩ := mulVec_ok hr hb hr0 hb0
        have hr2 : r2 ≠ [] := by
          rw [Ne, ← val_eq_zero_iff nr2, vr]
          have := val_pos nb hb0
          have := val_pos nr hr0
          positivity
        obtain ⟨v, ev, hv, lv, nv⟩ := ih r2 b2 (e / 2) he2 lr lb nr2 nb2 hr2 hb2
        refine ⟨v, ?_, ?_, lv, nv⟩
        · simp only [gt_iff_lt, if_true, bind, Except.bind, eb, er,
            show (0:Nat) < 1 from by omega]
          exact ev
        · rw [hv, vb, vr, ← pow_two, ← pow_mul, Nat.mul_assoc, ← pow_succ']; congr 2; omega

end Nanvm
