import Verif.Model.ForEach
import Verif.Lemmas.Double
import Verif.Spec.Djs
/-!
# Property theorems C69: `for_each`
-/
namespace Nanvm

/-! ## Specification -/

/-- `ks` are the children of `v`: the members of an object by name, the items of an array by their
index as a double, nothing for any other value. -/
inductive Children : Val → List (Key × Val) → Prop
  | obj (i : Nat) (l : List (JsStr × Val)) (ks : List (Key × Val)) (hl : ks.length = l.length)
      (h : ∀ (n : Nat) (m : JsStr × Val), l[n]? = some m → ks[n]? = some (.name m.1, m.2)) : Children (.obj i l) ks
  | arr (i : Nat) (l : List Val) (ks : List (Key × Val)) (hl : ks.length = l.length)
      (h : ∀ (n : Nat) (w : Val), l[n]? = some w → ∃ b : Nat, ks[n]? = some (.index b, w) ∧ b < 2 ^ 63 ∧ dval b = n) :
      Children (.arr i l) ks
  | leaf (v : Val) (ha : ∀ i l, v ≠ .arr i l) (ho : ∀ i l, v ≠ .obj i l) : Children v []

/-- the closure `f` is called for all of `ks` in this order and succeeds each time -/
inductive Calls {S E : Type} (f : Key → Val → S → Except E Unit × S) : List (Key × Val) → S → S → Prop
  | nil (s : S) : Calls f [] s s
  | cons {k v ks s s1 s2} (h : f k v s = (.ok (), s1)) (hs : Calls f ks s1 s2) :
      Calls f ((k, v) :: ks) s s2

/-- the closure fails for one of `ks`, having succeeded for those before; it is not called again -/
def Fails {S E : Type} (f : Key → Val → S → Except E Unit × S) (ks : List (Key × Val)) (s : S) (e : E)
    (s' : S) : Prop :=
  ∃ pre k v post s1, ks = pre ++ (k, v) :: post ∧ Calls f pre s s1 ∧ f k v s1 = (.error e, s')

/-! ## Proof -/

/-- the loop over a list of keys and values -/
def loop {S E : Type} (f : Key → Val → S → Except E Unit × S) : List (Key × Val) → S → Except E Unit × S
  | [], s => (.ok (), s)
  | (k, v) :: l, s =>
    match f k v s with
    | (.ok _, s) => loop f l s
    | (.error e, s) => (.error e, s)

theorem loop_ok {S E : Type} (f : Key → Val → S → Except E Unit × S) (ks : List (Key × Val)) :
    ∀ s s', loop f ks s = (.ok (), s') ↔ Calls f ks s s' := by
  induction ks with
  | nil =>
    intro s s'
    constructor
    · intro h; cases h; exact .nil s
    · intro h; cases h; rfl
  | cons x ks ih =>
    obtain ⟨k, v⟩ := x
    intro s s'
    rw [loop]
    constructor
    · intro h
      rcases e : f k v s with ⟨⟨⟩ | ⟨⟩, s1⟩ <;> rw [e] at h
      · cases h
      · exact .cons e ((ih s1 s').1 h)
    · intro h
      cases h with
      | cons h hs => rw [h]; exact (ih _ _).2 hs

theorem loop_error {S E : Type} (f : Key → Val → S → Except E Unit × S) (ks : List (Key × Val)) (e : E) :
    ∀ s s', loop f ks s = (.error e, s') ↔ Fails f ks s e s' := by
  induction ks with
  | nil =>
    intro s s'
    constructor
    · intro h; cases h
    · rintro ⟨pre, k, v, post, s1, h, -⟩; simp at h
  | cons x ks ih =>
    obtain ⟨k, v⟩ := x
    intro s s'
    rw [loop]
    constructor
    · intro h
      rcases e1 : f k v s with ⟨e2 | ⟨⟩, s1⟩ <;> rw [e1] at h
      · cases h; exact ⟨[], k, v, ks, s, rfl, .nil s, e1⟩
      · obtain ⟨pre, k', v', post, s2, rfl, h1, h2⟩ := (ih s1 s').1 h
        exact ⟨(k, v) :: pre, k', v', post, s2, rfl, .cons e1 h1, h2⟩
    · rintro ⟨pre, k', v', post, s1, h, h1, h2⟩
      cases pre with
      | nil =>
        cases h1
        simp only [List.nil_append, List.cons.injEq, Prod.mk.injEq] at h
        obtain ⟨⟨rfl, rfl⟩, rfl⟩ := h
        rw [h2]
      | cons y pre =>
        simp only [List.cons_append, List.cons.injEq] at h
        obtain ⟨rfl, rfl⟩ := h
        cases h1 with
        | cons h3 h4 => rw [h3]; exact (ih _ _).2 ⟨pre, k', v', post, s1, rfl, h4, h2⟩

theorem usizeAsF64_ok (k : Nat) (h : k < 2 ^ 53) : usizeAsF64 k < 2 ^ 63 ∧ dval (usizeAsF64 k) = k := by
  unfold usizeAsF64
  by_cases h0 : k = 0
  · subst h0; simp [dval, ulps]
  rw [if_neg h0]
  have h1 : Nat.log2 k ≤ 52 := by
    have := (Nat.log2_lt h0 (k := 53)).2 h
    omega
  have h2 : 2 ^ Nat.log2 k ≤ k := Nat.log2_self_le h0
  have h3 : k < 2 ^ (Nat.log2 k + 1) := Nat.lt_log2_self
  generalize Nat.log2 k = e at *
  obtain ⟨d, hd⟩ : ∃ d, d = 52 - e := ⟨_, rfl⟩
  have hp : 2 ^ e * 2 ^ d = 2 ^ 52 := by rw [← pow_add]; congr 1; omega
  have h4 : 2 ^ 52 ≤ k * 2 ^ d := by rw [← hp]; exact Nat.mul_le_mul_right _ h2
  have h5 : k * 2 ^ d < 2 ^ 53 := by
    have : k * 2 ^ d < 2 ^ (e + 1) * 2 ^ d := Nat.mul_lt_mul_of_pos_right h3 (by positivity)
    rw [pow_succ] at this
    have e2 : 2 ^ e * 2 * 2 ^ d = 2 * (2 ^ e * 2 ^ d) := by ring
    rw [e2, hp] at this
    omega
  rw [← hd]
  refine ⟨by generalize k * 2 ^ d = x at *; omega, ?_⟩
  rw [dval_split _ _ (.inr h4) h5.le]
  push_cast
  rw [mul_assoc, ← zpow_natCast, ← zpow_add₀ (by norm_num)]
  have : (d : Int) + ((e : Int) + 1022 - 1074) = 0 := by omega
  rw [this]; simp

/-- the keys and values of a value in the order of the loop -/
def childList : Val → List (Key × Val)
  | .obj _ l => l.map fun m => (.name m.1, m.2)
  | .arr _ l => l.zipIdx.map fun x => (.index (usizeAsF64 x.2), x.1)
  | _ => []

theorem members_loop {S E : Type} (f : Key → Val → S → Except E Unit × S) (l : List (JsStr × Val)) :
    ∀ s, forEachMembers f l s = loop f (l.map fun m => (.name m.1, m.2)) s := by
  induction l with
  | nil => intro s; rfl
  | cons m l ih =>
    intro s
    obtain ⟨k, v⟩ := m
    rw [forEachMembers, List.map_cons, loop]
    rcases f (.name k) v s with ⟨⟨⟩ | ⟨⟩, s1⟩
    · rfl
    · exact ih s1

theorem items_loop {S E : Type} (f : Key → Val → S → Except E Unit × S) (l : List Val) :
    ∀ k s, forEachItems f k l s = loop f ((l.zipIdx k).map fun x => (.index (usizeAsF64 x.2), x.1)) s := by
  induction l with
  | nil => intro k s; rfl
  | cons v l ih =>
    intro k s
    rw [forEachItems, List.zipIdx_cons, List.map_cons, loop]
    rcases f (.index (usizeAsF64 k)) v s with ⟨⟨⟩ | ⟨⟩, s1⟩
    · rfl
    · exact ih (k + 1) s1

theorem forEach_loop {S E : Type} (f : Key → Val → S → Except E Unit × S) (v : Val) (s : S) :
    forEach f v s = loop f (childList v) s := by
  cases v with
  | obj i l => exact members_loop f l s
  | arr i l => exact items_loop f l 0 s
  | _ => rfl

/-- an array that fits into memory -/
def Val.Fits : Val → Prop
  | .arr _ l => l.length ≤ 2 ^ 53
  | _ => True

theorem childList_children (v : Val) (hv : v.Fits) : Children v (childList v) := by
  cases v with
  | obj i l =>
    refine .obj i l _ (by simp [childList]) fun n m h => ?_
    simp [childList, h]
  | arr i l =>
    refine .arr i l _ (by simp [childList]) fun n w h => ?_
    have hn : n < l.length := (List.getElem?_eq_some_iff.1 h).1
    have := usizeAsF64_ok n (lt_of_lt_of_le hn hv)
    refine ⟨usizeAsF64 n, ?_, this.1, this.2⟩
    simp [childList, h]
  | _ => exact .leaf _ (by simp) (by simp)

theorem Children.unique {v : Val} {a b : List (Key × Val)} (ha : Children v a) (hb : Children v b) :
    a = b := by
  cases ha with
  | obj i l _ hl h =>
    cases hb with
    | obj _ _ _ hl' h' =>
      apply List.ext_getElem?
      intro n
      rcases Nat.lt_or_ge n l.length with hn | hn
      · rw [h n l[n] (by simp [hn]), h' n l[n] (by simp [hn])]
      · rw [List.getElem?_eq_none (by omega), List.getElem?_eq_none (by omega)]
    | leaf _ _ ho => exact absurd rfl (ho _ _)
  | arr i l _ hl h =>
    cases hb with
    | arr _ _ _ hl' h' =>
      apply List.ext_getElem?
      intro n
      rcases Nat.lt_or_ge n l.length with hn | hn
      · obtain ⟨x, e1, -, e2⟩ := h n l[n] (by simp [hn])
        obtain ⟨y, e3, -, e4⟩ := h' n l[n] (by simp [hn])
        rw [e1, e3, dval_strictMono.injective (e2.trans e4.symm)]
      · rw [List.getElem?_eq_none (by omega), List.getElem?_eq_none (by omega)]
    | leaf _ ha _ => exact absurd rfl (ha _ _)
  | leaf _ h1 h2 =>
    cases hb with
    | obj i l => exact absurd rfl (h2 _ _)
    | arr i l => exact absurd rfl (h1 _ _)
    | leaf => rfl

/-! ## C69 -/

/-- The children of a value exist and are unique. -/
theorem C69_children (v : Val) (hv : v.Fits) : ∃! ks, Children v ks :=
  ⟨_, childList_children v hv, fun _ h => h.unique (childList_children v hv)⟩

/-- `for_each` succeeds iff the closure succeeds for all children, called once for each, in order; the
variables of the closure are as these calls leave them. -/
theorem C69_for_each {S E : Type} (f : Key → Val → S → Except E Unit × S) (v : Val) (hv : v.Fits)
    (ks : List (Key × Val)) (hk : Children v ks) (s s' : S) :
    forEach f v s = (.ok (), s') ↔ Calls f ks s s' := by
  rw [hk.unique (childList_children v hv), forEach_loop, loop_ok]

/-- `for_each` fails iff the closure fails for a child, with the error of the first such child; no
child after it is visited. -/
theorem C69_first_error {S E : Type} (f : Key → Val → S → Except E Unit × S) (v : Val) (hv : v.Fits)
    (ks : List (Key × Val)) (hk : Children v ks) (s s' : S) (e : E) :
    forEach f v s = (.error e, s') ↔ Fails f ks s e s' := by
  rw [hk.unique (childList_children v hv), forEach_loop, loop_error]

/-- a closure that notes its arguments and fails at `null` -/
def note (k : Key) (v : Val) (s : List Key) : Except Nat Unit × List Key :=
  match v with
  | .null => (.error 7, s)
  | _ => (.ok (), s ++ [k])

example : forEach note (.arr 0 [.bool true, .num 0, .bool false]) [] =
    (.ok (), [.index 0, .index 0x3FF0_0000_0000_0000, .index 0x4000_0000_0000_0000]) ∧
    forEach note (.obj 0 [([97], .bool true), ([98], .null), ([99], .bool true)]) [] =
    (.error 7, [.name [97]]) := by
  refine ⟨?_, rfl⟩
  have h0 : usizeAsF64 0 = 0 := by decide +kernel
  have h1 : usizeAsF64 1 = 0x3FF0_0000_0000_0000 := by decide +kernel
  have h2 : usizeAsF64 2 = 0x4000_0000_0000_0000 := by decide +kernel
  simp only [forEach, forEachItems, note, h0, h1, h2]; rfl

/-! The traversals of `to_djs.rs` are uses of `for_each`. -/

/-- the closure at to_djs.rs:57 -/
def trackCall (_ : Key) (v : Val) (m : Ser.HMap Ser.Seen) : Except Unit Unit × Ser.HMap Ser.Seen :=
  (.ok (), Ser.track m v)

/-- `track_consts_for_any`, to_djs.rs:53-63, visits the children of a block that it has not seen by
`for_each`. -/
theorem C69_track (m : Ser.HMap Ser.Seen) (v : Val) (hc : v.Compound) :
    Ser.track m v = if (Ser.isVisited m v).1 then (Ser.isVisited m v).2
      else (forEach trackCall v (Ser.isVisited m v).2).2 := by
  have h1 : ∀ (l : List Val) (k : Nat) m, Ser.trackItems m l = (forEachItems trackCall k l m).2 := by
    intro l
    induction l with
    | nil => intro k m; rfl
    | cons v l ih => intro k m; rw [Ser.trackItems, forEachItems, trackCall]; exact ih _ _
  have h2 : ∀ (l : List (JsStr × Val)) m, Ser.trackMembers m l = (forEachMembers trackCall l m).2 := by
    intro l
    induction l with
    | nil => intro m; rfl
    | cons x l ih => intro m; rw [Ser.trackMembers, forEachMembers, trackCall]; exact ih _
  cases v with
  | arr i l =>
    rw [Ser.track]
    rcases Ser.isVisited m (.arr i l) with ⟨⟨⟩ | ⟨⟩, m1⟩
    · exact h1 l 0 m1
    · rfl
  | obj i l =>
    rw [Ser.track]
    rcases Ser.isVisited m (.obj i l) with ⟨⟨⟩ | ⟨⟩, m1⟩
    · exact h2 l m1
    · rfl
  | _ => exact hc.elim

/-- the closure at to_djs.rs:73; a panic ends the loop as an error does -/
def writeCall (sh : Nat → Text) (_ : Key) (v : Val) (st : Ser.St) : Except Err Unit × Ser.St :=
  match Ser.writeConstsAndAny sh v st with
  | .ok st' => (.ok (), st')
  | .error e => (.error e, st)

/-- `write_compound_const`, to_djs.rs:67-85, writes what the children need by `for_each`, then the
constant itself. -/
theorem C69_write (sh : Nat → Text) (v : Val) (hc : v.Compound) (st : Ser.St) :
    Ser.writeConstsAndAny sh v st =
      match forEach (writeCall sh) v st with
      | (.ok _, st') => Ser.defineConst sh v st'
      | (.error e, _) => .error e := by
  have h1 : ∀ (l : List Val) (k : Nat) st, Ser.constItems sh l st =
      match forEachItems (writeCall sh) k l st with
      | (.ok _, st') => .ok st'
      | (.error e, _) => .error e := by
    intro l
    induction l with
    | nil => intro k m; rfl
    | cons v l ih =>
      intro k st
      rw [Ser.constItems, forEachItems, writeCall]
      cases e : Ser.writeConstsAndAny sh v st with
      | error e => rfl
      | ok st1 => exact ih _ _
  have h2 : ∀ (l : List (JsStr × Val)) st, Ser.constMembers sh l st =
      match forEachMembers (writeCall sh) l st with
      | (.ok _, st') => .ok st'
      | (.error e, _) => .error e := by
    intro l
    induction l with
    | nil => intro m; rfl
    | cons x l ih =>
      intro st
      obtain ⟨k, v⟩ := x
      rw [Ser.constMembers, forEachMembers, writeCall]
      cases e : Ser.writeConstsAndAny sh v st with
      | error e => rfl
      | ok st1 => exact ih _
  cases v with
  | arr i l =>
    rw [Ser.writeConstsAndAny, h1 l 0 st, forEach]
    rcases forEachItems (writeCall sh) 0 l st with ⟨⟨⟩ | ⟨⟩, st1⟩ <;> rfl
  | obj i l =>
    rw [Ser.writeConstsAndAny, h2 l st, forEach]
    rcases forEachMembers (writeCall sh) l st with ⟨⟨⟩ | ⟨⟩, st1⟩ <;> rfl
  | _ => exact hc.elim

example : (Val.arr 0 [.null, .arr 1 []]).Compound := trivial

end Nanvm
