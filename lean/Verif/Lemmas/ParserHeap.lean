import Verif.Lemmas.ParserMap
import Verif.Lemmas.SerTrack
import Verif.Lemmas.SerSame
/-!
# The values built by the parser: every block is allocated once

`H i` is the array or object that was allocated with number `i`.
-/
namespace Nanvm
namespace Parser
open Tok Grammar

/-- which numbers and bigints occur in the tokens -/
structure Lits where
  num : Nat → Prop
  big : JsBig → Prop

/-- the token contains only such numbers and bigints -/
def Lits.Token (L : Lits) : Tok.Token → Prop
  | .number b => L.num b
  | .bigInt b => L.big b
  | _ => True

abbrev Heap := Nat → Option Val

/-- a part of a value -/
def Node (L : Lits) (H : Heap) : Val → Prop
  | .null => True
  | .bool _ => True
  | .num b => L.num b
  | .str _ s => ∃ c : Text, s = toJsString c
  | .big _ b => L.big b
  | .arr i l => H i = some (.arr i l)
  | .obj i l => H i = some (.obj i l) ∧ KeysInOrder l

/-- all parts of the value are in the heap -/
def Held (L : Lits) (H : Heap) (v : Val) : Prop := ∀ x : Val, x.Sub v → Node L H x

def Fresh (H : Heap) (n : Nat) : Prop := ∀ i, n ≤ i → H i = none

def FrameOk (L : Lits) (H : Heap) : Frame → Prop
  | .array l => ∀ x ∈ l, Held L H x
  | .object map _ => map.Sorted ∧ ∀ kv ∈ map, Held L H kv.2

def ElemOk (L : Lits) (H : Heap) : Elem → Prop
  | .none => True
  | .stack f => FrameOk L H f
  | .any v => Held L H v

structure StOk (L : Lits) (H : Heap) (st : AnyState) : Prop where
  current : ElemOk L H st.current
  stack : ∀ f ∈ st.stack, FrameOk L H f
  consts : ∀ k v, st.consts.get k = some v → Held L H v

def ResOk (L : Lits) (H : Heap) : AnyResult → Prop
  | .cont st => StOk L H st
  | .success st v => StOk L H st ∧ Held L H v
  | .error _ => True

def JOk (L : Lits) (H : Heap) : JState → Prop
  | .parseRoot r => StOk L H r.state
  | .parseConst _ st => StOk L H st
  | .parseModule st => StOk L H st
  | .result _ v => Held L H v
  | .error _ => True

/-- the heap has grown -/
structure Grown (H : Heap) (H' : Heap) (n : Nat) : Prop where
  keep : ∀ i x, H i = some x → H' i = some x
  fresh : Fresh H' n

variable {L : Lits} {H H' : Heap}

theorem Grown.same {n m : Nat} (h : Fresh H n) (hm : n ≤ m) : Grown H H m :=
  ⟨fun _ _ h => h, fun i hi => h i (Nat.le_trans hm hi)⟩

theorem Held.mono {v : Val} (h : Held L H v) (hk : ∀ i x, H i = some x → H' i = some x) :
    Held L H' v := fun x hx => by
  have := h x hx
  cases x with
  | arr i l => exact hk _ _ this
  | obj i l => exact ⟨hk _ _ this.1, this.2⟩
  | _ => exact this

theorem FrameOk.mono {f : Frame} (h : FrameOk L H f) (hk : ∀ i x, H i = some x → H' i = some x) :
    FrameOk L H' f := by
  cases f with
  | array l => exact fun x hx => (h x hx).mono hk
  | object m k => exact ⟨h.1, fun kv hkv => (h.2 kv hkv).mono hk⟩

theorem StOk.mono {st : AnyState} (h : StOk L H st) (hk : ∀ i x, H i = some x → H' i = some x) :
    StOk L H' st := by
  refine ⟨?_, fun f hf => (h.stack f hf).mono hk, fun k v hv => (h.consts k v hv).mono hk⟩
  have := h.current
  revert this
  cases st.current with
  | none => exact id
  | stack f => exact fun h => FrameOk.mono h hk
  | any v => exact fun h => Held.mono h hk

theorem Grown.trans {H'' : Heap} {n m : Nat} (h : Grown H H' n) (h' : Grown H' H'' m) :
    Grown H H'' m := ⟨fun i x hx => h'.keep i x (h.keep i x hx), h'.fresh⟩

theorem JOk.mono {j : JState} (h : JOk L H j) (hk : ∀ i x, H i = some x → H' i = some x) :
    JOk L H' j := by
  cases j with
  | parseRoot r => exact StOk.mono h hk
  | parseConst k st => exact StOk.mono h hk
  | parseModule st => exact StOk.mono h hk
  | result dt v => exact Held.mono h hk
  | error e => trivial

/-! ## Values -/

theorem held_null : Held L H .null := fun x h => by cases h; trivial
theorem held_bool (b : Bool) : Held L H (.bool b) := fun x h => by cases h; trivial

theorem idToAny_ok {s : Text} {consts : TMap Val} {v : Val}
    (hc : ∀ k v, consts.get k = some v → Held L H v) (h : tryIdToAny s consts = some v) :
    Held L H v := by
  unfold tryIdToAny at h
  split at h
  · cases h; exact held_null
  split at h
  · cases h; exact held_bool _
  split at h
  · cases h; exact held_bool _
  · exact hc _ _ h

theorem tryToAny_ok {n m : Nat} {t : Token} {consts : TMap Val} {v : Val}
    (hc : ∀ k v, consts.get k = some v → Held L H v) (ht : L.Token t)
    (h : tryToAny n t consts = some (v, m)) : Held L H v ∧ n ≤ m := by
  unfold tryToAny at h
  cases t with
  | number f => cases h; exact ⟨fun x h => (by cases h; exact ht), Nat.le_refl _⟩
  | string s => cases h; exact ⟨fun x h => (by cases h; exact ⟨s, rfl⟩), Nat.le_succ _⟩
  | bigInt b => cases h; exact ⟨fun x h => (by cases h; exact ht), Nat.le_succ _⟩
  | id s =>
    simp only [Option.map_eq_some_iff, Prod.mk.injEq] at h
    obtain ⟨w, h, rfl, rfl⟩ := h
    exact ⟨idToAny_ok hc h, Nat.le_refl _⟩
  | _ => cases h

theorem mem_insert_val {m : TMap Val} (hs : m.Sorted) {k : Text} {v : Val} {kv : Text × Val}
    (h : kv ∈ m.insert k v) : kv.2 = v ∨ kv ∈ m := by
  have h1 := TMap.get_of_mem (TMap.insert_sorted m k v hs) h
  rw [TMap.get_insert] at h1
  split at h1
  · cases h1; exact .inl rfl
  · exact .inr (TMap.mem_of_get h1)

theorem get_insert_ok {m : TMap Val} (hm : ∀ k v, m.get k = some v → Held L H v) {k : Text} {v : Val}
    (hv : Held L H v) : ∀ k' v', (m.insert k v).get k' = some v' → Held L H v' := by
  intro k' v' h
  rw [TMap.get_insert] at h
  split at h
  · cases h; exact hv
  · exact hm _ _ h

theorem pushValue_ok {st : AnyState} {v : Val} {r : AnyResult} (hs : StOk L H st)
    (hv : Held L H v) (h : pushValue st v = .ok r) : ResOk L H r := by
  unfold pushValue at h
  have hc := hs.current
  split at h
  · cases h
    exact ⟨⟨hs.current, hs.stack, hs.consts⟩, hv⟩
  · rename_i l he
    rw [he] at hc
    cases h
    refine ⟨fun x hx => ?_, hs.stack, hs.consts⟩
    rcases List.mem_append.1 hx with hx | hx
    · exact hc x hx
    · rw [List.mem_singleton] at hx; subst hx; exact hv
  · rename_i map key he
    rw [he] at hc
    cases h
    refine ⟨⟨TMap.insert_sorted _ _ _ hc.1, fun kv hkv => ?_⟩, hs.stack, hs.consts⟩
    rcases mem_insert_val hc.1 hkv with e | hm
    · rw [e]; exact hv
    · exact hc.2 kv hm
  · cases h

theorem saveTop_ok {st : AnyState} (hs : StOk L H st) : ∀ f ∈ saveTop st, FrameOk L H f := by
  unfold saveTop
  have hc := hs.current
  split
  · rename_i top he
    rw [he] at hc
    intro f hf
    rcases List.mem_cons.1 hf with rfl | hf
    · exact hc
    · exact hs.stack f hf
  · exact hs.stack

theorem popTop_ok {st : AnyState} (hs : StOk L H st) : StOk L H (popTop st) := by
  unfold popTop
  split
  · rename_i f stack he
    have := hs.stack
    rw [he] at this
    exact ⟨this f (by simp), fun g hg => this g (by simp [hg]), hs.consts⟩
  · exact ⟨trivial, hs.stack, hs.consts⟩

/-- what a step of the parser of values keeps -/
def StepOk (L : Lits) (H : Heap) (x : Res (AnyResult × Nat)) : Prop :=
  ∀ r m, x = .ok (r, m) → ∃ H', Grown H H' m ∧ ResOk L H' r

theorem step_plain {n : Nat} (hf : Fresh H n) {r : AnyResult} (hr : ResOk L H r) :
    StepOk L H (.ok (r, n)) := by
  rintro r' m h
  cases h
  exact ⟨H, .same hf (Nat.le_refl _), hr⟩

theorem beginArray_ok {st : AnyState} (hs : StOk L H st) : ResOk L H (beginArray st) :=
  ⟨fun x hx => (by cases hx), saveTop_ok hs, hs.consts⟩

theorem beginObject_ok {st : AnyState} (hs : StOk L H st) : ResOk L H (beginObject st) :=
  ⟨⟨List.Pairwise.nil, fun x hx => (by cases hx)⟩, saveTop_ok hs, hs.consts⟩

theorem beginImport_ok {st : AnyState} (hs : StOk L H st) : ResOk L H (beginImport st) :=
  ⟨trivial, saveTop_ok hs, hs.consts⟩

theorem pushToken_ok {n : Nat} {st : AnyState} {t : Token} (hs : StOk L H st) (hf : Fresh H n)
    (ht : L.Token t) : StepOk L H (pushToken n st t) := by
  unfold pushToken
  intro r m h
  split at h
  · rename_i v k he
    obtain ⟨hv, hk⟩ := tryToAny_ok hs.consts ht he
    cases hp : pushValue st v with
    | error e => rw [hp] at h; cases h
    | ok r' =>
      rw [hp] at h
      cases h
      exact ⟨H, .same hf hk, pushValue_ok hs hv hp⟩
  · cases h
    exact ⟨H, .same hf (Nat.le_refl _), trivial⟩

/-- a new block -/
def put (H : Heap) (n : Nat) (v : Val) : Heap := fun i => if i = n then some v else H i

theorem put_grown {n : Nat} (hf : Fresh H n) (v : Val) : Grown H (put H n v) (n + 1) := by
  constructor
  · intro i x hx
    unfold put
    split
    · rename_i e
      rw [e, hf n (Nat.le_refl _)] at hx
      cases hx
    · exact hx
  · intro i hi
    unfold put
    rw [if_neg (by omega)]
    exact hf i (by omega)

theorem endArray_ok {n : Nat} {st : AnyState} (hs : StOk L H st) (hf : Fresh H n) :
    StepOk L H (endArray n st) := by
  unfold endArray
  intro r m h
  have hc := hs.current
  split at h
  · rename_i l he
    rw [he] at hc
    cases hp : pushValue (popTop st) (.arr n l) with
    | error e => rw [hp] at h; cases h
    | ok r' =>
      rw [hp] at h
      cases h
      have hg := put_grown hf (.arr n l)
      refine ⟨_, hg, pushValue_ok ((popTop_ok hs).mono hg.keep) (fun x hx => ?_) hp⟩
      cases hx with
      | refl => simp [Node, put]
      | arr _ _ y hy hx => exact (hc y hy).mono hg.keep x hx
  · cases h

theorem endObject_ok {n : Nat} {st : AnyState} (hs : StOk L H st) (hf : Fresh H n) :
    StepOk L H (endObject n st) := by
  unfold endObject
  intro r m h
  have hc := hs.current
  split at h
  · rename_i map key he
    rw [he] at hc
    cases hp : pushValue (popTop st) (.obj n (map.map fun kv => (toJsString kv.1, kv.2))) with
    | error e => rw [hp] at h; cases h
    | ok r' =>
      rw [hp] at h
      cases h
      have hg := put_grown hf (.obj n (map.map fun kv => (toJsString kv.1, kv.2)))
      refine ⟨_, hg, pushValue_ok ((popTop_ok hs).mono hg.keep) (fun x hx => ?_) hp⟩
      cases hx with
      | refl => exact ⟨by simp [put], map, rfl, hc.1⟩
      | obj _ _ y hy hx =>
        obtain ⟨kv, hkv, rfl⟩ := List.mem_map.1 hy
        exact (hc.2 kv hkv).mono hg.keep x hx
  · cases h

theorem pushKey_ok {st : AnyState} {s : Text} (hs : StOk L H st) : ResOk L H (pushKey st s) := by
  unfold pushKey
  have hc := hs.current
  split
  · rename_i map key he
    rw [he] at hc
    exact ⟨hc, hs.stack, hs.consts⟩
  · trivial

theorem status_ok {st : AnyState} (hs : StOk L H st) (s : Status) :
    ResOk L H (.cont { st with status := s }) := ⟨hs.current, hs.stack, hs.consts⟩

section
variable {n : Nat} {st : AnyState} {t : Token}

theorem parseValue_ok (hs : StOk L H st) (hf : Fresh H n) (ht : L.Token t) :
    StepOk L H (parseValue n st t) := by
  unfold parseValue
  split
  · exact step_plain hf (beginArray_ok hs)
  · exact step_plain hf (beginObject_ok hs)
  · split
    · exact step_plain hf (beginImport_ok hs)
    · exact pushToken_ok hs hf ht
  · exact pushToken_ok hs hf ht

theorem parseArrayComma_ok (hs : StOk L H st) (hf : Fresh H n) (ht : L.Token t) :
    StepOk L H (parseArrayComma n st t) := by
  unfold parseArrayComma
  split
  · exact step_plain hf (beginArray_ok hs)
  · exact step_plain hf (beginObject_ok hs)
  · split
    · exact step_plain hf (beginImport_ok hs)
    · exact pushToken_ok hs hf ht
  · exact endArray_ok hs hf
  · exact pushToken_ok hs hf ht

theorem parseArrayBegin_ok (hs : StOk L H st) (hf : Fresh H n) (ht : L.Token t) :
    StepOk L H (parseArrayBegin n st t) := by
  unfold parseArrayBegin
  split
  · exact step_plain hf (beginArray_ok hs)
  · exact endArray_ok hs hf
  · exact step_plain hf (beginObject_ok hs)
  · exact pushToken_ok hs hf ht

theorem parseArrayValue_ok (hs : StOk L H st) (hf : Fresh H n) :
    StepOk L H (parseArrayValue n st t) := by
  unfold parseArrayValue
  split
  · exact endArray_ok hs hf
  · exact step_plain hf (status_ok hs _)
  · exact step_plain hf trivial

theorem parseObjectBegin_ok (hs : StOk L H st) (hf : Fresh H n) :
    StepOk L H (parseObjectBegin n st t) := by
  unfold parseObjectBegin
  split
  · exact step_plain hf (pushKey_ok hs)
  · split
    · exact step_plain hf (pushKey_ok hs)
    · exact step_plain hf trivial
  · exact endObject_ok hs hf
  · exact step_plain hf trivial

theorem parseObjectNext_ok (hs : StOk L H st) (hf : Fresh H n) :
    StepOk L H (parseObjectNext n st t) := by
  unfold parseObjectNext
  split
  · exact endObject_ok hs hf
  · exact step_plain hf (status_ok hs _)
  · exact step_plain hf trivial

theorem parseObjectComma_ok (hs : StOk L H st) (hf : Fresh H n) :
    StepOk L H (parseObjectComma n st t) := by
  unfold parseObjectComma
  split
  · exact step_plain hf (pushKey_ok hs)
  · exact endObject_ok hs hf
  · exact step_plain hf trivial

theorem parseObjectKey_ok (hs : StOk L H st) : ResOk L H (parseObjectKey st t) := by
  unfold parseObjectKey
  split
  · exact status_ok hs _
  · trivial

theorem parseImportBegin_ok (hs : StOk L H st) : ResOk L H (parseImportBegin st t) := by
  unfold parseImportBegin
  split
  · exact status_ok hs _
  · trivial

theorem parseImportEnd_ok (hs : StOk L H st) {r : AnyResult} (h : parseImportEnd st t = .ok r) :
    ResOk L H r := by
  unfold parseImportEnd at h
  split at h
  · unfold endImport at h
    have hc := hs.current
    split at h
    · rename_i v he
      rw [he] at hc
      have hp := popTop_ok hs
      exact pushValue_ok ⟨hp.current, hp.stack, hp.consts⟩ hc h
    · cases h
  · cases h; trivial

theorem dispatch_ok {α : Type} (hs : StOk L H st) (hf : Fresh H n) (ht : L.Token t)
    (f : AnyResult × Nat → α) (imp : Res α) {a : α} (h : dispatch n st t f imp = .ok a) :
    imp = .ok a ∨ ∃ r m H', a = f (r, m) ∧ Grown H H' m ∧ ResOk L H' r := by
  have key : ∀ x : Res (AnyResult × Nat), StepOk L H x → (x >>= fun y => pure (f y)) = .ok a →
      ∃ r m H', a = f (r, m) ∧ Grown H H' m ∧ ResOk L H' r := by
    intro x hx h
    cases x with
    | error e => cases h
    | ok y =>
      obtain ⟨r, m⟩ := y
      obtain ⟨H', h1, h2⟩ := hx r m rfl
      cases h
      exact ⟨r, m, H', rfl, h1, h2⟩
  unfold dispatch at h
  split at h
  · exact .inr (key _ (parseValue_ok hs hf ht) h)
  · exact .inr (key _ (parseValue_ok hs hf ht) h)
  · exact .inr (key _ (parseArrayBegin_ok hs hf ht) h)
  · exact .inr (key _ (parseArrayValue_ok hs hf) h)
  · exact .inr (key _ (parseArrayComma_ok hs hf ht) h)
  · exact .inr (key _ (parseObjectBegin_ok hs hf) h)
  · cases h; exact .inr ⟨_, _, H, rfl, .same hf (Nat.le_refl _), parseObjectKey_ok hs⟩
  · exact .inr (key _ (parseObjectNext_ok hs hf) h)
  · exact .inr (key _ (parseObjectComma_ok hs hf) h)
  · cases h; exact .inr ⟨_, _, H, rfl, .same hf (Nat.le_refl _), parseImportBegin_ok hs⟩
  · exact .inl h
  · cases hp : parseImportEnd st t with
    | error e => rw [hp] at h; cases h
    | ok r =>
      rw [hp] at h
      cases h
      exact .inr ⟨_, _, H, rfl, .same hf (Nat.le_refl _), parseImportEnd_ok hs hp⟩

end

theorem forModule_ok {r : AnyResult} (h : ResOk L H r) : JOk L H (forModule r) := by
  cases r with
  | cont st => exact h
  | success st v => exact h.2
  | error e => trivial

theorem constResult_ok {key : Text} {r : AnyResult} (h : ResOk L H r) :
    JOk L H (constResult key r) := by
  cases r with
  | cont st => exact h
  | success st v => exact ⟨h.1.current, h.1.stack, get_insert_ok h.1.consts h.2⟩
  | error e => trivial

theorem anyStateParse_ok {n m : Nat} {st : AnyState} {t : Token} (hs : StOk L H st) (hf : Fresh H n)
    (ht : L.Token t) {r : AnyResult} {o : Option Text} (h : st.parse n t = .ok ((r, o), m)) :
    ∃ H', Grown H H' m ∧ ResOk L H' r := by
  unfold AnyState.parse at h
  rcases dispatch_ok hs hf ht _ _ h with h | ⟨r', m', H', h, h1, h2⟩
  · unfold parseImportValue at h
    cases t <;> cases h
    all_goals first
      | exact ⟨H, .same hf (Nat.le_refl _), trivial⟩
      | exact ⟨H, .same hf (Nat.le_refl _), hs.current, hs.stack, hs.consts⟩
  · cases h
    exact ⟨H', h1, h2⟩

theorem parseForModule_ok {n m : Nat} {st : AnyState} {t : Token} (hs : StOk L H st) (hf : Fresh H n)
    (ht : L.Token t) {j : JState} {o : Option Text} (h : parseForModule n st t = .ok ((j, o), m)) :
    ∃ H', Grown H H' m ∧ JOk L H' j := by
  unfold parseForModule at h
  cases hp : st.parse n t with
  | error e => rw [hp] at h; cases h
  | ok x =>
    obtain ⟨⟨r, o'⟩, m'⟩ := x
    rw [hp] at h
    obtain ⟨H', h1, h2⟩ := anyStateParse_ok hs hf ht hp
    cases o' with
    | none => cases h; exact ⟨H', h1, forModule_ok h2⟩
    | some name =>
      cases r with
      | cont st' => cases h; exact ⟨H', h1, h2⟩
      | success st' v => cases h
      | error e => cases h

theorem rootStateParse_ok {n m : Nat} {r : RootState} {t : Token} (hs : StOk L H r.state)
    (hf : Fresh H n) (ht : L.Token t) {j : JState} {o : Option (Text × Text)}
    (h : r.parse n t = .ok ((j, o), m)) : ∃ H', Grown H H' m ∧ JOk L H' j := by
  have plain : ∀ {j' : JState} {o' : Option (Text × Text)},
      (Except.ok ((j', o'), n) : Res ((JState × Option (Text × Text)) × Nat)) = .ok ((j, o), m) →
      JOk L H j' → ∃ H', Grown H H' m ∧ JOk L H' j := by
    intro j' o' he hj
    cases he
    exact ⟨H, .same hf (Nat.le_refl _), hj⟩
  have hty : ∀ d : DataType, StOk L H { r.state with dataType := d } :=
    fun d => ⟨hs.current, hs.stack, hs.consts⟩
  have value : ∀ (x : Res ((JState × Option (Text × Text)) × Nat)),
      x = (do
        let ((j, _), n) ← parseForModule n r.state t
        return ((j, none), n)) → x = .ok ((j, o), m) → ∃ H', Grown H H' m ∧ JOk L H' j := by
    intro x hx he
    rw [hx] at he
    cases hp : parseForModule n r.state t with
    | error e => rw [hp] at he; cases he
    | ok y =>
      obtain ⟨⟨j', o'⟩, m'⟩ := y
      rw [hp] at he
      cases he
      exact parseForModule_ok hs hf ht hp
  unfold RootState.parse at h
  simp only at h
  split at h
  · split at h
    · exact plain h hs
    · split at h
      · split at h
        · exact plain h (hty _)
        split at h
        · exact plain h (hty _)
        split at h
        · exact plain h (hty _)
        split at h
        · exact plain h (hty _)
        · exact value _ rfl h
      · exact plain h trivial
    · split at h
      · exact value _ rfl h
      · exact plain h trivial
  · split at h
    · split at h
      · exact plain h hs
      · exact plain h trivial
    · exact plain h trivial
  · split at h
    · exact plain h hs
    · exact plain h trivial
  · split at h
    · split at h
      · exact plain h hs
      · exact plain h trivial
    · exact plain h trivial
  · split at h
    · exact plain h hs
    · exact plain h trivial
  · split at h
    · exact plain h hs
    · exact plain h trivial
  · split at h
    · exact plain h hs
    · exact plain h trivial
  · split at h
    · exact plain h hs
    · exact plain h trivial
  · split at h
    · split at h
      · exact plain h hs
      · exact plain h trivial
    · exact plain h trivial
  · split at h
    · exact plain h hs
    · exact plain h trivial

/-! ## With files -/

/-- the cached modules are in the heap -/
structure CtxOk (L : Lits) (H : Heap) (ctx : Ctx) : Prop where
  fresh : Fresh H ctx.next
  complete : ∀ p v, ctx.complete.get p = some v → Held L H v

/-- what holds for the parser of imported modules -/
def NestedOk (L : Lits) (self : ParseTokens) : Prop :=
  ∀ (H : Heap) (ctx : Ctx) (ts : List Token) (ctx' : Ctx) (o : Outcome), CtxOk L H ctx →
    (∀ t ∈ ts, L.Token t) → self ctx ts = .ok (ctx', o) →
    ∃ H', Grown H H' ctx'.next ∧ CtxOk L H' ctx' ∧ ∀ dt v, o = .ok (dt, v) → Held L H' v

/-- the tokens of all files contain only such numbers and bigints -/
def FilesOk (L : Lits) (env : Env) : Prop :=
  ∀ p text ts, env.fs p = some text → tokenize env.conv text = .ok ts → ∀ t ∈ ts, L.Token t

variable {env : Env} {self : ParseTokens}

theorem importModule_held (hn : NestedOk L self) (hfs : FilesOk L env) {ctx ctx' : Ctx} {s : Text}
    {r : Except ParseError Val} (hc : CtxOk L H ctx)
    (h : importModule env self ctx s = .ok (ctx', r)) :
    ∃ H', Grown H H' ctx'.next ∧ CtxOk L H' ctx' ∧ ∀ v, r = .ok v → Held L H' v := by
  unfold importModule at h
  simp only at h
  split at h
  · rename_i v hv
    cases h
    exact ⟨H, .same hc.fresh (Nat.le_refl _), hc, fun w hw => by cases hw; exact hc.complete _ _ hv⟩
  split at h
  · cases h
    exact ⟨H, .same hc.fresh (Nat.le_refl _), hc, fun w hw => by cases hw⟩
  split at h
  · rename_i text htext
    cases ht : tokenize env.conv text with
    | error e => rw [ht] at h; cases h
    | ok ts =>
      rw [ht] at h
      change (self _ ts >>= _) = _ at h
      cases hp : self { ctx with
          progress := setInsert ctx.progress (env.resolve s),
          reads := env.resolve s :: ctx.reads } ts with
      | error e => rw [hp] at h; cases h
      | ok x =>
        obtain ⟨ctx1, o⟩ := x
        rw [hp] at h
        obtain ⟨H', h1, h2, h3⟩ := hn H { ctx with
          progress := setInsert ctx.progress (env.resolve s),
          reads := env.resolve s :: ctx.reads } ts ctx1 o ⟨hc.fresh, hc.complete⟩
          (hfs _ _ _ htext ht) hp
        cases o with
        | error e =>
          cases h
          exact ⟨H', h1, h2, fun w hw => by cases hw⟩
        | ok y =>
          obtain ⟨dt, v⟩ := y
          cases h
          have hv := h3 dt v rfl
          exact ⟨H', h1, ⟨h2.fresh, get_insert_ok h2.complete hv⟩, fun w hw => by cases hw; exact hv⟩
  · cases h
    exact ⟨H, .same hc.fresh (Nat.le_refl _), ⟨hc.fresh, hc.complete⟩, fun w hw => by cases hw⟩

theorem CtxOk.grown {ctx : Ctx} (hc : CtxOk L H ctx) {m : Nat} (hg : Grown H H' m) :
    CtxOk L H' { ctx with next := m } :=
  ⟨hg.fresh, fun p v h => (hc.complete p v h).mono hg.keep⟩

theorem anyParse_held (hn : NestedOk L self) (hfs : FilesOk L env) {ctx ctx' : Ctx} {st : AnyState}
    {t : Token} {r : AnyResult} (hc : CtxOk L H ctx) (hs : StOk L H st) (ht : L.Token t)
    (h : anyParse env self ctx st t = .ok (ctx', r)) :
    ∃ H', Grown H H' ctx'.next ∧ CtxOk L H' ctx' ∧ ResOk L H' r := by
  unfold anyParse at h
  have hd := dispatch_ok hs hc.fresh ht _ _ h
  clear h
  rcases hd with h | ⟨r', m, H', h, h1, h2⟩
  · unfold importValue at h
    have other : (Except.ok (ctx, AnyResult.error .wrongRequireStatement) : Res (Ctx × AnyResult)) =
        .ok (ctx', r) → ∃ H', Grown H H' ctx'.next ∧ CtxOk L H' ctx' ∧ ResOk L H' r := by
      intro h
      cases h
      exact ⟨H, .same hc.fresh (Nat.le_refl _), hc, trivial⟩
    cases t
    case string s =>
      simp only at h
      cases hi : importModule env self ctx s with
      | error e => rw [hi] at h; cases h
      | ok x =>
        obtain ⟨ctx1, o⟩ := x
        rw [hi] at h
        obtain ⟨H', h1, h2, h3⟩ := importModule_held hn hfs hc hi
        cases o with
        | error e => cases h; exact ⟨H', h1, h2, trivial⟩
        | ok v =>
          cases h
          have hs' := hs.mono h1.keep
          exact ⟨H', h1, h2, h3 v rfl, hs'.stack, hs'.consts⟩
    all_goals exact other h
  · cases h
    exact ⟨H', h1, hc.grown h1, h2⟩

theorem rootParse_held (hn : NestedOk L self) (hfs : FilesOk L env) {ctx ctx' : Ctx} {r : RootState}
    {t : Token} {j : JState} (hc : CtxOk L H ctx) (hs : StOk L H r.state) (ht : L.Token t)
    (h : rootParse env self ctx r t = .ok (ctx', j)) :
    ∃ H', Grown H H' ctx'.next ∧ CtxOk L H' ctx' ∧ JOk L H' j := by
  unfold rootParse at h
  cases hp : r.parse ctx.next t with
  | error e => rw [hp] at h; cases h
  | ok x =>
    obtain ⟨⟨j1, o⟩, m⟩ := x
    rw [hp] at h
    obtain ⟨H', h1, h2⟩ := rootStateParse_ok hs hc.fresh ht hp
    cases o with
    | none =>
      cases h
      exact ⟨H', h1, hc.grown h1, h2⟩
    | some im =>
      obtain ⟨id, module⟩ := im
      cases j1 with
      | parseRoot r1 =>
        change (importModule env self _ module >>= _) = _ at h
        cases hi : importModule env self { ctx with next := m } module with
        | error e => rw [hi] at h; cases h
        | ok x =>
          obtain ⟨ctx1, o⟩ := x
          rw [hi] at h
          obtain ⟨H2, h3, h4, h5⟩ := importModule_held hn hfs (hc.grown h1) hi
          cases o with
          | error e => cases h; exact ⟨H2, h1.trans h3, h4, trivial⟩
          | ok v =>
            cases h
            have hs' : StOk L H2 r1.state := StOk.mono h2 h3.keep
            exact ⟨H2, h1.trans h3, h4, hs'.current, hs'.stack, get_insert_ok hs'.consts (h5 v rfl)⟩
      | parseConst k st => cases h
      | parseModule st => cases h
      | result dt v => cases h
      | error e => cases h

theorem jsonPush_held (hn : NestedOk L self) (hfs : FilesOk L env) {ctx ctx' : Ctx} {j j' : JState}
    {t : Token} (hc : CtxOk L H ctx) (hj : JOk L H j) (ht : L.Token t)
    (h : jsonPush env self ctx j t = .ok (ctx', j')) :
    ∃ H', Grown H H' ctx'.next ∧ CtxOk L H' ctx' ∧ JOk L H' j' := by
  have same : ∀ j'' : JState, JOk L H j'' →
      (Except.ok (ctx, j'') : Res (Ctx × JState)) = .ok (ctx', j') →
      ∃ H', Grown H H' ctx'.next ∧ CtxOk L H' ctx' ∧ JOk L H' j' := by
    intro j'' hj h
    cases h
    exact ⟨H, .same hc.fresh (Nat.le_refl _), hc, hj⟩
  have module : ∀ st, StOk L H st → moduleParse env self ctx st t = .ok (ctx', j') →
      ∃ H', Grown H H' ctx'.next ∧ CtxOk L H' ctx' ∧ JOk L H' j' := by
    intro st hs h
    unfold moduleParse at h
    cases hp : anyParse env self ctx st t with
    | error e => rw [hp] at h; cases h
    | ok x =>
      obtain ⟨ctx1, r⟩ := x
      rw [hp] at h
      obtain ⟨H', h1, h2, h3⟩ := anyParse_held hn hfs hc hs ht hp
      cases h
      exact ⟨H', h1, h2, forModule_ok h3⟩
  have const : ∀ key st, StOk L H st → constStateParse env self ctx key st t = .ok (ctx', j') →
      ∃ H', Grown H H' ctx'.next ∧ CtxOk L H' ctx' ∧ JOk L H' j' := by
    intro key st hs h
    unfold constStateParse at h
    split at h
    · cases h
    cases hp : anyParse env self ctx st t with
    | error e => rw [hp] at h; cases h
    | ok x =>
      obtain ⟨ctx1, r⟩ := x
      rw [hp] at h
      obtain ⟨H', h1, h2, h3⟩ := anyParse_held hn hfs hc hs ht hp
      cases h
      exact ⟨H', h1, h2, constResult_ok h3⟩
  unfold jsonPush at h
  split at h
  · split at h
    · exact rootParse_held hn hfs hc hj ht h
    · exact same _ hj h
  · split at h
    · exact rootParse_held hn hfs hc hj ht h
    · exact same (.error .unexpectedToken) trivial h
    · exact module _ hj h
    · exact const _ _ hj h
    · exact same _ hj h

theorem pushAll_held (hn : NestedOk L self) (hfs : FilesOk L env) (ts : List Token)
    (ht : ∀ t ∈ ts, L.Token t) : ∀ {H : Heap} {ctx ctx' : Ctx} {j j' : JState}, CtxOk L H ctx →
    JOk L H j → pushAll env self ctx j ts = .ok (ctx', j') →
    ∃ H', Grown H H' ctx'.next ∧ CtxOk L H' ctx' ∧ JOk L H' j' := by
  induction ts with
  | nil =>
    intro H ctx ctx' j j' hc hj h
    cases h
    exact ⟨H, .same hc.fresh (Nat.le_refl _), hc, hj⟩
  | cons t ts ih =>
    intro H ctx ctx' j j' hc hj h
    rw [pushAll] at h
    cases hp : jsonPush env self ctx j t with
    | error e => rw [hp] at h; cases h
    | ok x =>
      obtain ⟨ctx1, j1⟩ := x
      rw [hp] at h
      obtain ⟨H1, h1, h2, h3⟩ := jsonPush_held hn hfs hc hj (ht t (by simp)) hp
      obtain ⟨H2, h4, h5, h6⟩ := ih (fun t h => ht t (by simp [h])) h2 h3 h
      exact ⟨H2, h1.trans h4, h5, h6⟩

theorem parseWithTokens_held (hfs : FilesOk L env) (fuel : Nat) :
    NestedOk L (parseWithTokens env fuel) := by
  induction fuel with
  | zero => intro H ctx ts ctx' o _ _ h; cases h
  | succ fuel ih =>
    intro H ctx ts ctx' o hc ht h
    rw [parseWithTokens] at h
    cases hp : pushAll env (parseWithTokens env fuel) ctx JState.start ts with
    | error e => simp only [hp] at h; cases h
    | ok x =>
      obtain ⟨ctx1, j⟩ := x
      simp only [hp] at h
      obtain ⟨H', h1, h2, h3⟩ := pushAll_held ih hfs ts ht hc
        (j := JState.start) ⟨trivial, fun f hf => (by cases hf), fun k v hv => by cases hv⟩ hp
      cases h
      refine ⟨H', h1, h2, fun dt v he => ?_⟩
      cases j <;> simp only [JState.end_] at he <;> cases he
      exact h3

/-- the values that are parsed -/
theorem parse_held (hfs : FilesOk L env) {fuel : Nat} {ctx' : Ctx} {dt : DataType} {v : Val}
    (h : parse env fuel Ctx.empty = .ok (ctx', .ok (dt, v))) : ∃ H, Held L H v := by
  unfold parse at h
  simp only at h
  split at h
  · rename_i text htext
    cases ht : tokenize env.conv text with
    | error e => rw [ht] at h; cases h
    | ok ts =>
      rw [ht] at h
      obtain ⟨H', -, -, h3⟩ := parseWithTokens_held hfs fuel (fun _ => none) _ ts ctx' _
        ⟨fun _ _ => rfl, fun p v hv => by cases hv⟩ (hfs _ _ _ htext ht) h
      exact ⟨H', h3 dt v rfl⟩
  · cases h

theorem Held.consistent {v : Val} (h : Held L H v) : v.Consistent := by
  intro x y hx hy hxc hyc e
  have h1 := h x hx
  have h2 := h y hy
  cases x <;> cases y <;> first | (cases hxc; done) | (cases hyc; done) | skip
  · simp only [Val.word, Word.arr.injEq] at e
    subst e
    exact Option.some.inj (h1.symm.trans h2)
  · simp [Val.word] at e
  · simp [Val.word] at e
  · simp only [Val.word, Word.obj.injEq] at e
    subst e
    exact Option.some.inj (h1.1.symm.trans h2.1)

theorem Held.ordered {v : Val} (h : Held L H v) : Ser.Ordered v := fun _ _ hs => (h _ hs).2

end Parser
end Nanvm
