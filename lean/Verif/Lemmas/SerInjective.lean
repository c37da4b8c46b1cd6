import Verif.Props.SerializerJson
import Verif.Props.BigFloat
/-!
# Lemmas for C73: a text is written for one value only
-/
namespace Nanvm
open Ser

variable {sh : Nat → Text}

/-! ## Texts cut at the first character of a kind -/

/-- the text is empty or begins with a character without `p` -/
def Ends (p : Char → Prop) (r : Text) : Prop := ∀ c ∈ r.head?, ¬ p c

theorem cut_unique {p : Char → Prop} {t u r s : Text} (ht : ∀ c ∈ t, p c) (hu : ∀ c ∈ u, p c)
    (hr : Ends p r) (hs : Ends p s) (e : t ++ r = u ++ s) : t = u ∧ r = s := by
  induction t generalizing u with
  | nil =>
    cases u with
    | nil => exact ⟨rfl, e⟩
    | cons c u =>
      simp only [List.nil_append, List.cons_append] at e
      subst e
      exact absurd (hu c (by simp)) (hr c (by simp))
  | cons a t ih =>
    cases u with
    | nil =>
      simp only [List.nil_append, List.cons_append] at e
      subst e
      exact absurd (ht a (by simp)) (hs a (by simp))
    | cons c u =>
      simp only [List.cons_append, List.cons.injEq] at e
      obtain ⟨rfl, e⟩ := e
      obtain ⟨rfl, h⟩ := ih (fun x hx => ht x (by simp [hx])) (fun x hx => hu x (by simp [hx])) e
      exact ⟨rfl, h⟩

/-! ## Numbers -/

/-- the characters of a number without exponent -/
def NumChar (c : Char) : Prop := c = '-' ∨ c = '.' ∨ isDigit c = true

theorem numLit_chars {l : NumLit} (hv : l.Valid) (he : l.exp = none) : ∀ c ∈ l.text, NumChar c := by
  obtain ⟨n, i, f, x⟩ := l
  simp only at he
  subst he
  intro c hc
  simp only [NumLit.text, NumLit.expText, List.append_nil, List.mem_append] at hc
  rcases hc with hc | hc | hc
  · left
    revert hc
    unfold NumLit.signText
    split <;> simp
  · exact .inr (.inr ((intPart_digits hv.1.int).1 c hc))
  · cases f with
    | none => simp [NumLit.fracText] at hc
    | some ds =>
      rcases List.mem_cons.1 hc with rfl | hc
      · exact .inr (.inl rfl)
      · exact .inr (.inr ((hv.1.frac ds rfl).2 c hc))

theorem digits_text {i j : List Char} {f g : Option (List Char)} (hi : AllDigits i) (hj : AllDigits j)
    (e : i ++ NumLit.fracText f = j ++ NumLit.fracText g) : i = j ∧ f = g := by
  have hd : ∀ o, Ends (fun c => isDigit c = true) (NumLit.fracText o) := by
    intro o c hc
    cases o with
    | none => simp [NumLit.fracText] at hc
    | some ds =>
      simp only [NumLit.fracText, List.head?_cons, Option.mem_some_iff] at hc
      subst hc
      decide
  obtain ⟨h1, h2⟩ := cut_unique hi hj (hd f) (hd g) e
  refine ⟨h1, ?_⟩
  cases f <;> cases g <;> simp_all [NumLit.fracText]

/-- a number without exponent is determined by its text -/
theorem numLit_unique {l m : NumLit} (hl : l.Valid) (hm : m.Valid) (el : l.exp = none)
    (em : m.exp = none) (e : l.text = m.text) : l = m := by
  obtain ⟨n, i, f, x⟩ := l
  obtain ⟨n', j, g, y⟩ := m
  simp only at el em
  subst el em
  simp only [NumLit.text, NumLit.expText, List.append_nil] at e
  obtain ⟨hi, hi0⟩ := intPart_digits hl.1.int
  obtain ⟨hj, hj0⟩ := intPart_digits hm.1.int
  have nd : isDigit '-' = false := by decide
  cases n <;> cases n'
  · obtain ⟨rfl, rfl⟩ := digits_text hi hj (by simpa [NumLit.signText] using e)
    rfl
  · exfalso
    cases i with
    | nil => exact hi0 rfl
    | cons c i =>
      simp only [NumLit.signText, Bool.false_eq_true, if_false, if_true, List.nil_append,
        List.cons_append, List.cons.injEq] at e
      have := hi c (by simp)
      rw [e.1, nd] at this
      cases this
  · exfalso
    cases j with
    | nil => exact hj0 rfl
    | cons c j =>
      simp only [NumLit.signText, Bool.false_eq_true, if_false, if_true, List.nil_append,
        List.cons_append, List.cons.injEq] at e
      have := hj c (by simp)
      rw [← e.1, nd] at this
      cases this
  · obtain ⟨rfl, rfl⟩ := digits_text hi hj (by simpa [NumLit.signText] using e)
    rfl

/-! ## Strings -/

theorem piece_cut {p q : Piece} {x y : Text} (hp : p.Valid) (hq : q.Valid)
    (e : p.text ++ x = q.text ++ y) : p = q ∧ x = y := by
  have hu : Piece.escaped 'u' = none := by decide
  cases p <;> cases q <;> simp only [Piece.text, List.cons_append, List.nil_append,
    List.cons.injEq] at e
  case raw.raw => exact ⟨by rw [e.1], e.2⟩
  case raw.esc => exact absurd e.1 hp.2
  case raw.uni => exact absurd e.1 hp.2
  case esc.raw => exact absurd e.1.symm hq.2
  case esc.esc => exact ⟨by rw [e.2.1], e.2.2⟩
  case esc.uni =>
    obtain ⟨-, rfl, -⟩ := e
    simp [Piece.Valid, hu] at hp
  case uni.raw => exact absurd e.1.symm hq.2
  case uni.esc =>
    obtain ⟨-, rfl, -⟩ := e
    simp [Piece.Valid, hu] at hq
  case uni.uni =>
    obtain ⟨-, -, rfl, rfl, rfl, rfl, rfl⟩ := e
    exact ⟨rfl, rfl⟩

theorem pieces_cut {s s' : JsStr} {ps qs : List Piece} {r r' : Text}
    (hp : List.Forall₂ PieceFor s ps) (hq : List.Forall₂ PieceFor s' qs)
    (e : ps.flatMap Piece.text ++ '"' :: r = qs.flatMap Piece.text ++ '"' :: r') :
    s = s' ∧ r = r' := by
  have nq : ∀ {p : Piece} {x y : Text}, p.Valid → p.text ++ x ≠ '"' :: y := by
    intro p x y hp
    cases p <;> simp_all [Piece.text, Piece.Valid]
  induction hp generalizing s' qs with
  | nil =>
    cases hq with
    | nil => simp_all
    | cons h _ =>
      rw [List.flatMap_cons, List.append_assoc] at e
      exact absurd e.symm (nq h.valid)
  | cons h1 h2 ih =>
    cases hq with
    | nil =>
      rw [List.flatMap_cons, List.append_assoc] at e
      exact absurd e (nq h1.valid)
    | cons h3 h4 =>
      simp only [List.flatMap_cons, List.append_assoc] at e
      obtain ⟨rfl, e'⟩ := piece_cut h1.valid h3.valid e
      obtain ⟨rfl, rfl⟩ := ih h4 e'
      have := h1.units.symm.trans h3.units
      simp_all

theorem string_cut {s s' : JsStr} {t t' r r' : Text} (hs : Units s) (hs' : Units s')
    (h : writeJsString s = .ok t) (h' : writeJsString s' = .ok t') (e : t ++ r = t' ++ r') :
    s = s' ∧ r = r' := by
  obtain ⟨ps, p1, p2⟩ := units_pieces s hs
  obtain ⟨qs, q1, q2⟩ := units_pieces s' hs'
  rw [writeJsString, p1] at h
  rw [writeJsString, q1] at h'
  cases h; cases h'
  simp only [List.cons_append, List.cons.injEq, true_and, List.append_assoc, List.nil_append] at e
  exact pieces_cut p2 q2 e

/-! ## Lists -/

instance (c : Char) : Decidable (NumChar c) := by unfold NumChar; infer_instance

/-- the text of an item begins neither with a comma nor with the closing bracket -/
def Begins (close : Char) (t : Text) : Prop := ∃ c t', t = c :: t' ∧ c ≠ ',' ∧ c ≠ close

theorem loop_cut {α : Type} {R : α → α → Prop} {W : α → Text → Prop} {close : Char}
    (hc : close ≠ ',') (hn : ¬ NumChar close) {l m : List α} {ts us : List Text} {r s : Text}
    (hW : ∀ x ∈ l, ∀ y ∈ m, ∀ t u r s, W x t → W y u → t ++ r = u ++ s → Ends NumChar r →
      Ends NumChar s → R x y ∧ r = s)
    (hl : List.Forall₂ W l ts) (hm : List.Forall₂ W m us) (bl : ∀ t ∈ ts, Begins close t)
    (bm : ∀ t ∈ us, Begins close t) (pre : Text) (hpre : pre = [] ∨ pre = [','])
    (e : writeListLoop pre ts ++ close :: r = writeListLoop pre us ++ close :: s) :
    List.Forall₂ R l m ∧ r = s := by
  induction hl generalizing m us pre with
  | nil =>
    cases hm with
    | nil =>
      simp only [writeListLoop, List.nil_append, List.cons.injEq, true_and] at e
      exact ⟨.nil, e⟩
    | @cons y u m us h1 h2 =>
      exfalso
      obtain ⟨c, t', rfl, b1, b2⟩ := bm u (by simp)
      rcases hpre with rfl | rfl
      · simp only [writeListLoop, List.nil_append, List.cons_append, List.cons.injEq] at e
        exact b2 e.1.symm
      · simp only [writeListLoop, List.nil_append, List.cons_append, List.cons.injEq] at e
        exact hc e.1
  | @cons x t l ts h1 h2 ih =>
    cases hm with
    | nil =>
      exfalso
      obtain ⟨c, t', rfl, b1, b2⟩ := bl t (by simp)
      rcases hpre with rfl | rfl
      · simp only [writeListLoop, List.nil_append, List.cons_append, List.cons.injEq] at e
        exact b2 e.1
      · simp only [writeListLoop, List.nil_append, List.cons_append, List.cons.injEq] at e
        exact hc e.1.symm
    | @cons y u m us h3 h4 =>
      simp only [writeListLoop, List.append_assoc, List.append_cancel_left_eq] at e
      have he : ∀ (ts : List Text) (r : Text),
          Ends NumChar (writeListLoop [','] ts ++ close :: r) := by
        intro ts r c hc'
        cases ts with
        | nil =>
          simp only [writeListLoop, List.nil_append, List.head?_cons, Option.mem_some_iff] at hc'
          exact hc' ▸ hn
        | cons t ts =>
          simp only [writeListLoop, List.nil_append, List.cons_append, List.head?_cons,
            Option.mem_some_iff] at hc'
          subst hc'
          decide
      obtain ⟨h5, e⟩ := hW x (by simp) y (by simp) t u _ _ h1 h3 e (he _ _) (he _ _)
      obtain ⟨h6, h7⟩ := ih (fun x hx y hy => hW x (by simp [hx]) y (by simp [hy])) h4
        (fun t ht => bl t (by simp [ht])) (fun t ht => bm t (by simp [ht])) [','] (.inr rfl) e
      exact ⟨.cons h5 h6, h7⟩

/-! ## Values -/

/-- the first character of the text of a value -/
def HeadOf : Val → Char → Prop
  | .null, c => c = 'n'
  | .bool b, c => c = if b then 't' else 'f'
  | .num _, c => NumChar c
  | .str _ _, c => c = '"'
  | .arr _ _, c => c = '['
  | .obj _ _, c => c = '{'
  | .big _ _, _ => False

theorem string_head {s : JsStr} {t : Text} (h : writeJsString s = .ok t) :
    ∃ t', t = '"' :: t' := by
  unfold writeJsString at h
  cases e : writeUnits s with
  | error e' => rw [e] at h; cases h
  | ok a => rw [e] at h; cases h; exact ⟨_, rfl⟩

theorem json_head (hp : PrintsDoubles sh) {v : Val} {t : Text} (hf : v.FiniteNums)
    (h : writeJson sh v = .ok t) : ∃ c t', t = c :: t' ∧ HeadOf v c := by
  cases v with
  | null => rw [writeJson] at h; cases h; exact ⟨_, _, rfl, rfl⟩
  | bool b => rw [writeJson] at h; cases h; cases b <;> exact ⟨_, _, rfl, rfl⟩
  | num b =>
    rw [writeJson] at h
    obtain ⟨l, h1, h2, -, h3, -⟩ := hp b (hf b .refl)
    cases h
    have hc := numLit_chars h1 h2
    rw [h3]
    cases e : l.text with
    | nil =>
      exfalso
      obtain ⟨-, h⟩ := intPart_digits h1.1.int
      simp only [NumLit.text, List.append_eq_nil_iff] at e
      exact h e.2.1
    | cons c t' => exact ⟨c, t', rfl, hc c (by rw [e]; simp)⟩
  | str i s =>
    rw [writeJson] at h
    obtain ⟨t', rfl⟩ := string_head h
    exact ⟨_, _, rfl, rfl⟩
  | big i b => rw [writeJson] at h; cases h
  | arr i l =>
    rw [writeJson] at h
    cases e : jsonItems sh l with
    | error e' => rw [e] at h; cases h
    | ok a => rw [e] at h; cases h; exact ⟨_, _, rfl, rfl⟩
  | obj i l =>
    rw [writeJson] at h
    cases e : jsonMembers sh l with
    | error e' => rw [e] at h; cases h
    | ok a => rw [e] at h; cases h; exact ⟨_, _, rfl, rfl⟩

theorem headOf_begins {v : Val} {c : Char} (h : HeadOf v c) : c ≠ ',' ∧ c ≠ ']' := by
  cases v with
  | num b =>
    have h' : NumChar c := h
    constructor <;> (rintro rfl; revert h'; decide)
  | bool b => cases b <;> (simp only [HeadOf] at h; subst h; decide)
  | big i b => exact h.elim
  | _ => simp only [HeadOf] at h; subst h; decide

theorem items_all {l : List Val} {ts : List Text} (h : jsonItems sh l = .ok ts) :
    List.Forall₂ (fun v t => writeJson sh v = .ok t) l ts := by
  induction l generalizing ts with
  | nil => rw [jsonItems] at h; cases h; exact .nil
  | cons x l ih =>
    rw [jsonItems] at h
    cases e : writeJson sh x with
    | error e' => rw [e] at h; cases h
    | ok a =>
      cases e2 : jsonItems sh l with
      | error e' => rw [e, e2] at h; cases h
      | ok b => rw [e, e2] at h; cases h; exact .cons e (ih e2)

/-- the text of a member -/
def MemberText (sh : Nat → Text) (x : JsStr × Val) (t : Text) : Prop :=
  ∃ a b, writeJsString x.1 = .ok a ∧ writeJson sh x.2 = .ok b ∧ t = a ++ ':' :: b

theorem members_all {l : List (JsStr × Val)} {ts : List Text} (h : jsonMembers sh l = .ok ts) :
    List.Forall₂ (MemberText sh) l ts := by
  induction l generalizing ts with
  | nil => rw [jsonMembers] at h; cases h; exact .nil
  | cons x l ih =>
    obtain ⟨k, x⟩ := x
    rw [jsonMembers] at h
    cases e0 : writeJsString k with
    | error e' => rw [e0] at h; cases h
    | ok k' =>
      cases e : writeJson sh x with
      | error e' => rw [e0, e] at h; cases h
      | ok a =>
        cases e2 : jsonMembers sh l with
        | error e' => rw [e0, e, e2] at h; cases h
        | ok b => rw [e0, e, e2] at h; cases h; exact .cons ⟨k', a, e0, e, rfl⟩ (ih e2)

theorem forall₂_zip {α β : Type} {R : α → β → Prop} {l : List α} {m : List β}
    (h : List.Forall₂ R l m) : l.length = m.length ∧ ∀ p ∈ l.zip m, R p.1 p.2 := by
  rw [List.forall₂_iff_zip] at h
  exact ⟨h.1, fun p hp => h.2 (by simpa using hp)⟩

theorem forall₂_begins {α : Type} {W : α → Text → Prop} {close : Char} {l : List α} {ts : List Text}
    (h : List.Forall₂ W l ts) (hb : ∀ x ∈ l, ∀ t, W x t → Begins close t) :
    ∀ t ∈ ts, Begins close t := by
  induction h with
  | nil => simp
  | cons h1 h2 ih =>
    intro t ht
    rcases List.mem_cons.1 ht with rfl | ht
    · exact hb _ (by simp) _ h1
    · exact ih (fun x hx => hb x (by simp [hx])) t ht

/-- the kind of a value -/
def valKind : Val → Nat
  | .null => 0
  | .bool true => 1
  | .bool false => 2
  | .num _ => 3
  | .str _ _ => 4
  | .arr _ _ => 5
  | .obj _ _ => 6
  | .big _ _ => 7

/-- the kind of the values whose texts begin with a character -/
def kindOfChar (c : Char) : Nat :=
  if c = 'n' then 0 else if c = 't' then 1 else if c = 'f' then 2 else if c = '"' then 4
  else if c = '[' then 5 else if c = '{' then 6 else 3

theorem headOf_kind {v : Val} {c : Char} (h : HeadOf v c) : kindOfChar c = valKind v := by
  cases v with
  | num b =>
    have h' : NumChar c := h
    unfold kindOfChar
    repeat' split
    all_goals first | rfl | (exfalso; subst c; revert h'; decide)
  | bool b => cases b <;> (simp only [HeadOf] at h; subst h; decide)
  | big i b => exact h.elim
  | _ => simp only [HeadOf] at h; subst h; rfl

theorem same_kind (hp : PrintsDoubles sh) {v w : Val} {t u r s : Text} (hf : v.FiniteNums)
    (hg : w.FiniteNums) (hv : writeJson sh v = .ok t) (hw : writeJson sh w = .ok u)
    (e : t ++ r = u ++ s) : valKind v = valKind w := by
  obtain ⟨c, t', rfl, h1⟩ := json_head hp hf hv
  obtain ⟨d, u', rfl, h2⟩ := json_head hp hg hw
  simp only [List.cons_append, List.cons.injEq] at e
  rw [← headOf_kind h1, ← headOf_kind h2, e.1]

/-- texts of values are cut in one way, and written for one value only -/
theorem json_cut (hp : PrintsDoubles sh) (v : Val) : ∀ (w : Val) (t u r s : Text), v.Units16 →
    w.Units16 → v.FiniteNums → w.FiniteNums → writeJson sh v = .ok t → writeJson sh w = .ok u →
    t ++ r = u ++ s → Ends NumChar r → Ends NumChar s → v.Same w ∧ r = s := by
  induction v using Val.ind with
  | null =>
    intro w t u r s _ _ hf hg hv hw e hr hs
    have hk := same_kind hp hf hg hv hw e
    cases w with
    | null =>
      rw [hv] at hw; cases hw
      exact ⟨.null, List.append_cancel_left e⟩
    | bool b => cases b <;> cases hk
    | _ => cases hk
  | bool b =>
    intro w t u r s _ _ hf hg hv hw e hr hs
    have hk := same_kind hp hf hg hv hw e
    cases w with
    | bool c =>
      obtain rfl : b = c := by cases b <;> cases c <;> first | rfl | cases hk
      rw [writeJson] at hv hw; cases hv; cases hw
      exact ⟨.bool b, List.append_cancel_left e⟩
    | _ => cases b <;> cases hk
  | num b =>
    intro w t u r s _ _ hf hg hv hw e hr hs
    have hk := same_kind hp hf hg hv hw e
    cases w with
    | num c =>
      rw [writeJson] at hv hw; cases hv; cases hw
      obtain ⟨l, l1, l2, -, l3, l4⟩ := hp b (hf b .refl)
      obtain ⟨m, m1, m2, -, m3, m4⟩ := hp c (hg c .refl)
      rw [l3, m3] at e
      obtain ⟨e1, e2⟩ := cut_unique (numLit_chars l1 l2) (numLit_chars m1 m2) hr hs e
      obtain rfl := numLit_unique l1 m1 l2 m2 e1
      obtain rfl := isNearestDouble_unique l4 m4
      exact ⟨.num b, e2⟩
    | bool b => cases b <;> cases hk
    | _ => cases hk
  | str i x =>
    intro w t u r s hu hu' hf hg hv hw e hr hs
    have hk := same_kind hp hf hg hv hw e
    cases w with
    | str j y =>
      rw [writeJson] at hv hw
      obtain ⟨rfl, h⟩ := string_cut (hu.str i x .refl) (hu'.str j y .refl) hv hw e
      exact ⟨.str i j x, h⟩
    | bool b => cases b <;> cases hk
    | _ => cases hk
  | big i b =>
    intro w t u r s _ _ hf hg hv
    rw [writeJson] at hv; cases hv
  | arr i l ih =>
    intro w t u r s hu hu' hf hg hv hw e hr hs
    have hk := same_kind hp hf hg hv hw e
    cases w with
    | arr j m =>
      rw [writeJson] at hv hw
      cases e1 : jsonItems sh l with
      | error e' => rw [e1] at hv; cases hv
      | ok ts =>
        cases e2 : jsonItems sh m with
        | error e' => rw [e2] at hw; cases hw
        | ok us =>
          rw [e1] at hv; rw [e2] at hw; cases hv; cases hw
          simp only [writeList, List.cons_append, List.cons.injEq, true_and, List.append_assoc,
            List.nil_append] at e
          have fl : ∀ x ∈ l, x.FiniteNums := fun x hx b h => hf b (.arr _ _ _ hx h)
          have gl : ∀ x ∈ m, x.FiniteNums := fun x hx b h => hg b (.arr _ _ _ hx h)
          have bg : ∀ {v : Val} {t}, v.FiniteNums → writeJson sh v = .ok t → Begins ']' t := by
            intro v t h1 h2
            obtain ⟨c, t', rfl, h⟩ := json_head hp h1 h2
            exact ⟨c, t', rfl, headOf_begins h⟩
          obtain ⟨h1, h2⟩ := loop_cut (R := Val.Same) (close := ']') (by decide) (by decide)
            (fun x hx y hy t u r s h1 h2 h3 h4 h5 => ih x hx y t u r s (hu.item hx) (hu'.item hy)
              (fl x hx) (gl y hy) h1 h2 h3 h4 h5)
            (items_all e1) (items_all e2)
            (forall₂_begins (items_all e1) fun x hx t h => bg (fl x hx) h)
            (forall₂_begins (items_all e2) fun x hx t h => bg (gl x hx) h) [] (.inl rfl) e
          obtain ⟨h3, h4⟩ := forall₂_zip h1
          exact ⟨.arr _ _ _ _ h3 h4, h2⟩
    | bool b => cases b <;> cases hk
    | _ => cases hk
  | obj i l ih =>
    intro w t u r s hu hu' hf hg hv hw e hr hs
    have hk := same_kind hp hf hg hv hw e
    cases w with
    | obj j m =>
      rw [writeJson] at hv hw
      cases e1 : jsonMembers sh l with
      | error e' => rw [e1] at hv; cases hv
      | ok ts =>
        cases e2 : jsonMembers sh m with
        | error e' => rw [e2] at hw; cases hw
        | ok us =>
          rw [e1] at hv; rw [e2] at hw; cases hv; cases hw
          simp only [writeList, List.cons_append, List.cons.injEq, true_and, List.append_assoc,
            List.nil_append] at e
          have bg : ∀ {x : JsStr × Val} {t}, MemberText sh x t → Begins '}' t := by
            rintro x t ⟨a, b, h1, -, rfl⟩
            obtain ⟨a', rfl⟩ := string_head h1
            exact ⟨'"', _, rfl, by decide, by decide⟩
          obtain ⟨h1, h2⟩ := loop_cut (R := fun x y => x.1 = y.1 ∧ x.2.Same y.2) (close := '}')
            (by decide) (by decide)
            (fun x hx y hy t u r s h1 h2 h3 h4 h5 => by
              obtain ⟨a, b, a1, b1, rfl⟩ := h1
              obtain ⟨a', b', a2, b2, rfl⟩ := h2
              simp only [List.append_assoc, List.cons_append] at h3
              obtain ⟨k, h3⟩ := string_cut (hu.key i l .refl x hx) (hu'.key j m .refl y hy) a1 a2 h3
              simp only [List.cons.injEq, true_and] at h3
              obtain ⟨h6, h7⟩ := ih x hx y.2 b b' r s (hu.member hx) (hu'.member hy)
                (fun b h => hf b (.obj _ _ _ hx h)) (fun b h => hg b (.obj _ _ _ hy h)) b1 b2 h3 h4 h5
              exact ⟨⟨k, h6⟩, h7⟩)
            (members_all e1) (members_all e2)
            (forall₂_begins (members_all e1) fun x hx t h => bg h)
            (forall₂_begins (members_all e2) fun x hx t h => bg h) [] (.inl rfl) e
          obtain ⟨h3, h4⟩ := forall₂_zip h1
          refine ⟨.obj _ _ _ _ ?_ fun p hp => (h4 p hp).2, h2⟩
          clear h2 h3 h4 e e1 e2 hu hu' hf hg hk ih
          induction h1 with
          | nil => rfl
          | cons h1 _ ih => rw [List.map_cons, List.map_cons, h1.1, ih]
    | bool b => cases b <;> cases hk
    | _ => cases hk

end Nanvm
