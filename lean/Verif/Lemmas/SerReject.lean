import Verif.Lemmas.SerRead
/-!
# Lemmas for C51, C74: texts of values with surrogates are rejected
-/
namespace Nanvm
namespace Ser
open Tok Grammar

variable {conv : BigFloat → Res Nat} {sh : Nat → Text}

/-- whatever follows the text, there is an error token (or no result) -/
def Rejects (conv : BigFloat → Res Nat) (t : Text) : Prop :=
  ∀ rest r, finish conv .initial (t ++ rest) = .ok r → ∃ e, .error e ∈ r

theorem Rejects.append {a : Text} (h : Rejects conv a) (b : Text) : Rejects conv (a ++ b) := by
  intro rest r hr
  rw [List.append_assoc] at hr
  exact h _ r hr

theorem Rejects.after_op {c : Char} {t : Token} (hc : (c, t) ∈ opTokens) {b : Text}
    (h : Rejects conv b) : Rejects conv (c :: b) := by
  intro rest r hr
  rw [List.cons_append, finish_op hc] at hr
  obtain ⟨q, h1, h2⟩ := bind_eq_ok.1 hr
  cases h2
  obtain ⟨e, he⟩ := h rest q h1
  exact ⟨e, by simp [he]⟩

theorem Reads.then_rejects {a b : Text} {ts : List Token} (ha : Reads conv a ts)
    (hb : Rejects conv b) (hn : ∀ rest, NumEnd (b ++ rest)) : Rejects conv (a ++ b) := by
  intro rest r hr
  rw [List.append_assoc, ha _ (hn rest)] at hr
  obtain ⟨q, h1, h2⟩ := bind_eq_ok.1 hr
  cases h2
  obtain ⟨e, he⟩ := hb rest q h1
  exact ⟨e, by simp [he]⟩

theorem string_rejects {s : JsStr} (h : Units s) (hs : ¬ StrOk s) :
    ∃ t, writeJsString s = .ok t ∧ Rejects conv t := by
  replace hs : ∃ u ∈ s, SurrogateUnit u := by
    by_contra hc
    push Not at hc
    exact hs ⟨h, hc⟩
  obtain ⟨ps, h1, h2⟩ := units_pieces s h
  refine ⟨literal ps, by rw [writeJsString, h1]; rfl, ?_⟩
  have key : ∃ a p b, ps = a ++ p :: b ∧ (∀ q ∈ a, q.Valid) ∧ (∀ q ∈ a, ¬ q.Surrogate) ∧
      p.Valid ∧ p.Surrogate := by
    clear h1 h
    induction h2 with
    | nil => simp at hs
    | @cons u p s ps hp _ ih =>
      by_cases hu : SurrogateUnit u
      · exact ⟨[], p, ps, rfl, by simp, by simp, hp.valid, hp.surrogate.2 hu⟩
      · obtain ⟨x, hx, hx'⟩ := hs
        rcases List.mem_cons.1 hx with rfl | hx
        · exact absurd hx' hu
        · obtain ⟨a, q, b, rfl, h1, h2, h3, h4⟩ := ih ⟨x, hx, hx'⟩
          refine ⟨p :: a, q, b, rfl, ?_, ?_, h3, h4⟩
          · intro y hy
            rcases List.mem_cons.1 hy with rfl | hy
            · exact hp.valid
            · exact h1 y hy
          · intro y hy
            rcases List.mem_cons.1 hy with rfl | hy
            · exact fun hy' => hu (hp.surrogate.1 hy')
            · exact h2 y hy
  obtain ⟨a, p, b, rfl, k1, k2, k3, k4⟩ := key
  intro rest r hr
  obtain ⟨r', rfl⟩ := C33_surrogate_rejected (conv := conv) a p
    (b.flatMap Piece.text ++ ['"'] ++ rest) r k1 k2 k3 k4
    (by rw [tokenize_eq, ← hr]; simp [literal])
  exact ⟨_, List.mem_cons_self⟩

/-- a list one of whose items is rejected -/
theorem loop_rejects {texts : List Text}
    (h : ∀ t ∈ texts, (∃ ts, Reads conv t ts) ∨ Rejects conv t) (hr : ∃ t ∈ texts, Rejects conv t)
    {close : Char} :
    Rejects conv (writeListLoop [] texts ++ [close]) ∧
    Rejects conv (writeListLoop [','] texts ++ [close]) := by
  induction texts with
  | nil => simp at hr
  | cons t ts ih =>
    have hcom : ((',' : Char), Token.comma) ∈ opTokens := by simp [opTokens]
    have key : Rejects conv (writeListLoop [] (t :: ts) ++ [close]) := by
      simp only [writeListLoop, List.nil_append, List.append_assoc]
      rcases h t (by simp) with ⟨s, hs⟩ | ht
      · by_cases hr' : ∃ t ∈ ts, Rejects conv t
        · refine hs.then_rejects (ih (fun t ht => h t (by simp [ht])) hr').2 fun rest => ?_
          obtain ⟨t', ht', -⟩ := hr'
          cases ts with
          | nil => cases ht'
          | cons a ts =>
            simp only [writeListLoop, List.cons_append, List.nil_append]
            exact numEnd_punct (by decide) _
        · obtain ⟨t', ht', hr⟩ := hr
          rcases List.mem_cons.1 ht' with rfl | ht'
          · exact hr.append _
          · exact absurd ⟨t', ht', hr⟩ hr'
      · exact ht.append _
    exact ⟨key, by simpa [writeListLoop] using key.after_op hcom⟩

/-- what can be written: no bigints, 16-bit units, numbers whose text is read as the same number -/
structure Writable (conv : BigFloat → Res Nat) (sh : Nat → Text) (v : Val) : Prop where
  big : ∀ i b, ¬ (Val.big i b).Sub v
  str : ∀ i s, (Val.str i s).Sub v → Units s
  key : ∀ i l, (Val.obj i l).Sub v → ∀ m ∈ l, Units m.1
  num : ∀ b, (Val.num b).Sub v → NumReads conv (sh b) b

theorem Writable.item {i : Nat} {l : List Val} (h : Writable conv sh (.arr i l)) {x : Val}
    (hx : x ∈ l) : Writable conv sh x :=
  ⟨fun j b hs => h.big j b (.arr _ _ _ hx hs), fun j s hs => h.str j s (.arr _ _ _ hx hs),
    fun j m hs => h.key j m (.arr _ _ _ hx hs), fun b hs => h.num b (.arr _ _ _ hx hs)⟩

theorem Writable.member {i : Nat} {l : List (JsStr × Val)} (h : Writable conv sh (.obj i l))
    {x : JsStr × Val} (hx : x ∈ l) : Writable conv sh x.2 :=
  ⟨fun j b hs => h.big j b (.obj _ _ _ hx hs), fun j s hs => h.str j s (.obj _ _ _ hx hs),
    fun j m hs => h.key j m (.obj _ _ _ hx hs), fun b hs => h.num b (.obj _ _ _ hx hs)⟩

theorem reads_or_rejects {v : Val} (h : Readable conv sh v) :
    ∃ t, writeJson sh v = .ok t ∧ ∃ ts, Reads conv t ts := by
  obtain ⟨t, h1, h2⟩ := write_reads (conv := conv) (sh := sh) [] v h
  rw [noRefs] at h1
  exact ⟨t, h1, _, h2⟩

/-- the text of a value that cannot be read back is rejected -/
theorem write_rejects (v : Val) (h : Writable conv sh v) (hr : ¬ Readable conv sh v) :
    ∃ t, writeJson sh v = .ok t ∧ Rejects conv t := by
  induction v using Val.ind with
  | null => exact absurd ⟨fun i b h => (by cases h), fun i s h => (by cases h), fun i l h => (by cases h),
      fun b h => (by cases h)⟩ hr
  | bool b => exact absurd ⟨fun i b h => (by cases h), fun i s h => (by cases h), fun i l h => (by cases h),
      fun b h => (by cases h)⟩ hr
  | num b =>
    exact absurd ⟨fun i b h => (by cases h), fun i s h => (by cases h), fun i l h => (by cases h), h.num⟩ hr
  | str i s =>
    rw [writeJson]
    refine string_rejects (h.str i s .refl) fun hs => hr ⟨fun i b h => (by cases h), fun i s h => ?_,
      fun i l h => (by cases h), h.num⟩
    cases h
    exact hs
  | big i b => exact absurd .refl (h.big i b)
  | arr i l ih =>
    have each : ∀ x ∈ l, ∃ t, writeJson sh x = .ok t ∧ ((∃ ts, Reads conv t ts) ∨ Rejects conv t) ∧
        (¬ Readable conv sh x → Rejects conv t) := by
      intro x hx
      by_cases hx' : Readable conv sh x
      · obtain ⟨t, h1, h2⟩ := reads_or_rejects hx'
        exact ⟨t, h1, .inl h2, fun h => absurd hx' h⟩
      · obtain ⟨t, h1, h2⟩ := ih x hx (h.item hx) hx'
        exact ⟨t, h1, .inr h2, fun _ => h2⟩
    have some_bad : ∃ x ∈ l, ¬ Readable conv sh x := by
      by_contra hc
      push Not at hc
      refine hr ⟨h.big, fun j s hs => ?_, fun j m hs => ?_, h.num⟩
      · cases hs with
        | arr _ _ y hy hs => exact (hc y hy).str j s hs
      · cases hs with
        | arr _ _ y hy hs => exact (hc y hy).key j m hs
    clear ih hr h
    have key : ∃ ts, jsonItems sh l = .ok ts ∧
        (∀ t ∈ ts, (∃ s, Reads conv t s) ∨ Rejects conv t) ∧ ∀ x ∈ l, ¬ Readable conv sh x →
          ∃ t ∈ ts, Rejects conv t := by
      clear some_bad
      induction l with
      | nil => exact ⟨[], rfl, by simp, by simp⟩
      | cons x l ih =>
        obtain ⟨t, h1, h2, h3⟩ := each x (by simp)
        obtain ⟨ts, h4, h5, h6⟩ := ih fun y hy => each y (by simp [hy])
        refine ⟨t :: ts, by rw [jsonItems, h1, h4]; rfl, ?_, ?_⟩
        · intro u hu
          rcases List.mem_cons.1 hu with rfl | hu
          · exact h2
          · exact h5 u hu
        · intro y hy hb
          rcases List.mem_cons.1 hy with rfl | hy
          · exact ⟨t, by simp, h3 hb⟩
          · obtain ⟨u, hu, hu'⟩ := h6 y hy hb
            exact ⟨u, by simp [hu], hu'⟩
    obtain ⟨ts, h1, h2, h3⟩ := key
    obtain ⟨x, hx, hb⟩ := some_bad
    refine ⟨writeList '[' ']' ts, by rw [writeJson, h1]; rfl, ?_⟩
    exact (loop_rejects h2 (h3 x hx hb)).1.after_op (t := .arrayBegin)
      (by simp [opTokens])
  | obj i l ih =>
    have hk := h.key i l .refl
    have each : ∀ x ∈ l, ∃ t, MemberText (writeJson sh) x t ∧
        ((∃ ts, Reads conv t ts) ∨ Rejects conv t) ∧
        (¬ (Readable conv sh x.2 ∧ StrOk x.1) → Rejects conv t) := by
      intro x hx
      have hcol : ((':' : Char), Token.colon) ∈ opTokens := by simp [opTokens]
      by_cases hs : StrOk x.1
      · obtain ⟨a, c, a1, -, a2⟩ := hs.reads (conv := conv)
        by_cases hx' : Readable conv sh x.2
        · obtain ⟨t, h1, ts, h2⟩ := reads_or_rejects hx'
          refine ⟨a ++ ':' :: t, ⟨a, t, a1, h1, rfl⟩, .inl ⟨_, a2.append
            (t := .colon :: ts) (fun rest hr => ?_) fun rest _ => numEnd_punct (by decide) _⟩,
            fun h => absurd ⟨hx', hs⟩ h⟩
          rw [List.cons_append, finish_op hcol, h2 rest hr]
          cases finish conv .initial rest <;> simp [Except.bind]
        · obtain ⟨t, h1, h2⟩ := ih x hx (h.member hx) hx'
          have := a2.then_rejects (h2.after_op hcol) fun rest => numEnd_punct (by decide) _
          exact ⟨a ++ ':' :: t, ⟨a, t, a1, h1, rfl⟩, .inr this, fun _ => this⟩
      · obtain ⟨a, a1, a2⟩ := string_rejects (conv := conv) (hk x hx) hs
        have : ∃ t, writeJson sh x.2 = .ok t := by
          by_cases hx' : Readable conv sh x.2
          · obtain ⟨t, h1, -⟩ := reads_or_rejects hx'
            exact ⟨t, h1⟩
          · obtain ⟨t, h1, -⟩ := ih x hx (h.member hx) hx'
            exact ⟨t, h1⟩
        obtain ⟨t, h1⟩ := this
        exact ⟨a ++ ':' :: t, ⟨a, t, a1, h1, rfl⟩, .inr (a2.append _), fun _ => a2.append _⟩
    have some_bad : ∃ x ∈ l, ¬ (Readable conv sh x.2 ∧ StrOk x.1) := by
      by_contra hc
      push Not at hc
      refine hr ⟨h.big, fun j s hs => ?_, fun j m hs => ?_, h.num⟩
      · cases hs with
        | obj _ _ y hy hs => exact (hc y hy).1.str j s hs
      · cases hs with
        | refl => exact fun m hm => (hc m hm).2
        | obj _ _ y hy hs => exact (hc y hy).1.key j m hs
    clear ih hr h hk
    have key : ∃ ts, jsonMembers sh l = .ok ts ∧
        (∀ t ∈ ts, (∃ s, Reads conv t s) ∨ Rejects conv t) ∧
        ∀ x ∈ l, ¬ (Readable conv sh x.2 ∧ StrOk x.1) → ∃ t ∈ ts, Rejects conv t := by
      clear some_bad
      induction l with
      | nil => exact ⟨[], rfl, by simp, by simp⟩
      | cons x l ih =>
        obtain ⟨t, h1, h2, h3⟩ := each x (by simp)
        obtain ⟨ts, h4, h5, h6⟩ := ih fun y hy => each y (by simp [hy])
        refine ⟨t :: ts, jsonMembers_ok.2 (.cons h1 (jsonMembers_ok.1 h4)), ?_, ?_⟩
        · intro u hu
          rcases List.mem_cons.1 hu with rfl | hu
          · exact h2
          · exact h5 u hu
        · intro y hy hb
          rcases List.mem_cons.1 hy with rfl | hy
          · exact ⟨t, by simp, h3 hb⟩
          · obtain ⟨u, hu, hu'⟩ := h6 y hy hb
            exact ⟨u, by simp [hu], hu'⟩
    obtain ⟨ts, h1, h2, h3⟩ := key
    obtain ⟨x, hx, hb⟩ := some_bad
    refine ⟨writeList '{' '}' ts, by rw [writeJson, h1]; rfl, ?_⟩
    exact (loop_rejects h2 (h3 x hx hb)).1.after_op (t := .objectBegin)
      (by simp [opTokens])

end Ser
end Nanvm
