import Mathlib.Data.List.Sort
import Verif.Spec.Project
import Verif.Spec.Values
/-!
# A written value denotes one value, apart from the numbers of the blocks
-/
namespace Nanvm
namespace Grammar
open Tok

theorem lastOf_nil {α : Type} {k : Text} {v : α} : ¬ LastOf [] k v := by
  rintro ⟨a, b, h, -⟩
  cases a <;> cases h

theorem lastOf_cons {α : Type} {x : Text × α} {l : List (Text × α)} {k : Text} {v : α} :
    LastOf (x :: l) k v ↔ LastOf l k v ∨ (x = (k, v) ∧ ∀ y ∈ l, y.1 ≠ k) := by
  constructor
  · rintro ⟨a, b, h, hb⟩
    cases a with
    | nil => cases h; exact .inr ⟨rfl, hb⟩
    | cons y a => cases h; exact .inl ⟨a, b, rfl, hb⟩
  · rintro (⟨a, b, rfl, hb⟩ | ⟨rfl, hb⟩)
    · exact ⟨x :: a, b, rfl, hb⟩
    · exact ⟨[], l, rfl, hb⟩

theorem lastOf_exists {α : Type} {l : List (Text × α)} {k : Text} :
    (∃ v, LastOf l k v) ↔ k ∈ l.map (·.1) := by
  induction l with
  | nil => simp [lastOf_nil]
  | cons x l ih =>
    constructor
    · rintro ⟨v, h⟩
      rcases lastOf_cons.1 h with h | ⟨rfl, -⟩
      · exact List.mem_cons_of_mem _ (ih.1 ⟨v, h⟩)
      · simp
    · intro h
      by_cases hk : k ∈ l.map (·.1)
      · obtain ⟨v, hv⟩ := ih.2 hk
        exact ⟨v, lastOf_cons.2 (.inl hv)⟩
      · simp only [List.map_cons, List.mem_cons, hk, or_false] at h
        subst h
        refine ⟨x.2, lastOf_cons.2 (.inr ⟨rfl, ?_⟩)⟩
        intro y hy e
        exact hk (List.mem_map.2 ⟨y, hy, e⟩)

/-- the last pairs of two lists with the same keys correspond -/
theorem lastOf_zip {α : Type} {R : α → α → Prop} {ks : List Text} : ∀ {vs ws : List α},
    ks.length = vs.length → ks.length = ws.length → (∀ p ∈ vs.zip ws, R p.1 p.2) →
    ∀ {k v w}, LastOf (ks.zip vs) k v → LastOf (ks.zip ws) k w → R v w := by
  induction ks with
  | nil => intro vs ws _ _ _ k v w h; exact absurd h lastOf_nil
  | cons k0 ks ih =>
    intro vs ws h1 h2 hR k v w hv hw
    cases vs with
    | nil => cases h1
    | cons v0 vs =>
      cases ws with
      | nil => cases h2
      | cons w0 ws =>
        simp only [List.length_cons, Nat.add_right_cancel_iff] at h1 h2
        have keys : ∀ {us : List α}, ks.length = us.length → (ks.zip us).map (·.1) = ks :=
          fun h => List.map_fst_zip (by omega)
        have absurd_of : ∀ {us us' : List α}, ks.length = us.length → ks.length = us'.length →
            ∀ {u}, LastOf (ks.zip us) k u → (∀ y ∈ ks.zip us', y.1 ≠ k) → False := by
          intro us us' hu hu' u hl hn
          have hm := lastOf_exists.1 ⟨u, hl⟩
          rw [keys hu, ← keys hu'] at hm
          obtain ⟨y, hy, e⟩ := List.mem_map.1 hm
          exact hn y hy e
        simp only [List.zip_cons_cons] at hv hw hR
        rcases lastOf_cons.1 hv with hv | ⟨ev, nv⟩
        · rcases lastOf_cons.1 hw with hw | ⟨ew, nw⟩
          · exact ih h1 h2 (fun p hp => hR p (by simp [hp])) hv hw
          · exact (absurd_of h1 h2 hv nw).elim
        · rcases lastOf_cons.1 hw with hw | ⟨ew, nw⟩
          · exact (absurd_of h2 h1 hw nv).elim
          · cases ev; cases ew
            exact hR (v, w) (by simp)

theorem keyed_keys {α β : Type} {ps : List (Text × α)} {qs : List (Text × β)}
    {l : List (Text × α)} {l' : List (Text × β)} (hk : ps.map (·.1) = qs.map (·.1))
    (h : Keyed ps l) (h' : Keyed qs l') : l.map (·.1) = l'.map (·.1) := by
  have mem : ∀ {γ : Type} {ps l : List (Text × γ)}, Keyed ps l → ∀ k, k ∈ l.map (·.1) ↔
      k ∈ ps.map (·.1) := by
    intro γ ps l h k
    rw [← lastOf_exists (l := ps)]
    constructor
    · intro hm
      obtain ⟨⟨k, v⟩, hx, rfl⟩ := List.mem_map.1 hm
      exact ⟨v, (h.2 k v).1 hx⟩
    · rintro ⟨v, hv⟩
      exact List.mem_map.2 ⟨(k, v), (h.2 k v).2 hv, rfl⟩
  have ne : ∀ {a b : Text}, a < b → a ≠ b := by
    rintro a b h rfl
    exact absurd h (List.lt_irrefl a)
  refine List.Perm.eq_of_pairwise (le := (· < ·)) ?_ h.1 h'.1 ?_
  · intro a b _ _ h1 h2
    exact absurd h1 (List.lt_asymm h2)
  · refine (List.perm_ext_iff_of_nodup (h.1.imp ne) (h'.1.imp ne)).2 fun k => ?_
    rw [mem h, mem h', hk]

theorem zip_fst {α β γ : Type} {l : List (α × β)} {m : List (α × γ)}
    (h : l.map (·.1) = m.map (·.1)) : ∀ p ∈ l.zip m, p.1.1 = p.2.1 := by
  induction l generalizing m with
  | nil => simp
  | cons x l ih =>
    cases m with
    | nil => simp
    | cons y m =>
      simp only [List.map_cons, List.cons.injEq] at h
      intro p hp
      simp only [List.zip_cons_cons, List.mem_cons] at hp
      rcases hp with rfl | hp
      · exact h.1
      · exact ih h.2 p hp

theorem zip_index {α β : Type} {l : List α} {m : List β} {p : α × β} (h : p ∈ l.zip m) :
    ∃ i : Nat, l[i]? = some p.1 ∧ m[i]? = some p.2 := by
  obtain ⟨i, hi⟩ := List.mem_iff_getElem?.1 h
  rw [List.getElem?_zip_eq_some] at hi
  exact ⟨i, hi⟩

theorem zip_of_index {α β : Type} {l : List α} {m : List β} {a : α} {b : β} {i : Nat}
    (h : l[i]? = some a) (h' : m[i]? = some b) : (a, b) ∈ l.zip m :=
  List.mem_iff_getElem?.2 ⟨i, List.getElem?_zip_eq_some.2 ⟨h, h'⟩⟩

/-- A written value denotes the same value in environments that are the same. -/
theorem is_same {c c' : Text → Option Val} (hc : ∀ n v w, c n = some v → c' n = some w → v.Same w)
    (x : Src) : ∀ {v w : Val}, x.Is c v → x.Is c' w → v.Same w := by
  induction x using Src.ind with
  | null => intro v w h h'; cases h; cases h'; exact .null
  | bool b => intro v w h h'; cases h; cases h'; exact .bool _
  | num b => intro v w h h'; cases h; cases h'; exact .num _
  | str t => intro v w h h'; cases h; cases h'; exact .str _ _ _
  | big b => intro v w h h'; cases h; cases h'; exact .big _ _ _
  | ref n =>
    intro v w h h'
    cases h with
    | ref _ _ h => cases h' with | ref _ _ h' => exact hc _ _ _ h h'
  | arr l ih =>
    intro v w h h'
    cases h with
    | arr i _ vs hl hv =>
      cases h' with
      | arr j _ ws hl' hw =>
        refine .arr _ _ _ _ (hl ▸ hl') fun p hp => ?_
        obtain ⟨k, hk, hk'⟩ := zip_index hp
        have hkl : k < l.length := by
          rw [hl]; exact (List.getElem?_eq_some_iff.1 hk).1
        have hx : l[k]? = some l[k] := List.getElem?_eq_getElem hkl
        exact ih l[k] (List.getElem_mem _) (hv (l[k], p.1) (zip_of_index hx hk))
          (hw (l[k], p.2) (zip_of_index hx hk'))
  | obj l ih =>
    intro v w h h'
    cases h with
    | obj i _ vs kvs hl hv hkv =>
      cases h' with
      | obj j _ ws kws hl' hw hkw =>
        have len : (l.map (·.1)).length = vs.length := by simpa using hl
        have len' : (l.map (·.1)).length = ws.length := by simpa using hl'
        have hkeys : kvs.map (·.1) = kws.map (·.1) := by
          refine keyed_keys ?_ hkv hkw
          rw [List.map_fst_zip (by omega), List.map_fst_zip (by omega)]
        have hsame : ∀ p ∈ vs.zip ws, Val.Same p.1 p.2 := by
          intro p hp
          obtain ⟨k, hk, hk'⟩ := zip_index hp
          have hkl : k < l.length := by
            rw [hl]; exact (List.getElem?_eq_some_iff.1 hk).1
          have hx : l[k]? = some l[k] := List.getElem?_eq_getElem hkl
          exact ih l[k] (List.getElem_mem _) (hv (l[k], p.1) (zip_of_index hx hk))
            (hw (l[k], p.2) (zip_of_index hx hk'))
        refine .obj _ _ _ _ ?_ ?_
        · have e : ∀ l : List (Text × Val), (stored l).map (·.1) = (l.map (·.1)).map toJsString := by
            intro l; simp [stored]
          rw [e, e, hkeys]
        · intro p hp
          obtain ⟨k, hk, hk'⟩ := zip_index hp
          simp only [stored, List.getElem?_map, Option.map_eq_some_iff] at hk hk'
          obtain ⟨a, ha, ea⟩ := hk
          obtain ⟨b, hb, eb⟩ := hk'
          have hkey : a.1 = b.1 := zip_fst hkeys (a, b) (zip_of_index ha hb)
          have la := (hkv.2 a.1 a.2).1 (List.mem_of_getElem? ha)
          have lb := (hkw.2 b.1 b.2).1 (List.mem_of_getElem? hb)
          rw [← hkey] at lb
          have := lastOf_zip (R := Val.Same) len len' hsame la lb
          rw [← ea, ← eb]
          exact this

theorem lines_same {M M' : Text → Val → Prop} (hM : ∀ s v w, M s v → M' s w → v.Same w)
    {ls : List Line} : ∀ {c c' d d' : Text → Option Val},
    (∀ n v w, c n = some v → c' n = some w → v.Same w) →
    LinesDefine M c ls d → LinesDefine M' c' ls d' →
    ∀ n v w, d n = some v → d' n = some w → v.Same w := by
  have ext : ∀ {c c' : Text → Option Val} {v w : Val} {n : Text},
      (∀ n v w, c n = some v → c' n = some w → v.Same w) → v.Same w →
      ∀ m a b, withConst c n v m = some a → withConst c' n w m = some b → a.Same b := by
    intro c c' v w n hc hvw m a b ha hb
    unfold withConst at ha hb
    split at ha
    · rename_i e
      rw [if_pos e] at hb
      cases ha; cases hb; exact hvw
    · rename_i e
      rw [if_neg e] at hb
      exact hc _ _ _ ha hb
  induction ls with
  | nil => intro c c' d d' hc h h'; cases h; cases h'; exact hc
  | cons l ls ih =>
    intro c c' d d' hc h h'
    cases h with
    | const_ _ n x _ v _ hv h =>
      cases h' with
      | const_ _ _ _ _ w _ hw h' => exact ih (ext hc (is_same hc x hv hw)) h h'
    | import_ _ n x _ v _ hv h =>
      cases h' with
      | import_ _ _ _ _ w _ hw h' => exact ih (ext hc (hM _ _ _ hv hw)) h h'
    | require_ _ n x _ v _ hv h =>
      cases h' with
      | require_ _ _ _ _ w _ hw h' => exact ih (ext hc (hM _ _ _ hv hw)) h h'

/-- The value of a module is unique, apart from the numbers of the blocks. -/
theorem modIs_same {P : Text → Option Mod} {resolve : Text → Text} {p : Text} {v : Val}
    (h : ModIs P resolve p v) : ∀ {w}, ModIs P resolve p w → v.Same w := by
  induction h with
  | mk p m M c v hm _ hl hv ih =>
    intro w h'
    cases h' with
    | mk _ m' M' c' _ hm' hM' hl' hw =>
      rw [hm] at hm'
      cases hm'
      refine is_same (lines_same ?_ ?_ hl hl') _ hv hw
      · intro s a b ha hb; exact ih s a ha (hM' s b hb)
      · intro n a b ha; cases ha

end Grammar
end Nanvm
