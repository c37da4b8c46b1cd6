import Verif.Lemmas.SerRead
import Verif.Lemmas.ParserMap
import Verif.Lemmas.ParserComplete
/-!
# What is parsed from the written text is the same value
-/
namespace Nanvm
namespace Ser
open Tok Grammar

variable {conv : BigFloat → Res Nat} {sh : Nat → Text}

/-- two lists with strictly ascending keys and the same entries are equal -/
theorem sorted_unique {α : Type} : ∀ {a b : List (Text × α)}, (a.map (·.1)).Pairwise (· < ·) →
    (b.map (·.1)).Pairwise (· < ·) → (∀ x, x ∈ a ↔ x ∈ b) → a = b
  | [], [], _, _, _ => rfl
  | [], y :: b, _, _, h => absurd ((h y).2 (by simp)) (by simp)
  | x :: a, [], _, _, h => absurd ((h x).1 (by simp)) (by simp)
  | x :: a, y :: b, ha, hb, h => by
    simp only [List.map_cons, List.pairwise_cons, List.mem_map, forall_exists_index, and_imp,
      forall_apply_eq_imp_iff₂] at ha hb
    have hxy : x = y := by
      rcases List.mem_cons.1 ((h x).1 (by simp)) with e | h1
      · exact e
      rcases List.mem_cons.1 ((h y).2 (by simp)) with e | h2
      · exact e.symm
      exact absurd (text_lt_trans (hb.1 x h1) (ha.1 y h2)) (text_lt_irrefl _)
    subst hxy
    have : a = b := sorted_unique ha.2 hb.2 fun z => by
      constructor
      · intro hz
        rcases List.mem_cons.1 ((h z).1 (by simp [hz])) with rfl | h1
        · exact absurd (ha.1 z hz) (text_lt_irrefl _)
        · exact h1
      · intro hz
        rcases List.mem_cons.1 ((h z).2 (by simp [hz])) with rfl | h1
        · exact absurd (hb.1 z hz) (text_lt_irrefl _)
        · exact h1
    rw [this]

theorem keyed_sorted {α : Type} {a l : List (Text × α)} (ha : (a.map (·.1)).Pairwise (· < ·))
    (h : Keyed a l) : l = a := by
  refine sorted_unique h.1 ha fun ⟨k, v⟩ => ?_
  rw [h.2]
  constructor
  · rintro ⟨p, q, rfl, -⟩; simp
  · intro hm
    obtain ⟨p, q, rfl⟩ := List.append_of_mem hm
    refine ⟨p, q, rfl, fun x hx => ?_⟩
    simp only [List.map_append, List.map_cons, List.pairwise_append, List.pairwise_cons] at ha
    have := ha.2.1.1 x.1 (List.mem_map_of_mem hx)
    intro e
    rw [e] at this
    exact text_lt_irrefl _ this

/-- all objects in `v` have their keys in order -/
def Ordered (v : Val) : Prop := ∀ i l, (Val.obj i l).Sub v → KeysInOrder l

theorem Ordered.item {i : Nat} {l : List Val} (h : Ordered (.arr i l)) {x : Val} (hx : x ∈ l) :
    Ordered x := fun j m hs => h j m (.arr _ _ _ hx hs)

theorem Ordered.member {i : Nat} {l : List (JsStr × Val)} (h : Ordered (.obj i l))
    {x : JsStr × Val} (hx : x ∈ l) : Ordered x.2 := fun j m hs => h j m (.obj _ _ _ hx hs)

theorem Ordered.sub {v x : Val} (h : Ordered v) (hx : x.Sub v) : Ordered x := by
  induction hx with
  | refl => exact h
  | arr i l y hy _ ih => exact ih (h.item hy)
  | obj i l m hm _ ih => exact ih (h.member hm)

theorem jsText_str {s : JsStr} (h : StrOk s) : toJsString (jsText s) = s := by
  obtain ⟨_, c, _, h2, _⟩ := h.reads (conv := fun _ => .ok 0)
  rw [jsText_eq h2, h2]

/-- If the names stand for what is read from the blocks they name, then whatever the written value
denotes is what is read from the value. -/
theorem is_reads {name : Word → Option Nat} {c : Text → Option Val} (v : Val)
    (hr : Readable conv sh v)
    (hc : ∀ (x : Val) n, x.Sub v → name x.word = some n → ∀ w, c (constName n) = some w →
      x.ReadAs w) :
    ∀ w, (v.src name).Is c w → v.ReadAs w := by
  induction v using Val.ind with
  | null => intro w h; rw [Val.src] at h; cases h; exact .null
  | bool b => intro w h; rw [Val.src] at h; cases h; exact .bool b
  | num b => intro w h; rw [Val.src] at h; cases h; exact .num b
  | str i s =>
    intro w h
    rw [Val.src] at h
    cases h
    rw [jsText_str (hr.str i s .refl)]
    exact .str _ _ _
  | big i b => exact absurd .refl (hr.big i b)
  | arr i l ih =>
    intro w h
    rw [Val.src] at h
    cases hn : name (.arr i) with
    | some n =>
      rw [hn] at h
      cases h with
      | ref _ _ h => exact hc (.arr i l) n .refl hn w h
    | none =>
      rw [hn] at h
      cases h with
      | arr j _ vs hlen hall =>
        rw [List.length_map] at hlen
        refine .arr i j l vs hlen fun p hp => ?_
        have hp1 : p.1 ∈ l := (List.of_mem_zip hp).1
        refine ih p.1 hp1 (hr.item hp1)
          (fun x n hx => hc x n (.arr _ _ _ hp1 hx)) p.2 (hall (p.1.src name, p.2) ?_)
        rw [List.zip_map_left]
        exact List.mem_map.2 ⟨p, hp, rfl⟩
  | obj i l ih =>
    intro w h
    rw [Val.src] at h
    cases hn : name (.obj i) with
    | some n =>
      rw [hn] at h
      cases h with
      | ref _ _ h => exact hc (.obj i l) n .refl hn w h
    | none =>
      rw [hn] at h
      cases h with
      | obj j _ vs kvs hlen hall hk =>
        rw [List.length_map] at hlen
        refine .obj i j l _ vs kvs ?_ hlen (fun p hp => ?_) hk
        · rw [List.map_map, List.map_map]
          refine List.map_congr_left fun m hm => ?_
          exact (jsText_str (hr.key i l .refl m hm)).symm
        · have hp1 : p.1 ∈ l := (List.of_mem_zip hp).1
          refine ih p.1 hp1 (hr.member hp1)
            (fun x n hx => hc x n (.obj _ _ _ hp1 hx)) p.2
            (hall ((jsText p.1.1, p.1.2.src name), p.2) ?_)
          rw [List.zip_map_left]
          exact List.mem_map.2 ⟨p, hp, rfl⟩

/-- if the keys are in order, what is read is the same value -/
theorem readAs_same {v w : Val} (h : v.ReadAs w) (ho : Ordered v) : v.Same w := by
  induction h with
  | null => exact .null
  | bool b => exact .bool b
  | num b => exact .num b
  | str i j s => exact .str i j s
  | big i j b => exact .big i j b
  | arr i j l m hl _ ih =>
    exact .arr i j l m hl fun p hp => ih p hp (ho.item (List.of_mem_zip hp).1)
  | obj i j l ks vs kvs hkeys hlen _ hk ih =>
    obtain ⟨kv0, hkv, hs⟩ := ho i l .refl
    have e : ks = kv0.map (·.1) := by
      rw [hkv, stored, List.map_map] at hkeys
      have : kv0.map ((fun x : JsStr × Val => x.1) ∘ fun kv : Text × Val => (toJsString kv.1, kv.2)) =
          (kv0.map (·.1)).map toJsString := by rw [List.map_map]; rfl
      rw [this] at hkeys
      exact (List.map_injective_iff.2 (fun a b h => by
        have e := jsText_eq (c := a) rfl
        rw [h, jsText_eq (c := b) rfl] at e
        exact e.symm) hkeys).symm
    subst e
    have hlen' : (kv0.map (·.1)).length = vs.length := by
      rw [← hlen, hkv]; simp [stored]
    have e := keyed_sorted (by rw [List.map_fst_zip (le_of_eq hlen')]; exact hs) hk
    subst e
    refine .obj i j l _ ?_ fun p hp => ?_
    · rw [hkeys, stored, List.map_map (l := List.zip _ _)]
      have : ((fun x : JsStr × Val => x.1) ∘ fun kv : Text × Val => (toJsString kv.1, kv.2)) =
          toJsString ∘ (·.1) := rfl
      rw [this, ← List.map_map (l := List.zip _ _), List.map_fst_zip (le_of_eq hlen')]
    · obtain ⟨n, hn', hget⟩ := List.mem_iff_getElem.1 hp
      rw [List.getElem_zip] at hget
      rw [List.length_zip] at hn'
      have h1 : n < l.length := by omega
      have h2 : n < vs.length := by omega
      have hp1 : p.1 = l[n] := by rw [← hget]
      have hp2 : p.2.2 = vs[n] := by
        rw [← hget]
        simp [stored]
      rw [hp1, hp2]
      refine ih (l[n], vs[n]) (List.mem_iff_getElem.2 ⟨n, by simp; omega, by simp⟩)
        (ho.member (List.getElem_mem h1))

/-- the tokens of a value contain no line break -/
theorem no_newLine_mem (x : Src) : .newLine ∉ x.tokens := by
  induction x using Src.ind with
  | arr l ih =>
    rw [Src.tokens]
    intro h
    simp only [List.mem_append, List.mem_cons, List.not_mem_nil, or_false, reduceCtorEq,
      false_or] at h
    rcases Parser.mem_commas h with h | ⟨y, hy, h⟩
    · cases h
    · obtain ⟨x, hx, rfl⟩ := List.mem_map.1 hy
      exact ih x hx h
  | obj l ih =>
    rw [Src.tokens]
    intro h
    simp only [List.mem_append, List.mem_cons, List.not_mem_nil, or_false, reduceCtorEq,
      false_or] at h
    rcases Parser.mem_commas h with h | ⟨y, hy, h⟩
    · cases h
    · obtain ⟨x, hx, rfl⟩ := List.mem_map.1 hy
      simp only [List.mem_cons, reduceCtorEq, false_or] at h
      exact ih x hx h
  | _ => rw [Src.tokens]; simp

theorem no_newLine (x : Src) : x.tokens.filter (· ≠ .newLine) = x.tokens :=
  List.filter_eq_self.2 fun t ht => by
    simp only [ne_eq, decide_not, Bool.not_eq_eq_eq_not, Bool.not_true, decide_eq_false_iff_not]
    rintro rfl
    exact no_newLine_mem x ht

end Ser
end Nanvm
