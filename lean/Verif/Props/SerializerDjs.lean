import Verif.Lemmas.SerBig
import Verif.Props.SerializerJson
/-!
# Property theorem C54: writing graphs with constants
-/
namespace Nanvm
open Ser

variable {sh : Nat → Text}

/-- **C54**: for every graph that can be written as JSON and every order of the hash map, the output
consists of constant definitions and the exported value, where
* the constants `_0`, `_1`, … are the arrays and objects held in two or more places of the graph, one
  each, and each definition is a literal of its block;
* a definition refers to earlier constants only, the exported value to defined constants only;
* replacing references by definitions gives the JSON text of the value, and for each constant that
  of its block;
* for every array and object of the graph exactly one literal is written.
-/
theorem C54_constants (v : Val) (t : Text) (hv : v.Consistent) (ht : toJson sh v = .ok t) :
    ∃ F, ∀ pick fuel, F ≤ fuel → ∀ commonJs, ∃ (cs : List Val) (defs : List Doc) (root : Doc),
      toDjs sh pick fuel v commonJs = .ok (constsText 0 defs ++
        ((if commonJs then "module.exports=".toList else "export default ".toList) ++ root.text)) ∧
      (cs.Nodup ∧ ∀ c, c ∈ cs ↔ v.Shared c) ∧
      defs.map Doc.head = cs.map (fun c => some c.word) ∧
      (∀ (i : Nat) (d : Doc), defs[i]? = some d → ∀ n, d.RefersTo n → n < i) ∧
      (∀ n, root.RefersTo n → n < defs.length) ∧
      root.Expands defs t ∧
      (∀ p ∈ cs.zip defs, ∃ u, toJson sh p.1 = .ok u ∧ p.2.Expands defs u) ∧
      ((defs ++ [root]).flatMap Doc.literals).Nodup ∧
      (∀ w, w ∈ (defs ++ [root]).flatMap Doc.literals ↔
        ∃ x : Val, x.Sub v ∧ x.Compound ∧ x.word = w) := by
  refine ⟨(track [] v).length + 1, fun pick fuel hf commonJs => ?_⟩
  obtain ⟨cs, h1, h2, h3, h4⟩ := djs_text hv ⟨t, ht⟩ pick fuel hf commonJs
  have hn : Names v cs := ⟨hv, h2, h3, h4⟩
  refine ⟨cs, cs.map (bodyOf sh (nameIn cs)), docOf sh (nameIn cs) v, h1, ⟨h2, h3⟩, ?_, ?_, ?_,
    (doc_expands hn v .refl t ht).2, ?_, (literals_once hn).1, (literals_once hn).2⟩
  · rw [List.map_map]
    refine List.map_congr_left fun c hc => ?_
    have := ((h3 c).1 hc).1
    cases c with
    | arr | obj => rfl
    | _ => cases this
  · intro i d hd n hr
    rw [List.getElem?_map, Option.map_eq_some_iff] at hd
    obtain ⟨c, hc, rfl⟩ := hd
    exact refers_earlier hn hc hr
  · intro n hr
    obtain ⟨y, hy, hyc, hn'⟩ := doc_refers v n hr
    obtain ⟨c, hc, -⟩ := nameIn_some hn'
    rw [List.length_map]
    exact (List.getElem?_eq_some_iff.1 hc).1
  · intro p hp
    rw [List.zip_map_right, List.mem_map] at hp
    obtain ⟨⟨c, c'⟩, hq, rfl⟩ := hp
    have : c = c' := by
      clear * - hq
      induction cs with
      | nil => cases hq
      | cons a l ih =>
        rw [List.zip_cons_cons, List.mem_cons] at hq
        rcases hq with e | hq
        · cases e; rfl
        · exact ih hq
    subst this
    have hs := shared_sub ((h3 c).1 (List.of_mem_zip hq).1)
    obtain ⟨u, hu⟩ := JsonOk.sub ⟨t, ht⟩ hs
    exact ⟨u, hu, (doc_expands hn c hs u hu).1⟩

/-- a graph with two shared arrays, one in the other, that meets the hypotheses, and its text -/
def sharedGraph : Val :=
  let x : Val := .arr 1 [.null]
  let y : Val := .arr 2 [x, .bool true]
  .obj 3 [([97], y), ([98], x), ([99], y)]

example : sharedGraph.Consistent := by
  have sub : ∀ z : Val, z.Sub sharedGraph → z.Compound → z = sharedGraph ∨
      z = .arr 2 [.arr 1 [.null], .bool true] ∨ z = .arr 1 [.null] := by
    intro z hz hc
    have h1 : ∀ z : Val, z.Sub (.arr 1 [.null]) → z.Compound → z = .arr 1 [.null] := by
      intro z hz hc
      rcases Val.sub_cases hz with rfl | ⟨k, hk, hz⟩
      · rfl
      · simp only [Val.kids, List.mem_singleton] at hk
        subst hk; cases hz; cases hc
    have h2 : ∀ z : Val, z.Sub (.arr 2 [.arr 1 [.null], .bool true]) → z.Compound →
        z = .arr 2 [.arr 1 [.null], .bool true] ∨ z = .arr 1 [.null] := by
      intro z hz hc
      rcases Val.sub_cases hz with rfl | ⟨k, hk, hz⟩
      · exact .inl rfl
      · simp only [Val.kids, List.mem_cons, List.not_mem_nil, or_false] at hk
        rcases hk with rfl | rfl
        · exact .inr (h1 z hz hc)
        · cases hz; cases hc
    rcases Val.sub_cases hz with rfl | ⟨k, hk, hz⟩
    · exact .inl rfl
    · simp only [sharedGraph, Val.kids, List.map_cons, List.map_nil, List.mem_cons,
        List.not_mem_nil, or_false] at hk
      rcases hk with rfl | rfl | rfl
      · exact .inr (h2 z hz hc)
      · exact .inr (.inr (h1 z hz hc))
      · exact .inr (h2 z hz hc)
  intro x y hx hy hxc hyc e
  rcases sub x hx hxc with rfl | rfl | rfl <;> rcases sub y hy hyc with rfl | rfl | rfl <;>
    first | rfl | (exfalso; revert e; decide)

example :
    toJson showExact sharedGraph = .ok "{\"a\":[[null],true],\"b\":[null],\"c\":[[null],true]}".toList ∧
    toDjs showExact (fun _ _ => 1) 4 sharedGraph true =
      .ok "const _0=[null];const _1=[_0,true];module.exports={\"a\":_1,\"b\":_0,\"c\":_1}".toList := by
  decide +kernel

/-! ## Bigints -/

/-- **C54**, **C53**: a graph with a bigint is not written, in any order: `todo!()`. -/
theorem C54_bigint_panics (v : Val) (hv : v.Consistent) (hu : v.Units16) (hb : v.HasBig) :
    ∃ F, ∀ pick fuel, F ≤ fuel → ∀ commonJs,
      toDjs sh pick fuel v commonJs = .error (.panic .todo) := by
  refine ⟨(track [] v).length + 1, fun pick fuel hf commonJs => ?_⟩
  rcases djs_total hv hu pick fuel hf commonJs with ⟨t, ht⟩ | h
  · have := (C53_bigint_panics (sh := sh) v hu hb).symm.trans ht
    cases this
  · exact h

example : let v : Val := .arr 1 [.null, .big 2 JsBig.zero]
    v.HasBig ∧ toDjs showExact (fun _ _ => 0) 2 v true = .error (.panic .todo) :=
  ⟨⟨2, JsBig.zero, .arr _ _ _ (by simp) .refl⟩, rfl⟩

end Nanvm
