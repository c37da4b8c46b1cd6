import Verif.Lemmas.SerCopy
import Verif.Props.SerializerDjsRead
/-!
# Property theorem C72: identity of blocks

Arrays and objects have an identity: the same block can be held in several places.  `C72_blocks` (in
`ParserLang.lean`) says which blocks the parser makes.
-/
namespace Nanvm
open Tok Parser Grammar Ser

variable {conv : BigFloat → Res Nat} {sh : Nat → Text}

/-- what is at a place of a value: the path gives the positions of the items and members -/
def Val.at : Val → List Nat → Option Val
  | v, [] => some v
  | v, i :: p => v.kids[i]?.bind fun x => x.at p

/-- **C72** for the output of `to_djs` in full: for every graph, every order of the hash map and both
forms, what is parsed from the output is a copy of the graph: the blocks correspond one to one. -/
def DjsKeepsSharing (conv : BigFloat → Res Nat) : Prop :=
  ∀ sh, ∀ v : Val, v.Consistent → Readable conv sh v →
    ∃ F, ∀ pick fuel, F ≤ fuel → ∀ commonJs, ∃ t, toDjs sh pick fuel v commonJs = .ok t ∧
      ∀ (env : Env) fuel' ctx, env.conv = conv → env.fs env.path = some t →
        ∃ ctx' dt w R, parse env (fuel' + 1) ctx = .ok (ctx', .ok (dt, w)) ∧
          OneToOne R ∧ v.CopyBy R w

/-- **C72** does not hold in full: the output for a graph with a shared block is rejected (C55). -/
theorem C72_violated : ¬ DjsKeepsSharing conv := by
  intro h
  obtain ⟨hv, hr, -, hs⟩ := twice_ok conv showExact
  obtain ⟨F, hF⟩ := h showExact twice hv hr
  obtain ⟨G, hG⟩ := C55_shared_rejected (conv := conv) (sh := showExact) twice hv hr hs
  obtain ⟨t, h1, h2⟩ := hF (fun _ _ => 0) (max F G) (le_max_left _ _) false
  obtain ⟨t', h3, h4⟩ := hG (fun _ _ => 0) (max F G) (le_max_right _ _) false
  rw [h1] at h3
  obtain rfl := Except.ok.inj h3
  obtain ⟨ctx', dt, w, -, h5, -⟩ := h2 ⟨fun _ => some t, conv, []⟩ 0 Ctx.empty rfl rfl
  exact h4 ⟨fun _ => some t, conv, []⟩ 1 ctx' (dt, w) rfl rfl h5

/-- **C72**, proved part: for every graph, if the semicolons after the constants were line breaks,
what is parsed would be a copy of the graph: an array or object that is held in several places of
the graph is one block again, and different blocks are different blocks again.  Missing: the
semicolons (`C72_violated`), and what C51 lacks. -/
theorem C72_sharing_partial (v : Val) (hv : v.Consistent) (hr : Readable conv sh v) :
    ∃ F, ∀ pick fuel, F ≤ fuel → ∀ commonJs, ∃ t ts, toDjs sh pick fuel v commonJs = .ok t ∧
      tokenize conv t = .ok ts ∧
      ∀ (env : Env) fuel' ctx, ∃ ctx' w R,
        parseWithTokens env (fuel' + 1) ctx
          (ts.map fun t => if t = .semicolon then .newLine else t) =
            .ok (ctx', .ok (kindOf commonJs, w)) ∧
        OneToOne R ∧ v.CopyBy R w := by
  refine ⟨(track [] v).length + 1, fun pick fuel hf commonJs => ?_⟩
  obtain ⟨cs, t, hn, h1, h2⟩ := djs_tokens (conv := conv) hv hr pick fuel hf commonJs
  refine ⟨t, _, h1, h2, fun env fuel' ctx => ?_⟩
  have e : (fun t : Token => if t = .semicolon then .newLine else t) = lineBreak := by
    funext t
    cases t <;> rfl
  rw [e]
  have hw := written (finalOf commonJs) (v.src (nameIn cs)) (stmts [] cs)
  obtain ⟨ctx', w, c, m, h3, h4, h5⟩ := C72_blocks env fuel' ctx _ _ _ _ hw
    (fun n h => by obtain ⟨j, -, rfl⟩ := uses_nameIn h; exact constName_free j)
    (stmts_uses [] cs) (stmts_scoped v [] cs [] (by simp))
  obtain ⟨R, h6, h7⟩ := djs_copied (conv := conv) (sh := sh) hn hr w c _ _ _ h4 h5
  refine ⟨ctx', w, R, ?_, h6, h7⟩
  refine h3.trans ?_
  cases commonJs <;> rfl

theorem copy_at {R : Word → Nat → Prop} : ∀ (p : List Nat) {v w : Val}, v.CopyBy R w → Ordered v →
    ∀ x, v.at p = some x → ∃ y, w.at p = some y ∧ x.CopyBy R y
  | [], v, w, h, _, x, hx => by cases hx; exact ⟨w, rfl, h⟩
  | i :: p, v, w, h, ho, x, hx => by
    rw [Val.at] at hx
    obtain ⟨k, hk, hkx⟩ := Option.bind_eq_some_iff.1 hx
    cases h with
    | arr a b l m hr hl hall =>
      have hi := (List.getElem?_eq_some_iff.1 hk).1
      have hil : i < l.length := hi
      have hget : l[i]'hil = k := (List.getElem?_eq_some_iff.1 hk).2
      have him : i < m.length := by omega
      have hkm := hall (l[i]'hil, m[i]'him) (List.mem_iff_getElem.2 ⟨i, by simp; omega, by simp⟩)
      rw [hget] at hkm
      obtain ⟨y, hy, hxy⟩ := copy_at p hkm (by rw [← hget]; exact ho.item (List.getElem_mem hil)) x hkx
      refine ⟨y, ?_, hxy⟩
      rw [Val.at, Val.kids, List.getElem?_eq_getElem him]
      exact hy
    | obj a b l ks vs kvs hr hkeys hlen hall hkd =>
      obtain ⟨kv0, hkv, hs⟩ := ho a l .refl
      have e : ks = kv0.map (·.1) := by
        rw [hkv, stored, List.map_map] at hkeys
        have : kv0.map ((fun x : JsStr × Val => x.1) ∘
            fun kv : Text × Val => (toJsString kv.1, kv.2)) =
            (kv0.map (·.1)).map toJsString := by rw [List.map_map]; rfl
        rw [this] at hkeys
        exact (List.map_injective_iff.2 (fun a b h => (C58_injective a b).1 h) hkeys).symm
      subst e
      have hlen' : (kv0.map (·.1)).length = vs.length := by
        rw [← hlen, hkv]; simp [stored]
      have e := keyed_sorted (by rw [List.map_fst_zip (le_of_eq hlen')]; exact hs) hkd
      subst e
      have hil : i < l.length := by
        have := (List.getElem?_eq_some_iff.1 hk).1
        simpa [Val.kids] using this
      have hget : (l[i]'hil).2 = k := by
        have := (List.getElem?_eq_some_iff.1 hk).2
        simpa [Val.kids] using this
      have hiv : i < vs.length := by omega
      have hkm := hall (l[i]'hil, vs[i]'hiv) (List.mem_iff_getElem.2 ⟨i, by simp; omega, by simp⟩)
      simp only at hkm
      rw [hget] at hkm
      obtain ⟨y, hy, hxy⟩ := copy_at p hkm
        (by rw [← hget]; exact ho.member (List.getElem_mem hil)) x hkx
      refine ⟨y, ?_, hxy⟩
      have h2 : (Val.obj b (stored ((kv0.map (·.1)).zip vs))).kids = vs := by
        rw [Val.kids, stored, List.map_map]
        have : ((fun x : JsStr × Val => x.2) ∘ fun kv : Text × Val => (toJsString kv.1, kv.2)) =
          (·.2) := rfl
        rw [this, List.map_snd_zip (le_of_eq hlen'.symm)]
      rw [Val.at, h2, List.getElem?_eq_getElem hiv]
      exact hy
    | _ => cases hk

/-- **C72**: what a copy is, seen from outside: at every place of the graph there is the same in the
copy, and two places hold the same array or object in the graph if and only if they do in the
copy. -/
theorem C72_same_places {R : Word → Nat → Prop} {v w : Val} (hR : OneToOne R) (h : v.CopyBy R w)
    (ho : Ordered v) (p q : List Nat) (x y : Val) (hx : v.at p = some x) (hy : v.at q = some y)
    (hxc : x.Compound) (hyc : y.Compound) :
    ∃ x' y', w.at p = some x' ∧ w.at q = some y' ∧ x.Same x' ∧ y.Same y' ∧ x'.Compound ∧
      y'.Compound ∧ (x.word = y.word ↔ x'.word = y'.word) := by
  obtain ⟨x', h1, h2⟩ := copy_at p h ho x hx
  obtain ⟨y', h3, h4⟩ := copy_at q h ho y hy
  have sub : ∀ (p : List Nat) (v x : Val), v.at p = some x → x.Sub v := by
    intro p
    induction p with
    | nil => intro v x h; cases h; exact .refl
    | cons i p ih =>
      intro v x h
      rw [Val.at] at h
      obtain ⟨k, hk, hx⟩ := Option.bind_eq_some_iff.1 h
      exact (ih k x hx).trans (Val.kid_sub (List.mem_of_getElem? hk))
  refine ⟨x', y', h1, h3, readAs_same (CopyBy.readAs h2) (ho.sub (sub _ _ _ hx)),
    readAs_same (CopyBy.readAs h4) (ho.sub (sub _ _ _ hy)), ?_, ?_, ?_⟩
  · cases h2 <;> trivial
  · cases h4 <;> trivial
  · cases h2 with
    | arr a a' l m hr =>
      cases h4 with
      | arr b b' l' m' hr' =>
        simp only [Val.word, Word.arr.injEq]
        constructor
        · rintro rfl; exact hR.1 _ _ _ hr hr'
        · rintro rfl; simpa using hR.2 _ _ _ hr hr'
      | obj b b' l' ks' vs' kvs' hr' => simp [Val.word]
      | _ => cases hyc
    | obj a a' l ks vs kvs hr =>
      cases h4 with
      | arr b b' l' m' hr' => simp [Val.word]
      | obj b b' l' ks' vs' kvs' hr' =>
        simp only [Val.word, Word.obj.injEq]
        constructor
        · rintro rfl; exact hR.1 _ _ _ hr hr'
        · rintro rfl; simpa using hR.2 _ _ _ hr hr'
      | _ => cases hyc
    | _ => cases hxc

/-! ## Without names -/

/-- the numbers of the blocks of a value, one for every place that holds a block -/
def Val.blocks : Val → List Nat
  | .null => []
  | .bool _ => []
  | .num _ => []
  | .str i _ => [i]
  | .big i _ => [i]
  | .arr i l => i :: l.flatMap fun x => x.blocks
  | .obj i l => i :: l.flatMap fun m => m.2.blocks
termination_by v => sizeOf v
decreasing_by
  · have := List.sizeOf_lt_of_mem ‹_›; simp; omega
  · have := Val.sizeOf_member ‹_›; simp; omega

theorem makes_le {c : Text → Option Val} {x : Src} {n m : Nat} {v : Val} (h : x.Makes c n v m) :
    n ≤ m := by
  have mono : ∀ (ns : Nat → Nat) k, (∀ i < k, ns i ≤ ns (i + 1)) → ns 0 ≤ ns k := by
    intro ns k
    induction k with
    | zero => intro _; exact le_refl _
    | succ k ih => intro h; exact le_trans (ih fun i hi => h i (by omega)) (h k (by omega))
  induction h with
  | arr l vs ns hl _ ih =>
    have := mono ns l.length fun i hi => ih i l[i] vs[i] (List.getElem?_eq_getElem hi)
      (List.getElem?_eq_getElem (by omega))
    omega
  | obj l vs kvs ns hl _ _ ih =>
    have := mono ns l.length fun i hi => ih i l[i] vs[i] (List.getElem?_eq_getElem hi)
      (List.getElem?_eq_getElem (by omega))
    omega
  | _ => omega

theorem steps_le {ns : Nat → Nat} {k : Nat} (h : ∀ i < k, ns i ≤ ns (i + 1)) {i j : Nat}
    (hij : i ≤ j) (hj : j ≤ k) : ns i ≤ ns j := by
  induction j with
  | zero => rw [show i = 0 by omega]
  | succ j ih =>
    rcases Nat.lt_or_ge i (j + 1) with h1 | h1
    · exact le_trans (ih (by omega) (by omega)) (h j (by omega))
    · rw [show i = j + 1 by omega]

theorem flatMap_nodup {α : Type} {f : α → List Nat} : ∀ {l : List α}, (∀ x ∈ l, (f x).Nodup) →
    l.Pairwise (fun x y => ∀ a ∈ f x, a ∉ f y) → (l.flatMap f).Nodup
  | [], _, _ => by simp
  | x :: l, h, hp => by
    rw [List.flatMap_cons, List.nodup_append]
    rw [List.pairwise_cons] at hp
    refine ⟨h x (by simp), flatMap_nodup (fun y hy => h y (by simp [hy])) hp.2, ?_⟩
    rintro a ha b hb rfl
    obtain ⟨y, hy, hb⟩ := List.mem_flatMap.1 hb
    exact hp.1 y hy a ha hb

/-- the blocks of a value that is written without names are new and all different -/
theorem makes_tree {c : Text → Option Val} {x : Src} {n m : Nat} {v : Val} (h : x.Makes c n v m)
    (hx : ∀ k, ¬ x.Uses k) : v.blocks.Nodup ∧ ∀ i ∈ v.blocks, n ≤ i ∧ i < m := by
  induction h with
  | null | bool | num => rw [Val.blocks]; simp
  | str t n => rw [Val.blocks]; simp
  | big b n => rw [Val.blocks]; simp
  | ref x v n _ => exact absurd (.ref x) (hx x)
  | arr l vs ns hl hall ih =>
    have hle : ∀ i < l.length, ns i ≤ ns (i + 1) := fun i hi =>
      makes_le (hall i l[i] vs[i] (List.getElem?_eq_getElem hi) (List.getElem?_eq_getElem (by omega)))
    have key : ∀ (i : Nat) (hi : i < vs.length), (vs[i]).blocks.Nodup ∧
        ∀ a ∈ (vs[i]).blocks, ns i ≤ a ∧ a < ns (i + 1) := fun i hi =>
      ih i (l[i]'(by omega)) vs[i] (List.getElem?_eq_getElem _) (List.getElem?_eq_getElem hi)
        fun k hk => hx k (.arr l _ k (List.getElem_mem _) hk)
    have hbound : ∀ a ∈ vs.flatMap (fun x => x.blocks), ns 0 ≤ a ∧ a < ns l.length := by
      intro a ha
      obtain ⟨x, hx', ha⟩ := List.mem_flatMap.1 ha
      obtain ⟨i, hi, rfl⟩ := List.mem_iff_getElem.1 hx'
      have := (key i hi).2 a ha
      have := steps_le hle (i := 0) (j := i) (by omega) (by omega)
      have := steps_le hle (i := i + 1) (j := l.length) (by omega) (by omega)
      omega
    rw [Val.blocks]
    refine ⟨?_, fun a ha => ?_⟩
    · rw [List.nodup_cons]
      refine ⟨fun h => by have := hbound _ h; omega, flatMap_nodup ?_ ?_⟩
      · intro x hx'
        obtain ⟨i, hi, rfl⟩ := List.mem_iff_getElem.1 hx'
        exact (key i hi).1
      · rw [List.pairwise_iff_getElem]
        intro i j hi hj hij a ha ha'
        have := (key i hi).2 a ha
        have := (key j hj).2 a ha'
        have := steps_le hle (i := i + 1) (j := j) (by omega) (by omega)
        omega
    · rcases List.mem_cons.1 ha with rfl | ha
      · have := steps_le hle (i := 0) (j := l.length) (by omega) (by omega)
        omega
      · have := hbound a ha; omega
  | obj l vs kvs ns hl hall hk ih =>
    have hle : ∀ i < l.length, ns i ≤ ns (i + 1) := fun i hi =>
      makes_le (hall i l[i] vs[i] (List.getElem?_eq_getElem hi) (List.getElem?_eq_getElem (by omega)))
    have key : ∀ (i : Nat) (hi : i < vs.length), (vs[i]).blocks.Nodup ∧
        ∀ a ∈ (vs[i]).blocks, ns i ≤ a ∧ a < ns (i + 1) := fun i hi =>
      ih i (l[i]'(by omega)) vs[i] (List.getElem?_eq_getElem _) (List.getElem?_eq_getElem hi)
        fun k hk => hx k (.obj l _ k (List.getElem_mem _) hk)
    have place : ∀ kv ∈ kvs, ∃ (i : Nat) (hi : i < vs.length), (l[i]'(by omega)).1 = kv.1 ∧
        vs[i] = kv.2 := by
      intro kv hkv
      obtain ⟨a, b, hab, -⟩ := (hk.2 kv.1 kv.2).1 hkv
      have hlen := congrArg List.length hab
      simp only [List.length_zip, List.length_map, List.length_append, List.length_cons] at hlen
      have hi : a.length < vs.length := by omega
      have := congrArg (fun z => z[a.length]?) hab
      rw [List.getElem?_eq_getElem (by simp; omega)] at this
      simp at this
      exact ⟨a.length, hi, congrArg Prod.fst this, congrArg Prod.snd this⟩
    have hbound : ∀ a ∈ kvs.flatMap (fun x => x.2.blocks), ns 0 ≤ a ∧ a < ns l.length := by
      intro a ha
      obtain ⟨x, hx', ha⟩ := List.mem_flatMap.1 ha
      obtain ⟨i, hi, -, e⟩ := place x hx'
      rw [← e] at ha
      have := (key i hi).2 a ha
      have := steps_le hle (i := 0) (j := i) (by omega) (by omega)
      have := steps_le hle (i := i + 1) (j := l.length) (by omega) (by omega)
      omega
    rw [Val.blocks, stored, List.flatMap_map]
    refine ⟨?_, fun a ha => ?_⟩
    · rw [List.nodup_cons]
      refine ⟨fun h => by have := hbound _ h; omega, flatMap_nodup ?_ ?_⟩
      · intro x hx'
        obtain ⟨i, hi, -, e⟩ := place x hx'
        rw [← e]
        exact (key i hi).1
      · have hp : kvs.Pairwise fun x y => x.1 < y.1 := List.pairwise_map.1 hk.1
        refine List.Pairwise.imp_of_mem (fun {x y} hx' hy' hlt => ?_) hp
        obtain ⟨i, hi, e1, e2⟩ := place x hx'
        obtain ⟨j, hj, e3, e4⟩ := place y hy'
        intro a ha ha'
        rw [← e2] at ha
        rw [← e4] at ha'
        have h1 := (key i hi).2 a ha
        have h2 := (key j hj).2 a ha'
        have hne : i ≠ j := by
          rintro rfl
          rw [← e1, ← e3] at hlt
          exact List.lt_irrefl _ hlt
        rcases Nat.lt_or_ge i j with hij | hij
        · have := steps_le hle (i := i + 1) (j := j) (by omega) (by omega)
          omega
        · have := steps_le hle (i := j + 1) (j := i) (by omega) (by omega)
          omega
    · rcases List.mem_cons.1 ha with rfl | ha
      · have := steps_le hle (i := 0) (j := l.length) (by omega) (by omega)
        omega
      · have := hbound a ha; omega

/-- **C72**: JSON is parsed as a tree: no block is held in two places. -/
theorem C72_tree (env : Env) (fuel : Nat) (ctx : Ctx) (x : Src) (ts : List Token)
    (hx : ∀ n, ¬ x.Uses n) (hts : ts.filter (· ≠ .newLine) = x.tokens) :
    ∃ ctx' v, parseWithTokens env (fuel + 1) ctx ts = .ok (ctx', .ok (.json, v)) ∧
      x.Is (fun _ => none) v ∧ v.blocks.Nodup := by
  obtain ⟨ctx', v, c, m, h1, h2, h3⟩ := C72_blocks env fuel ctx .plain x [] ts (.final ts hts)
    (fun n h => absurd h (hx n)) (by simp) (fun n h => absurd h (hx n))
  cases h2
  exact ⟨ctx', v, h1, makes_is h3, (makes_tree h3 hx).1⟩

/-- the hypotheses of `C72_tree`, and a value that is not a tree -/
example : (∀ n, ¬ (Src.arr [.arr [], .str ['a']]).Uses n) ∧
    (Src.arr [.arr [], .str ['a']]).tokens =
      [.arrayBegin, .arrayBegin, .arrayEnd, .comma, .string ['a'], .arrayEnd] ∧
    (Val.arr 2 [.arr 0 [], .str 1 [97]]).blocks.Nodup ∧ ¬ twice.blocks.Nodup := by
  refine ⟨?_, by simp [Src.tokens, commas], by simp [Val.blocks], by simp [twice, Val.blocks]⟩
  intro n h
  cases h with
  | arr _ y _ hy h =>
    simp only [List.mem_cons, List.not_mem_nil, or_false] at hy
    rcases hy with rfl | rfl
    · cases h with
      | arr _ y _ hy => cases hy
    · cases h

/-- the tokens for `[[], []]` with the same array twice, with a line break for the semicolon, are
parsed as an array with one array twice -/
example (env : Env) : parseWithTokens env 1 { Ctx.empty with next := 5 }
    [.id "const".toList, .id "_0".toList, .equals, .arrayBegin, .arrayEnd, .newLine,
      .id "export".toList, .id "default".toList, .arrayBegin, .id "_0".toList, .comma,
      .id "_0".toList, .arrayEnd] =
    .ok ({ Ctx.empty with next := 7 }, .ok (.mjs, .arr 6 [.arr 5 [], .arr 5 []])) := rfl

/-- `[[], []]` with the same array twice: the copy holds one array twice -/
example : ∃ R, OneToOne R ∧ twice.CopyBy R (.arr 8 [.arr 7 [], .arr 7 []]) ∧
    ¬ ∃ R, OneToOne R ∧ twice.CopyBy R (.arr 8 [.arr 7 [], .arr 6 []]) := by
  refine ⟨rel [(.arr 1, 8), (.arr 0, 7)], rel_oneToOne (by decide) (by decide), ?_, ?_⟩
  · refine .arr _ _ _ _ (by simp [rel]) rfl fun p hp => ?_
    have : p = (.arr 0 [], .arr 7 []) := by simpa using hp
    subst this
    exact .arr _ _ _ _ (by simp [rel]) rfl (by simp)
  · rintro ⟨R, hR, h⟩
    cases h with
    | arr _ _ _ _ _ _ hall =>
      have h1 := hall (.arr 0 [], .arr 7 []) (by simp)
      have h2 := hall (.arr 0 [], .arr 6 []) (by simp)
      cases h1 with
      | arr _ _ _ _ r1 =>
        cases h2 with
        | arr _ _ _ _ r2 => exact absurd (hR.1 _ _ _ r1 r2) (by decide)

end Nanvm
