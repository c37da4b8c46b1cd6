import Verif.Lemmas.Depth
import Verif.Props.SerializerJson
import Verif.Props.SerializerCost
import Verif.Props.Graph
/-!
# Property theorems C88: how many stack frames are needed
-/
namespace Nanvm
open Ser Graph Parser

variable {sh : Nat → Text}

theorem gmem_run_append (a b : List GMem.Op) : ∀ m : GMem,
    m.run (a ++ b) = m.run a >>= fun m => m.run b := by
  induction a with
  | nil => intro m; rfl
  | cons op a ih =>
    intro m
    rw [List.cons_append, GMem.run, GMem.run]
    cases m.step op with
    | error e => rfl
    | ok m1 => exact ih m1

/-- The full property for `to_json`: a fixed number of frames is enough for all values. -/
def JsonBounded (sh : Nat → Text) : Prop := ∃ f, ∀ v, toJsonD sh f v = toJson sh v

/-- The full property for `to_djs`. -/
def DjsBounded (sh : Nat → Text) : Prop := ∃ f, ∀ pick fuel v commonJs,
  toDjsD sh pick f fuel v commonJs = toDjs sh pick fuel v commonJs

/-- The full property for dropping a handle, in whatever state a program gets. -/
def DropBounded : Prop := ∃ f, ∀ ops m, GMem.empty.run ops = .ok m → ∀ o ∈ m.roots,
  drop f m.heap o = drop m.fuel m.heap o

/-- Proved part: `to_json` needs exactly as many frames as there are values nested in each other. -/
theorem C88_json_partial (v : Val) (t : Text) (h : toJson sh v = .ok t) (f : Nat) :
    ((∀ n, Val.Nested n v → n ≤ f) → toJsonD sh f v = .ok t) ∧
    (∀ n, Val.Nested n v → f < n → toJsonD sh f v = .error .fuel) :=
  ⟨fun w => (jsonD_enough v f w).trans h, fun _ hn hf => jsonD_short hn f t h hf⟩

/-- Proved part: `to_djs` needs at most two frames more than there are values nested in each other. -/
theorem C88_djs_partial (pick : HMap Seen → HMap Nat → Nat) (f fuel : Nat) (v : Val)
    (h : ∀ n, Val.Nested n v → n ≤ f) (commonJs : Bool) :
    toDjsD sh pick (f + 2) fuel v commonJs = toDjs sh pick fuel v commonJs :=
  toDjsD_enough pick fuel h commonJs

/-- Proved part: without shared blocks, `to_djs` needs a frame for each value nested in the other. -/
theorem C88_djs_short_partial (v : Val) (hv : v.Consistent) (hs : ∀ c, ¬ v.Shared c) (n : Nat)
    (hn : Val.Nested n v) (f : Nat) (hf : f < n) (pick : HMap Seen → HMap Nat → Nat) (fuel : Nat)
    (commonJs : Bool) : toDjsD sh pick f fuel v commonJs = .error .fuel := by
  have h : ∀ w, (track [] v).get w ≠ some .repeatedly := by
    obtain ⟨-, h3, h4⟩ := track_shared hv
    intro w hw
    obtain ⟨x, hx, rfl⟩ : ∃ x ∈ track [] v, x.1.word = w := by
      clear * - hw
      generalize track [] v = m at hw ⊢
      induction m with
      | nil => cases hw
      | cons y m ih =>
        obtain ⟨k, a⟩ := y
        rw [HMap.get] at hw
        split at hw
        · exact ⟨(k, a), by simp, by assumption⟩
        · obtain ⟨x, hx, e⟩ := ih hw
          exact ⟨x, by simp [hx], e⟩
    exact hs x.1 ((h4 x.1 (h3 x hx).1 (h3 x hx).2).1 hw)
  unfold toDjsD
  rw [trackD_short n v hn f [] hf h]
  rfl

/-- Proved part: dropping a handle needs at most as many frames as there are owned values nested in
each other. -/
theorem C88_drop_partial (ops : List GMem.Op) (m : GMem) (hm : GMem.empty.run ops = .ok m) (o : Own)
    (ho : o ∈ m.roots) (f : Nat) (h : ∀ n, Own.Nested m.heap n o → n ≤ f) :
    drop f m.heap o = drop m.fuel m.heap o := by
  have h1 := (drop_fits f m.heap o h).1
  rcases Nat.le_total f m.fuel with le | le
  · exact (drop_more f m.fuel m.heap o le h1).symm
  · refine drop_more m.fuel f m.heap o le ?_
    obtain ⟨i, hi, e⟩ := List.getElem_of_mem ho
    intro he
    refine (C24_no_memory_error (ops ++ [.drop i])).2 ?_
    rw [gmem_run_append, hm]
    have hg : m.roots[i]? = some o := by rw [List.getElem?_eq_getElem hi, e]
    simp only [bind, Except.bind, GMem.run, GMem.step, hg, he]

/-! ## Arrays in arrays -/


/-- `n + 1` arrays in each other -/
def nest : Nat → Val
  | 0 => .arr 0 []
  | n + 1 => .arr (n + 1) [nest n]

/-- the text of `nest n` -/
def nestText : Nat → Text
  | 0 => ['[', ']']
  | n + 1 => '[' :: (nestText n ++ [']'])

theorem nest_nested (n : Nat) : Val.Nested (n + 1) (nest n) := by
  induction n with
  | zero => exact .one _
  | succ n ih => exact .arr (List.mem_singleton.2 rfl) ih

theorem nest_json (n : Nat) : toJson sh (nest n) = .ok (nestText n) := by
  induction n with
  | zero => rfl
  | succ n ih =>
    rw [toJson] at ih ⊢
    rw [nest, writeJson, jsonItems, jsonItems, ih]
    simp [bind, Except.bind, pure, Except.pure, writeList, writeListLoop, nestText]

theorem nestText_length (n : Nat) : (nestText n).length = 2 * n + 2 := by
  induction n with
  | zero => rfl
  | succ n ih => simp [nestText, ih]; omega

theorem nest_sub {n : Nat} {x : Val} (h : x.Sub (nest n)) : ∃ k, x = nest k := by
  induction n with
  | zero =>
    rw [nest] at h
    cases h with
    | refl => exact ⟨0, rfl⟩
    | arr _ _ y hy _ => cases hy
  | succ n ih =>
    rw [nest] at h
    cases h with
    | refl => exact ⟨n + 1, rfl⟩
    | arr _ _ y hy hs => rw [List.mem_singleton.1 hy] at hs; exact ih hs

theorem nest_arr (n : Nat) : ∃ i l, nest n = .arr i l := by
  cases n with
  | zero => exact ⟨_, _, rfl⟩
  | succ n => exact ⟨_, _, rfl⟩

/-- what is read from a text is as deeply nested -/
theorem same_nested {v w : Val} (h : v.Same w) : ∀ n, Val.Nested n v → Val.Nested n w := by
  induction h with
  | arr i j l m hl _ ih =>
    intro n hn
    cases hn with
    | one => exact .one _
    | arr hx hx2 =>
      obtain ⟨k, hk, e⟩ := List.getElem_of_mem hx
      refine .arr (x := m[k]'(hl ▸ hk)) (List.getElem_mem _) ?_
      refine ih (l[k], m[k]'(hl ▸ hk)) ?_ _ (e ▸ hx2)
      rw [← List.getElem_zip (h := by simp; omega)]
      exact List.getElem_mem _
  | obj i j l m hl _ ih =>
    intro n hn
    have hlen : l.length = m.length := by simpa using congrArg List.length hl
    cases hn with
    | one => exact .one _
    | obj hx hx2 =>
      obtain ⟨k, hk, e⟩ := List.getElem_of_mem hx
      refine .obj (m := m[k]'(hlen ▸ hk)) (List.getElem_mem _) ?_
      refine ih (l[k], m[k]'(hlen ▸ hk)) ?_ _ (e ▸ hx2)
      rw [← List.getElem_zip (h := by simp; omega)]
      exact List.getElem_mem _
  | _ =>
    intro n hn
    cases hn
    exact .one _

theorem nest_word (n : Nat) : (nest n).word = .arr n := by cases n <;> rfl

theorem nest_consistent (n : Nat) : (nest n).Consistent := by
  intro x y hx hy _ _ e
  obtain ⟨k, rfl⟩ := nest_sub hx
  obtain ⟨j, rfl⟩ := nest_sub hy
  rw [nest_word, nest_word] at e
  cases e
  rfl

theorem nest_le {n k : Nat} (h : (nest k).Sub (nest n)) : k ≤ n := by
  induction n with
  | zero =>
    generalize hx : nest k = x at h
    rw [nest] at h
    cases h with
    | refl =>
      have := congrArg Val.word hx
      rw [nest_word] at this
      cases this; exact le_rfl
    | arr _ _ y hy _ => cases hy
  | succ n ih =>
    generalize hx : nest k = x at h
    rw [nest] at h
    cases h with
    | refl =>
      have := congrArg Val.word hx
      rw [nest_word] at this
      cases this; exact le_rfl
    | arr _ _ y hy hs =>
      rw [List.mem_singleton.1 hy, ← hx] at hs
      have := ih hs; omega

theorem nest_unshared (n : Nat) (c : Val) : ¬ (nest n).Shared c := by
  have key : ∀ r k, (nest n).At r (nest k) → r = if k = n then none else some (.arr (k + 1), 0) := by
    intro r k h
    generalize hc : nest k = c at h
    cases h with
    | root =>
      have := congrArg Val.word hc
      rw [nest_word, nest_word] at this
      cases this; rw [if_pos rfl]
    | kid p i c hp hpc hi =>
      obtain ⟨j, rfl⟩ := nest_sub hp
      have hj := nest_le hp
      cases j with
      | zero => rw [nest] at hi; cases hi
      | succ j =>
        rw [nest] at hi
        cases i with
        | succ i => cases hi
        | zero =>
          have e : nest j = nest k := (Option.some.inj hi).trans hc.symm
          have := congrArg Val.word e
          rw [nest_word, nest_word] at this
          cases this
          rw [if_neg (by omega), nest_word]
  rintro ⟨-, r, r', hne, h1, h2⟩
  obtain ⟨k, rfl⟩ := nest_sub (at_sub h1)
  exact hne ((key r k h1).trans (key r' k h2).symm)

/-- No number of frames is enough for all texts: the text of `n + 1` arrays in each other, of
`2 n + 2` characters, is accepted by the parser, and `n` frames are not enough to write the value
again, though it would be written as the same text. -/
theorem C88_text_violated (n : Nat) : ∃ t : Text, t.length = 2 * n + 2 ∧
    ∀ (env : Env) (fuel : Nat) (ctx : Ctx), env.fs env.path = some t →
      ∃ ctx' w, parse env (fuel + 1) ctx = .ok (ctx', .ok (.json, w)) ∧ Val.Nested (n + 1) w ∧
        toJson sh w = .ok t ∧ toJsonD sh n w = .error .fuel := by
  refine ⟨nestText n, nestText_length n, fun env fuel ctx he => ?_⟩
  have hr : Readable env.conv sh (nest n) := by
    constructor
    · intro i b h
      obtain ⟨k, e⟩ := nest_sub h
      obtain ⟨j, l, e2⟩ := nest_arr k
      rw [e2] at e; cases e
    · intro i b h
      obtain ⟨k, e⟩ := nest_sub h
      obtain ⟨j, l, e2⟩ := nest_arr k
      rw [e2] at e; cases e
    · intro i b h
      obtain ⟨k, e⟩ := nest_sub h
      obtain ⟨j, l, e2⟩ := nest_arr k
      rw [e2] at e; cases e
    · intro b h
      obtain ⟨k, e⟩ := nest_sub h
      obtain ⟨j, l, e2⟩ := nest_arr k
      rw [e2] at e; cases e
  obtain ⟨t, ht, hp⟩ := C51_read_back_partial (nest n) hr
  rw [nest_json] at ht
  cases ht
  obtain ⟨ctx', w, h1, -, h3⟩ := hp env fuel ctx rfl he
  have hsame : (nest n).Same w := h3 fun i l h => by
    obtain ⟨k, e⟩ := nest_sub h
    obtain ⟨j, l, e2⟩ := nest_arr k
    rw [e2] at e; cases e
  have hn := same_nested hsame _ (nest_nested n)
  have hw : toJson sh w = .ok (nestText n) := by
    clear * - hsame
    induction n generalizing w with
    | zero =>
      rw [nest] at hsame
      cases hsame with
      | arr _ j _ m hl _ =>
        have : m = [] := List.length_eq_zero_iff.1 (by simpa using hl.symm)
        subst this; rfl
    | succ n ih =>
      rw [nest] at hsame
      cases hsame with
      | arr _ j _ m hl hz =>
        obtain ⟨x, rfl⟩ := List.length_eq_one_iff.1 (by simpa using hl.symm : m.length = 1)
        have h1 := ih x (hz (nest n, x) (by simp))
        rw [toJson] at h1 ⊢
        rw [writeJson, jsonItems, jsonItems, h1]
        simp [bind, Except.bind, pure, Except.pure, writeList, writeListLoop, nestText]
  exact ⟨ctx', w, h1, hn, hw, (C88_json_partial w _ hw n).2 _ hn (by omega)⟩

/-- The full property for `to_json` is false. -/
theorem C88_json_violated : ¬ JsonBounded sh := by
  rintro ⟨f, h⟩
  have h1 := h (nest f)
  rw [(C88_json_partial (nest f) _ (nest_json f) f).2 _ (nest_nested f) (by omega), nest_json] at h1
  cases h1

/-- The full property for `to_djs` is false. -/
theorem C88_djs_violated : ¬ DjsBounded sh := by
  rintro ⟨f, h⟩
  obtain ⟨F, hF⟩ := C54_constants (sh := sh) (nest f) _ (nest_consistent f) (nest_json f)
  obtain ⟨_, _, _, e, -⟩ := hF (fun _ _ => 0) F le_rfl false
  have h1 := h (fun _ _ => 0) F (nest f) false
  rw [C88_djs_short_partial (nest f) (nest_consistent f) (nest_unshared f) _ (nest_nested f) f
    (by omega), e] at h1
  cases h1

/-! ## Dropping arrays in arrays -/

/-- an array that holds the previous one -/
def chainNode : Nat → Node
  | 0 => ⟨.array, 0, [], .live⟩
  | n + 1 => ⟨.array, 0, [.any .array n], .live⟩

/-- a program that makes `n + 1` arrays in each other and keeps the outermost one as an `Any` -/
def chainOps : Nat → List GMem.Op
  | 0 => [.new .array [], .toRef 0, .toAny .array 0]
  | n + 1 => chainOps n ++ [.new .array [0], .toRef 0, .toAny .array 0]

theorem chain_run (n : Nat) : GMem.empty.run (chainOps n) =
    .ok ⟨(List.range (n + 1)).map chainNode, [.any .array n]⟩ := by
  induction n with
  | zero => rfl
  | succ n ih =>
    rw [chainOps, gmem_run_append, ih]
    rw [List.range_succ (n := n + 1), List.map_append]
    simp [bind, Except.bind, GMem.run, GMem.step, GMem.takeRoots, Graph.fits, chainNode]

theorem chain_short : ∀ (f k : Nat) (h : Heap), (∀ i ≤ k, h[i]? = some (chainNode i)) → f ≤ k →
    drop f h (.any .array k) = .error .fuel := by
  intro f
  induction f with
  | zero => intro k h _ _; rfl
  | succ f ih =>
    intro k h hh hf
    obtain ⟨k, rfl⟩ : ∃ j, k = j + 1 := ⟨k - 1, by omega⟩
    have e := hh (k + 1) le_rfl
    rw [chainNode] at e
    rw [drop, refCounterUpdate_ok e rfl rfl]
    simp only [bind, Except.bind, decide_true, if_true]
    unfold delete access
    rw [getElem?_set_of e, if_pos rfl]
    simp only [and_self, if_true, bind, Except.bind, List.foldlM_cons]
    rw [ih k _ (fun i hi => ?_) (by omega)]
    rw [List.set_set, getElem?_set_of e, if_neg (by omega)]
    exact hh i (by omega)

/-- The full property for dropping is false: for every `n`, a program of `3 (n + 1)` operations holds
a handle for which `n` frames are not enough, though dropping it is fine otherwise. -/
theorem C88_drop_program_violated (n : Nat) : ∃ ops m m', ops.length = 3 * (n + 1) ∧
    GMem.empty.run ops = .ok m ∧ m.step (.drop 0) = .ok m' ∧
    ∃ o, m.roots = [o] ∧ drop n m.heap o = .error .fuel := by
  have hb : ∀ k i, GMem.Op.toAny .bigint i ∉ chainOps k := by
    intro k i
    induction k with
    | zero => simp [chainOps]
    | succ k ih => simp [chainOps, ih]
  have hl : ∀ k, (chainOps k).length = 3 * (k + 1) := by
    intro k
    induction k with
    | zero => rfl
    | succ k ih => rw [chainOps, List.length_append, ih]; rfl
  obtain ⟨m', hm, -⟩ := C24_drop_partial (chainOps n) (hb n) _ (chain_run n) 0 (by simp)
  refine ⟨_, _, m', hl n, chain_run n, hm, _, rfl, ?_⟩
  refine chain_short n n _ (fun i hi => ?_) le_rfl
  rw [List.getElem?_map, List.getElem?_range (by omega)]
  rfl

theorem C88_drop_violated : ¬ DropBounded := by
  rintro ⟨f, h⟩
  obtain ⟨ops, m, m', -, hr, hs, o, ho, hd⟩ := C88_drop_program_violated f
  have h1 := h ops m hr o (by rw [ho]; simp)
  rw [hd] at h1
  have hg : m.roots[0]? = some o := by rw [ho]; rfl
  simp only [GMem.step, hg, ← h1] at hs
  cases hs

/-! ## Examples that meet the hypotheses -/

example : toJsonD showExact 3 (.arr 1 [.arr 2 [.null], .bool true]) = .ok "[[null],true]".toList := by
  decide +kernel

example : toJsonD showExact 2 (.arr 1 [.arr 2 [.null], .bool true]) = .error .fuel := by
  decide +kernel

example : ∀ n, Val.Nested n (.arr 1 [.null, .bool true]) → n ≤ 2 := by
  intro n h
  cases h with
  | one => omega
  | arr hx h =>
    simp only [List.mem_cons, List.not_mem_nil, or_false] at hx
    rcases hx with rfl | rfl <;> (cases h; omega)

/-- a shared block: the second way to it is not followed again by the search, but when it is written -/
example : toDjsD showExact (fun _ _ => 0) 5 9
    (.arr 1 [.arr 2 [.null], .arr 3 [.arr 2 [.null]]]) false =
    .ok "const _0=[null];export default [_0,[_0]]".toList := by
  decide +kernel

end Nanvm
