import Verif.Lemmas.SerCostDoc
import Verif.Props.SerializerDjs
/-!
# Property theorems C65: the work done by `to_djs`
-/
namespace Nanvm
open Ser

variable {sh : Nat → Text}

/-- a list of the arrays and objects of the graph `v` -/
def Blocks (v : Val) (bs : List Val) : Prop :=
  bs.Nodup ∧ ∀ x : Val, x ∈ bs ↔ x.Sub v ∧ x.Compound

/-- the number of places in blocks -/
def edges (bs : List Val) : Nat := (bs.map fun b => b.kids.length).sum

/-- The full property: the number of calls is linear in the size of the graph. -/
def LinearWork (sh : Nat → Text) : Prop := ∃ C, ∀ v : Val, v.Consistent → ∀ bs, Blocks v bs →
  ∀ pick fuel commonJs t k, toDjsC sh pick fuel v commonJs = .ok (t, k) →
    k ≤ C * (1 + bs.length + edges bs)

/-- counting does not change what is written, and panics remain -/
theorem C65_same_text (pick : HMap Seen → HMap Nat → Nat) (fuel : Nat) (v : Val) (commonJs : Bool) :
    (toDjsC sh pick fuel v commonJs).map (·.1) = toDjs sh pick fuel v commonJs :=
  toDjsC_fst pick fuel v commonJs

/-- The search for shared blocks makes at most one call per place of the graph, and one for the
root. -/
theorem C65_track_linear (v : Val) (hv : v.Consistent) (bs : List Val) (hb : Blocks v bs) :
    (trackC [] v).2 ≤ 1 + edges bs := by
  have h1 := trackC_count v []
  obtain ⟨h2, h3, -⟩ := track_shared hv
  rw [trackC_fst] at h1
  have hd : degs (track [] v) ≤ edges bs := by
    have hn : ((track [] v).map (·.1)).Nodup := by
      refine List.Nodup.of_map Val.word ?_
      rw [List.map_map]
      exact h2
    have hs : (track [] v).map (·.1) ⊆ bs := fun x hx => by
      obtain ⟨y, hy, rfl⟩ := List.mem_map.1 hx
      exact (hb.2 _).2 (h3 y hy)
    obtain ⟨l, hp, hl⟩ := List.subperm_of_subset hn hs
    have e1 := (hp.map fun b : Val => b.kids.length).sum_eq
    have e2 := (hl.map fun b : Val => b.kids.length).sum_le_sum (by simp)
    rw [e1, List.map_map] at e2
    exact e2
  have h0 : degs [] = 0 := rfl
  omega

/-- Proved part: when no block is shared, the work is linear: two calls per place. -/
theorem C65_linear_partial (v : Val) (hv : v.Consistent) (hs : ¬ ∃ c, v.Shared c) (bs : List Val)
    (hb : Blocks v bs) (pick : HMap Seen → HMap Nat → Nat) (fuel : Nat) (commonJs : Bool) (t : Text)
    (k : Nat) (h : toDjsC sh pick fuel v commonJs = .ok (t, k)) : k ≤ 2 * (1 + edges bs) := by
  obtain ⟨h2, h3, h4⟩ := track_shared hv
  have hno : ∀ x ∈ track [] v, x.2 ≠ .repeatedly := by
    intro x hx e
    refine hs ⟨x.1, (h4 x.1 (h3 x hx).1 (h3 x hx).2).1 ?_⟩
    clear * - h2 hx e
    generalize track [] v = m at *
    induction m with
    | nil => cases hx
    | cons y m ih =>
      obtain ⟨k, a⟩ := y
      rw [keys_cons, List.nodup_cons] at h2
      rw [HMap.get]
      rcases List.mem_cons.1 hx with rfl | hx
      · simp only at e; simp [e]
      · rw [if_neg]
        · exact ih h2.2 hx
        · intro he
          exact h2.1 (List.mem_map.2 ⟨x, hx, he.symm⟩)
  have hget : ∀ w, (trackC [] v).1.get w ≠ some .repeatedly := by
    intro w
    rw [trackC_fst]
    generalize track [] v = m at *
    clear * - hno
    induction m with
    | nil => simp [HMap.get]
    | cons y m ih =>
      obtain ⟨k, a⟩ := y
      rw [HMap.get]
      split
      · have := hno _ (List.mem_cons_self ..)
        simpa using this
      · exact ih fun x hx => hno x (List.mem_cons_of_mem _ hx)
  have hc := (trackC_once v [] hget).1
  have hl := C65_track_linear v hv bs hb
  have hf : (trackC [] v).1.filter (fun x => decide (x.2 = .repeatedly)) = [] := by
    rw [trackC_fst, List.filter_eq_nil_iff]
    intro x hx; simpa using hno x hx
  have hd : toDjsC sh pick fuel v commonJs = (writeConstsC sh pick fuel
      (⟨[], (trackC [] v).1.filter fun x => x.2 = .repeatedly, []⟩, (trackC [] v).2) >>= fun s => do
        let r ← writeC sh s.1.refs v
        return (s.1.out ++ (exportText commonJs ++ r.1), s.2 + r.2)) := rfl
  rw [hd, hf] at h
  cases fuel with
  | zero => cases h
  | succ fuel =>
    have hw : writeConstsC sh pick (fuel + 1) (⟨[], [], []⟩, (trackC [] v).2) =
        .ok (⟨[], [], []⟩, (trackC [] v).2) := rfl
    rw [hw] at h
    cases h1 : writeC sh [] v with
    | error e => simp only [bind, Except.bind, h1] at h; cases h
    | ok r =>
      simp only [bind, Except.bind, h1] at h
      have h5 := Except.ok.inj h
      have h6 := congrArg Prod.snd h5
      simp only at h6
      have := writeC_nodes v r h1
      omega

example : let v : Val := .arr 1 [.arr 2 [.null], .bool true]
    toDjsC showExact (fun _ _ => 0) 1 v false = .ok ("export default [[null],true]".toList, 8) := by
  decide +kernel

/-! ## Nested shared blocks -/

/-- `a0 = []`, `a1 = [a0, a0]`, `a2 = [a1, a1]`, … : `n + 1` blocks with `2 n` places -/
def tower : Nat → Val
  | 0 => .arr 0 []
  | n + 1 => .arr (n + 1) [tower n, tower n]

/-- the blocks of a tower -/
def towerBlocks : Nat → List Val
  | 0 => [tower 0]
  | n + 1 => tower (n + 1) :: towerBlocks n

theorem tower_word (n : Nat) : (tower n).word = .arr n := by cases n <;> rfl

theorem tower_compound (n : Nat) : (tower n).Compound := by cases n <;> trivial

theorem tower_sub (n : Nat) (x : Val) : x.Sub (tower n) ↔ ∃ k ≤ n, x = tower k := by
  induction n with
  | zero =>
    constructor
    · intro h
      rcases Val.sub_cases h with rfl | ⟨y, hy, -⟩
      · exact ⟨0, le_rfl, rfl⟩
      · cases hy
    · rintro ⟨k, hk, rfl⟩
      rw [Nat.le_zero.1 hk]; exact .refl
  | succ n ih =>
    constructor
    · intro h
      rcases Val.sub_cases h with rfl | ⟨y, hy, hs⟩
      · exact ⟨n + 1, le_rfl, rfl⟩
      · have hy' : y = tower n := by
          simp only [tower, Val.kids, List.mem_cons, List.not_mem_nil, or_false, or_self] at hy
          exact hy
        subst hy'
        obtain ⟨k, hk, rfl⟩ := ih.1 hs
        exact ⟨k, by omega, rfl⟩
    · rintro ⟨k, hk, rfl⟩
      rcases Nat.lt_or_ge n k with h | h
      · have : k = n + 1 := by omega
        rw [this]; exact .refl
      · exact .arr _ _ (tower n) (by simp) (ih.2 ⟨k, h, rfl⟩)

theorem tower_consistent (n : Nat) : (tower n).Consistent := by
  intro x y hx hy _ _ e
  obtain ⟨k, -, rfl⟩ := (tower_sub n x).1 hx
  obtain ⟨j, -, rfl⟩ := (tower_sub n y).1 hy
  rw [tower_word, tower_word] at e
  cases e
  rfl

theorem tower_blocks (n : Nat) : Blocks (tower n) (towerBlocks n) := by
  have hm : ∀ n x, x ∈ towerBlocks n ↔ ∃ k ≤ n, x = tower k := by
    intro n x
    induction n with
    | zero => simp [towerBlocks]
    | succ n ih =>
      rw [towerBlocks, List.mem_cons, ih]
      constructor
      · rintro (rfl | ⟨k, hk, rfl⟩)
        · exact ⟨n + 1, le_rfl, rfl⟩
        · exact ⟨k, by omega, rfl⟩
      · rintro ⟨k, hk, rfl⟩
        rcases Nat.lt_or_ge n k with h | h
        · have : k = n + 1 := by omega
          exact .inl (by rw [this])
        · exact .inr ⟨k, h, rfl⟩
  refine ⟨?_, fun x => ?_⟩
  · induction n with
    | zero => simp [towerBlocks]
    | succ n ih =>
      rw [towerBlocks, List.nodup_cons]
      refine ⟨fun h => ?_, ih⟩
      obtain ⟨k, hk, e⟩ := (hm n _).1 h
      have := congrArg Val.word e
      rw [tower_word, tower_word] at this
      cases this
      omega
  · rw [hm, tower_sub]
    constructor
    · rintro ⟨k, hk, rfl⟩
      exact ⟨⟨k, hk, rfl⟩, tower_compound k⟩
    · exact fun h => h.1

theorem tower_size (n : Nat) : (towerBlocks n).length = n + 1 ∧ edges (towerBlocks n) = 2 * n := by
  induction n with
  | zero => exact ⟨rfl, rfl⟩
  | succ n ih =>
    have : edges (towerBlocks (n + 1)) = 2 + edges (towerBlocks n) := by
      simp [edges, towerBlocks, tower, Val.kids]
    exact ⟨by rw [towerBlocks, List.length_cons, ih.1], by rw [this, ih.2]; omega⟩

theorem tower_nodes (n : Nat) : (tower n).nodes + 1 = 2 ^ (n + 1) := by
  induction n with
  | zero => rfl
  | succ n ih =>
    rw [tower, Val.nodes, Val.nodesL, Val.nodesL, Val.nodesL, pow_succ]
    omega

theorem tower_json (n : Nat) : JsonOk sh (tower n) := by
  induction n with
  | zero => exact ⟨_, rfl⟩
  | succ n ih =>
    obtain ⟨t, ht⟩ := ih
    exact ⟨writeList '[' ']' [t, t], by
      rw [tower, writeJson, jsonItems, jsonItems, jsonItems, ht]; rfl⟩

theorem tower_shared (n : Nat) : (tower (n + 1)).Shared (tower n) := by
  refine ⟨tower_compound n, some (.arr (n + 1), 0), some (.arr (n + 1), 1), by simp, ?_, ?_⟩
  · have := Val.At.kid (v := tower (n + 1)) (tower (n + 1)) 0 (tower n) .refl (tower_compound _) rfl
    rwa [tower_word] at this
  · have := Val.At.kid (v := tower (n + 1)) (tower (n + 1)) 1 (tower n) .refl (tower_compound _) rfl
    rwa [tower_word] at this

/-- A graph of `n + 2` arrays with `2 n + 2` places needs `2^n` calls, in every order of the hash
map. -/
theorem C65_exponential (n : Nat) (pick : HMap Seen → HMap Nat → Nat) (fuel : Nat)
    (commonJs : Bool) (t : Text) (k : Nat)
    (h : toDjsC sh pick fuel (tower (n + 1)) commonJs = .ok (t, k)) : 2 ^ n ≤ k := by
  have hd : toDjsC sh pick fuel (tower (n + 1)) commonJs = (writeConstsC sh pick fuel
      (⟨[], (trackC [] (tower (n + 1))).1.filter fun x => x.2 = .repeatedly, []⟩,
        (trackC [] (tower (n + 1))).2) >>= fun s => do
        let r ← writeC sh s.1.refs (tower (n + 1))
        return (s.1.out ++ (exportText commonJs ++ r.1), s.2 + r.2)) := rfl
  rw [hd, trackC_fst] at h
  obtain ⟨h2, h3, h4⟩ := track_shared (tower_consistent (n + 1))
  have hsub : (tower n).Sub (tower (n + 1)) := (tower_sub _ _).2 ⟨n, by omega, rfl⟩
  have hg : HMap.get ((track [] (tower (n + 1))).filter fun x => decide (x.2 = .repeatedly))
      (tower n).word ≠ none := by
    rw [get_filter h2 (fun a => decide (a = Seen.repeatedly)),
      (h4 (tower n) hsub (tower_compound n)).2 (tower_shared n)]
    simp
  cases h1 : writeConstsC sh pick fuel
      (⟨[], (track [] (tower (n + 1))).filter fun x => x.2 = .repeatedly, []⟩,
        (trackC [] (tower (n + 1))).2) with
  | error e => rw [h1] at h; cases h
  | ok s =>
    rw [h1] at h
    have hle := writeConstsC_le (tower_consistent (n + 1)) pick hsub (tower_compound n) fuel _ _
      (fun y hy => h3 y (List.mem_filter.1 hy).1) h1 hg
    cases h5 : writeC sh s.1.refs (tower (n + 1)) with
    | error e => simp only [bind, Except.bind, h5] at h; cases h
    | ok r =>
      simp only [bind, Except.bind, h5] at h
      have h6 := congrArg Prod.snd (Except.ok.inj h)
      simp only at h6 hle
      have h7 := tower_nodes n
      rw [pow_succ] at h7
      have : 0 < 2 ^ n := by positivity
      omega

/-- the conversion of a tower does end -/
theorem C65_tower_ends (n : Nat) (pick : HMap Seen → HMap Nat → Nat) (commonJs : Bool) :
    ∃ fuel t k, toDjsC sh pick fuel (tower n) commonJs = .ok (t, k) := by
  obtain ⟨cs, h, -⟩ := djs_text (tower_consistent n) (tower_json (sh := sh) n) pick
    ((track [] (tower n)).length + 1) (Nat.lt_succ_self _) commonJs
  have h1 := toDjsC_fst (sh := sh) pick ((track [] (tower n)).length + 1) (tower n) commonJs
  rw [h] at h1
  cases h2 : toDjsC sh pick ((track [] (tower n)).length + 1) (tower n) commonJs with
  | error e => rw [h2] at h1; cases h1
  | ok r => exact ⟨_, r.1, r.2, h2⟩

/-- The code violates the property: `write_compound_const` walks into the items of a block each time
the block occurs, also when its constant has been written. -/
theorem C65_violated : ¬ LinearWork sh := by
  rintro ⟨C, h⟩
  obtain ⟨n, hn⟩ : ∃ n, C * (3 * n + 5) < 2 ^ n := by
    refine ⟨C + 10, ?_⟩
    have h1 : C < 2 ^ C := Nat.lt_two_pow_self
    have h2 : C * (3 * (C + 10) + 5) ≤ 2 ^ C * 2 ^ 10 := by
      have h3 : ∀ c : Nat, c * (3 * (c + 10) + 5) ≤ 2 ^ c * 2 ^ 10 - 1 := by
        intro c
        induction c with
        | zero => simp
        | succ c ih =>
          have : 2 ^ (c + 1) = 2 * 2 ^ c := by rw [pow_succ]; omega
          have h1 : c < 2 ^ c := Nat.lt_two_pow_self
          have e : (c + 1) * (3 * (c + 1 + 10) + 5) = c * (3 * (c + 10) + 5) + (6 * c + 38) := by ring
          rw [this, e]
          omega
      have := h3 C; omega
    have h3 : ∀ c : Nat, c * (3 * (c + 10) + 5) + 1 ≤ 2 ^ c * 2 ^ 10 := by
      intro c
      induction c with
      | zero => simp
      | succ c ih =>
        have : 2 ^ (c + 1) = 2 * 2 ^ c := by rw [pow_succ]; omega
        have h1 : c < 2 ^ c := Nat.lt_two_pow_self
        have e : (c + 1) * (3 * (c + 1 + 10) + 5) = c * (3 * (c + 10) + 5) + (6 * c + 38) := by ring
        rw [this, e]
        omega
    have := h3 C
    rw [pow_add]
    omega
  obtain ⟨fuel, t, k, hk⟩ := C65_tower_ends (sh := sh) (n + 1) (fun _ _ => 0) false
  have h1 := h _ (tower_consistent (n + 1)) _ (tower_blocks (n + 1)) _ _ _ _ _ hk
  have h2 := C65_exponential n _ _ _ _ _ hk
  rw [(tower_size (n + 1)).1, (tower_size (n + 1)).2] at h1
  have e : 1 + (n + 1 + 1) + 2 * (n + 1) = 3 * n + 5 := by omega
  rw [e] at h1
  omega

example : toDjsC showExact (fun _ _ => 0) 4 (tower 2) false =
    .ok ("const _0=[];const _1=[_0,_0];export default [_1,_1]".toList, 15) := by decide +kernel

/-- Proved part: exactly the work of `to_djs`, and a bound on it.  Besides the search, which is
linear, and the writing, with one call per place, per constant and for the root, it walks over one
value as a tree for each shared block at most.  (What is missing is a bound on the walks which does
not grow with the tree: there is none, `C65_violated`.) -/
theorem C65_upper_partial (v : Val) (hv : v.Consistent) (j : Text) (hj : writeJson sh v = .ok j)
    (bs : List Val) (hb : Blocks v bs) (cs : List Val) (hcs : cs.Nodup)
    (hsh : ∀ c, c ∈ cs ↔ v.Shared c) (pick : HMap Seen → HMap Nat → Nat) (fuel : Nat)
    (commonJs : Bool) (t : Text) (k : Nat) (h : toDjsC sh pick fuel v commonJs = .ok (t, k)) :
    (∃ walks, walks ≤ cs.length * v.nodes ∧
      k = (trackC [] v).2 + walks + (cs.length + 1 + edges bs)) ∧
    k ≤ 2 * (1 + edges bs) + cs.length * (1 + v.nodes) := by
  have hd : toDjsC sh pick fuel v commonJs = (writeConstsC sh pick fuel
      (⟨[], (trackC [] v).1.filter fun x => x.2 = .repeatedly, []⟩, (trackC [] v).2) >>= fun s => do
        let r ← writeC sh s.1.refs v
        return (s.1.out ++ (exportText commonJs ++ r.1), s.2 + r.2)) := rfl
  rw [hd] at h
  obtain ⟨s', hw, h⟩ := bind_eq_ok.1 h
  obtain ⟨r, hr, h⟩ := bind_eq_ok.1 h
  have hk : k = s'.2 + r.2 := (congrArg Prod.snd (Except.ok.inj h)).symm
  have h0 := inv_start (sh := sh) hv
  rw [trackC_fst] at hw
  obtain ⟨⟨cs', hi, he⟩, walks, hle, hc⟩ := writeConsts_cost hv ⟨j, hj⟩ pick fuel [] _ s' h0 hw
  have hsh' : ∀ c, c ∈ cs' ↔ v.Shared c := by
    refine fun c => ⟨hi.shared c, fun hc => ?_⟩
    by_contra hn
    refine (hi.todo c hc).2 hn ?_
    rw [he]; rfl
  have hlen : cs'.length = cs.length :=
    ((List.perm_ext_iff_of_nodup hi.nodup hcs).2 fun c => (hsh' c).trans (hsh c).symm).length_eq
  have hnames : Names v cs' := ⟨hv, hi.nodup, hsh', hi.closed⟩
  have htodo : ((track [] v).filter fun x => decide (x.2 = .repeatedly)).length ≤ cs.length := by
    obtain ⟨h2, -, -⟩ := track_shared hv
    rw [← hlen, ← List.length_map (f := fun x : Val × Seen => x.1)]
    refine (List.subperm_of_subset (List.Nodup.of_map Val.word ?_) fun x hx => ?_).length_le
    · rw [List.map_map]
      exact List.Nodup.sublist (List.filter_sublist.map _) h2
    · obtain ⟨y, hy, rfl⟩ := List.mem_map.1 hx
      exact (hsh' _).2 (h0.todoSub y hy)
  have hwr := writeC_cost _ v r hr
  have hrefs : s'.1.refs.get = nameIn cs' := by rw [hi.refs]; rfl
  have hdef : defined sh s'.1.refs = ((cs'.map (bodyOf sh (nameIn cs'))).map Doc.nodes).sum := by
    rw [defined, hi.refs, ← docCost_eq hnames [] cs' rfl]
    simp
  have hn := written_nodes (sh := sh) hnames bs hb
  rw [hrefs] at hwr
  rw [hdef] at hc
  have hz : defined sh [] = 0 := rfl
  have hb2 : walks ≤ cs.length * v.nodes := hle.trans (Nat.mul_le_mul_right _ htodo)
  have hl := C65_track_linear v hv bs hb
  rw [hlen] at hn
  simp only [hz] at hc
  have hedges : edges bs = (bs.map fun b => b.kids.length).sum := rfl
  have e : cs.length * (1 + v.nodes) = cs.length + cs.length * v.nodes := by ring
  rw [e]
  generalize cs.length * v.nodes = q at *
  exact ⟨⟨walks, hb2, by omega⟩, by omega⟩

/-- the bound for the tower of two levels: 15 of at most 26 calls -/
example : ∃ t, toDjsC showExact (fun _ _ => 0) 4 (tower 2) false = .ok (t, 15) ∧
    (tower 2).nodes = 7 ∧ edges [tower 0, tower 1, tower 2] = 4 ∧ 2 * (1 + 4) + 2 * (1 + 7) = 26 := by
  refine ⟨"const _0=[];const _1=[_0,_0];export default [_1,_1]".toList, ?_, ?_, ?_, ?_⟩ <;>
    decide +kernel

end Nanvm
