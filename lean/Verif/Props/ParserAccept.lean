import Verif.Lemmas.ParserAcceptFiles
import Verif.Props.ParserFiles
/-!
# C79: exactly which modules are accepted

The language of modules is `Spec/Grammar.lean`.  The parser accepts less; what it accepts is
`Spec/Accepts.lean`.
-/
namespace Nanvm
namespace Parser
open Tok Grammar

/-- **C79**: a parse succeeds, with a module of the kind `k`, exactly if the module and all the
modules it names are in the language of `Spec/Accepts.lean`. -/
theorem C79_accepts_partial (env : Env) (k : DataType) :
    (∃ F ctx v, ∀ fuel ≥ F, parse env fuel Ctx.empty = .ok (ctx, .ok (k, v))) ↔
      LoadsAs env.read env.resolve env.path k := by
  constructor
  · rintro ⟨F, ctx, v, h⟩
    replace h := h F (Nat.le_refl _)
    simp only [parse] at h
    cases hf : env.fs env.path with
    | none => rw [hf] at h; cases h
    | some text =>
      rw [hf] at h
      simp only at h
      cases ht : tokenize env.conv text with
      | error e => rw [ht] at h; cases h
      | ok ts =>
        rw [ht] at h
        exact loadsAs_of (by simp [Env.read, hf, ht])
          (tokens_loads F (ctx := enter Ctx.empty env.path) (by intro p v h; cases h) h).1
  · intro h
    classical
    obtain ⟨m, hm⟩ := h.by_
    have hex : ∃ n, ∃ k, LoadsBy env.read env.resolve n env.path k := ⟨m, k, hm⟩
    obtain ⟨k1, hk⟩ := Nat.find_spec hex
    obtain rfl := LoadsBy_unique hm hk
    have hmin := fun m (hm : m < Nat.find hex) => Nat.find_min hex hm
    generalize Nat.find hex = r at *
    cases r with
    | zero => cases hk
    | succ r =>
      obtain ⟨ts, hr, hk⟩ := hk
      obtain ⟨text, hf, ht⟩ := read_cases hr
      obtain ⟨ctx, v, h1, -⟩ := tokens_accepted r (ctx := enter Ctx.empty env.path) (fuel := r + 1)
        (by omega) hk (by
          intro q hq k hk
          simp only [enter, Ctx.empty, setInsert, List.not_mem_nil, if_false,
            List.mem_singleton] at hq
          subst hq
          exact hmin r (by omega) ⟨k, hk⟩)
      refine ⟨r + 1, ctx, v, fun fuel hle => ?_⟩
      have hp : parse env (r + 1) Ctx.empty = .ok (ctx, .ok (k, v)) := by
        simp only [parse, hf, ht]
        exact h1
      rw [C38_fuel env (r + 1) fuel hle (by rw [hp]; simp), hp]

/-- **C79**: the kind of a module is determined by its text. -/
theorem C79_kind (env : Env) (k1 k2 : DataType) (h1 : LoadsAs env.read env.resolve env.path k1)
    (h2 : LoadsAs env.read env.resolve env.path k2) : k1 = k2 := by
  obtain ⟨n, h1⟩ := h1.by_
  obtain ⟨m, h2⟩ := h2.by_
  exact LoadsBy_unique h1 h2

/-- **C79**: a parse that ends succeeds exactly if the module is in that language. -/
theorem C79_ends_partial (env : Env) (fuel : Nat) (h : parse env fuel Ctx.empty ≠ .error .fuel) :
    (∃ ctx k v, parse env fuel Ctx.empty = .ok (ctx, .ok (k, v))) ↔
      ∃ k, LoadsAs env.read env.resolve env.path k := by
  constructor
  · rintro ⟨ctx, k, v, hp⟩
    exact ⟨k, (C79_accepts_partial env k).1 ⟨fuel, ctx, v, fun fuel' hle => by
      rw [C38_fuel env fuel fuel' hle h, hp]⟩⟩
  · rintro ⟨k, hk⟩
    obtain ⟨F, ctx, v, hp⟩ := (C79_accepts_partial env k).2 hk
    refine ⟨ctx, k, v, ?_⟩
    rw [← C38_fuel env fuel (max fuel F) (Nat.le_max_left _ _) h]
    exact hp _ (Nat.le_max_right _ _)

/-- one file -/
def fileOf (text : Text) : Env := ⟨fun p => if p = ['m'] then some text else none, fun _ => .ok 0, ['m']⟩

/-- **C79**: not every module of the language is accepted: in `export default {a:null,b:null}` the
second key is an identifier. -/
theorem C79_keys_violated :
    ∃ ts v, (fileOf "export default {a:null,b:null}".toList).read ['m'] = some ts ∧
      Module (fun _ _ => False) (fun _ => none) ts v ∧
      ∀ k, ¬ LoadsAs (fileOf "export default {a:null,b:null}".toList).read
        (fileOf "export default {a:null,b:null}".toList).resolve ['m'] k := by
  refine ⟨[.id "export".toList, .id "default".toList, .objectBegin, .id ['a'], .colon,
    .id "null".toList, .comma, .id ['b'], .colon, .id "null".toList, .objectEnd],
    .obj 0 (stored [(['a'], .null), (['b'], .null)]), by decide +kernel, ?_, ?_⟩
  · refine .exportDefault _ _ _ ?_
    refine Value.obj 0 [⟨.id ['a'], ['a'], [.id "null".toList], .null⟩,
      ⟨.id ['b'], ['b'], [.id "null".toList], .null⟩] false [(['a'], .null), (['b'], .null)]
      ?_ ?_ ?_ ?_
    · intro m hm
      simp only [List.mem_cons, List.not_mem_nil, or_false] at hm
      rcases hm with rfl | rfl <;> exact .inr rfl
    · intro m hm
      simp only [List.mem_cons, List.not_mem_nil, or_false] at hm
      rcases hm with rfl | rfl <;> exact .null
    · simp
    · refine ⟨by decide, ?_⟩
      intro k v
      constructor
      · intro h
        simp only [List.mem_cons, List.not_mem_nil, or_false] at h
        rcases h with h | h <;> cases h
        · exact ⟨[], [(['b'], .null)], rfl, by simp⟩
        · exact ⟨[(['a'], .null)], [], rfl, by simp⟩
      · rintro ⟨x, y, h, -⟩
        have : (k, v) ∈ x ++ (k, v) :: y := by simp
        rw [← h] at this
        exact this
  · intro k h
    have h1 := (C79_ends_partial (fileOf "export default {a:null,b:null}".toList) 1
      (fun h => by
        have : (parse (fileOf "export default {a:null,b:null}".toList) 1 Ctx.empty).isOk = true := by
          decide +kernel
        rw [h] at this; cases this)).2 ⟨k, h⟩
    obtain ⟨ctx, k, v, h2⟩ := h1
    have : (parse (fileOf "export default {a:null,b:null}".toList) 1 Ctx.empty).map
        (fun (x : Ctx × Outcome) => x.2.isOk) = .ok false := by decide +kernel
    rw [h2] at this
    cases this

/-- **C79**: nor is `module.exports=[require("b")]`, where the first element is a module. -/
theorem C79_require_violated :
    let env : Env := ⟨fun p => if p = ['m'] then some "module.exports=[require(\"b\")]".toList
      else if p = ['b'] then some "null".toList else none, fun _ => .ok 0, ['m']⟩
    (∃ k, LoadsAs env.read env.resolve (env.resolve ['b']) k) ∧
    (∃ ts, env.read ['m'] = some ts ∧
      Module (fun s v => s = ['b'] ∧ v = .null) (fun _ => none) ts (.arr 0 [.null])) ∧
      ∀ k, ¬ LoadsAs env.read env.resolve ['m'] k := by
  intro env
  refine ⟨⟨.json, ?_⟩, ⟨[.id "module".toList, .dot, .id "exports".toList, .equals, .arrayBegin,
    .id "require".toList, .openingParenthesis, .string ['b'], .closingParenthesis, .arrayEnd],
    by decide +kernel, ?_⟩, ?_⟩
  · have : env.resolve ['b'] = ['b'] := by decide +kernel
    rw [this]
    refine .mk _ [.id "null".toList] (fun _ => False) (fun _ => .json) _ (by decide +kernel)
      (.value _ _ _ _ ?_ (.literal _ _ _ (by decide))) (fun _ h => h.elim)
    intro t ht
    cases ht
    simp [BeginsLine]
  · exact .moduleExports _ _ _ (Value.arr 0 [([.id "require".toList, .openingParenthesis, .string ['b'],
      .closingParenthesis], .null)] false (fun x hx => by
        rw [List.mem_singleton] at hx; subst hx; exact .require _ _ ⟨rfl, rfl⟩) (by simp))
  · intro k h
    have h1 := (C79_ends_partial env 2 (fun h => by
        have : (parse env 2 Ctx.empty).isOk = true := by decide +kernel
        rw [h] at this; cases this)).2 ⟨k, h⟩
    obtain ⟨ctx, k, v, h2⟩ := h1
    have : (parse env 2 Ctx.empty).map (fun (x : Ctx × Outcome) => x.2.isOk) = .ok false := by
      decide +kernel
    rw [h2] at this
    cases this

/-- with the two written differently both are accepted: an identifier as the first key, a string as
the second, and `require` as the second element -/
example :
    (∃ k, LoadsAs (fileOf "export default {a:null,\"b\":null}".toList).read
      (fileOf "export default {a:null,\"b\":null}".toList).resolve ['m'] k) ∧
    (parse ⟨fun p => if p = ['m'] then some "module.exports=[1,require(\"b\")]".toList
      else if p = ['b'] then some "null".toList else none, fun _ => .ok 0, ['m']⟩ 2 Ctx.empty).map
        (fun (x : Ctx × Outcome) => x.2.isOk) = .ok true := by
  refine ⟨⟨.mjs, .mk _ [.id "export".toList, .id "default".toList, .objectBegin, .id ['a'], .colon,
    .id "null".toList, .comma, .string ['b'], .colon, .id "null".toList, .objectEnd]
    (fun _ => False) (fun _ => .json) _ (by decide +kernel) ?_ (fun _ h => h.elim)⟩, by decide +kernel⟩
  refine .exportDefault _ _ _ _ (by decide) (.object _ _ _ _ ?_)
  exact .member true .mjs (.id ['a']) [.id "null".toList] .mjs _ _ (.inr ⟨rfl, by decide, _, rfl⟩)
    (.literal _ _ _ (by decide))
    (.lastMember false .mjs (.string ['b']) [.id "null".toList] .mjs (.inl ⟨_, rfl⟩)
      (.literal _ _ _ (by decide)))

end Parser
end Nanvm
