import Verif.Lemmas.SerDjsRead
/-!
# Sharing: the blocks of what is read from the output of `toDjs`
-/
namespace Nanvm
namespace Ser
open Tok Grammar

variable {conv : BigFloat → Res Nat} {sh : Nat → Text}

theorem CopyBy.mono {R S : Word → Nat → Prop} (h : ∀ a i, R a i → S a i) {v w : Val}
    (hv : v.CopyBy R w) : v.CopyBy S w := by
  induction hv with
  | null => exact .null
  | bool b => exact .bool b
  | num b => exact .num b
  | str i j s => exact .str i j s
  | big i j b => exact .big i j b
  | arr i j l m hr hl _ ih => exact .arr i j l m (h _ _ hr) hl ih
  | obj i j l ks vs kvs hr h1 h2 _ h3 ih => exact .obj i j l ks vs kvs (h _ _ hr) h1 h2 ih h3

theorem CopyBy.readAs {R : Word → Nat → Prop} {v w : Val} (hv : v.CopyBy R w) : v.ReadAs w := by
  induction hv with
  | null => exact .null
  | bool b => exact .bool b
  | num b => exact .num b
  | str i j s => exact .str i j s
  | big i j b => exact .big i j b
  | arr i j l m hr hl _ ih => exact .arr i j l m hl ih
  | obj i j l ks vs kvs hr h1 h2 _ h3 ih => exact .obj i j l ks vs kvs h1 h2 ih h3

/-- the pairs as a relation -/
def rel (T : List (Word × Nat)) : Word → Nat → Prop := fun a i => (a, i) ∈ T

/-- what is known about the blocks made for a value: `T` are the literals and their numbers -/
structure Made (lits : List Word) (n m : Nat) (T : List (Word × Nat)) : Prop where
  words : T.map (·.1) = lits
  range : ∀ p ∈ T, n ≤ p.2 ∧ p.2 < m
  nodup : (T.map (·.2)).Nodup

theorem Made.nil (n m : Nat) : Made [] n m [] := ⟨rfl, by simp, by simp⟩

theorem Made.append {a b : List Word} {n k m : Nat} {S T : List (Word × Nat)} (hs : Made a n k S)
    (ht : Made b k m T) (h1 : n ≤ k) (h2 : k ≤ m) : Made (a ++ b) n m (S ++ T) := by
  refine ⟨by rw [List.map_append, hs.words, ht.words], fun p hp => ?_, ?_⟩
  · rcases List.mem_append.1 hp with hp | hp
    · have := hs.range p hp; omega
    · have := ht.range p hp; omega
  · rw [List.map_append]
    refine List.nodup_append.2 ⟨hs.nodup, ht.nodup, fun x hx y hy e => ?_⟩
    obtain ⟨p, hp, rfl⟩ := List.mem_map.1 hx
    obtain ⟨q, hq, rfl⟩ := List.mem_map.1 hy
    have := hs.range p hp
    have := ht.range q hq
    omega

theorem Made.cons {a : List Word} {n m : Nat} {T : List (Word × Nat)} (h : Made a n m T) (x : Word)
    (hn : n ≤ m) : Made (x :: a) n (m + 1) ((x, m) :: T) := by
  refine ⟨by rw [List.map_cons, h.words], fun p hp => ?_, ?_⟩
  · rcases List.mem_cons.1 hp with rfl | hp
    · simp; omega
    · have := h.range p hp; omega
  · rw [List.map_cons, List.nodup_cons]
    refine ⟨fun hm => ?_, h.nodup⟩
    obtain ⟨p, hp, e⟩ := List.mem_map.1 hm
    have := h.range p hp
    simp only at e
    omega

/-- the values of a list, made one after the other -/
theorem copy_list {T0 : List (Word × Nat)} {lit : Val → List Word}
    {M : Val → Nat → Val → Nat → Prop} : ∀ (l : List Val)
    (_ : ∀ x ∈ l, ∀ n w m, M x n w m → n ≤ m ∧ ∃ T, Made (lit x) n m T ∧
      x.CopyBy (rel (T0 ++ T)) w) (vs : List Val) (ns : Nat → Nat), l.length = vs.length →
    (∀ (i : Nat) x v, l[i]? = some x → vs[i]? = some v → M x (ns i) v (ns (i + 1))) →
    ns 0 ≤ ns l.length ∧ ∃ T, Made (l.flatMap lit) (ns 0) (ns l.length) T ∧
      ∀ p ∈ l.zip vs, p.1.CopyBy (rel (T0 ++ T)) p.2
  | [], _, vs, ns, _, _ => ⟨le_refl _, [], .nil _ _, by simp⟩
  | x :: l, ih, [], ns, hl, _ => by cases hl
  | x :: l, ih, v :: vs, ns, hl, h => by
    obtain ⟨h1, S, h2, h3⟩ := ih x (by simp) _ _ _ (h 0 x v rfl rfl)
    obtain ⟨h4, T, h5, h6⟩ := copy_list l (fun y hy => ih y (by simp [hy])) vs
      (fun i => ns (i + 1)) (by simpa using hl) (fun i y w hy hw => h (i + 1) y w hy hw)
    refine ⟨le_trans h1 h4, S ++ T, h2.append h5 h1 h4, fun p hp => ?_⟩
    rw [List.zip_cons_cons, List.mem_cons] at hp
    rcases hp with rfl | hp
    · refine CopyBy.mono (fun a i ha => ?_) h3
      simp only [rel, List.mem_append] at ha ⊢
      tauto
    · refine CopyBy.mono (fun a i ha => ?_) (h6 p hp)
      simp only [rel, List.mem_append] at ha ⊢
      tauto

theorem copy_src {name : Word → Option Nat} {c : Text → Option Val} (T0 : List (Word × Nat))
    (v : Val) (hr : Readable conv sh v)
    (hc : ∀ (x : Val) n, x.Sub v → name x.word = some n → ∀ w, c (constName n) = some w →
      x.CopyBy (rel T0) w) :
    ∀ n w m, (v.src name).Makes c n w m → n ≤ m ∧ ∃ T, Made (docOf sh name v).literals n m T ∧
      v.CopyBy (rel (T0 ++ T)) w := by
  have ref : ∀ (x : Val) k, x.Sub v → name x.word = some k → ∀ n w m,
      (Src.ref (constName k)).Makes c n w m → n ≤ m ∧ ∃ T, Made (Doc.ref k).literals n m T ∧
        x.CopyBy (rel (T0 ++ T)) w := by
    intro x k hx hk n w m h
    cases h with
    | ref _ _ _ h =>
      refine ⟨le_refl _, [], .nil _ _, ?_⟩
      rw [List.append_nil]
      exact hc x k hx hk w h
  induction v using Val.ind with
  | null =>
    intro n w m h; rw [Val.src] at h; cases h
    exact ⟨le_refl _, [], by rw [docOf]; exact .nil _ _; all_goals simp, .null⟩
  | bool b =>
    intro n w m h; rw [Val.src] at h; cases h
    exact ⟨le_refl _, [], by rw [docOf]; exact .nil _ _; all_goals simp, .bool b⟩
  | num b =>
    intro n w m h; rw [Val.src] at h; cases h
    exact ⟨le_refl _, [], by rw [docOf]; exact .nil _ _; all_goals simp, .num b⟩
  | str i s =>
    intro n w m h; rw [Val.src] at h; cases h
    refine ⟨by omega, [], by rw [docOf]; exact .nil _ _; all_goals simp, ?_⟩
    rw [jsText_str (hr.str i s .refl)]
    exact .str _ _ _
  | big i b => exact absurd .refl (hr.big i b)
  | arr i l ih =>
    intro n w m h
    rw [Val.src] at h
    rw [docOf]
    cases hn : name (.arr i) with
    | some k =>
      rw [hn] at h
      exact ref (.arr i l) k .refl hn n w m h
    | none =>
      rw [hn] at h
      cases h with
      | arr _ vs ns hlen hall =>
        rw [List.length_map] at hlen
        obtain ⟨h1, T, h2, h3⟩ := copy_list (T0 := T0) (lit := fun x => (docOf sh name x).literals)
          (M := fun x n w m => (x.src name).Makes c n w m) l
          (fun x hx => ih x hx (hr.item hx) (fun y k hy => hc y k (.arr _ _ _ hx hy))
            (fun y k hy => ref y k (.arr _ _ _ hx hy))) vs ns hlen
          (fun j x v hx hv => hall j (x.src name) v (by rw [List.getElem?_map, hx]; rfl) hv)
        rw [List.length_map]
        refine ⟨by omega, (.arr i, ns l.length) :: T, ?_, ?_⟩
        · rw [Doc.literals, literalsL_eq, docItems_eq, List.flatMap_map]
          exact h2.cons _ h1
        · refine .arr i _ l vs (by simp [rel]) hlen fun p hp => ?_
          refine CopyBy.mono (fun a i ha => ?_) (h3 p hp)
          simp only [rel, List.mem_append, List.mem_cons] at ha ⊢
          tauto
  | obj i l ih =>
    intro n w m h
    rw [Val.src] at h
    rw [docOf]
    cases hn : name (.obj i) with
    | some k =>
      rw [hn] at h
      exact ref (.obj i l) k .refl hn n w m h
    | none =>
      rw [hn] at h
      cases h with
      | obj _ vs kvs ns hlen hall hk =>
        rw [List.length_map] at hlen
        obtain ⟨h1, T, h2, h3⟩ := copy_list (T0 := T0) (lit := fun x => (docOf sh name x).literals)
          (M := fun x n w m => (x.src name).Makes c n w m) (l.map (·.2))
          (fun x hx => by
            obtain ⟨y, hy, rfl⟩ := List.mem_map.1 hx
            exact ih y hy (hr.member hy) (fun z k hz => hc z k (.obj _ _ _ hy hz))
              (fun z k hz => ref z k (.obj _ _ _ hy hz))) vs ns (by simpa using hlen)
          (fun j x v hx hv => by
            rw [List.getElem?_map, Option.map_eq_some_iff] at hx
            obtain ⟨y, hy, rfl⟩ := hx
            exact hall j (jsText y.1, y.2.src name) v (by rw [List.getElem?_map, hy]; rfl) hv)
        rw [List.length_map] at h1 h2 ⊢
        refine ⟨by omega, (.obj i, ns l.length) :: T, ?_, ?_⟩
        · rw [Doc.literals, literalsM_eq, docMembers_eq, List.flatMap_map]
          rw [List.flatMap_map] at h2
          exact h2.cons _ h1
        · refine .obj i _ l _ vs kvs (by simp [rel]) ?_ hlen (fun p hp => ?_) hk
          · rw [List.map_map, List.map_map]
            refine List.map_congr_left fun m hm => ?_
            exact (jsText_str (hr.key i l .refl m hm)).symm
          · refine CopyBy.mono (fun a i ha => ?_) (h3 (p.1.2, p.2) ?_)
            · simp only [rel, List.mem_append, List.mem_cons] at ha ⊢
              tauto
            · rw [List.zip_map_left]
              exact List.mem_map.2 ⟨p, hp, rfl⟩

/-- the constants are copies of the blocks -/
theorem builds_copy {v : Val} {cs : List Val} (hn : Names v cs) (hr : Readable conv sh v) :
    ∀ (pre rest : List Val), cs = pre ++ rest → ∀ (T0 : List (Word × Nat)) (c c' : Text → Option Val) n m,
    Builds c n (stmts pre rest) c' m →
    (∀ (j : Nat) x, pre[j]? = some x → ∀ w, c (constName j) = some w → x.CopyBy (rel T0) w) →
    n ≤ m ∧ ∃ T, Made ((docsFrom sh pre rest).flatMap Doc.literals) n m T ∧
    ∀ (j : Nat) x, cs[j]? = some x → ∀ w, c' (constName j) = some w → x.CopyBy (rel (T0 ++ T)) w
  | pre, [], e, T0, c, c', n, m, hd, h => by
    cases hd
    refine ⟨le_refl _, [], .nil _ _, ?_⟩
    rw [e, List.append_nil, List.append_nil]
    exact h
  | pre, a :: rest, e, T0, c, c', n, m, hd, h => by
    rw [stmts] at hd
    cases hd with
    | cons _ _ _ _ u k _ _ hu hd =>
      have hav : a.Sub v := shared_sub ((hn.shared a).1 (by rw [e]; simp))
      obtain ⟨h1, S, h2, h3⟩ := copy_src (conv := conv) (sh := sh) T0 a (hr.sub hav)
        (fun x n hx hnm w hw => by
          obtain ⟨y, hy1, hy2⟩ := nameIn_some hnm
          have hys := (hn.shared y).1 (by
            rw [e]; exact List.mem_append_left _ (List.mem_of_getElem? hy1))
          have := hn.cons y x (shared_sub hys) (hx.trans hav) hys.1 (compound_word hy2 hys.1) hy2
          subst this
          exact h n y hy1 w hw) n u k hu
      obtain ⟨h4, T, h5, h6⟩ := builds_copy hn hr (pre ++ [a]) rest (by rw [e]; simp) (T0 ++ S) _ c'
        k m hd (by
          intro j x hj w hw
          simp only [withConst] at hw
          split at hw
          · rename_i he
            have := constName_inj he
            subst this
            cases hw
            simp at hj
            subst hj
            exact h3
          · rename_i he
            refine CopyBy.mono (fun a i ha => ?_) (h j x ?_ w hw)
            · simp only [rel, List.mem_append] at ha ⊢; tauto
            · have hne : j ≠ pre.length := fun e => he (by rw [e])
              have hlt := (List.getElem?_eq_some_iff.1 hj).1
              rw [List.length_append, List.length_singleton] at hlt
              rwa [List.getElem?_append_left (by omega)] at hj)
      refine ⟨le_trans h1 h4, S ++ T, ?_, fun j x hj w hw => ?_⟩
      · rw [docsFrom, List.flatMap_cons]
        exact h2.append h5 h1 h4
      · rw [← List.append_assoc]
        exact h6 j x hj w hw

theorem rel_oneToOne {T : List (Word × Nat)} (h1 : (T.map (·.1)).Nodup) (h2 : (T.map (·.2)).Nodup) :
    OneToOne (rel T) := by
  constructor
  · intro a i j hi hj
    exact congrArg Prod.snd (List.inj_on_of_nodup_map h1 hi hj rfl)
  · intro a b i hi hj
    exact congrArg Prod.fst (List.inj_on_of_nodup_map h2 hi hj rfl)

/-- what is read is a copy of the graph -/
theorem djs_copied {v : Val} {cs : List Val} (hn : Names v cs) (hr : Readable conv sh v)
    (w : Val) (c : Text → Option Val) (n m k : Nat)
    (hd : Builds (fun _ => none) n (stmts [] cs) c m) (hi : (v.src (nameIn cs)).Makes c m w k) :
    ∃ R, OneToOne R ∧ v.CopyBy R w := by
  obtain ⟨h1, S, h2, h3⟩ := builds_copy (conv := conv) (sh := sh) hn hr [] cs rfl [] _ c n m hd
    (fun j x h => by simp at h)
  obtain ⟨h4, T, h5, h6⟩ := copy_src (conv := conv) (sh := sh) S v hr (fun x n hx hnm u hu => by
    obtain ⟨y, hy1, hy2⟩ := nameIn_some hnm
    have hys := (hn.shared y).1 (List.mem_of_getElem? hy1)
    have := hn.cons y x (shared_sub hys) hx hys.1 (compound_word hy2 hys.1) hy2
    subst this
    exact h3 n y hy1 u hu) m w k hi
  have hm := h2.append h5 h1 h4
  refine ⟨rel (S ++ T), rel_oneToOne ?_ hm.nodup, h6⟩
  rw [hm.words, ← docs_eq hn [] cs rfl]
  have := (literals_once (sh := sh) hn).1
  simpa using this

end Ser
end Nanvm
