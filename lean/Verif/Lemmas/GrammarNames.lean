import Verif.Lemmas.ParserRun
/-! # The names in a module are bound -/
namespace Nanvm
namespace Grammar
open Tok

theorem split_append {α : Type} {a b pre post : List α} {x : α} (h : a ++ b = pre ++ x :: post) :
    (∃ post', a = pre ++ x :: post' ∧ post = post' ++ b) ∨
    ∃ pre', pre = a ++ pre' ∧ b = pre' ++ x :: post := by
  rcases List.append_eq_append_iff.1 h with ⟨c, h1, h2⟩ | ⟨c, h1, h2⟩
  · exact .inr ⟨c, h1, h2⟩
  · cases c with
    | nil => exact .inr ⟨[], by simpa using h1.symm, by simpa using h2.symm⟩
    | cons y c =>
      rw [List.cons_append] at h2
      cases h2
      exact .inl ⟨c, h1, rfl⟩

theorem split_cons {α : Type} {y : α} {b pre post : List α} {x : α} (h : y :: b = pre ++ x :: post) :
    (pre = [] ∧ y = x ∧ b = post) ∨ ∃ pre', pre = y :: pre' ∧ b = pre' ++ x :: post := by
  cases pre with
  | nil => cases h; exact .inl ⟨rfl, rfl, rfl⟩
  | cons z pre => rw [List.cons_append] at h; cases h; exact .inr ⟨pre, rfl, rfl⟩

/-- an identifier in a value is a word, a key, or bound -/
def NamesIn (c : Text → Option Val) (ts : List Token) : Prop :=
  ∀ pre n post, ts = pre ++ .id n :: post →
    n ∈ reserved ∨ n = "require".toList ∨ post.head? = some .colon ∨ c n ≠ none

variable {c : Text → Option Val}

theorem NamesIn.append {a b : List Token} (ha : NamesIn c a) (hb : NamesIn c b) :
    NamesIn c (a ++ b) := by
  intro pre n post h
  rcases split_append h with ⟨post', h1, rfl⟩ | ⟨pre', -, h1⟩
  · rcases ha _ _ _ h1 with h | h | h | h
    · exact .inl h
    · exact .inr (.inl h)
    · refine .inr (.inr (.inl ?_))
      cases post' with
      | nil => cases h
      | cons => exact h
    · exact .inr (.inr (.inr h))
  · exact hb _ _ _ h1

theorem NamesIn.cons {t : Token} {b : List Token} (ht : ∀ n, t ≠ .id n) (hb : NamesIn c b) :
    NamesIn c (t :: b) := by
  intro pre n post h
  rcases split_cons h with ⟨-, h1, -⟩ | ⟨pre', -, h1⟩
  · exact absurd h1 (ht n)
  · exact hb _ _ _ h1

theorem NamesIn.nil : NamesIn c [] := by
  intro pre n post h
  simp at h

theorem NamesIn.commas {l : List (List Token)} (h : ∀ x ∈ l, NamesIn c x) :
    NamesIn c (commas l) := by
  induction l with
  | nil => exact .nil
  | cons x xs ih =>
    cases xs with
    | nil => exact h x (by simp)
    | cons y ys =>
      exact (h x (by simp)).append (.cons (by simp) (ih fun z hz => h z (List.mem_cons_of_mem _ hz)))

theorem NamesIn.trailing (b : Bool) : NamesIn c (trailing b) := by
  cases b with
  | false => exact .nil
  | true => exact .cons (by simp) .nil

theorem NamesIn.single {n : Text} (h : n ∈ reserved ∨ n = "require".toList ∨ c n ≠ none) :
    NamesIn c [.id n] := by
  intro pre m post hp
  rcases split_cons hp with ⟨-, h1, -⟩ | ⟨pre', -, h1⟩
  · cases h1
    tauto
  · simp at h1

theorem Value.names {M : Text → Val → Prop} {ts : List Token} {v : Val} (h : Value M c ts v) :
    NamesIn c ts := by
  induction h with
  | null => exact .single (.inl (by decide))
  | true => exact .single (.inl (by decide))
  | false => exact .single (.inl (by decide))
  | num b => exact .cons (by simp) .nil
  | str i s => exact .cons (by simp) .nil
  | big i b => exact .cons (by simp) .nil
  | ref n v h1 h2 => exact .single (.inr (.inr (by rw [h2]; simp)))
  | require s v hm =>
    exact NamesIn.append (a := [.id "require".toList]) (.single (.inr (.inl rfl)))
      (.cons (by simp) (.cons (by simp) (.cons (by simp) .nil)))
  | arr i items comma _ hc ih =>
    refine .append (.append (.cons (by simp) (.commas ?_)) (.trailing _)) (.cons (by simp) .nil)
    intro x hx
    obtain ⟨y, hy, rfl⟩ := List.mem_map.1 hx
    exact ih y hy
  | obj i ms comma l hk _ hc hl ih =>
    refine .append (.append (.cons (by simp) (.commas ?_)) (.trailing _)) (.cons (by simp) .nil)
    intro x hx
    obtain ⟨y, hy, rfl⟩ := List.mem_map.1 hx
    intro pre n post hp
    rcases split_cons hp with ⟨-, -, h1⟩ | ⟨pre', -, h1⟩
    · subst h1
      exact .inr (.inr (.inl rfl))
    · exact (NamesIn.cons (by simp) (ih y hy)) _ _ _ h1

/-- the words of the language -/
def words : List Text :=
  reserved ++ ["require".toList, "const".toList, "import".toList, "from".toList, "export".toList,
    "default".toList, "module".toList, "exports".toList]

/-- the name follows `const` or `import`, or did so before -/
def Named (pre : List Token) (n : Text) : Prop :=
  (pre.getLast? = some (.id "const".toList) ∨ pre.getLast? = some (.id "import".toList)) ∨
  [.id "const".toList, .id n] <:+: pre ∨ [.id "import".toList, .id n] <:+: pre

theorem Named.after {pre : List Token} {n : Text} (a : List Token) (h : Named pre n) :
    Named (a ++ pre) n := by
  rcases h with h | h | h
  · left
    cases pre with
    | nil => simp at h
    | cons x pre => simpa [List.getLast?_append] using h
  · exact .inr (.inl (h.trans (List.suffix_append _ _).isInfix))
  · exact .inr (.inr (h.trans (List.suffix_append _ _).isInfix))

/-- an identifier in a module is a word, a key, or bound before -/
def NamesMod (c : Text → Option Val) (ts : List Token) : Prop :=
  ∀ pre n post, ts = pre ++ .id n :: post →
    n ∈ words ∨ post.head? = some .colon ∨ c n ≠ none ∨ Named pre n

theorem NamesIn.mod {ts : List Token} (h : NamesIn c ts) : NamesMod c ts := by
  intro pre n post hp
  rcases h pre n post hp with h | h | h | h
  · exact .inl (by simp [words, h])
  · exact .inl (by simp [words, h])
  · exact .inr (.inl h)
  · exact .inr (.inr (.inl h))

theorem NamesMod.word {ts : List Token} (h : NamesMod c ts) {n : Text} (hn : n ∈ words) :
    NamesMod c (.id n :: ts) := by
  intro pre m post hp
  rcases split_cons hp with ⟨-, h1, -⟩ | ⟨pre', rfl, h1⟩
  · cases h1; exact .inl hn
  · rcases h _ _ _ h1 with h | h | h | h
    · exact .inl h
    · exact .inr (.inl h)
    · exact .inr (.inr (.inl h))
    · exact .inr (.inr (.inr (h.after [_])))

theorem NamesMod.tok {ts : List Token} (h : NamesMod c ts) {t : Token} (ht : ∀ n, t ≠ .id n) :
    NamesMod c (t :: ts) := by
  intro pre m post hp
  rcases split_cons hp with ⟨-, h1, -⟩ | ⟨pre', rfl, h1⟩
  · exact absurd h1 (ht _)
  · rcases h _ _ _ h1 with h | h | h | h
    · exact .inl h
    · exact .inr (.inl h)
    · exact .inr (.inr (.inl h))
    · exact .inr (.inr (.inr (h.after [_])))

theorem Module.names {M : Text → Val → Prop} {ts : List Token} {v : Val} (h : Module M c ts v) :
    NamesMod c (Parser.nl ts) := by
  induction h with
  | newLine c ts v _ ih => exact ih
  | const_ c n ts w rest v hv _ ih =>
    have e : Parser.nl (.id "const".toList :: .id n :: .equals :: ts ++ .newLine :: rest) =
        .id "const".toList :: .id n :: .equals :: (Parser.nl ts ++ Parser.nl rest) := by
      simp [Parser.nl]
    rw [e]
    intro pre m post hp
    rcases split_cons hp with ⟨-, h1, -⟩ | ⟨pre', rfl, h1⟩
    · cases h1; exact .inl (by decide)
    rcases split_cons h1 with ⟨rfl, h2, -⟩ | ⟨pre', rfl, h2⟩
    · exact .inr (.inr (.inr (.inl (.inl rfl))))
    rcases split_cons h2 with ⟨-, h3, -⟩ | ⟨pre', rfl, h3⟩
    · cases h3
    rcases split_append h3 with ⟨post', h4, rfl⟩ | ⟨pre'', rfl, h4⟩
    · rcases (Value.names hv).mod _ _ _ h4 with h | h | h | h
      · exact .inl h
      · refine .inr (.inl ?_)
        cases post' with
        | nil => cases h
        | cons => exact h
      · exact .inr (.inr (.inl h))
      · exact .inr (.inr (.inr (h.after [_, _, _])))
    · rcases ih _ _ _ h4 with h | h | h | h
      · exact .inl h
      · exact .inr (.inl h)
      · by_cases hm : m = n
        · subst hm
          exact .inr (.inr (.inr (.inr (.inl ⟨[], .equals :: (Parser.nl ts ++ pre''), rfl⟩))))
        · rw [withConst, if_neg hm] at h
          exact .inr (.inr (.inl h))
      · exact .inr (.inr (.inr ((h.after (Parser.nl ts)).after [_, _, _])))
  | import_ c n s w rest v hv _ ih =>
    have e : Parser.nl
        (.id "import".toList :: .id n :: .id "from".toList :: .string s :: .newLine :: rest) =
        .id "import".toList :: .id n :: .id "from".toList :: .string s :: Parser.nl rest := by
      simp [Parser.nl]
    rw [e]
    intro pre m post hp
    rcases split_cons hp with ⟨-, h1, -⟩ | ⟨pre', rfl, h1⟩
    · cases h1; exact .inl (by decide)
    rcases split_cons h1 with ⟨rfl, h2, -⟩ | ⟨pre', rfl, h2⟩
    · exact .inr (.inr (.inr (.inl (.inr rfl))))
    rcases split_cons h2 with ⟨-, h3, -⟩ | ⟨pre', rfl, h3⟩
    · cases h3; exact .inl (by decide)
    rcases split_cons h3 with ⟨-, h4, -⟩ | ⟨pre'', rfl, h4⟩
    · cases h4
    rcases ih _ _ _ h4 with h | h | h | h
    · exact .inl h
    · exact .inr (.inl h)
    · by_cases hm : m = n
      · subst hm
        exact .inr (.inr (.inr (.inr (.inr ⟨[], .id "from".toList :: .string s :: pre'', rfl⟩))))
      · rw [withConst, if_neg hm] at h
        exact .inr (.inr (.inl h))
    · exact .inr (.inr (.inr (h.after [_, _, _, _])))
  | exportDefault c ts v hv =>
    have e : Parser.nl (.id "export".toList :: .id "default".toList :: ts) =
        .id "export".toList :: .id "default".toList :: Parser.nl ts := by simp [Parser.nl]
    rw [e]
    exact .word (.word (Value.names hv).mod (by decide)) (by decide)
  | moduleExports c ts v hv =>
    have e : Parser.nl (.id "module".toList :: .dot :: .id "exports".toList :: .equals :: ts) =
        .id "module".toList :: .dot :: .id "exports".toList :: .equals :: Parser.nl ts := by
      simp [Parser.nl]
    rw [e]
    exact .word (.tok (.word (.tok (Value.names hv).mod (by simp)) (by decide)) (by simp))
      (by decide)
  | value c ts v hv => exact (Value.names hv).mod

end Grammar
end Nanvm
