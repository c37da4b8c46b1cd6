import Verif.Props.SerializerString
import Verif.Props.TokenizerRender
import Verif.Spec.Source
import Verif.Spec.Values
import Verif.Spec.Json
/-!
# Reading what the serializers write
-/
namespace Nanvm
namespace Ser
open Tok Grammar

variable {conv : BigFloat → Res Nat} {sh : Nat → Text}

/-! ## Lists of texts -/

theorem bind_eq_ok {α β : Type} {x : Res α} {f : α → Res β} {b : β} :
    x.bind f = .ok b ↔ ∃ a, x = .ok a ∧ f a = .ok b := by
  cases x with
  | error e => simp [Except.bind]
  | ok a => simp [Except.bind]

theorem refItems_ok {refs : HMap Nat} {l : List Val} {ts : List Text} :
    refItems sh refs l = .ok ts ↔
      List.Forall₂ (fun v t => writeWithConstRefs sh refs v = .ok t) l ts := by
  induction l generalizing ts with
  | nil =>
    rw [refItems]
    constructor
    · intro h; cases h; exact .nil
    · intro h; cases h; rfl
  | cons v l ih =>
    rw [refItems]
    constructor
    · intro h
      obtain ⟨a, h1, h⟩ := bind_eq_ok.1 h
      obtain ⟨b, h2, h⟩ := bind_eq_ok.1 h
      cases h
      exact .cons h1 (ih.1 h2)
    · intro h
      cases h with
      | cons h1 h2 => rw [h1, ih.2 h2]; rfl

/-- the text of a member -/
def MemberText (f : Val → Res Text) (m : JsStr × Val) (t : Text) : Prop :=
  ∃ a b, writeJsString m.1 = .ok a ∧ f m.2 = .ok b ∧ t = a ++ ':' :: b

theorem refMembers_ok {refs : HMap Nat} {l : List (JsStr × Val)} {ts : List Text} :
    refMembers sh refs l = .ok ts ↔
      List.Forall₂ (MemberText (writeWithConstRefs sh refs)) l ts := by
  induction l generalizing ts with
  | nil =>
    rw [refMembers]
    constructor
    · intro h; cases h; exact .nil
    · intro h; cases h; rfl
  | cons v l ih =>
    obtain ⟨k, v⟩ := v
    rw [refMembers]
    constructor
    · intro h
      obtain ⟨a, h1, h⟩ := bind_eq_ok.1 h
      obtain ⟨b, h2, h⟩ := bind_eq_ok.1 h
      obtain ⟨c, h3, h⟩ := bind_eq_ok.1 h
      cases h
      exact .cons ⟨a, b, h1, h2, rfl⟩ (ih.1 h3)
    · intro h
      cases h with
      | cons h1 h2 =>
        obtain ⟨a, b, h1, h3, rfl⟩ := h1
        simp only at h1 h3
        rw [h1, h3, ih.2 h2]; rfl

theorem jsonItems_ok {l : List Val} {ts : List Text} :
    jsonItems sh l = .ok ts ↔ List.Forall₂ (fun v t => writeJson sh v = .ok t) l ts := by
  induction l generalizing ts with
  | nil =>
    rw [jsonItems]
    constructor
    · intro h; cases h; exact .nil
    · intro h; cases h; rfl
  | cons v l ih =>
    rw [jsonItems]
    constructor
    · intro h
      obtain ⟨a, h1, h⟩ := bind_eq_ok.1 h
      obtain ⟨b, h2, h⟩ := bind_eq_ok.1 h
      cases h
      exact .cons h1 (ih.1 h2)
    · intro h
      cases h with
      | cons h1 h2 => rw [h1, ih.2 h2]; rfl

theorem jsonMembers_ok {l : List (JsStr × Val)} {ts : List Text} :
    jsonMembers sh l = .ok ts ↔ List.Forall₂ (MemberText (writeJson sh)) l ts := by
  induction l generalizing ts with
  | nil =>
    rw [jsonMembers]
    constructor
    · intro h; cases h; exact .nil
    · intro h; cases h; rfl
  | cons v l ih =>
    obtain ⟨k, v⟩ := v
    rw [jsonMembers]
    constructor
    · intro h
      obtain ⟨a, h1, h⟩ := bind_eq_ok.1 h
      obtain ⟨b, h2, h⟩ := bind_eq_ok.1 h
      obtain ⟨c, h3, h⟩ := bind_eq_ok.1 h
      cases h
      exact .cons ⟨a, b, h1, h2, rfl⟩ (ih.1 h3)
    · intro h
      cases h with
      | cons h1 h2 =>
        obtain ⟨a, b, h1, h3, rfl⟩ := h1
        simp only at h1 h3
        rw [h1, h3, ih.2 h2]; rfl

theorem loop_commaSep (ts : List Text) : writeListLoop [] ts = commaSep ts := by
  have key : ∀ t ts, writeListLoop [','] (t :: ts) = ',' :: commaSep (t :: ts) := by
    intro t ts
    induction ts generalizing t with
    | nil => simp [writeListLoop, commaSep]
    | cons t' ts ih => have := ih t'; simp [writeListLoop, commaSep] at *; exact this
  cases ts with
  | nil => rfl
  | cons t ts =>
    cases ts with
    | nil => simp [writeListLoop, commaSep]
    | cons t' ts => have := key t' ts; simp [writeListLoop, commaSep] at *; exact this

/-- without constants the two writers agree -/
theorem noRefs (v : Val) : writeWithConstRefs sh [] v = writeJson sh v := by
  induction v using Val.ind with
  | null | bool | num | str | big => rfl
  | arr i l ih =>
    rw [writeWithConstRefs, writeJson]
    simp only [HMap.get]
    have : refItems sh [] l = jsonItems sh l := by
      clear * - ih
      induction l with
      | nil => rfl
      | cons v l ih' =>
        rw [refItems, jsonItems, ih v (by simp), ih' fun x hx => ih x (by simp [hx])]
    rw [this]
  | obj i l ih =>
    rw [writeWithConstRefs, writeJson]
    simp only [HMap.get]
    have : refMembers sh [] l = jsonMembers sh l := by
      clear * - ih
      induction l with
      | nil => rfl
      | cons v l ih' =>
        obtain ⟨k, v⟩ := v
        rw [refMembers, jsonMembers, ih (k, v) (by simp), ih' fun x hx => ih x (by simp [hx])]
    rw [this]

/-! ## Tokens -/

/-- the tokens of the text `t` are `ts`, before everything that may follow a number -/
def Reads (conv : BigFloat → Res Nat) (t : Text) (ts : List Token) : Prop :=
  ∀ rest, NumEnd rest →
    finish conv .initial (t ++ rest) = (finish conv .initial rest).bind fun q => .ok (ts ++ q)

theorem Reads.append {a b : Text} {s t : List Token} (ha : Reads conv a s) (hb : Reads conv b t)
    (h : ∀ rest, NumEnd rest → NumEnd (b ++ rest)) : Reads conv (a ++ b) (s ++ t) := by
  intro rest hr
  rw [List.append_assoc, ha _ (h rest hr), hb rest hr]
  cases finish conv .initial rest <;> simp [Except.bind]

/-- an operator and its token -/
def opTokens : List (Char × Token) :=
  [('{', .objectBegin), ('}', .objectEnd), ('[', .arrayBegin), (']', .arrayEnd), (':', .colon),
    (',', .comma), ('=', .equals), (';', .semicolon), ('.', .dot)]

theorem finish_op {c : Char} {t : Token} (h : (c, t) ∈ opTokens) (rest : Text) :
    finish conv .initial (c :: rest) =
      (finish conv .initial rest).bind fun q => .ok (t :: q) := by
  have h1 : step conv .initial c = .ok ([], .parseOperator [c]) ∧ operatorUnwrap [c] = .ok t ∧
      (∀ d, operatorToToken ([c] ++ [d]) = none) ∧ endTokens conv (.parseOperator [c]) = .ok [t] := by
    simp only [opTokens, List.mem_cons, List.not_mem_nil, or_false, Prod.mk.injEq] at h
    rcases h with ⟨rfl, rfl⟩ | ⟨rfl, rfl⟩ | ⟨rfl, rfl⟩ | ⟨rfl, rfl⟩ | ⟨rfl, rfl⟩ | ⟨rfl, rfl⟩ |
      ⟨rfl, rfl⟩ | ⟨rfl, rfl⟩ | ⟨rfl, rfl⟩
    all_goals exact ⟨rfl, rfl, fun _ => rfl, rfl⟩
  obtain ⟨h1, h2, h3, h4⟩ := h1
  rw [finish_cons h1]
  have : finish conv (.parseOperator [c]) rest =
      (finish conv .initial rest).bind fun q => .ok (t :: q) := by
    cases rest with
    | nil =>
      rw [finish_nil, finish_nil, h4]
      rfl
    | cons d rest =>
      have hs : step conv (.parseOperator [c]) d = .ok (andInitial [t] d) := by
        simp only [step, h3, h2]
        simp [bind, Except.bind, pure, Except.pure]
      rw [finish_andInitial hs, tokenize_eq]
  rw [this]
  cases finish conv .initial rest <;> rfl

theorem reads_op {c : Char} {t : Token} (h : (c, t) ∈ opTokens) : Reads conv [c] [t] :=
  fun rest _ => finish_op h rest

theorem numEnd_punct {c : Char} (h : isPunct c = true) (r : Text) : NumEnd (c :: r) := by
  intro d s e
  cases e
  simp [isTerminal, h]

theorem terminal_id {c : Char} (h : isTerminal c = true) : isIdChar c = false := by
  simp only [isTerminal, isWhite, isBlank, isPunct, Bool.or_eq_true, decide_eq_true_eq] at h
  rcases h with (((((h | h) | h) | h) | (((((((((h | h) | h) | h) | h) | h) | h) | h) | h) | h)) | h) | h
  all_goals subst h; decide

/-- an identifier, before any character that does not belong to it -/
theorem finish_id {c : Char} {cs : Text} (hc : isIdStart c = true)
    (hcs : ∀ x ∈ cs, isIdChar x = true) (rest : Text)
    (hr : ∀ d r, rest = d :: r → isIdChar d = false) :
    finish conv .initial (c :: cs ++ rest) =
      (finish conv .initial rest).bind fun q => .ok (.id (c :: cs) :: q) := by
  have h1 : run conv .initial (c :: cs) = .ok ([], .parseId (c :: cs)) := by
    rw [run_cons_ok (step_idStart hc), run_id_chars cs hcs]; rfl
  rw [finish_append h1]
  have : finish conv (.parseId (c :: cs)) rest =
      (finish conv .initial rest).bind fun q => .ok (.id (c :: cs) :: q) := by
    cases rest with
    | nil => rw [finish_nil, finish_nil]; rfl
    | cons d rest =>
      have hs : step conv (.parseId (c :: cs)) d = .ok (andInitial [.id (c :: cs)] d) := by
        simp [step, hr d rest rfl]
      rw [finish_andInitial hs, tokenize_eq]
  rw [this]
  cases finish conv .initial rest <;> rfl

theorem reads_id {c : Char} {cs : Text} (hc : isIdStart c = true)
    (hcs : ∀ x ∈ cs, isIdChar x = true) : Reads conv (c :: cs) [.id (c :: cs)] := fun rest hr =>
  finish_id hc hcs rest fun d r e => terminal_id (hr d r e)

theorem digit_id {c : Char} (h : c.isDigit = true) : isDigit c = true := by
  simp only [Char.isDigit, Bool.and_eq_true, decide_eq_true_eq] at h
  simp only [isDigit, Bool.and_eq_true, decide_eq_true_eq]
  exact ⟨h.1, h.2⟩

theorem decimal_digits (n : Nat) : AllDigits (decimal n) := fun c hc =>
  digit_id (Nat.isDigit_of_mem_toDigits (by decide) (by decide) hc)

theorem decimal_inj {m n : Nat} (h : decimal m = decimal n) : m = n := by
  have := congrArg (fun l => Nat.ofDigitChars 10 l 0) h
  simpa [decimal, Nat.ofDigitChars_ten_toDigits] using this

theorem constName_inj {m n : Nat} (h : constName m = constName n) : m = n :=
  decimal_inj (List.cons.inj h).2

theorem digits_idChars {ds : Text} (h : AllDigits ds) : ∀ x ∈ ds, isIdChar x = true := fun c hc => by
  simp [isIdChar, h c hc]

theorem reads_name (n : Nat) : Reads conv (constName n) [.id (constName n)] :=
  reads_id (by decide) (digits_idChars (decimal_digits n))

/-- the number `b` is written as a literal that is read as `b` -/
def NumReads (conv : BigFloat → Res Nat) (t : Text) (b : Nat) : Prop :=
  ∃ l : NumLit, l.Valid ∧ l.text.length < 2 ^ 62 ∧ (∀ e, l.exp = some e → decVal e.digits < 2 ^ 62) ∧
    t = l.text ∧ LitValue conv l b

theorem NumReads.reads {t : Text} {b : Nat} (h : NumReads conv t b) : Reads conv t [.number b] := by
  obtain ⟨l, h1, h2, h3, rfl, h5⟩ := h
  intro rest hr
  have := C37_complete l b rest h1 hr h2 h3 h5
  rwa [tokenize_eq, tokenize_eq] at this

/-- a string that is read back (`C50_read_back_partial`) -/
def StrOk (s : JsStr) : Prop := Units s ∧ ∀ u ∈ s, ¬ SurrogateUnit u

theorem StrOk.reads {s : JsStr} (h : StrOk s) :
    ∃ t c, writeJsString s = .ok t ∧ toJsString c = s ∧ Reads conv t [.string c] := by
  obtain ⟨t, c, h1, -, h3, h4⟩ := C50_read_back_partial (conv := conv) s h.1 h.2
  refine ⟨t, c, h1, h3, fun rest _ => ?_⟩
  rw [finish_append h4]

/-! ## Values -/

/-- the text of a JS string -/
def jsText (s : JsStr) : Text := (decodeUtf16 s).getD []

/-- the value as it is written, with names for some of the blocks -/
def _root_.Nanvm.Val.src (name : Word → Option Nat) : Val → Src
  | .null => .null
  | .bool b => .bool b
  | .num b => .num b
  | .str _ s => .str (jsText s)
  | .big _ b => .big b
  | .arr i l =>
    match name (.arr i) with
    | some n => .ref (constName n)
    | none => .arr (l.map fun x => x.src name)
  | .obj i l =>
    match name (.obj i) with
    | some n => .ref (constName n)
    | none => .obj (l.map fun m => (jsText m.1, m.2.src name))
termination_by v => sizeOf v
decreasing_by
  · have := List.sizeOf_lt_of_mem ‹_›; simp; omega
  · have := Val.sizeOf_member ‹_›; simp; omega

/-- what can be read back: no bigints, strings without surrogates, numbers whose text is read as
the same number -/
structure Readable (conv : BigFloat → Res Nat) (sh : Nat → Text) (v : Val) : Prop where
  big : ∀ i b, ¬ (Val.big i b).Sub v
  str : ∀ i s, (Val.str i s).Sub v → StrOk s
  key : ∀ i l, (Val.obj i l).Sub v → ∀ m ∈ l, StrOk m.1
  num : ∀ b, (Val.num b).Sub v → NumReads conv (sh b) b

theorem Readable.item {i : Nat} {l : List Val} (h : Readable conv sh (.arr i l)) {x : Val}
    (hx : x ∈ l) : Readable conv sh x :=
  ⟨fun j b hs => h.big j b (.arr _ _ _ hx hs), fun j s hs => h.str j s (.arr _ _ _ hx hs),
    fun j m hs => h.key j m (.arr _ _ _ hx hs), fun b hs => h.num b (.arr _ _ _ hx hs)⟩

theorem Readable.member {i : Nat} {l : List (JsStr × Val)} (h : Readable conv sh (.obj i l))
    {x : JsStr × Val} (hx : x ∈ l) : Readable conv sh x.2 :=
  ⟨fun j b hs => h.big j b (.obj _ _ _ hx hs), fun j s hs => h.str j s (.obj _ _ _ hx hs),
    fun j m hs => h.key j m (.obj _ _ _ hx hs), fun b hs => h.num b (.obj _ _ _ hx hs)⟩

theorem Readable.sub {v x : Val} (h : Readable conv sh v) (hx : x.Sub v) : Readable conv sh x := by
  induction hx with
  | refl => exact h
  | arr i l y hy _ ih => exact ih (h.item hy)
  | obj i l m hm _ ih => exact ih (h.member hm)

theorem jsText_eq {s : JsStr} {c : Text} (h : toJsString c = s) : jsText s = c := by
  rw [jsText, ← h, C58_lossless]; rfl

/-- items separated by commas -/
theorem reads_loop {texts : List Text} {toks : List (List Token)}
    (h : List.Forall₂ (Reads conv) texts toks) {close : Char} {tc : Token}
    (hc : (close, tc) ∈ opTokens) (hp : isPunct close = true) :
    Reads conv (writeListLoop [] texts ++ [close]) (commas toks ++ [tc]) ∧
    (texts ≠ [] → Reads conv (writeListLoop [','] texts ++ [close])
      (.comma :: commas toks ++ [tc])) := by
  induction h with
  | nil => exact ⟨reads_op hc, fun h => absurd rfl h⟩
  | @cons t s ts ss h1 h2 ih =>
    have hcom : ((',' : Char), Token.comma) ∈ opTokens := by simp [opTokens]
    have key : Reads conv (writeListLoop [] (t :: ts) ++ [close]) (commas (s :: ss) ++ [tc]) := by
      cases h2 with
      | nil =>
        have := h1.append (reads_op hc) fun rest _ => numEnd_punct hp rest
        simpa [writeListLoop, commas] using this
      | @cons t' s' ts ss h3 h4 =>
        have h5 := h1.append (ih.2 (by simp)) fun rest _ => by
          simp only [writeListLoop, List.cons_append, List.nil_append]
          exact numEnd_punct (by decide) _
        simpa [writeListLoop, commas] using h5
    refine ⟨key, fun _ rest hr => ?_⟩
    have := key rest hr
    have e : writeListLoop [','] (t :: ts) ++ [close] ++ rest =
        ',' :: (writeListLoop [] (t :: ts) ++ [close] ++ rest) := by simp [writeListLoop]
    rw [e, finish_op hcom, this]
    cases finish conv .initial rest <;> simp [Except.bind]

theorem reads_list {texts : List Text} {toks : List (List Token)}
    (h : List.Forall₂ (Reads conv) texts toks) {open_ close : Char} {tk tc : Token}
    (ho : (open_, tk) ∈ opTokens)
    (hc : (close, tc) ∈ opTokens) (hp : isPunct close = true) :
    Reads conv (writeList open_ close texts) (tk :: commas toks ++ [tc]) := by
  intro rest hr
  have := (reads_loop h hc hp).1 rest hr
  rw [writeList, List.cons_append, finish_op ho, this]
  cases finish conv .initial rest <;> simp [Except.bind]

theorem bool_reads (b : Bool) : Reads conv (boolText b) [.id (boolText b)] := by
  cases b
  · exact reads_id (c := 'f') (cs := "alse".toList) (by decide) (by decide)
  · exact reads_id (c := 't') (cs := "rue".toList) (by decide) (by decide)

/-- the writer with references succeeds, and what it writes is read as the tokens of the value -/
theorem write_reads (refs : HMap Nat) (v : Val) (h : Readable conv sh v) :
    ∃ t, writeWithConstRefs sh refs v = .ok t ∧ Reads conv t (v.src refs.get).tokens := by
  induction v using Val.ind with
  | null =>
    refine ⟨_, rfl, ?_⟩
    rw [Val.src, Src.tokens]
    exact reads_id (c := 'n') (cs := "ull".toList) (by decide) (by decide)
  | bool b =>
    refine ⟨_, rfl, ?_⟩
    rw [Val.src, Src.tokens]
    exact bool_reads b
  | num b =>
    refine ⟨_, rfl, ?_⟩
    rw [Val.src, Src.tokens]
    exact (h.num b .refl).reads
  | str i s =>
    obtain ⟨t, c, h1, h2, h3⟩ := (h.str i s .refl).reads (conv := conv)
    refine ⟨t, h1, ?_⟩
    rw [Val.src, Src.tokens, jsText_eq h2]
    exact h3
  | big i b => exact absurd .refl (h.big i b)
  | arr i l ih =>
    rw [writeWithConstRefs, Val.src]
    cases hn : refs.get (.arr i) with
    | some n =>
      refine ⟨_, rfl, ?_⟩
      simp only
      rw [Src.tokens]
      exact reads_name n
    | none =>
      have key : ∃ ts, refItems sh refs l = .ok ts ∧
          List.Forall₂ (Reads conv) ts (l.map fun x => (x.src refs.get).tokens) := by
        replace ih : ∀ x ∈ l, ∃ t, writeWithConstRefs sh refs x = .ok t ∧
          Reads conv t (x.src refs.get).tokens := fun x hx => ih x hx (h.item hx)
        clear h hn
        induction l with
        | nil => exact ⟨[], rfl, .nil⟩
        | cons x l ih' =>
          obtain ⟨t, h1, h2⟩ := ih x (by simp)
          obtain ⟨ts, h3, h4⟩ := ih' fun y hy => ih y (by simp [hy])
          exact ⟨t :: ts, by rw [refItems, h1, h3]; rfl, .cons h2 h4⟩
      obtain ⟨ts, h1, h2⟩ := key
      refine ⟨writeList '[' ']' ts, by simp only; rw [h1]; rfl, ?_⟩
      simp only
      rw [Src.tokens, List.map_map]
      exact reads_list h2 (by simp [opTokens]) (by simp [opTokens]) (by decide)
  | obj i l ih =>
    rw [writeWithConstRefs, Val.src]
    cases hn : refs.get (.obj i) with
    | some n =>
      refine ⟨_, rfl, ?_⟩
      simp only
      rw [Src.tokens]
      exact reads_name n
    | none =>
      have key : ∃ ts, refMembers sh refs l = .ok ts ∧
          List.Forall₂ (Reads conv) ts (l.map fun m =>
            Token.string (jsText m.1) :: .colon :: (m.2.src refs.get).tokens) := by
        replace ih : ∀ x ∈ l, ∃ t, writeWithConstRefs sh refs x.2 = .ok t ∧
          Reads conv t (x.2.src refs.get).tokens := fun x hx => ih x hx (h.member hx)
        have hk := h.key i l .refl
        clear h hn
        induction l with
        | nil => exact ⟨[], rfl, .nil⟩
        | cons x l ih' =>
          obtain ⟨k, x⟩ := x
          obtain ⟨t, h1, h2⟩ := ih (k, x) (by simp)
          obtain ⟨ts, h3, h4⟩ := ih' (fun y hy => ih y (by simp [hy])) fun y hy => hk y (by simp [hy])
          obtain ⟨a, c, h5, h6, h7⟩ := (hk (k, x) (by simp)).reads (conv := conv)
          simp only at h1 h2 h5 h6
          refine ⟨(a ++ ':' :: t) :: ts, by rw [refMembers, h5, h1, h3]; rfl, .cons ?_ h4⟩
          simp only
          rw [jsText_eq h6]
          have hcol : ((':' : Char), Token.colon) ∈ opTokens := by simp [opTokens]
          refine h7.append (t := .colon :: (x.src refs.get).tokens) (fun rest hr => ?_)
            (fun rest _ => numEnd_punct (by decide) _)
          rw [List.cons_append, finish_op hcol, h2 rest hr]
          cases finish conv .initial rest <;> simp [Except.bind]
      obtain ⟨ts, h1, h2⟩ := key
      refine ⟨writeList '{' '}' ts, by simp only; rw [h1]; rfl, ?_⟩
      simp only
      rw [Src.tokens, List.map_map]
      exact reads_list h2 (by simp [opTokens]) (by simp [opTokens]) (by decide)

end Ser
end Nanvm
