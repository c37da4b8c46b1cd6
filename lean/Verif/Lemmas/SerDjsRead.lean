import Verif.Lemmas.SerDjs
import Verif.Lemmas.SerSame
import Verif.Lemmas.ParserProgram
/-!
# Reading what `toDjs` writes
-/
namespace Nanvm
namespace Ser
open Tok Grammar

variable {conv : BigFloat → Res Nat} {sh : Nat → Text}

/-! ## The statements -/

/-- the statements for the constants `cs`, after those for `pre` -/
def stmts : List Val → List Val → List Stmt
  | _, [] => []
  | pre, c :: cs => ⟨constName pre.length, c.src (nameIn pre)⟩ :: stmts (pre ++ [c]) cs

/-- the documents of the constants `cs`, after those of `pre` -/
def docsFrom (sh : Nat → Text) : List Val → List Val → List Doc
  | _, [] => []
  | pre, c :: cs => docOf sh (nameIn pre) c :: docsFrom sh (pre ++ [c]) cs

theorem body_take {v : Val} {cs : List Val} (h : Names v cs) {i : Nat} {c : Val}
    (hi : cs[i]? = some c) :
    bodyOf sh (nameIn cs) c = docOf sh (nameIn (cs.take i)) c := by
  have hcs := (h.shared c).1 (List.mem_of_getElem? hi)
  have hcv := shared_sub hcs
  have hno : nameIn (cs.take i) c.word = none := by
    rw [nameIn_none]
    intro y hy e
    have hys := (h.shared y).1 (List.mem_of_mem_take hy)
    have := h.cons y c (shared_sub hys) hcv hys.1 hcs.1 e
    subst this
    have hi' := (List.getElem?_eq_some_iff.1 hi)
    obtain ⟨hlt, he⟩ := hi'
    rw [List.mem_iff_getElem] at hy
    obtain ⟨j, hj, hy⟩ := hy
    rw [List.getElem_take] at hy
    rw [List.length_take] at hj
    have := (List.Nodup.getElem_inj_iff h.nodup).1 (hy.trans he.symm)
    omega
  rw [docOf_eq _ hcs.1, hno]
  refine bodyOf_congr c fun k hk y hy hyc => ?_
  have hyv : y.Sub v := hy.trans ((Val.kid_sub hk).trans hcv)
  by_cases hys : v.Shared y
  · have hin := h.closed i c hi y ⟨k, hk, hy⟩ hys
    cases hn : nameIn (cs.take i) y.word with
    | none => exact absurd rfl (nameIn_none.1 hn y hin)
    | some n =>
      have := nameIn_append (b := cs.drop i) hn
      rwa [List.take_append_drop] at this
  · have hno : ∀ c ∈ cs, c.word ≠ y.word := fun c hc e => by
      have hcs := (h.shared c).1 hc
      rw [h.cons c y (shared_sub hcs) hyv hcs.1 hyc e] at hcs
      exact hys hcs
    rw [nameIn_none.2 hno, nameIn_none.2 fun c hc => hno c (List.mem_of_mem_take hc)]

theorem docs_eq {v : Val} {cs : List Val} (h : Names v cs) : ∀ pre rest, cs = pre ++ rest →
    rest.map (bodyOf sh (nameIn cs)) = docsFrom sh pre rest
  | _, [], _ => rfl
  | pre, c :: rest, e => by
    rw [List.map_cons, docsFrom, docs_eq h (pre ++ [c]) rest (by rw [e]; simp),
      body_take h (i := pre.length) (by rw [e]; simp)]
    rw [e, List.take_left']
    rfl

/-! ## Tokens -/

/-- the tokens of the statements as they are written -/
def constToks : List Stmt → List Token
  | [] => []
  | s :: ss => s.head ++ (s.value.tokens ++ .semicolon :: constToks ss)

theorem docOf_reads (cs : List Val) (v : Val) (h : Readable conv sh v) :
    Reads conv (docOf sh (nameIn cs) v).text (v.src (nameIn cs)).tokens := by
  obtain ⟨t0, h0, -⟩ := write_reads (conv := conv) (sh := sh) [] v h
  rw [noRefs] at h0
  obtain ⟨t, h1, h2⟩ := write_reads (conv := conv) (sh := sh) cs.zipIdx v h
  rw [write_doc _ _ ⟨t0, h0⟩] at h1
  have e := Except.ok.inj h1
  have e2 : HMap.get cs.zipIdx = nameIn cs := rfl
  rw [e2] at h2 e
  rwa [e]

theorem finish_blank (rest : Text) :
    finish conv .initial (' ' :: rest) = finish conv .initial rest := by
  rw [finish_cons (ts := []) (st' := .initial) rfl]
  cases finish conv .initial rest <;> rfl

theorem reads_const (n : Nat) (d : Doc) (ts : List Token) (h : Reads conv d.text ts) (rest : Text) :
    finish conv .initial ("const _".toList ++ Nat.toDigits 10 n ++ '=' :: d.text ++ ';' :: rest) =
      (finish conv .initial rest).bind fun q =>
        .ok (.id "const".toList :: .id (constName n) :: .equals :: (ts ++ .semicolon :: q)) := by
  have e : "const _".toList ++ Nat.toDigits 10 n ++ '=' :: d.text ++ ';' :: rest =
      'c' :: "onst".toList ++ ' ' :: ('_' :: decimal n ++ '=' :: (d.text ++ ';' :: rest)) := by
    simp [decimal]
  have heq : (('=' : Char), Token.equals) ∈ opTokens := by simp [opTokens]
  have hsemi : ((';' : Char), Token.semicolon) ∈ opTokens := by simp [opTokens]
  rw [e, finish_id (by decide) (by decide) _ (fun d r e => by cases e; decide), finish_blank,
    finish_id (c := '_') (by decide) (digits_idChars (decimal_digits n)) _
      (fun d r e => by cases e; decide),
    finish_op heq, h _ (numEnd_punct (by decide) _), finish_op hsemi]
  cases finish conv .initial rest with
  | error e => rfl
  | ok q => rfl

theorem reads_consts {v : Val} (h : Readable conv sh v) (tail : Text) : ∀ pre cs : List Val,
    (∀ c ∈ cs, c.Sub v) →
    finish conv .initial (constsText pre.length (docsFrom sh pre cs) ++ tail) =
      (finish conv .initial tail).bind fun q => .ok (constToks (stmts pre cs) ++ q)
  | _, [], _ => by
    rw [docsFrom, stmts, constToks]
    change finish conv .initial tail = _
    cases finish conv .initial tail <;> rfl
  | pre, c :: cs, hs => by
    have hc := docOf_reads (conv := conv) (sh := sh) pre c (h.sub (hs c (by simp)))
    have ih := reads_consts h tail (pre ++ [c]) cs fun c hc => hs c (by simp [hc])
    rw [docsFrom, stmts, constToks]
    have e : constsText pre.length (docOf sh (nameIn pre) c :: docsFrom sh (pre ++ [c]) cs) ++ tail =
        "const _".toList ++ Nat.toDigits 10 pre.length ++ '=' :: (docOf sh (nameIn pre) c).text ++
          ';' :: (constsText (pre ++ [c]).length (docsFrom sh (pre ++ [c]) cs) ++ tail) := by
      have cons : ∀ n d l, constsText n (d :: l) =
        "const _".toList ++ Nat.toDigits 10 n ++ '=' :: d.text ++ ';' :: constsText (n + 1) l :=
        fun _ _ _ => rfl
      rw [cons]
      generalize "const _".toList = w
      rw [List.length_append, List.length_singleton]
      simp only [List.append_assoc, List.cons_append]
    rw [e, reads_const _ _ _ hc, ih]
    cases finish conv .initial tail with
    | error e => rfl
    | ok q => simp [Except.bind, Stmt.head]

/-- the last line that is written -/
def finalOf (commonJs : Bool) : Final := if commonJs then .moduleExports else .exportDefault

theorem reads_final (commonJs : Bool) (rest : Text) :
    finish conv .initial (exportText commonJs ++ rest) =
      (finish conv .initial rest).bind fun q => .ok ((finalOf commonJs).tokens ++ q) := by
  have heq : (('=' : Char), Token.equals) ∈ opTokens := by simp [opTokens]
  have hdot : (('.' : Char), Token.dot) ∈ opTokens := by simp [opTokens]
  cases commonJs with
  | true =>
    have e : exportText true ++ rest =
        'm' :: "odule".toList ++ '.' :: ('e' :: "xports".toList ++ '=' :: rest) := rfl
    rw [e, finish_id (by decide) (by decide) _ (fun d r e => by cases e; decide), finish_op hdot,
      finish_id (by decide) (by decide) _ (fun d r e => by cases e; decide), finish_op heq]
    cases finish conv .initial rest <;> rfl
  | false =>
    have e : exportText false ++ rest =
        'e' :: "xport".toList ++ ' ' :: ('d' :: "efault".toList ++ ' ' :: rest) := rfl
    rw [e, finish_id (by decide) (by decide) _ (fun d r e => by cases e; decide), finish_blank,
      finish_id (by decide) (by decide) _ (fun d r e => by cases e; decide), finish_blank]
    cases finish conv .initial rest <;> rfl

/-- the tokens of the output -/
theorem djs_tokens {v : Val} (hv : v.Consistent) (h : Readable conv sh v)
    (pick : HMap Seen → HMap Nat → Nat) (fuel : Nat) (hf : (track [] v).length < fuel)
    (commonJs : Bool) : ∃ cs t, Names v cs ∧ toDjs sh pick fuel v commonJs = .ok t ∧
      tokenize conv t = .ok (constToks (stmts [] cs) ++
        ((finalOf commonJs).tokens ++ (v.src (nameIn cs)).tokens)) := by
  obtain ⟨t0, h0, -⟩ := write_reads (conv := conv) (sh := sh) [] v h
  rw [noRefs] at h0
  obtain ⟨cs, h1, h2, h3, h4⟩ := djs_text hv ⟨t0, h0⟩ pick fuel hf commonJs
  have hn : Names v cs := ⟨hv, h2, h3, h4⟩
  refine ⟨cs, _, hn, h1, ?_⟩
  rw [docs_eq hn [] cs rfl, tokenize_eq]
  have := reads_consts (conv := conv) (sh := sh) h
    (exportText commonJs ++ (docOf sh (nameIn cs) v).text) [] cs
    fun c hc => shared_sub ((h3 c).1 hc)
  rw [List.length_nil] at this
  rw [this, reads_final]
  have hr := docOf_reads (conv := conv) (sh := sh) cs v h [] (fun c r h => by cases h)
  rw [List.append_nil, finish_nil] at hr
  rw [hr]
  simp [endTokens, Except.bind]

/-! ## Semicolons -/

theorem value_no_semicolon {M : Text → Val → Prop} {c : Text → Option Val} {ts : List Token}
    {v : Val} (h : Value M c ts v) : .semicolon ∉ ts := by
  induction h with
  | arr i items comma _ _ ih =>
    intro h
    simp only [List.mem_append, List.mem_cons, List.not_mem_nil, or_false, reduceCtorEq,
      false_or] at h
    rcases h with h | h
    · rcases Parser.mem_commas h with h | ⟨y, hy, h⟩
      · cases h
      · obtain ⟨x, hx, rfl⟩ := List.mem_map.1 hy
        exact ih x hx h
    · cases comma <;> simp [trailing] at h
  | obj i members comma l hk _ _ _ ih =>
    intro h
    simp only [List.mem_append, List.mem_cons, List.not_mem_nil, or_false, reduceCtorEq,
      false_or] at h
    rcases h with h | h
    · rcases Parser.mem_commas h with h | ⟨y, hy, h⟩
      · cases h
      · obtain ⟨x, hx, rfl⟩ := List.mem_map.1 hy
        simp only [List.mem_cons, reduceCtorEq, false_or] at h
        rcases h with h | h
        · rcases hk x hx with e | e <;> rw [e] at h <;> cases h
        · exact ih x hx h
    · cases comma <;> simp [trailing] at h
  | _ => simp

theorem valueNl_no_semicolon {M : Text → Val → Prop} {c : Text → Option Val} {ts : List Token}
    {v : Val} (h : ValueNl M c ts v) : .semicolon ∉ ts := fun hs =>
  value_no_semicolon h (by simp [hs])

theorem module_no_semicolon {M : Text → Val → Prop} {c : Text → Option Val} {ts : List Token}
    {v : Val} (h : Module M c ts v) : .semicolon ∉ ts := by
  induction h with
  | newLine c ts v _ ih => simpa using ih
  | const_ c n ts w rest v h _ ih =>
    have := valueNl_no_semicolon h
    simp only [List.mem_cons, reduceCtorEq, false_or] at ih
    simp [this, ih]
  | import_ c n s w rest v _ _ ih => simpa using ih
  | exportDefault c ts v h => simpa using valueNl_no_semicolon h
  | moduleExports c ts v h => simpa using valueNl_no_semicolon h
  | value c ts v h => exact valueNl_no_semicolon h

/-! ## Line breaks for semicolons -/

/-- a line break for a semicolon -/
def lineBreak : Token → Token
  | .semicolon => .newLine
  | t => t

theorem lineBreak_id {ts : List Token} (h : .semicolon ∉ ts) : ts.map lineBreak = ts := by
  induction ts with
  | nil => rfl
  | cons t ts ih =>
    simp only [List.mem_cons, not_or] at h
    rw [List.map_cons, ih h.2]
    congr 1
    cases t <;> first | rfl | exact absurd rfl h.1

theorem written (f : Final) (x : Src) : ∀ ss : List Stmt,
    Written f x ss ((constToks ss ++ (f.tokens ++ x.tokens)).map lineBreak)
  | [] => by
    rw [constToks, List.nil_append, List.map_append, lineBreak_id (Parser.no_semicolon x),
      lineBreak_id (by cases f <;> simp [Final.tokens])]
    exact .final _ (no_newLine x)
  | s :: ss => by
    have ih := written f x ss
    have e : (constToks (s :: ss) ++ (f.tokens ++ x.tokens)).map lineBreak =
        s.head ++ s.value.tokens ++
          .newLine :: (constToks ss ++ (f.tokens ++ x.tokens)).map lineBreak := by
      rw [constToks]
      simp only [List.map_append, List.map_cons, List.append_assoc, List.cons_append]
      rw [lineBreak_id (Parser.no_semicolon s.value),
        lineBreak_id (ts := s.head) (by simp [Stmt.head])]
      rfl
    rw [e]
    exact .const_ s ss _ _ (no_newLine _) ih

theorem src_uses {name : Word → Option Nat} (v : Val) (n : Text) (h : (v.src name).Uses n) :
    ∃ w j, name w = some j ∧ n = constName j := by
  induction v using Val.ind with
  | null | bool | num | str | big => rw [Val.src] at h; cases h
  | arr i l ih =>
    rw [Val.src] at h
    cases hn : name (.arr i) with
    | some m => rw [hn] at h; cases h; exact ⟨_, m, hn, rfl⟩
    | none =>
      rw [hn] at h
      cases h with
      | arr _ x _ hx h =>
        obtain ⟨y, hy, rfl⟩ := List.mem_map.1 hx
        exact ih y hy h
  | obj i l ih =>
    rw [Val.src] at h
    cases hn : name (.obj i) with
    | some m => rw [hn] at h; cases h; exact ⟨_, m, hn, rfl⟩
    | none =>
      rw [hn] at h
      cases h with
      | obj _ x _ hx h =>
        obtain ⟨y, hy, rfl⟩ := List.mem_map.1 hx
        exact ih y hy h

theorem uses_nameIn {cs : List Val} {v : Val} {n : Text} (h : (v.src (nameIn cs)).Uses n) :
    ∃ j, j < cs.length ∧ n = constName j := by
  obtain ⟨w, j, h1, h2⟩ := src_uses v n h
  obtain ⟨c, h3, -⟩ := nameIn_some h1
  exact ⟨j, (List.getElem?_eq_some_iff.1 h3).1, h2⟩

theorem constName_free (n : Nat) : constName n ∉ keywords := by
  intro h
  have key : ∀ k ∈ keywords, k.head? ≠ some '_' := by decide
  exact key _ h rfl

theorem stmts_uses : ∀ (pre cs : List Val) (s : Stmt), s ∈ stmts pre cs → ∀ n, s.value.Uses n →
    n ∉ keywords
  | _, [], s, h => by cases h
  | pre, c :: cs, s, h => by
    rw [stmts, List.mem_cons] at h
    rcases h with rfl | h
    · intro n hn
      obtain ⟨j, -, rfl⟩ := uses_nameIn hn
      exact constName_free j
    · exact stmts_uses _ _ s h

theorem stmts_scoped (v : Val) : ∀ (pre cs : List Val) (bound : List Text),
    (∀ j < pre.length, constName j ∈ bound) →
    Scoped (v.src (nameIn (pre ++ cs))) bound (stmts pre cs)
  | pre, [], bound, h => fun n hn => by
    rw [List.append_nil] at hn
    obtain ⟨j, hj, rfl⟩ := uses_nameIn hn
    exact h j hj
  | pre, c :: cs, bound, h => by
    refine ⟨fun n hn => ?_, ?_⟩
    · obtain ⟨j, hj, rfl⟩ := uses_nameIn hn
      exact h j hj
    · have := stmts_scoped v (pre ++ [c]) cs (constName pre.length :: bound) fun j hj => by
        rw [List.length_append, List.length_singleton] at hj
        rcases Nat.lt_or_ge j pre.length with h1 | h1
        · exact List.mem_cons_of_mem _ (h j h1)
        · rw [show j = pre.length by omega]; simp
      rwa [List.append_assoc] at this

theorem compound_word {x y : Val} (h : x.word = y.word) (hx : x.Compound) : y.Compound := by
  cases x <;> cases y <;> first | trivial | (cases hx; done) | (simp [Val.word] at h)

/-- the constants have the values of the blocks -/
theorem defines_reads {v : Val} {cs : List Val} (hn : Names v cs) (hr : Readable conv sh v) :
    ∀ (pre rest : List Val), cs = pre ++ rest →
    ∀ (c c' : Text → Option Val), Defines c (stmts pre rest) c' →
    (∀ (j : Nat) x, pre[j]? = some x → ∀ w, c (constName j) = some w → x.ReadAs w) →
    ∀ (j : Nat) x, cs[j]? = some x → ∀ w, c' (constName j) = some w → x.ReadAs w
  | pre, [], e, c, c', hd, h => by
    cases hd
    rw [e, List.append_nil]
    exact h
  | pre, a :: rest, e, c, c', hd, h => by
    rw [stmts] at hd
    cases hd with
    | cons _ _ _ u _ hu hd =>
      refine defines_reads hn hr (pre ++ [a]) rest (by rw [e]; simp) _ c' hd ?_
      have hav : a.Sub v := shared_sub ((hn.shared a).1 (by rw [e]; simp))
      have hsame : a.ReadAs u := by
        refine is_reads (conv := conv) (sh := sh) a (hr.sub hav) (fun x n hx hnm w hw => ?_) u hu
        obtain ⟨y, hy1, hy2⟩ := nameIn_some hnm
        have hys := (hn.shared y).1 (by rw [e]; exact List.mem_append_left _ (List.mem_of_getElem? hy1))
        have := hn.cons y x (shared_sub hys) (hx.trans hav) hys.1 (compound_word hy2 hys.1) hy2
        subst this
        exact h n y hy1 w hw
      intro j x hj w hw
      simp only [withConst] at hw
      split at hw
      · rename_i he
        have := constName_inj he
        subst this
        cases hw
        simp at hj
        subst hj
        exact hsame
      · rename_i he
        refine h j x ?_ w hw
        have hne : j ≠ pre.length := fun e => he (by rw [e])
        have hlt := (List.getElem?_eq_some_iff.1 hj).1
        rw [List.length_append, List.length_singleton] at hlt
        rwa [List.getElem?_append_left (by omega)] at hj

/-- with line breaks for the semicolons the tokens are parsed as what is read from the value -/
theorem djs_parsed {v : Val} {cs : List Val} (hn : Names v cs) (hr : Readable conv sh v)
    (w : Val) (c : Text → Option Val)
    (hd : Defines (fun _ => none) (stmts [] cs) c) (hi : (v.src (nameIn cs)).Is c w) :
    v.ReadAs w := by
  refine is_reads (conv := conv) (sh := sh) v hr (fun x n hx hnm u hu => ?_) w hi
  obtain ⟨y, hy1, hy2⟩ := nameIn_some hnm
  have hys := (hn.shared y).1 (List.mem_of_getElem? hy1)
  have := hn.cons y x (shared_sub hys) hx hys.1 (compound_word hy2 hys.1) hy2
  subst this
  exact defines_reads (conv := conv) (sh := sh) hn hr [] cs rfl _ c hd (fun j x h => by simp at h)
    n y hy1 u hu

end Ser
end Nanvm
