import Verif.Lemmas.TokRun
import Verif.Lemmas.BigFloat
import Verif.Spec.NumLit
/-!
# Number states of the tokenizer and the text they have read
-/
namespace Nanvm
namespace Tok
open NumLit

variable {conv : BigFloat → Res Nat}

theorem bind_ok' {α β : Type} {x : Res α} {f : α → Res β} {b : β} (h : x.bind f = .ok b) :
    ∃ a, x = .ok a ∧ f a = .ok b := by
  cases x with
  | error e => cases h
  | ok a => exact ⟨a, rfl, h⟩

theorem decVal_snoc (ds : List Char) (c : Char) : decVal (ds ++ [c]) = 10 * decVal ds + digitNum c := by
  simp [decVal, digitNum]

theorem decVal_nil : decVal [] = 0 := rfl

theorem addDigit_ok {b : JsBig} {m : Nat} (h : Is b m) {c : Char} (hc : isDigit c = true) :
    ∃ b', addDigit b c = .ok b' ∧ Is b' (10 * m + digitNum c) := by
  have hd : digitNum c < 2 ^ 64 := by have := digit_le hc; unfold digitNum; omega
  have h10 : Is (JsBig.fromU64 .pos 10) 10 := is_fromU64 10 (by norm_num)
  obtain ⟨p, hp, hv, hcan⟩ := C02_mul_exact b _ h.1 h10.1
  have hdig := is_fromU64 (digitNum c) hd
  obtain ⟨e1, e2⟩ := C01_add_exact p _ hcan hdig.1
  refine ⟨_, ?_, e2, ?_⟩
  · simp only [addDigit, hp, fromDigit_eq hc, bind, Except.bind, pure, Except.pure]
  · rw [e1, hv, h.2, h10.2, hdig.2]; push_cast; ring

def sg (neg : Bool) : Sign := if neg then .neg else .pos

theorem is_zero (s : Sign) : Is (JsBig.fromU64 s 0) 0 := by
  cases s <;> exact ⟨by decide, by decide⟩

/-- the number state `st` was reached by reading exactly `p` -/
inductive NumAt : State → Text → Prop
  | minus : NumAt .parseMinus ['-']
  | zero (neg : Bool) : NumAt (.parseZero (sg neg)) (signText neg ++ ['0'])
  | int (neg : Bool) (c : Char) (cs : Text) (b : JsBig) (hc : isDigit19 c = true)
      (hcs : AllDigits cs) (hb : Is b (decVal (c :: cs))) :
      NumAt (.parseInt ⟨b, sg neg⟩) (signText neg ++ c :: cs)
  | fracBegin (neg : Bool) (ds : Text) (b : JsBig) (hd : IntPart ds) (hb : Is b (decVal ds)) :
      NumAt (.parseFracBegin ⟨b, sg neg⟩) (signText neg ++ (ds ++ ['.']))
  | frac (neg : Bool) (ds fs : Text) (b : JsBig) (hd : IntPart ds) (hne : fs ≠ [])
      (hf : AllDigits fs) (hb : Is b (decVal (ds ++ fs))) :
      NumAt (.parseFrac ⟨b, sg neg, -(fs.length : Int)⟩) (signText neg ++ (ds ++ '.' :: fs))
  | expBegin (l : NumLit) (m : Char) (b : JsBig) (hl : l.Lax) (he : l.exp = some ⟨m, none, []⟩)
      (hb : Is b l.mant) :
      NumAt (.parseExpBegin ⟨b, sg l.neg, -((l.frac.getD []).length : Int), .pos, 0⟩) l.text
  | expSign (l : NumLit) (m c : Char) (b : JsBig) (hl : l.Lax)
      (he : l.exp = some ⟨m, some c, []⟩) (hb : Is b l.mant) :
      NumAt (.parseExpSign ⟨b, sg l.neg, -((l.frac.getD []).length : Int), sg (c = '-'), 0⟩) l.text
  | exp (l : NumLit) (e : ExpPart) (b : JsBig) (hl : l.Lax) (he : l.exp = some e)
      (hne : e.digits ≠ []) (hb : Is b l.mant) :
      NumAt (.parseExp ⟨b, sg l.neg, -((l.frac.getD []).length : Int), sg (e.sign = some '-'),
        decVal e.digits⟩) l.text
  | bigInt (neg : Bool) (ds : Text) (b : JsBig) (hd : IntPart ds) (hb : b.Canon)
      (hv : b.toInt = signed (sg neg) (decVal ds)) : NumAt (.parseBigInt b) (bigText neg ds)

/-- `v` is what the literal becomes: a plain zero is `+0`, other literals are converted -/
def LitValue (conv : BigFloat → Res Nat) (l : NumLit) (v : Nat) : Prop :=
  if l.int = ['0'] ∧ l.frac = none ∧ l.exp = none then v = 0
  else ∃ b, Is b l.mant ∧ conv ⟨b, sg l.neg, l.expo, false⟩ = .ok v

/-- `tok` is the token of a number with the text `p` whose literal satisfies `P` -/
def NumToken (conv : BigFloat → Res Nat) (P : NumLit → Prop) (p : Text) (tok : Token) : Prop :=
  (∃ l v, P l ∧ p = l.text ∧ tok = .number v ∧ LitValue conv l v) ∨
  (∃ neg ds b, IntPart ds ∧ p = bigText neg ds ∧ tok = .bigInt b ∧ JsBig.Canon b ∧
    b.toInt = signed (sg neg) (decVal ds))

theorem intPart_of_digits {c : Char} {cs : Text} (h : isDigit19 c = true) (hcs : AllDigits cs) :
    IntPart (c :: cs) := Or.inr ⟨c, cs, rfl, h, hcs⟩

theorem allDigits_snoc {ds : Text} {c : Char} (h : AllDigits ds) (hc : isDigit c = true) :
    AllDigits (ds ++ [c]) := by
  intro x hx
  rcases List.mem_append.1 hx with hx | hx
  · exact h x hx
  · rw [List.mem_singleton.1 hx]; exact hc

theorem floatAddDigit_ok {b : JsBig} {m : Nat} {s : Sign} {fe : Int} {c : Char} {f : FloatState}
    (h : FloatState.addDigit ⟨b, s, fe⟩ c = .ok f) (hb : Is b m) (hc : isDigit c = true) :
    ∃ b', f = ⟨b', s, fe - 1⟩ ∧ Is b' (10 * m + digitNum c) := by
  obtain ⟨b', h1, h2⟩ := addDigit_ok hb hc
  unfold FloatState.addDigit at h
  obtain ⟨x, hx, h⟩ := bind_ok' h
  obtain ⟨y, hy, h⟩ := bind_ok' h
  rw [h1] at hx
  cases hx
  unfold i64 at hy
  split at hy
  · cases hy; cases h; exact ⟨_, rfl, h2⟩
  · cases hy

theorem i64_ok {x y : Int} (h : i64 x = .ok y) : y = x := by
  unfold i64 at h; split at h <;> cases h; rfl

theorem expAddDigit_ok {x y : ExpState} {c : Char} (h : x.addDigit c = .ok y)
    (hc : isDigit c = true) : y = { x with e := x.e * 10 + digitNum c } := by
  unfold ExpState.addDigit at h
  rw [digitToNumber_eq hc] at h
  obtain ⟨_, h1, h⟩ := bind_ok' h
  cases h1
  obtain ⟨a, h1, h⟩ := bind_ok' h
  obtain ⟨b, h2, h⟩ := bind_ok' h
  cases h
  rw [i64_ok h2, i64_ok h1]

theorem expToken_ok {l : NumLit} {e : ExpPart} {b : JsBig} {tok : Token} {P : NumLit → Prop} (hl : P l)
    (he : l.exp = some e) (hb : Is b l.mant)
    (h : expToken conv ⟨b, sg l.neg, -((l.frac.getD []).length : Int), sg (e.sign = some '-'),
      decVal e.digits⟩ = .ok tok) : NumToken conv P l.text tok := by
  have key : ∃ x v, x = l.expo ∧ conv ⟨b, sg l.neg, x, false⟩ = .ok v ∧ tok = .number v := by
    unfold expToken at h
    by_cases hs : e.sign = some '-'
    · simp only [hs, sg, decide_true, if_true] at h
      obtain ⟨r, h1, h⟩ := bind_ok' h
      obtain ⟨x, h2, h⟩ := bind_ok' h
      obtain ⟨v, h3, h⟩ := bind_ok' h
      cases h
      refine ⟨x, v, ?_, h3, rfl⟩
      rw [i64_ok h2, i64_ok h1, NumLit.expo, he]
      simp only [ExpPart.value, hs, if_true]
      omega
    · simp only [hs, sg, decide_false, Bool.false_eq_true, if_false] at h
      obtain ⟨r, h1, h⟩ := bind_ok' h
      obtain ⟨x, h2, h⟩ := bind_ok' h
      obtain ⟨v, h3, h⟩ := bind_ok' h
      cases h
      cases h1
      refine ⟨x, v, ?_, h3, rfl⟩
      rw [i64_ok h2, NumLit.expo, he]
      simp only [ExpPart.value, hs, if_false]
      omega
  obtain ⟨x, v, rfl, h3, rfl⟩ := key
  exact Or.inl ⟨l, v, hl, rfl, rfl, by rw [LitValue, if_neg (by simp [he])]; exact ⟨b, hb, h3⟩⟩

theorem NumToken.mono {P Q : NumLit → Prop} {p : Text} {tok : Token} (h : NumToken conv P p tok)
    (hpq : ∀ l, P l → Q l) : NumToken conv Q p tok := by
  rcases h with ⟨l, v, hl, h⟩ | h
  · exact Or.inl ⟨l, v, hpq l hl, h⟩
  · exact Or.inr h

theorem zeroToken_ok (neg : Bool) : NumToken conv Valid (signText neg ++ ['0']) (.number 0) := by
  refine Or.inl ⟨⟨neg, ['0'], none, none⟩, 0, ?_, ?_, rfl, ?_⟩
  · exact ⟨⟨Or.inl rfl, (by intro _ h; cases h), (by intro _ h; cases h)⟩, (by intro _ h; cases h)⟩
  · simp [NumLit.text, fracText, expText]
  · rw [LitValue, if_pos ⟨rfl, rfl, rfl⟩]

theorem intToken_ok {neg : Bool} {d : Char} {ds : Text} {b : JsBig} {tok : Token}
    (hd : isDigit19 d = true) (hds : AllDigits ds) (hb : Is b (decVal (d :: ds)))
    (h1 : intToken conv ⟨b, sg neg⟩ = .ok tok) :
    NumToken conv Valid (signText neg ++ d :: ds) tok := by
  unfold intToken at h1
  obtain ⟨v, h2, h1⟩ := bind_ok' h1
  cases h1
  refine Or.inl ⟨⟨neg, d :: ds, none, none⟩, v, ?_, ?_, rfl, ?_⟩
  · exact ⟨⟨intPart_of_digits hd hds, (by intro _ h; cases h), (by intro _ h; cases h)⟩,
      (by intro _ h; cases h)⟩
  · simp [NumLit.text, fracText, expText]
  · rw [LitValue, if_neg (by rintro ⟨h, -, -⟩; cases h; exact absurd hd (by decide))]
    exact ⟨b, by simpa [NumLit.mant] using hb, h2⟩

theorem fracToken_ok {neg : Bool} {ds fs : Text} {b : JsBig} {tok : Token}
    (hd : IntPart ds) (hne : fs ≠ []) (hf : AllDigits fs) (hb : Is b (decVal (ds ++ fs)))
    (h1 : floatToken conv ⟨b, sg neg, -(fs.length : Int)⟩ = .ok tok) :
    NumToken conv Valid (signText neg ++ (ds ++ '.' :: fs)) tok := by
  unfold floatToken at h1
  obtain ⟨v, h2, h1⟩ := bind_ok' h1
  cases h1
  refine Or.inl ⟨⟨neg, ds, some fs, none⟩, v, ?_, ?_, rfl, ?_⟩
  · exact ⟨⟨hd, (by intro _ h; cases h; exact ⟨hne, hf⟩), (by intro _ h; cases h)⟩,
      (by intro _ h; cases h)⟩
  · simp [NumLit.text, fracText, expText]
  · rw [LitValue, if_neg (by simp)]
    exact ⟨b, by simpa [NumLit.mant] using hb, by simpa [NumLit.expo] using h2⟩

/-- the end of the text in a number state -/
theorem num_end {st : State} {p : Text} {ts : List Token} (h : NumAt st p)
    (hs : endTokens conv st = .ok ts) :
    ts = [.error .invalidNumber] ∨ ∃ tok, NumToken conv Valid p tok ∧ ts = [tok] := by
  cases h with
  | minus => cases hs; exact Or.inl rfl
  | zero neg => cases hs; exact Or.inr ⟨_, zeroToken_ok neg, rfl⟩
  | int neg d ds b hd hds hb =>
    obtain ⟨tok, h1, hs⟩ := bind_ok' hs
    cases hs
    exact Or.inr ⟨tok, intToken_ok hd hds hb h1, rfl⟩
  | fracBegin neg ds b hd hb => cases hs; exact Or.inl rfl
  | frac neg ds fs b hd hne hf hb =>
    obtain ⟨tok, h1, hs⟩ := bind_ok' hs
    cases hs
    exact Or.inr ⟨tok, fracToken_ok hd hne hf hb h1, rfl⟩
  | expBegin l m b hl he hb => cases hs; exact Or.inl rfl
  | expSign l m c0 b hl he hb => cases hs; exact Or.inl rfl
  | exp l e b hl he hne hb =>
    obtain ⟨tok, h1, hs⟩ := bind_ok' hs
    cases hs
    exact Or.inr ⟨tok, expToken_ok (P := Valid)
      ⟨hl, fun e' he' => by rw [he] at he'; cases he'; exact hne⟩ he hb h1, rfl⟩
  | bigInt neg ds b hd hb hv =>
    cases hs
    exact Or.inr ⟨_, Or.inr ⟨neg, ds, b, hd, rfl, rfl, hb, hv⟩, rfl⟩

/-- one more character in a number state -/
theorem num_step {st st' : State} {p : Text} {c : Char} {ts : List Token} (h : NumAt st p)
    (hs : step conv st c = .ok (ts, st')) :
    (ts = [] ∧ NumAt st' (p ++ [c])) ∨ (ts, st') = badNumber c ∨
    (isTerminal c = true ∧ ∃ tok, NumToken conv Lax p tok ∧ (ts, st') = andInitial [tok] c) := by
  cases h with
  | minus =>
    simp only [step, Except.ok.injEq] at hs
    split at hs
    · rename_i hc; subst hc; cases hs
      exact Or.inl ⟨rfl, .zero true⟩
    split at hs
    · rename_i hc; cases hs
      left
      refine ⟨rfl, .int true c [] _ hc (by intro _ h; cases h) ?_⟩
      have hd := digit_le (digit19_digit hc)
      have := is_fromU64 (digitNum c) (by unfold digitNum; omega)
      simpa [decVal, digitNum] using this
    · exact Or.inr (Or.inl hs.symm)
  | zero neg =>
    simp only [step, Except.ok.injEq] at hs
    have hI : IntPart ['0'] := Or.inl rfl
    split at hs
    · rename_i hc; subst hc; cases hs
      left
      refine ⟨rfl, ?_⟩
      have := NumAt.fracBegin neg ['0'] (JsBig.fromU64 .pos 0) hI (is_zero _)
      simpa using this
    split at hs
    · rename_i hc; cases hs
      left
      refine ⟨rfl, ?_⟩
      have := NumAt.expBegin ⟨neg, ['0'], none, some ⟨c, none, []⟩⟩ c (JsBig.fromU64 (sg neg) 0)
        ⟨hI, (by intro _ h; cases h), (by
          intro e he; cases he
          exact ⟨hc, (by intro _ h; cases h), (by intro _ h; cases h)⟩)⟩ rfl (is_zero _)
      simpa [NumLit.text, fracText, expText, ExpPart.text] using this
    split at hs
    · rename_i hc; subst hc; cases hs
      left
      refine ⟨rfl, ?_⟩
      have := NumAt.bigInt neg ['0'] (JsBig.fromU64 (sg neg) 0) hI (is_zero _).1
        (by rw [(is_zero _).2]; cases neg <;> rfl)
      simpa [bigText] using this
    split at hs
    · rename_i hc
      exact Or.inr (Or.inr ⟨hc, .number 0, (zeroToken_ok neg).mono fun _ h => h.1, hs.symm⟩)
    · exact Or.inr (Or.inl hs.symm)
  | int neg d ds b hd hds hb =>
    have hI : IntPart (d :: ds) := intPart_of_digits hd hds
    simp only [step] at hs
    split at hs
    · rename_i hc
      obtain ⟨b', h1, h2⟩ := addDigit_ok hb hc
      simp only [h1, bind, Except.bind, pure, Except.pure] at hs
      cases hs
      left
      refine ⟨rfl, ?_⟩
      rw [← decVal_snoc] at h2
      have := NumAt.int neg d (ds ++ [c]) b' hd (allDigits_snoc hds hc) h2
      simpa using this
    split at hs
    · rename_i hc; subst hc; cases hs
      left
      exact ⟨rfl, by simpa using NumAt.fracBegin neg (d :: ds) b hI hb⟩
    split at hs
    · rename_i hc; cases hs
      left
      refine ⟨rfl, ?_⟩
      have := NumAt.expBegin ⟨neg, d :: ds, none, some ⟨c, none, []⟩⟩ c b
        ⟨hI, (by intro _ h; cases h), (by
          intro e he; cases he
          exact ⟨hc, (by intro _ h; cases h), (by intro _ h; cases h)⟩)⟩ rfl
          (by simpa [NumLit.mant] using hb)
      simpa [NumLit.text, fracText, expText, ExpPart.text, IntState.intoExp, FloatState.intoExp] using this
    split at hs
    · rename_i hc; subst hc; cases hs
      left
      refine ⟨rfl, ?_⟩
      have hneg := C01_negative_exact b hb.1
      have := NumAt.bigInt neg (d :: ds) (IntState.intoBigint ⟨b, sg neg⟩) hI
        (by cases neg; exacts [hb.1, hneg.2])
        (by cases neg
            · exact hb.2
            · show (JsBig.negative b).toInt = _
              rw [hneg.1, hb.2]; rfl)
      simpa [bigText] using this
    split at hs
    · rename_i hc
      obtain ⟨tok, h1, hs⟩ := bind_ok' hs
      exact Or.inr (Or.inr ⟨hc, tok, (intToken_ok hd hds hb h1).mono fun _ h => h.1,
        (Except.ok.inj hs).symm⟩)
    · exact Or.inr (Or.inl (Except.ok.inj hs).symm)
  | fracBegin neg ds b hd hb =>
    simp only [step] at hs
    split at hs
    · rename_i hc
      obtain ⟨f, h1, hs⟩ := bind_ok' hs
      cases hs
      obtain ⟨b', rfl, h2⟩ := floatAddDigit_ok h1 hb hc
      left
      refine ⟨rfl, ?_⟩
      rw [← decVal_snoc] at h2
      have := NumAt.frac neg ds [c] b' hd (by simp) (by simpa [AllDigits] using hc) h2
      simpa using this
    · exact Or.inr (Or.inl (Except.ok.inj hs).symm)
  | frac neg ds fs b hd hne hf hb =>
    simp only [step] at hs
    split at hs
    · rename_i hc
      obtain ⟨f, h1, hs⟩ := bind_ok' hs
      cases hs
      obtain ⟨b', rfl, h2⟩ := floatAddDigit_ok h1 hb hc
      left
      refine ⟨rfl, ?_⟩
      rw [← decVal_snoc, List.append_assoc] at h2
      have := NumAt.frac neg ds (fs ++ [c]) b' hd (by simp) (allDigits_snoc hf hc) h2
      have e : -(fs.length : Int) - 1 = -((fs ++ [c]).length : Int) := by simp; omega
      rw [e]
      simpa using this
    split at hs
    · rename_i hc; cases hs
      left
      refine ⟨rfl, ?_⟩
      have := NumAt.expBegin ⟨neg, ds, some fs, some ⟨c, none, []⟩⟩ c b
        ⟨hd, (by intro _ h; cases h; exact ⟨hne, hf⟩), (by
          intro e he; cases he
          exact ⟨hc, (by intro _ h; cases h), (by intro _ h; cases h)⟩)⟩ rfl
          (by simpa [NumLit.mant] using hb)
      simpa [NumLit.text, fracText, expText, ExpPart.text, IntState.intoExp, FloatState.intoExp] using this
    split at hs
    · rename_i hc
      obtain ⟨tok, h1, hs⟩ := bind_ok' hs
      exact Or.inr (Or.inr ⟨hc, tok, (fracToken_ok hd hne hf hb h1).mono fun _ h => h.1,
        (Except.ok.inj hs).symm⟩)
    · exact Or.inr (Or.inl (Except.ok.inj hs).symm)
  | expBegin l m b hl he hb =>
    obtain ⟨neg, ds, fr, ex⟩ := l
    simp only at he; subst he
    have hm := (hl.exp _ rfl).marker
    simp only [step] at hs
    split at hs
    · rename_i hc
      obtain ⟨x, h1, hs⟩ := bind_ok' hs
      cases hs
      rw [expAddDigit_ok h1 hc]
      left
      refine ⟨rfl, ?_⟩
      have := NumAt.exp ⟨neg, ds, fr, some ⟨m, none, [c]⟩⟩ ⟨m, none, [c]⟩ b
        ⟨hl.int, hl.frac, (by
          intro e he; cases he
          exact ⟨hm, (by intro _ h; cases h), by simpa [AllDigits] using hc⟩)⟩ rfl (by simp) hb
      simpa [NumLit.text, expText, ExpPart.text, sg, decVal, digitNum] using this
    split at hs
    · rename_i hc; subst hc; cases hs
      left
      refine ⟨rfl, ?_⟩
      have := NumAt.expSign ⟨neg, ds, fr, some ⟨m, some '+', []⟩⟩ m '+' b
        ⟨hl.int, hl.frac, (by
          intro e he; cases he
          exact ⟨hm, (by intro _ h; cases h; exact Or.inl rfl), (by intro _ h; cases h)⟩)⟩ rfl hb
      simpa [NumLit.text, expText, ExpPart.text, sg] using this
    split at hs
    · rename_i hc; subst hc; cases hs
      left
      refine ⟨rfl, ?_⟩
      have := NumAt.expSign ⟨neg, ds, fr, some ⟨m, some '-', []⟩⟩ m '-' b
        ⟨hl.int, hl.frac, (by
          intro e he; cases he
          exact ⟨hm, (by intro _ h; cases h; exact Or.inr rfl), (by intro _ h; cases h)⟩)⟩ rfl hb
      simpa [NumLit.text, expText, ExpPart.text, sg] using this
    split at hs
    · rename_i hc
      obtain ⟨tok, h1, hs⟩ := bind_ok' hs
      exact Or.inr (Or.inr ⟨hc, tok, expToken_ok (e := ⟨m, none, []⟩) hl rfl hb h1,
        (Except.ok.inj hs).symm⟩)
    · exact Or.inr (Or.inl (Except.ok.inj hs).symm)
  | expSign l m c0 b hl he hb =>
    obtain ⟨neg, ds, fr, ex⟩ := l
    simp only at he; subst he
    have hx := hl.exp _ rfl
    simp only [step] at hs
    split at hs
    · rename_i hc
      obtain ⟨x, h1, hs⟩ := bind_ok' hs
      cases hs
      rw [expAddDigit_ok h1 hc]
      left
      refine ⟨rfl, ?_⟩
      have := NumAt.exp ⟨neg, ds, fr, some ⟨m, some c0, [c]⟩⟩ ⟨m, some c0, [c]⟩ b
        ⟨hl.int, hl.frac, (by
          intro e he; cases he
          exact ⟨hx.marker, hx.sign, by simpa [AllDigits] using hc⟩)⟩ rfl (by simp) hb
      simpa [NumLit.text, expText, ExpPart.text, sg, decVal, digitNum] using this
    split at hs
    · rename_i hc
      obtain ⟨tok, h1, hs⟩ := bind_ok' hs
      exact Or.inr (Or.inr ⟨hc, tok, expToken_ok (e := ⟨m, some c0, []⟩) hl rfl hb
        (by simpa [decVal] using h1), (Except.ok.inj hs).symm⟩)
    · exact Or.inr (Or.inl (Except.ok.inj hs).symm)
  | exp l e b hl he hne hb =>
    obtain ⟨neg, ds, fr, ex⟩ := l
    simp only at he; subst he
    have hx := hl.exp _ rfl
    simp only [step] at hs
    split at hs
    · rename_i hc
      obtain ⟨x, h1, hs⟩ := bind_ok' hs
      cases hs
      rw [expAddDigit_ok h1 hc]
      left
      refine ⟨rfl, ?_⟩
      have := NumAt.exp ⟨neg, ds, fr, some ⟨e.marker, e.sign, e.digits ++ [c]⟩⟩
        ⟨e.marker, e.sign, e.digits ++ [c]⟩ b
        ⟨hl.int, hl.frac, (by
          intro e he; cases he
          exact ⟨hx.marker, hx.sign, allDigits_snoc hx.digits hc⟩)⟩ rfl (by simp) hb
      rw [show (decVal e.digits : Int) * 10 + (digitNum c : Int) = (decVal (e.digits ++ [c]) : Nat) by
        rw [decVal_snoc]; push_cast; ring]
      simpa [NumLit.text, expText, ExpPart.text] using this
    split at hs
    · rename_i hc
      obtain ⟨tok, h1, hs⟩ := bind_ok' hs
      exact Or.inr (Or.inr ⟨hc, tok, expToken_ok hl rfl hb h1, (Except.ok.inj hs).symm⟩)
    · exact Or.inr (Or.inl (Except.ok.inj hs).symm)
  | bigInt neg ds b hd hb hv =>
    simp only [step, Except.ok.injEq] at hs
    split at hs
    · rename_i hc
      exact Or.inr (Or.inr ⟨hc, .bigInt b, Or.inr ⟨neg, ds, b, hd, rfl, rfl, hb, hv⟩, hs.symm⟩)
    · exact Or.inr (Or.inl hs.symm)

end Tok
end Nanvm
