import Verif.Spec.Memory
import Verif.Props.AnyWord
/-! Lemmas for C80: words and layouts -/
namespace Nanvm

theorem addr_toNat {p : Nat} (hp : p < 2 ^ 48) : (BitVec.ofNat 64 p).toNat = p := by
  rw [BitVec.toNat_ofNat]; omega

theorem anyWord_type (t : RefTy) {p : Nat} (hp : p < 2 ^ 48) :
    isType t.js (anyWord t p) = true ∧ fromAny t.js (anyWord t p) = t.val (BitVec.ofNat 64 p) := by
  have h := C20_round_trip_partial (t.val (BitVec.ofNat 64 p))
    (by cases t <;> simp only [RefTy.val, TVal.AddrOk] <;> rw [addr_toNat hp] <;> exact hp)
    (by cases t <;> simp [RefTy.val])
  have h := h t.js
  have et : (t.val (BitVec.ofNat 64 p)).type = t.js := by cases t <;> rfl
  rw [et, if_pos rfl] at h
  unfold tryMove at h
  split at h
  · rename_i c
    exact ⟨c, Option.some.inj h⟩
  · cases h

theorem anyWord_getType (t : RefTy) {p : Nat} (hp : p < 2 ^ 48) : getType (anyWord t p) = .ok t.js := by
  obtain ⟨t', h1, h2⟩ := C19_exactly_one_type (anyWord t p)
  rw [h1, (h2 _).1 (anyWord_type t hp).1]

theorem anyWord_tryMove (t t' : RefTy) {p : Nat} (hp : p < 2 ^ 48) :
    tryMove t'.js (anyWord t p) = if t' = t then some (t.val (BitVec.ofNat 64 p)) else none := by
  rw [tryMove_of (anyWord_type t hp).1, (anyWord_type t hp).2]
  cases t <;> cases t' <;> rfl

theorem anyWord_visitor (t : RefTy) {p : Nat} (hp : p < 2 ^ 48) :
    toVisitor (anyWord t p) = .ok (t.val (BitVec.ofNat 64 p)) := by
  obtain ⟨v, h1, h2, h3⟩ := C19_visitor (anyWord t p)
  rw [anyWord_getType t hp] at h2
  injection h2 with h2
  rw [← h2, anyWord_tryMove t t hp, if_pos rfl] at h3
  rw [h1, Option.some.inj h3]

theorem anyWord_isRef (t : RefTy) {p : Nat} (hp : p < 2 ^ 48) : isRef (anyWord t p) = true := by
  rw [(C19_is_ref _).1, anyWord_getType t hp]
  cases t <;> decide

theorem anyWord_toNat (t : RefTy) {p : Nat} (hp : p < 2 ^ 48) : (anyWord t p).toNat % 2 ^ 48 = p := by
  have h := C20_words.2.2.2.2 (BitVec.ofNat 64 p) (by rw [addr_toNat hp]; exact hp)
  rw [addr_toNat hp] at h
  obtain ⟨h1, h2, h3, h4⟩ := h
  cases t <;> simp only [anyWord, RefTy.val] <;> omega

theorem anyWord_blockAddr (t : RefTy) {p : Nat} (hp : p < 2 ^ 48) :
    blockAddr (anyWord t p) = some (BitVec.ofNat 64 p) := by
  rw [(C19_is_ref _).2]
  exact ⟨anyWord_isRef t hp, by rw [addr_toNat hp, anyWord_toNat t hp]⟩

theorem anyWord_deleteType (t : RefTy) {p : Nat} (hp : p < 2 ^ 48) :
    deleteType (anyWord t p) = if t = .bigint then .error (.panic .unreachable) else .ok t.js := by
  rcases C19_delete_dispatch _ (anyWord_isRef t hp) with ⟨h1, h2⟩ | ⟨h1, h2⟩
  · rw [anyWord_getType t hp] at h1
    rw [h2]
    cases t <;> simp_all [RefTy.js]
  · rw [anyWord_getType t hp] at h1 h2
    rw [h2]
    cases t <;> simp_all [RefTy.js]

theorem plain_blockAddr {w : W} (h : isRef w = false) : blockAddr w = none := by
  simp [blockAddr, h]

theorem plain_tryMove {w : W} (h : isRef w = false) (t : RefTy) : tryMove t.js w = none := by
  obtain ⟨t', h1, h2⟩ := C19_exactly_one_type w
  unfold tryMove
  rw [if_neg]
  intro h3
  have := (h2 _).1 h3
  subst this
  have := (C19_is_ref w).1.2 (by rw [h1]; cases t <;> decide)
  rw [h] at this; cases this

theorem plain_target {w : W} (h : isRef w = false) : MMem.target (.any w) = none := by
  simp only [MMem.target, plain_blockAddr h]
  split
  · rename_i h2; cases h2
  · rfl

theorem anyWord_target (t : RefTy) {p : Nat} (hp : p < 2 ^ 48) :
    MMem.target (.any (anyWord t p)) = some (t, p) := by
  simp only [MMem.target, anyWord_blockAddr t hp, anyWord_getType t hp, addr_toNat hp]
  cases t <;> rfl

/-- a clean simple value is told apart by `to_visitor` -/
theorem simple_visitor (s : Simple) (h : CleanOp (.value s)) : isRef s.word = false ∧
    toVisitor s.word = .ok (match s with | .null => .null | .bool b => .bool b | .number x => .number x) := by
  have key : ∀ (v : TVal) (t : JsType), v.AddrOk → (∀ bits, v = .number bits → ¬ NegQuietNaN bits) →
      v.type = t → t ∉ [JsType.string, .object, .array, .bigint] →
      isRef (moveFrom v) = false ∧ toVisitor (moveFrom v) = .ok v := by
    intro v t ha hn ht hm
    have h := C20_round_trip_partial v ha hn t
    rw [if_pos ht.symm] at h
    obtain ⟨v', h1, h2, h3⟩ := C19_visitor (moveFrom v)
    obtain ⟨t', g1, g2⟩ := C19_exactly_one_type (moveFrom v)
    have ht' : t = t' := (g2 t).1 (by
      unfold tryMove at h
      split at h
      · assumption
      · cases h)
    subst ht'
    rw [g1] at h2
    injection h2 with h2
    rw [← h2, h] at h3
    have := Option.some.inj h3
    subst this
    refine ⟨?_, h1⟩
    by_contra c
    have c : isRef (moveFrom v) = true := by simpa using c
    rw [(C19_is_ref _).1, g1] at c
    apply hm
    simpa using c
  cases s with
  | null => exact key .null .null (by simp [TVal.AddrOk]) (by simp) rfl (by decide)
  | bool b => exact key (.bool b) .bool (by simp [TVal.AddrOk]) (by simp) rfl (by decide)
  | number x =>
    refine key (.number x) .number (by simp [TVal.AddrOk]) ?_ rfl (by decide)
    intro bits hb
    cases hb
    rw [← ext_has_iff]
    have h : EXTENSION.has x = false := h
    simp [h]

/-! ### layouts -/

theorem objectOf_ok (t : RefTy) (p : Nat) : objectOf t p = .ok (p + 8) := by
  cases t <;> rfl

theorem itemsOf_ok (t : RefTy) (p : Nat) : itemsOf t p = .ok (p + 16) := by
  unfold itemsOf
  rw [objectOf_ok]
  cases t <;> rfl

/-- the size of a block -/
def blkSize (t : RefTy) (len : Nat) : Nat := 16 + len * (itemType t).size

theorem layoutOf_eq (t : RefTy) (len : Nat) : layoutOf t len =
    if blkSize t len < 2 ^ 64 then .ok ⟨blkSize t len, 8⟩ else .error .panic := by
  have hb : ∀ t, orPanic (flexBlockType wordType wordType (itemType t)) = .ok ⟨⟨8, 8⟩, ⟨8, 8⟩, 8⟩ := by
    intro t; cases t <;> rfl
  have hf : ∀ t, flexHeaderLayout wordType (itemType t) = .ok ⟨8, 8⟩ := by
    intro t; cases t <;> rfl
  unfold layoutOf
  rw [hb]
  simp only [bind, Except.bind, flexibleSize, hf, mulU, addU]
  unfold blkSize
  generalize len * (itemType t).size = n
  by_cases h1 : n < 2 ^ 64
  · rw [if_pos h1]
    by_cases h2 : 8 + n < 2 ^ 64
    · simp only [if_pos h2, orPanic, BlockType.blockLayout]
      have hl : (BlockType.mk ⟨8, 8⟩ ⟨8, 8⟩ 8).headerLayout = .ok ⟨8, 8⟩ := by rfl
      rw [hl]
      simp only [bind, Except.bind, FieldLayout.layout, addU]
      by_cases h3 : 16 + n < 2 ^ 64
      · rw [if_pos (by omega), if_pos h3]
        simp only [pure, Except.pure]
        congr 2; omega
      · rw [if_neg (by omega), if_neg h3]
    · simp only [if_neg h2, orPanic]
      rw [if_neg (by omega)]
  · rw [if_neg h1]
    simp only [orPanic]
    rw [if_neg (by omega)]

end Nanvm
