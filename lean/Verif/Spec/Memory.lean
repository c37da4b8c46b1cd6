import Verif.Model.Memory
/-!
# Specification for C80: values without memory

A program that handles values sees trees.  `VStep` says what the operations do to a list of trees;
there are no addresses, counters or blocks here.  `Decodes` says which tree a program finds when it
follows a handle through memory.
-/
namespace Nanvm

/-- a value -/
inductive Tree
  | simple (s : Simple)
  | string (units : List (BitVec 16))
  | bigint (negative : Bool) (limbs : List W)
  | array (items : List Tree)
  /-- the keys and values in turn -/
  | object (fields : List Tree)

/-- how a program holds a value -/
inductive Kind
  | any
  | ref (t : RefTy)
  | mutRef (t : RefTy)
deriving DecidableEq

/-- the values a program holds -/
abbrev Vals := List (Kind × Tree)

namespace Tree

/-- the type of a value with a block -/
def ty : Tree → Option RefTy
  | .simple _ => none
  | .string _ => some .string
  | .bigint _ _ => some .bigint
  | .array _ => some .array
  | .object _ => some .object

/-- the values in a value -/
def items : Tree → List Tree
  | .array ts => ts
  | .object ts => ts
  | _ => []

/-- a value with other values in it -/
def withItems : Tree → List Tree → Tree
  | .array _, ts => .array ts
  | .object _, ts => .object ts
  | v, _ => v

end Tree

/-- how an array or object holds item `j`: the keys of an object are strings -/
def itemKind : RefTy → Nat → Option Kind
  | .array, _ => some .any
  | .object, j => some (if j % 2 = 0 then .ref .string else .any)
  | _, _ => none

/-- the values at the given positions are taken one after the other; `vs` was taken, `rest` remains -/
inductive Picks : Vals → List Nat → Vals → Vals → Prop
  | nil {ts} : Picks ts [] [] ts
  | cons (a : Vals) (v : Kind × Tree) (b : Vals) {is vs rest} : Picks (a ++ b) is vs rest →
      Picks (a ++ v :: b) (a.length :: is) (v :: vs) rest

/-- what an operation does to values -/
inductive VStep : Vals → MMem.Op → Vals → Prop
  | value {ts s} : VStep ts (.value s) (ts ++ [(.any, .simple s)])
  | string {ts us p} : VStep ts (.string us p) (ts ++ [(.mutRef .string, .string us)])
  /-- there is no negative zero -/
  | bigint {ts neg ls p} : VStep ts (.bigint neg ls p)
      (ts ++ [(.mutRef .bigint, .bigint (neg && !ls.isEmpty) ls)])
  | array {ts is p vs rest} : Picks ts is vs rest → (∀ v ∈ vs, v.1 = .any) →
      VStep ts (.array is p) (rest ++ [(.mutRef .array, .array (vs.map (·.2)))])
  | object {ts is p vs rest} : Picks ts is vs rest → vs.length % 2 = 0 →
      (∀ (k : Nat) v, vs[k]? = some v → v.1 = if k % 2 = 0 then .ref .string else .any) →
      VStep ts (.object is p) (rest ++ [(.mutRef .object, .object (vs.map (·.2)))])
  | clone {ts i v} : ts[i]? = some v → (∀ t, v.1 ≠ .mutRef t) → VStep ts (.clone i) (ts ++ [v])
  | toRef {ts i t v} : ts[i]? = some (.mutRef t, v) → VStep ts (.toRef i) (ts.set i (.ref t, v))
  | toAny {ts i t v} : ts[i]? = some (.ref t, v) → VStep ts (.toAny i) (ts.set i (.any, v))
  | tryMove {ts t i v} : ts[i]? = some (.any, v) → v.ty = some t →
      VStep ts (.tryMove t i) (ts.set i (.ref t, v))
  /-- the value is lost -/
  | tryMove_fail {ts t i v} : ts[i]? = some (.any, v) → v.ty ≠ some t →
      VStep ts (.tryMove t i) (ts.eraseIdx i)
  /-- whether it works depends on who else holds the value -/
  | tryToMutRef {ts i t v} : ts[i]? = some (.ref t, v) →
      VStep ts (.tryToMutRef i) (ts.set i (.mutRef t, v))
  | tryToMutRef_fail {ts i t v} : ts[i]? = some (.ref t, v) → VStep ts (.tryToMutRef i) ts
  | getItem {ts i j k v t kd x} : ts[i]? = some (k, v) → v.ty = some t → itemKind t j = some kd →
      v.items[j]? = some x → VStep ts (.getItem i j) (ts ++ [(kd, x)])
  | getItem_none {ts i j k v t} : ts[i]? = some (k, v) → v.ty = some t → v.items[j]? = none →
      VStep ts (.getItem i j) ts
  | setItem {ts i j k t v kd x} : ts[i]? = some (.mutRef t, v) → ts[k]? = some (kd, x) →
      itemKind t j = some kd → j < v.items.length →
      VStep ts (.setItem i j k) ((ts.set i (.mutRef t, v.withItems (v.items.set j x))).eraseIdx k)
  | setItem_none {ts i j k t v kd x} : ts[i]? = some (.mutRef t, v) → ts[k]? = some (kd, x) →
      itemKind t j = some kd → v.items.length ≤ j → VStep ts (.setItem i j k) ts
  | setUnit {ts i j u us} : ts[i]? = some (.mutRef .string, .string us) →
      VStep ts (.setUnit i j u) (ts.set i (.mutRef .string, .string (us.set j u)))
  | setLimb {ts i j w neg ls} : ts[i]? = some (.mutRef .bigint, .bigint neg ls) →
      VStep ts (.setLimb i j w) (ts.set i (.mutRef .bigint, .bigint neg (ls.set j w)))
  | drop {ts i} : i < ts.length → VStep ts (.drop i) (ts.eraseIdx i)

/-- a history of operations on values -/
inductive VRun : Vals → List MMem.Op → Vals → Prop
  | nil {ts} : VRun ts [] ts
  | cons {ts ts' ts'' op ops} : VStep ts op ts' → VRun ts' ops ts'' → VRun ts (op :: ops) ts''

/-- how a handle holds its value -/
def Hnd.kind : Hnd → Kind
  | .any _ => .any
  | .ref t _ => .ref t
  | .mutRef t _ => .mutRef t

/-- the tree a program finds behind a handle when it reads memory: an `Any` is told apart by
`to_visitor`, the length of an object is in its header, the items follow -/
inductive Decodes (r : Ram) : Hnd → Tree → Prop
  | null {w} : toVisitor w = .ok .null → Decodes r (.any w) (.simple .null)
  | bool {w b} : toVisitor w = .ok (.bool b) → Decodes r (.any w) (.simple (.bool b))
  | number {w x} : toVisitor w = .ok (.number x) → Decodes r (.any w) (.simple (.number x))
  | any {w t a v} : toVisitor w = .ok (t.val a) → Decodes r (.ref t a.toNat) v → Decodes r (.any w) v
  | mutRef {t p v} : Decodes r (.ref t p) v → Decodes r (.mutRef t p) v
  | string {p w us} : r.header .string p = .ok w → w.toNat = us.length →
      (∀ (j : Nat) u, us[j]? = some u → r.field .string p j = .ok (u.setWidth 64)) →
      Decodes r (.ref .string p) (.string us)
  | bigint {p w neg ls} : r.header .bigint p = .ok w →
      w.toInt = (if neg then -(ls.length : Int) else ls.length) → (neg = true → ls ≠ []) →
      (∀ (j : Nat) u, ls[j]? = some u → r.field .bigint p j = .ok u) →
      Decodes r (.ref .bigint p) (.bigint neg ls)
  | array {p w ts} (hs : Nat → Hnd) : r.header .array p = .ok w → w.toNat = ts.length →
      (∀ (j : Nat) v, ts[j]? = some v → r.owned .array p j = .ok (hs j)) →
      (∀ (j : Nat) v, ts[j]? = some v → Decodes r (hs j) v) →
      Decodes r (.ref .array p) (.array ts)
  | object {p w ts} (hs : Nat → Hnd) : r.header .object p = .ok w → 2 * w.toNat = ts.length →
      (∀ (j : Nat) v, ts[j]? = some v → r.owned .object p j = .ok (hs j)) →
      (∀ (j : Nat) v, ts[j]? = some v → Decodes r (hs j) v) →
      Decodes r (.ref .object p) (.object ts)

/-- every handle of the program reads as the value that it should be -/
def Holding (m : MMem) (ts : Vals) : Prop :=
  m.roots.length = ts.length ∧
    ∀ (i : Nat) h v, m.roots[i]? = some h → ts[i]? = some v → h.kind = v.1 ∧ Decodes m.ram h v.2

/-- the numbers of the program are not mistaken for something else (C20) -/
def CleanOp : MMem.Op → Prop
  | .value (.number bits) => EXTENSION.has bits = false
  | _ => True

/-- the answer of the allocator is allowed: the block is 8-aligned, below `2^48`, and apart from the
others; there are 16 bytes for counter and length -/
def Room (m : MMem) : MMem.Op → Prop
  | .string us p => us.length < 2 ^ 63 ∧ m.ram.Fresh p ⟨16 + 2 * us.length, 8⟩
  | .bigint _ ls p => ls.length < 2 ^ 63 ∧ m.ram.Fresh p ⟨16 + 8 * ls.length, 8⟩
  | .array is p => is.length < 2 ^ 63 ∧ m.ram.Fresh p ⟨16 + 8 * is.length, 8⟩
  | .object is p => is.length < 2 ^ 63 ∧ m.ram.Fresh p ⟨16 + 8 * is.length, 8⟩
  | _ => True

/-- no bigint is put into an `Any` (C24) -/
def TypedBigints (m : MMem) : List MMem.Op → Prop
  | [] => True
  | op :: ops => (∀ i p, op = .toAny i → m.roots[i]? ≠ some (.ref .bigint p)) ∧
      ∀ m', m.step op = .ok m' → TypedBigints m' ops

/-- the strings and bigints that an operation makes are shorter than `2^59` -/
def ShortOp : MMem.Op → Prop
  | .string us _ => us.length < 2 ^ 59
  | .bigint _ ls _ => ls.length < 2 ^ 59
  | _ => True

/-- the same operation, with any answer of the allocator -/
inductive SameOp : MMem.Op → MMem.Op → Prop
  | refl (op) : SameOp op op
  | string (us p q) : SameOp (.string us p) (.string us q)
  | bigint (neg ls p q) : SameOp (.bigint neg ls p) (.bigint neg ls q)
  | array (is p q) : SameOp (.array is p) (.array is q)
  | object (is p q) : SameOp (.object is p) (.object is q)

/-- the same operations -/
inductive SameOps : List MMem.Op → List MMem.Op → Prop
  | nil : SameOps [] []
  | cons {op op' ops ops'} : SameOp op op' → SameOps ops ops' → SameOps (op :: ops) (op' :: ops')

end Nanvm
