import Verif.Model.RefMut
import Mathlib.Data.List.Nodup
/-!
# Property theorems C64: `modify` destroys every value exactly once
-/
namespace Nanvm
open RefMut hiding modify

/-- the closure obeys ownership: its argument and the values it creates are all different, and each
is destroyed by it or returned, exactly one of these, exactly once -/
def Owns (old : Nat) (r : Outcome) : Prop :=
  (old :: r.created).Nodup ∧ (old :: r.created).Perm (r.dropped ++ r.returned.toList)

/-- The full property: every value is destroyed exactly once, also if the closure panics. -/
def DropsOnce : Prop := ∀ old f, Owns old (f old) →
  (scope old f).Perm (old :: (f old).created)

/-- Proved part: if the closure returns; the variable then holds the returned value. -/
theorem C64_modify_partial (old : Nat) (f : Nat → Outcome) (h : Owns old (f old)) (v : Nat)
    (hv : (f old).returned = some v) :
    (RefMut.modify old f).1 = v ∧ (scope old f).Perm (old :: (f old).created) ∧ (scope old f).Nodup := by
  have hs : scope old f = (f old).dropped ++ [v] := by simp [scope, RefMut.modify, hv]
  have hp : (scope old f).Perm (old :: (f old).created) := by
    have := h.2
    rw [hv] at this
    rw [hs]; exact this.symm
  exact ⟨by simp [RefMut.modify, hv], hp, (hp.nodup_iff).2 h.1⟩

/-- If the closure panics, the old value is always destroyed twice. -/
theorem C64_panic_twice (old : Nat) (f : Nat → Outcome) (h : Owns old (f old))
    (hv : (f old).returned = none) : (scope old f).count old = 2 := by
  have hs : scope old f = (f old).dropped ++ [old] := by simp [scope, RefMut.modify, hv]
  have hp := h.2
  rw [hv] at hp
  have hc := hp.count_eq old
  have h1 := List.count_eq_one_of_mem h.1 (List.mem_cons_self (a := old) (l := (f old).created))
  simp only [Option.toList_none, List.append_nil] at hc
  rw [hs, List.count_append, ← hc, h1]
  simp

theorem C64_modify_violated : ¬ DropsOnce := by
  intro h
  have ho : Owns 0 ⟨[], [0], none⟩ := ⟨by simp, by simp⟩
  have h1 := (h 0 (fun _ => ⟨[], [0], none⟩) ho).count_eq 0
  have h2 := C64_panic_twice 0 (fun _ => ⟨[], [0], none⟩) ho rfl
  rw [h2] at h1
  simp at h1

example : Owns 5 ⟨[6, 7], [5, 7], some 6⟩ ∧ scope 5 (fun _ => ⟨[6, 7], [5, 7], some 6⟩) = [5, 7, 6] :=
  ⟨⟨by decide, by decide⟩, rfl⟩

end Nanvm
