import Verif.Props.App
/-!
# Property theorems C63: the exit status of the program
-/
namespace Nanvm
open App Ser
open Tok hiding run

/-- The full property: the exit status is 0 exactly if the output file was written. -/
def StatusTells : Prop := ∀ (io : Io) (w : World) (s : Nat), mainStatus io w = some s →
  (s = 0 ↔ (run io w).1 = .ok (.ok ()))

/-- The program hides errors: an input that cannot be parsed gives status 0 and no output; so does
an output file that cannot be written. -/
theorem C63_status_violated : ¬ StatusTells ∧
    mainStatus (ioOf ["nanvm".toList, "a.json".toList, "b.json".toList])
      (onlyFile "a.json".toList "[true".toList) = some 0 ∧
    (run (ioOf ["nanvm".toList, "a.json".toList, "b.json".toList])
      (onlyFile "a.json".toList "[true".toList)).1 = .ok (.error (.parse .unexpectedEnd)) := by
  have h1 : mainStatus (ioOf ["nanvm".toList, "a.json".toList, "b.json".toList])
      (onlyFile "a.json".toList "[true".toList) = some 0 := by decide +kernel
  have h2 : (run (ioOf ["nanvm".toList, "a.json".toList, "b.json".toList])
      (onlyFile "a.json".toList "[true".toList)).1 = .ok (.error (.parse .unexpectedEnd)) := by
    decide +kernel
  refine ⟨fun h => ?_, h1, h2⟩
  have := (h _ _ 0 h1).1 rfl
  rw [h2] at this
  cases this

/-- Proved part: a success gives status 0; another status than 0 means that the run panicked, that
nothing was written and that no file has changed. -/
theorem C63_status_partial (io : Io) (w : World) :
    ((run io w).1 = .ok (.ok ()) → mainStatus io w = some 0) ∧
    ∀ s, mainStatus io w = some s → s ≠ 0 →
      (∃ p, (run io w).1 = .error (.panic p)) ∧ (run io w).2 = w := by
  constructor
  · intro h
    rw [mainStatus, h]
  · intro s hs h0
    have hp : ∃ p, (run io w).1 = .error (.panic p) := by
      rw [mainStatus] at hs
      split at hs
      · cases hs; exact absurd rfl h0
      · rename_i p hp; exact ⟨p, hp⟩
      · cases hs
    refine ⟨hp, ?_⟩
    obtain ⟨p, hp⟩ := hp
    rcases C56_writes io w with h | ⟨_, _, _, _, _, _, _, _, _, _, _, _, _, _, h | h⟩
    · exact h.1
    · rw [hp] at h; cases h.2.1
    · rw [hp] at h; cases h.2.1

/-- both statuses occur -/
example : mainStatus (ioOf ["nanvm".toList]) (onlyFile "a.json".toList "[true]".toList) = some 101 ∧
    mainStatus (ioOf ["nanvm".toList, "a.json".toList, "b.json".toList])
      (onlyFile "a.json".toList "[true]".toList) = some 0 := by decide +kernel

end Nanvm
