import Verif.Spec.Shots
import Verif.Spec.Vqe

/-!
# Specification: the counts that the measurement sampler keeps

The sampler reads the counts of complete outcomes in the order in which the outcomes appeared first. Outcomes with the same key
overwrite one another, so only the count of the last of them is kept.
-/

namespace Spec

open Blueqat

/-- Each element once, in the order of the first appearances. -/
def firstSeen : List String → List String
  | [] => []
  | x :: l => x :: (firstSeen l).filter (fun y => decide (y ≠ x))

/-- The key that is made of a complete outcome on `n` qubits: the bits of the mirrored qubits. -/
def mirroredKey (n : ℕ) (meas : List ℕ) (outcome : String) : List ℕ :=
  meas.map (fun m => if outcome.toList[n - 1 - m]? = some '1' then 1 else 0)

/-- The complete outcome whose count is kept for a key. -/
def keptOutcome (n : ℕ) (meas : List ℕ) (shots : List MState) (key : List ℕ) : Option String :=
  ((firstSeen (shots.map (fun s => bitString n s.creg))).filter (fun o => decide (mirroredKey n meas o = key))).getLast?

/-- What the sampler reports for a key: the fraction of the shots with the kept outcome. -/
noncomputable def keptFraction (n : ℕ) (meas : List ℕ) (shots : List MState) (key : List ℕ) : Option ℝ :=
  (keptOutcome n meas shots key).map (fun o => (shots.countP (fun s => decide (bitString n s.creg = o)) : ℝ) / shots.length)

end Spec
