import Verif.Spec.Circuit

/-!
# Specification: repeated shots

Every shot starts from the all-zero state with all classical bits 0 and uses the random numbers the previous
shot left.
-/

namespace Spec

/-- The final machine states of `k` shots of the operations `es`. -/
noncomputable def shotStates (ph : ℝ → ℂ) (n : ℕ) (es : List Elem) : ℕ → (ℕ → ℝ) → List MState
  | 0, _ => []
  | k + 1, rnd =>
    let s := steps ph n es (initState rnd)
    s :: shotStates ph n es k s.rnd

/-- The classical bits of qubits `0, ..., n-1` as a string, qubit 0 first. -/
def bitString (n : ℕ) (creg : ℕ → Bool) : String :=
  String.ofList ((List.range n).map (fun q => if creg q then '1' else '0'))

/-- The list of amplitudes of an `n`-qubit state, index 0 first. -/
def amplitudes (n : ℕ) (ψ : Vec) : List ℂ := (List.range (2 ^ n)).map ψ

/-- The number stored for a key in a list of key/number pairs (0 if absent). -/
def countOf (c : List (String × ℕ)) (key : String) : ℕ := ((c.filter (fun p => p.1 = key)).map Prod.snd).sum

/-- Sum of all numbers stored. -/
def total (c : List (String × ℕ)) : ℕ := (c.map Prod.snd).sum

/-- Random numbers as `random.random()` returns them. -/
def InUnit (rnd : ℕ → ℝ) : Prop := ∀ k, 0 ≤ rnd k ∧ rnd k < 1

/-- Qubit `q` is among the qubits that some measurement in the list addresses. -/
def MeasuredBy (n : ℕ) (gates : List Blueqat.Gate) (q : ℕ) : Prop :=
  ∃ T vals, Blueqat.Gate.measure T ∈ gates ∧ TargetsDenote n T vals ∧ (q : ℤ) ∈ vals

/-- The operation is a `cu1` gate, which the simulators implement only up to a global phase. -/
def Elem.IsCu1 : Elem → Prop
  | .two (.cu1 _) _ _ => True
  | _ => False

end Spec
