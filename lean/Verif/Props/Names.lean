import Verif.Repr
import Verif.Spec.Names

/-!
# C82: the names of gates
-/

set_option linter.unusedSimpArgs false
set_option linter.unusedVariables false

namespace Blueqat

open Spec

noncomputable section

/-- C82. `circuit.name(*args)[T]` with the name of a one-qubit gate applies the documented matrix to the targets. -/
theorem C82_one (name : String) (args : List ℝ) (M : M2) (h : oneQubit name args = some M) (T : Targets) :
    ∃ k, gateSet name args T = some (.g1 k T) ∧ ∀ ph t ψ, (Elem.one k t).unitary ph ψ = app M t ψ := by
  unfold oneQubit at h
  split at h <;> first | (cases h; exact ⟨_, rfl, fun _ _ _ => rfl⟩) | cases h

/-- C82. The name of a two-qubit gate gives the documented operation. -/
theorem C82_two (name : String) (args : List ℝ) (U : ℕ → ℕ → Vec → Vec) (h : twoQubit name args = some U) (T : Targets) :
    ∃ k, gateSet name args T = some (.g2 k T) ∧ ∀ c t ψ, (Elem.two k c t).unitary phDoc ψ = U c t ψ := by
  unfold twoQubit at h
  split at h <;> first
    | (cases h; exact ⟨_, rfl, fun _ _ _ => rfl⟩)
    | (cases h; exact ⟨_, rfl, fun _ _ _ => by funext i; simp [Elem.unitary, op2, phDoc]⟩)
    | cases h

/-- C82. The name of a three-qubit gate gives the documented operation. -/
theorem C82_three (name : String) (args : List ℝ) (U : ℕ → ℕ → ℕ → Vec → Vec) (h : threeQubit name args = some U) (T : Targets) :
    ∃ k, gateSet name args T = some (.g3 k T) ∧ ∀ ph a b c ψ, (Elem.three k a b c).unitary ph ψ = U a b c ψ := by
  unfold threeQubit at h
  split at h <;> first | (cases h; exact ⟨_, rfl, fun _ _ _ _ _ => rfl⟩) | cases h

/-- C82. `measure` and `m` measure, `reset` resets. -/
theorem C82_other (name : String) (T : Targets) :
    (IsMeasureName name → gateSet name [] T = some (.measure T)) ∧ (name = "reset" → gateSet name [] T = some (.reset T)) := by
  refine ⟨?_, ?_⟩
  · rintro (rfl | rfl) <;> rfl
  · rintro rfl; rfl

/-- C82. There are no other names. -/
theorem C82_complete (name : String) (args : List ℝ) (T : Targets) (g : Gate) (h : gateSet name args T = some g) :
    (oneQubit name args).isSome ∨ (twoQubit name args).isSome ∨ (threeQubit name args).isSome ∨
      args = [] ∧ (IsMeasureName name ∨ name = "reset") := by
  unfold gateSet at h
  split at h
  · rename_i k hk
    refine .inl ?_
    unfold gateSet1 at hk
    split at hk <;> first | rfl | cases hk
  · split at h
    · rename_i k hk
      refine .inr (.inl ?_)
      unfold gateSet2 at hk
      split at hk <;> first | rfl | cases hk
    · refine .inr (.inr ?_)
      unfold gateSetOther at h
      split at h
      · exact .inl rfl
      · exact .inl rfl
      · exact .inl rfl
      · exact .inr ⟨rfl, .inr rfl⟩
      · exact .inr ⟨rfl, .inl (.inl rfl)⟩
      · exact .inr ⟨rfl, .inl (.inr rfl)⟩
      · cases h

/-- `cr(0.5)[0, 1]` is a controlled phase, `cnot` a controlled X. -/
example : (twoQubit "cr" [1 / 2]).isSome ∧ (twoQubit "cnot" []).isSome ∧ (oneQubit "u3" [1, 2, 3]).isSome ∧
    (threeQubit "toffoli" []).isSome := ⟨rfl, rfl, rfl, rfl⟩

end

end Blueqat
