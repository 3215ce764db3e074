import Verif.Spec.Circuit

/-!
# Specification: when the pairs of one two-qubit gate may be applied in any order

`circuit.cx[0:2, 1:3]` is one operation that stands for two applications, one after the other.
-/

namespace Spec

open Blueqat (G2 Gate)

/-- Two applications of a gate of class `k`, to the pairs `p` and `q`, may be exchanged:
diagonal gates and `rxx`, `ryy` always; a controlled gate when no control of one is the target of the other;
swap when the pairs have no qubit in common. -/
def Exchangeable (k : G2) (p q : ℕ × ℕ) : Prop :=
  match k with
  | .cz | .crz _ | .cphase _ | .cu1 _ | .rzz _ | .rxx _ | .ryy _ => True
  | .cx | .cy | .ch | .crx _ | .cry _ | .cu2 _ _ | .cu3 _ _ _ => p.1 ≠ q.2 ∧ q.1 ≠ p.2
  | .swap => p.1 ≠ q.1 ∧ p.1 ≠ q.2 ∧ p.2 ≠ q.1 ∧ p.2 ≠ q.2

/-- The pairs of a two-qubit gate object may be applied in any order; other gates are not restricted. A gate on
one pair always is. -/
def OrderFree (n : ℕ) : Gate → Prop
  | .g2 k T => ∀ L : List (ℕ × ℕ), PairsDenote n T (L.map (fun p : ℕ × ℕ => ((p.1 : Int), (p.2 : Int)))) →
      L.Pairwise (Exchangeable k)
  | _ => True

/-- Like `GatesDenote`, but the pairs of every gate object are applied in the reverse order. -/
def GatesReversed (n : ℕ) : List Gate → List Elem → Prop
  | [], es => es = []
  | g :: gs, es => ∃ e1 e2, GateDenotes n g e1 ∧ GatesReversed n gs e2 ∧ es = e1.reverse ++ e2

end Spec
