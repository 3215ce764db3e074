import Verif.Spec.Circuit

/-!
# Specification: sensitivity of operations to their angles
-/

namespace Spec

open Blueqat (G1 G2 G3)

noncomputable section

/-- The angles of an operation. -/
def Elem.angles : Elem → List ℝ
  | .one k _ => match k with
    | .rx θ | .ry θ | .rz θ | .phase θ | .u1 θ => [θ]
    | .u2 φ lam => [φ, lam]
    | .u3 θ φ lam => [θ, φ, lam]
    | _ => []
  | .two k _ _ => match k with
    | .crx θ | .cry θ | .crz θ | .cphase θ | .rxx θ | .ryy θ | .rzz θ | .cu1 θ => [θ]
    | .cu2 φ lam => [φ, lam]
    | .cu3 θ φ lam => [θ, φ, lam]
    | _ => []
  | _ => []

/-- How much an operation may change when each angle that is put into its matrices (or into those of the gates it is
made of) is changed by 1: a rotation by half of the angle counts 1/2, a phase counts 1. -/
def Elem.weight : Elem → ℝ
  | .one k _ => match k with
    | .rx _ | .ry _ | .rz _ | .u1 _ => 1 / 2
    | .phase _ | .t | .tdg | .s | .sdg | .u2 _ _ => 1
    | .u3 _ _ _ => 3 / 2
    | .i | .x | .y | .z | .h => 0
  | .two k _ _ => match k with
    | .cx | .cz | .swap => 0
    | .rxx _ | .rzz _ => 1 / 2
    | .ch | .crx _ | .cry _ | .crz _ => 1
    | .cu1 _ => 3 / 2
    | .cy | .cphase _ => 2
    | .ryy _ => 5 / 2
    | .cu2 _ _ | .cu3 _ _ _ => 7 / 2
  | .three k _ _ _ => match k with
    | .ccx | .cswap => 7
    | .ccz => 0
  | .meas _ => 0
  | .reset _ => 0

/-- The weights of a list of operations together. -/
def weights (es : List Elem) : ℝ := (es.map Elem.weight).sum

end

end Spec
