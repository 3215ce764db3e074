import Mathlib.Analysis.SpecialFunctions.Trigonometric.Basic

/-!
# Specification: expressions with symbols and their values
-/

namespace Spec

/-- An expression with symbols. -/
inductive SE where
  | num (c : ℝ)
  | pi
  | I
  | sym (s : String)
  | add (a b : SE)
  | sub (a b : SE)
  | neg (a : SE)
  | mul (a b : SE)
  | div (a b : SE)
  | cos (a : SE)
  | sin (a : SE)
  | exp (a : SE)
  | abs (a : SE)

/-- The value of an expression when the symbols have the values `ρ`. -/
noncomputable def SE.value (ρ : String → ℂ) : SE → ℂ
  | .num c => c
  | .pi => Real.pi
  | .I => Complex.I
  | .sym s => ρ s
  | .add a b => a.value ρ + b.value ρ
  | .sub a b => a.value ρ - b.value ρ
  | .neg a => -a.value ρ
  | .mul a b => a.value ρ * b.value ρ
  | .div a b => a.value ρ / b.value ρ
  | .cos a => Complex.cos (a.value ρ)
  | .sin a => Complex.sin (a.value ρ)
  | .exp a => Complex.exp (a.value ρ)
  | .abs a => ‖a.value ρ‖

/-- The expression has a value: no division by 0. -/
def SE.Defined (ρ : String → ℂ) : SE → Prop
  | .num _ | .pi | .I | .sym _ => True
  | .add a b | .sub a b | .mul a b => a.Defined ρ ∧ b.Defined ρ
  | .neg a | .cos a | .sin a | .exp a | .abs a => a.Defined ρ
  | .div a b => a.Defined ρ ∧ b.Defined ρ ∧ b.value ρ ≠ 0

/-- The symbol occurs in the expression. -/
def SE.Occurs (s : String) : SE → Prop
  | .num _ | .pi | .I => False
  | .sym t => s = t
  | .add a b | .sub a b | .mul a b | .div a b => a.Occurs s ∨ b.Occurs s
  | .neg a | .cos a | .sin a | .exp a | .abs a => a.Occurs s

/-- The expression is a real number when the symbols have the values `ρ`. -/
def SE.RealAt (ρ : String → ℂ) (e : SE) : Prop := e.Defined ρ ∧ (e.value ρ).im = 0

end Spec
