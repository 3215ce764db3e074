import Verif.PauliIndep

/-!
# Evaluating arithmetic formulas of Pauli operators with Python's operators
-/

set_option linter.unusedSimpArgs false
set_option linter.unusedVariables false

namespace Spec

open Blueqat

noncomputable section

/-- The value Python computes for a formula: operands first, from left to right, then the operator
(blueqat/pauli.py: the methods called by `-a`, `a + b`, `a - b`, `a * b`, `a / x`, `a ** n`). -/
def Formula.py : Formula → Except PyErr PVal
  | .num x => .ok (.num x)
  | .pauli p => .ok (.pauli p)
  | .neg a => do let x ← a.py; .ok (pvNeg x)
  | .add a b => do let x ← a.py; let y ← b.py; .ok (pvAdd x y)
  | .sub a b => do let x ← a.py; let y ← b.py; .ok (pvSub x y)
  | .mul a b => do let x ← a.py; let y ← b.py; .ok (pvMul x y)
  | .div a x => do let v ← a.py; pvDiv v x
  | .pow a n => do let v ← a.py; pvPow v n

/-- The class of a value. -/
def kindOf : PVal → Kind
  | .num _ => .num
  | .pauli _ => .pauli
  | .term _ => .term
  | .expr _ => .expr

end

end Spec

namespace Blueqat

open Spec

theorem bind_ok {α β : Type} {x : Except PyErr α} {f : α → Except PyErr β} {b : β}
    (h : (x >>= f) = .ok b) : ∃ a, x = .ok a ∧ f a = .ok b := by
  cases x with
  | error e => cases h
  | ok a => exact ⟨a, rfl, h⟩

/-! ## Each operator -/

theorem pvMul_op (a b : PVal) : valOp (pvMul a b) = valOp a * valOp b := by
  cases a <;> cases b <;> simp only [pvMul, valOp]
  case num.num x y => rw [lift_val (fun a b => a * b) (by intros; push_cast; rfl)]; simp [smul_smul, mul_comm]
  case num.pauli x p => rw [fromPauli_op, smul_mul_assoc, one_mul]
  case num.term x t => rw [termScale_op, smul_mul_assoc, one_mul]
  case num.expr x e => rw [exprScale_op, smul_mul_assoc, one_mul]
  case pauli.num p x => rw [fromPauli_op, mul_smul_comm, mul_one]
  case pauli.pauli p q => exact pauliMul_op p q
  case pauli.term p t => exact termRmulPauli_op t p
  case pauli.expr p e => rw [exprRmulTerm_op, toTerm_op]
  case term.num t x => rw [termScale_op, mul_smul_comm, mul_one]
  case term.pauli t p => exact termMulPauli_op t p
  case term.term t s => exact termMul_op t s
  case term.expr t e => exact exprRmulTerm_op e t
  case expr.num e x => rw [exprScale_op, mul_smul_comm, mul_one]
  case expr.pauli e p => rw [exprMulTerm_op, toTerm_op]
  case expr.term e t => exact exprMulTerm_op e t
  case expr.expr e f => exact exprMul_op e f

theorem pvAdd_op (a b : PVal) (h : a.toExpr.words.Nodup) : valOp (pvAdd a b) = valOp a + valOp b := by
  have key := exprAdd_op a.toExpr b.toExpr h
  rw [toExpr_op, toExpr_op] at key
  cases a with
  | num x =>
    cases b with
    | num y =>
      simp only [pvAdd, valOp]
      rw [lift_val (fun a b => a + b) (by intros; push_cast; rfl), add_smul]
    | _ => exact key
  | _ => exact key

theorem pvSub_op (a b : PVal) (h : a.toExpr.words.Nodup) : valOp (pvSub a b) = valOp a - valOp b := by
  have key := exprSub_op a.toExpr b.toExpr h
  rw [toExpr_op, toExpr_op] at key
  cases a with
  | num x =>
    cases b with
    | num y =>
      simp only [pvSub, valOp]
      rw [lift_val (fun a b => a - b) (by intros; push_cast; rfl)]; module
    | _ => exact key
  | _ => exact key

theorem pvNeg_op (a : PVal) : valOp (pvNeg a) = -valOp a := by
  cases a with
  | num x => cases x <;> simp only [pvNeg, valOp, PyNum.val] <;> push_cast <;> module
  | pauli p => simp only [pvNeg, valOp]; rw [fromPauli_op]; module
  | term t => exact termNeg_op t
  | expr e => exact exprNeg_op e

theorem pvDiv_op {a v : PVal} {x : PyNum} (h : pvDiv a x = .ok v) :
    valOp v = (x.val)⁻¹ • valOp a := by
  cases a with
  | num y =>
    rw [pvDiv] at h
    split_ifs at h with h0
    · injection h with h; subst h
      simp only [valOp]
      rw [lift_val (fun a b => a / b) (by intros; push_cast; rfl), smul_smul, div_eq_mul_inv, mul_comm]
  | pauli p =>
    rw [pvDiv] at h
    split_ifs at h with h0
    · injection h with h; subst h
      simp only [valOp]
      rw [fromPauli_op, one_div]
  | term t =>
    rw [pvDiv] at h
    rcases ht : t.div x with _ | _ | t' <;> rw [ht] at h <;> cases h
    exact termDiv_op _ _ _ ht
  | expr e =>
    rw [pvDiv] at h
    rcases ht : e.div x with _ | t' <;> rw [ht] at h <;> cases h
    exact (exprDiv_op _ _ _ ht).1

theorem pvPow_op {a v : PVal} {n : ℕ} (h : pvPow a n = .ok v) : valOp v = valOp a ^ n := by
  cases a with
  | num y =>
    cases y <;> rw [pvPow, if_neg (by omega)] at h <;> injection h with h <;> subst h <;>
      simp [valOp, PyNum.val, smul_pow]
  | pauli p => cases h
  | term t =>
    rw [pvPow] at h
    rcases ht : t.pow n with _ | t' <;> rw [ht] at h <;> cases h
    simpa [valOp] using termPow_op _ _ _ ht
  | expr e =>
    rw [pvPow] at h
    rcases ht : e.pow n with _ | t' <;> rw [ht] at h <;> cases h
    simpa [valOp] using exprPow_op _ _ _ ht

/-! ## Kinds -/

theorem kind_pvNeg (a : PVal) : kindOf (pvNeg a) = if kindOf a = .pauli then .term else kindOf a := by
  cases a with
  | num x => cases x <;> simp [pvNeg, kindOf]
  | _ => simp [pvNeg, kindOf]

theorem kind_pvMul (a b : PVal) : kindOf (pvMul a b) =
    if kindOf a = .num ∧ kindOf b = .num then .num
    else if kindOf a = .expr ∨ kindOf b = .expr then .expr else .term := by
  cases a <;> cases b <;> simp [pvMul, kindOf]

theorem kind_pvAdd (a b : PVal) : kindOf (pvAdd a b) =
    if kindOf a = .num ∧ kindOf b = .num then .num else .expr := by
  cases a <;> cases b <;> simp [pvAdd, kindOf]

theorem kind_pvSub (a b : PVal) : kindOf (pvSub a b) =
    if kindOf a = .num ∧ kindOf b = .num then .num else .expr := by
  cases a <;> cases b <;> simp [pvSub, kindOf]

theorem kind_pvDiv {a v : PVal} {x : PyNum} (h : pvDiv a x = .ok v) :
    kindOf v = if kindOf a = .pauli then .term else kindOf a := by
  cases a with
  | num y => rw [pvDiv] at h; split_ifs at h; cases h; simp [kindOf]
  | pauli p => rw [pvDiv] at h; split_ifs at h; cases h; simp [kindOf]
  | term t =>
    rw [pvDiv] at h
    rcases ht : t.div x with _ | _ | t' <;> rw [ht] at h <;> cases h
    simp [kindOf]
  | expr e =>
    rw [pvDiv] at h
    rcases ht : e.div x with _ | t' <;> rw [ht] at h <;> cases h
    simp [kindOf]

theorem kind_pvPow {a v : PVal} {n : ℤ} (h : pvPow a n = .ok v) : kindOf v = kindOf a := by
  cases a with
  | num y => cases y <;> rw [pvPow] at h <;> split_ifs at h <;> cases h <;> simp [kindOf]
  | pauli p => cases h
  | term t =>
    rw [pvPow] at h
    rcases ht : t.pow n with _ | t' <;> rw [ht] at h <;> cases h
    simp [kindOf]
  | expr e =>
    rw [pvPow] at h
    rcases ht : e.pow n with _ | t' <;> rw [ht] at h <;> cases h
    simp [kindOf]

theorem kind_py (t : Formula) : ∀ v, t.py = .ok v → kindOf v = t.kind := by
  induction t with
  | num x => intro v h; cases h; rfl
  | pauli p => intro v h; cases h; rfl
  | neg a ih =>
    intro v h
    obtain ⟨x, hx, h⟩ := bind_ok h; cases h
    rw [kind_pvNeg, ih x hx, Formula.kind]
  | add a b iha ihb =>
    intro v h
    obtain ⟨x, hx, h⟩ := bind_ok h; obtain ⟨y, hy, h⟩ := bind_ok h; cases h
    rw [kind_pvAdd, iha x hx, ihb y hy, Formula.kind]
  | sub a b iha ihb =>
    intro v h
    obtain ⟨x, hx, h⟩ := bind_ok h; obtain ⟨y, hy, h⟩ := bind_ok h; cases h
    rw [kind_pvSub, iha x hx, ihb y hy, Formula.kind]
  | mul a b iha ihb =>
    intro v h
    obtain ⟨x, hx, h⟩ := bind_ok h; obtain ⟨y, hy, h⟩ := bind_ok h; cases h
    rw [kind_pvMul, iha x hx, ihb y hy, Formula.kind]
  | div a x ih =>
    intro v h
    obtain ⟨y, hy, h⟩ := bind_ok h
    rw [kind_pvDiv h, ih y hy, Formula.kind]
  | pow a n ih =>
    intro v h
    obtain ⟨y, hy, h⟩ := bind_ok h
    rw [kind_pvPow h, ih y hy, Formula.kind]

/-! ## Invariants -/

/-- An expression names no word twice. -/
def PVal.Distinct : PVal → Prop
  | .expr e => e.words.Nodup
  | _ => True

theorem distinct_toExpr {v : PVal} (h : v.Distinct) : v.toExpr.words.Nodup := by
  cases v with
  | num x => exact fromNumber_nodup _
  | pauli p => exact fromTerm_nodup _
  | term t => exact fromTerm_nodup _
  | expr e => exact h

theorem good_distinct {v : PVal} (h : v.Good) : v.Distinct := by
  cases v with
  | expr e => exact h.1
  | _ => trivial

theorem distinct_of_kind {v : PVal} (h : kindOf v ≠ .expr) : v.Distinct := by
  cases v with
  | expr e => exact absurd rfl h
  | _ => trivial

theorem distinct_add (a b : PVal) : (pvAdd a b).Distinct := by
  cases a <;> cases b <;> first | trivial | exact exprAdd_nodup _ _

theorem distinct_sub (a b : PVal) : (pvSub a b).Distinct := by
  cases a <;> cases b <;> first | trivial | exact exprSub_nodup _ _

theorem distinct_neg {a : PVal} (h : a.Distinct) : (pvNeg a).Distinct := by
  cases a with
  | num x => cases x <;> trivial
  | expr e => show e.neg.words.Nodup; rw [exprNeg_words]; exact h
  | _ => trivial

theorem good_neg {a : PVal} (h : a.Good) : (pvNeg a).Good := by
  cases a with
  | num x => cases x <;> trivial
  | pauli p => exact reduced_fromPauli _ _
  | term t => exact h
  | expr e => exact good_sublist (by rw [exprNeg_words]) h

theorem good_pvAdd {a b : PVal} (ha : a.Good) (hb : b.Good) : (pvAdd a b).Good := by
  have := good_add (good_toExpr ha) (good_toExpr hb)
  cases a <;> cases b <;> first | trivial | exact this

theorem good_pvSub {a b : PVal} (ha : a.Good) (hb : b.Good) : (pvSub a b).Good := by
  have := good_sub (good_toExpr ha) (good_toExpr hb)
  cases a <;> cases b <;> first | trivial | exact this

theorem termDiv_ops {t t' : PTerm} {x : PyNum} (ht : t.div x = some (.ok t')) : t'.ops = t.ops := by
  cases x with
  | cplx z => simp [PTerm.div] at ht
  | real r =>
    simp only [PTerm.div, Option.some.injEq] at ht
    split_ifs at ht
    injection ht with ht; subst ht; rfl

theorem good_pvDiv {a v : PVal} {x : PyNum} (h : pvDiv a x = .ok v) (ha : a.Good) : v.Good := by
  cases a with
  | num y => rw [pvDiv] at h; split_ifs at h; cases h; trivial
  | pauli p => rw [pvDiv] at h; split_ifs at h; cases h; exact reduced_fromPauli _ _
  | term t =>
    rw [pvDiv] at h
    rcases ht : t.div x with _ | _ | t' <;> rw [ht] at h <;> cases h
    show Reduced t'.ops; rw [termDiv_ops ht]; exact ha
  | expr e =>
    rw [pvDiv] at h
    rcases ht : e.div x with _ | t' <;> rw [ht] at h <;> cases h
    exact good_sublist (by rw [(exprDiv_op _ _ _ ht).2]) ha

theorem distinct_pvDiv {a v : PVal} {x : PyNum} (h : pvDiv a x = .ok v) (ha : a.Distinct) : v.Distinct := by
  cases a with
  | num y => rw [pvDiv] at h; split_ifs at h; cases h; trivial
  | pauli p => rw [pvDiv] at h; split_ifs at h; cases h; trivial
  | term t =>
    rw [pvDiv] at h
    rcases ht : t.div x with _ | _ | t' <;> rw [ht] at h <;> cases h
    trivial
  | expr e =>
    rw [pvDiv] at h
    rcases ht : e.div x with _ | t' <;> rw [ht] at h <;> cases h
    show t'.words.Nodup; rw [(exprDiv_op _ _ _ ht).2]; exact ha

theorem distinct_pvPow {a v : PVal} {n : ℤ} (h : pvPow a n = .ok v) (ha : a.Distinct) : v.Distinct := by
  cases a with
  | num y => cases y <;> rw [pvPow] at h <;> split_ifs at h <;> cases h <;> trivial
  | pauli p => cases h
  | term t =>
    rw [pvPow] at h
    rcases ht : t.pow n with _ | t' <;> rw [ht] at h <;> cases h
    trivial
  | expr e =>
    rw [pvPow] at h
    rcases ht : e.pow n with _ | t' <;> rw [ht] at h <;> cases h
    exact exprPow_nodup _ _ _ ht ha

theorem good_pvPow {a v : PVal} {n : ℕ} (h : pvPow a n = .ok v) (ha : a.Good) (hn : kindOf a = .term → n ≤ 1) :
    v.Good := by
  cases a with
  | num y => cases y <;> rw [pvPow] at h <;> split_ifs at h <;> cases h <;> trivial
  | pauli p => cases h
  | term t =>
    rw [pvPow] at h
    rcases ht : t.pow n with _ | t' <;> rw [ht] at h <;> cases h
    have hn := hn rfl
    rw [PTerm.pow] at ht
    rcases (by omega : n = 0 ∨ n = 1) with rfl | rfl
    · simp at ht; subst ht; exact reduced_fromPauli _ _
    · simp [tupleRepeat] at ht; subst ht; exact ha
  | expr e =>
    rw [pvPow] at h
    rcases ht : e.pow n with _ | t' <;> rw [ht] at h <;> cases h
    exact good_pow ht ha

theorem distinct_pvMul {a b : PVal} (ha : a.Distinct) (hb : b.Distinct)
    (h1 : kindOf a = .expr → kindOf b = .num ∨ kindOf b = .expr)
    (h2 : kindOf b = .expr → kindOf a = .num ∨ kindOf a = .expr) : (pvMul a b).Distinct := by
  cases a <;> cases b <;> simp [kindOf] at h1 h2 <;> try trivial
  · exact List.Nodup.sublist (exprScale_sublist _ _) hb
  · exact List.Nodup.sublist (exprScale_sublist _ _) ha
  · exact exprMul_nodup _ _

end Blueqat
