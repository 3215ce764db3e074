import Verif.PauliAlgFloatLemmas
import Verif.Props.PauliFloat
import Verif.Props.Pauli

/-!
# Property C102: arithmetic with Pauli operators in floating point
-/

set_option linter.unusedSimpArgs false
set_option linter.unusedVariables false

namespace Blueqat

open Spec

noncomputable section

/-! ## Exact arithmetic -/

theorem flAddStep_exact : flAddStep .exact = addStep := rfl

theorem flSubStep_exact : flSubStep .exact = subStep := by
  funext d t
  simp only [flSubStep, subStep, PauliOps.exact, sub_eq_add_neg]
  cases d.get t.ops <;> rfl

theorem flPvMul_exact (a b : PVal) : flPvMul .exact a b = pvMul a b := by
  cases a <;> cases b <;> try rfl
  rename_i x y
  cases x <;> cases y <;> simp [flPvMul, pvMul, PyNum.flLift, PyNum.lift, PauliOps.exact]

theorem flPvAdd_exact (a b : PVal) : flPvAdd .exact a b = pvAdd a b := by
  cases a <;> cases b <;> try exact congrArg PVal.expr rfl
  rename_i x y
  cases x <;> cases y <;> simp [flPvAdd, pvAdd, PyNum.flLift, PyNum.lift, PauliOps.exact]

theorem flPvSub_exact (a b : PVal) : flPvSub .exact a b = pvSub a b := by
  have key : ∀ a b : PExpr, a.flSub .exact b = a.sub b := fun a b => by rw [PExpr.flSub, PExpr.sub, flSubStep_exact]
  cases a <;> cases b <;> simp only [flPvSub, pvSub, key]
  rename_i x y
  cases x <;> cases y <;> simp [PyNum.flLift, PyNum.lift, PauliOps.exact, sub_eq_add_neg]

theorem flTermDiv_exact (t : PTerm) (x : PyNum) : t.flDiv .exact x = t.div x := by
  cases x <;> rfl

theorem flDivTerms_exact (x : PyNum) (ts : List PTerm) : flDivTerms .exact x ts = divTerms x ts := by
  induction ts with
  | nil => rfl
  | cons t ts ih => rw [flDivTerms, divTerms, flTermDiv_exact, ih]; rfl

theorem flPvDiv_exact (a : PVal) (x : PyNum) : flPvDiv .exact a x = pvDiv a x := by
  cases a with
  | num y =>
    cases x <;> cases y <;> simp [flPvDiv, pvDiv, PyNum.flLift, PyNum.lift, AlgOps.exact]
  | pauli p => rfl
  | term t => rw [flPvDiv, pvDiv, flTermDiv_exact]; rfl
  | expr e => rw [flPvDiv, pvDiv, PExpr.flDiv, PExpr.div, flDivTerms_exact]; rfl

theorem flPowLoop_exact (a : PExpr) : ∀ (k : ℕ) (v : PExpr), a.flPowLoop .exact k v = a.powLoop k v
  | 0, v => rfl
  | k + 1, v => by rw [PExpr.flPowLoop, PExpr.powLoop, flPowLoop_exact a k]; rfl

theorem flPvPow_exact (a : PVal) (n : ℤ) : flPvPow .exact a n = pvPow a n := by
  cases a with
  | num y =>
    cases y
    · simp only [flPvPow, pvPow, AlgOps.exact]
      rw [← Complex.ofReal_zpow, Complex.ofReal_re]
    · rfl
  | pauli p => rfl
  | term t =>
    rw [flPvPow, pvPow, PTerm.flPow, PTerm.pow]
    by_cases h : n < 0
    · rw [if_pos h, if_pos h]
    · rw [if_neg h, if_neg h]
      obtain ⟨k, rfl⟩ := Int.eq_ofNat_of_zero_le (not_lt.1 h)
      simp only [AlgOps.exact, zpow_natCast, Int.toNat_natCast]
      rfl
  | expr e => rw [flPvPow, pvPow, PExpr.flPow, PExpr.pow, show AlgOps.exact.toPauliOps = .exact from rfl, flPowLoop_exact]; rfl

theorem exactOps : AlgOps.exact.toPauliOps = .exact := rfl

/-- C102. In exact arithmetic these are the values of `C33`. -/
theorem C102_exact (t : Formula) : t.flPy .exact = t.py := by
  induction t with
  | num x => rfl
  | pauli p => rfl
  | neg a ih => rw [Formula.flPy, Formula.py, ih]
  | add a b iha ihb => simp only [Formula.flPy, Formula.py, iha, ihb, exactOps, flPvAdd_exact]
  | sub a b iha ihb => simp only [Formula.flPy, Formula.py, iha, ihb, exactOps, flPvSub_exact]
  | mul a b iha ihb => simp only [Formula.flPy, Formula.py, iha, ihb, exactOps, flPvMul_exact]
  | div a x ih => simp only [Formula.flPy, Formula.py, ih, flPvDiv_exact]
  | pow a n ih => simp only [Formula.flPy, Formula.py, ih, flPvPow_exact]

/-! ## Double precision -/

/-- C102. Arithmetic which rounds with a relative error of `u` after every operation on floats is accurate to `4u`. -/
theorem C102_doubles (fl : ℝ → ℝ) (u : ℝ) (hu : 0 ≤ u) (hu4 : u ≤ 1 / 4) (hfl : RoundsTo fl u) :
    AlgAccurate (.rounded fl) (4 * u) := by
  have hP := (C98_doubles fl u hu hu4 hfl 0).1
  have hd : (0 : ℝ) ≤ 4 * u := by linarith
  have up : ∀ x : ℝ, |fl x - x| ≤ 4 * u * |x| := fun x =>
    (hfl x).trans (mul_le_mul_of_nonneg_right (by linarith) (abs_nonneg _))
  refine ⟨hP, fun a b => norm_comp_le (up _) (up _) hd, fun a n => ?_⟩
  have e0 : (AlgOps.rounded fl).pow a n = (List.replicate n a).foldl (PauliOps.rounded fl).mul 1 := by
    simp only [AlgOps.rounded, if_pos (Int.natCast_nonneg n), Int.natAbs_natCast]
  rw [e0]
  clear e0
  induction n with
  | zero => simp
  | succ n ih =>
    rw [List.replicate_succ', List.foldl_append, List.foldl_cons, List.foldl_nil]
    generalize (List.replicate n a).foldl (PauliOps.rounded fl).mul 1 = r at ih
    have h1 := hP.mul r a
    have hr : ‖r‖ ≤ (1 + 4 * u) ^ n * ‖a ^ n‖ := by
      have := norm_add_le (r - a ^ n) (a ^ n)
      rw [sub_add_cancel] at this
      linarith
    have e : (PauliOps.rounded fl).mul r a - a ^ (n + 1) = ((PauliOps.rounded fl).mul r a - r * a) + (r - a ^ n) * a := by ring
    rw [e]
    refine (norm_add_le _ _).trans ?_
    rw [norm_mul, pow_succ a, norm_mul, pow_succ (1 + 4 * u)]
    rw [norm_mul] at h1
    have ha := norm_nonneg a
    have h2 := mul_le_mul_of_nonneg_right ih ha
    have h3 := mul_le_mul_of_nonneg_right (mul_le_mul_of_nonneg_left hr hd) ha
    nlinarith

/-! ## Formulas -/

/-- C102. The value of a formula of numbers and Pauli operators in floating point: the operators it denotes and the operator of
the formula differ by Pauli products whose coefficients add up to at most `(1 + δ)^k - 1` times the value of the formula with all
numbers made positive, where `k` is the number of roundings. The formulas are those of `C33_arithmetic_partial`; for others
the exact value is already wrong. -/
theorem C102_formula (Q : AlgOps) (δ : ℝ) (hQ : AlgAccurate Q δ) (hδ : 0 ≤ δ) (t : Formula)
    (ht : t.NoTermPower ∨ t.NoMixedProduct) (v : PVal) (h : t.flPy Q = .ok v) :
    SizeLe (valOp v - t.op) (((1 + δ) ^ t.roundings - 1) * t.size) ∧
    ∀ i j, ‖(valOp v - t.op) (basis j) i‖ ≤ ((1 + δ) ^ t.roundings - 1) * t.size := by
  have hc : CleanSums Q t := ht.elim (clean_of_noTermPower Q t) (clean_of_noMixedProduct Q t)
  have := (flPy_near hQ hδ t hc v h).1.near
  rw [sumOp_termsOf] at this
  exact ⟨this, this.entry⟩

/-- C102. Python has as many terms as the formula multiplied out, at most. -/
theorem C102_terms (Q : AlgOps) (δ : ℝ) (hQ : AlgAccurate Q δ) (hδ : 0 ≤ δ) (t : Formula)
    (ht : t.NoTermPower ∨ t.NoMixedProduct) (e : PExpr) (h : t.flPy Q = .ok (.expr e)) : e.terms.length ≤ t.terms :=
  (flPy_near hQ hδ t (ht.elim (clean_of_noTermPower Q t) (clean_of_noMixedProduct Q t)) _ h).2

theorem flDivTerms_real (Q : AlgOps) (r : ℝ) (hr : r ≠ 0) : ∀ ts, ∃ us, flDivTerms Q (.real r) ts = .ok us
  | [] => ⟨[], rfl⟩
  | t :: ts => by
    obtain ⟨us, hu⟩ := flDivTerms_real Q r hr ts
    exact ⟨_, by rw [flDivTerms, PTerm.flDiv, if_neg hr]; simp only [hu]; rfl⟩

/-- C102. Rounding does not make Python refuse a formula: it accepts the same ones as in exact arithmetic (`C33_defined`). -/
theorem C102_defined (Q : AlgOps) (t : Formula) (ht : t.Accepted) : ∃ v, t.flPy Q = .ok v := by
  induction t with
  | num x => exact ⟨_, rfl⟩
  | pauli p => exact ⟨_, rfl⟩
  | neg a ih => obtain ⟨v, hv⟩ := ih ht; exact ⟨pvNeg v, by rw [Formula.flPy, hv]; rfl⟩
  | add a b iha ihb =>
    obtain ⟨v, hv⟩ := iha ht.1; obtain ⟨w, hw⟩ := ihb ht.2; exact ⟨_, by rw [Formula.flPy, hv, hw]; rfl⟩
  | sub a b iha ihb =>
    obtain ⟨v, hv⟩ := iha ht.1; obtain ⟨w, hw⟩ := ihb ht.2; exact ⟨_, by rw [Formula.flPy, hv, hw]; rfl⟩
  | mul a b iha ihb =>
    obtain ⟨v, hv⟩ := iha ht.1; obtain ⟨w, hw⟩ := ihb ht.2; exact ⟨_, by rw [Formula.flPy, hv, hw]; rfl⟩
  | div a x ih =>
    obtain ⟨v, hv⟩ := ih ht.1
    have hk := kind_flPy Q a v hv
    have hx := ht.2.1
    have hr := ht.2.2
    rw [← hk] at hr
    rw [Formula.flPy, hv]
    show ∃ w, flPvDiv Q v x = .ok w
    cases v with
    | num y => exact ⟨_, by rw [flPvDiv, if_neg hx]⟩
    | pauli p => exact ⟨_, by rw [flPvDiv, if_neg hx]⟩
    | term t =>
      obtain ⟨r, rfl⟩ := hr (Or.inl rfl)
      have : r ≠ 0 := by rintro rfl; exact hx (by simp [PyNum.val])
      exact ⟨_, by simp only [flPvDiv, PTerm.flDiv, if_neg this]; rfl⟩
    | expr e =>
      obtain ⟨r, rfl⟩ := hr (Or.inr rfl)
      have : r ≠ 0 := by rintro rfl; exact hx (by simp [PyNum.val])
      obtain ⟨us, hu⟩ := flDivTerms_real Q r this e.terms
      exact ⟨_, by simp only [flPvDiv, PExpr.flDiv, if_pos hx, hu]; rfl⟩
  | pow a n ih =>
    obtain ⟨v, hv⟩ := ih ht.1
    have hk := kind_flPy Q a v hv
    have hp := ht.2
    rw [← hk] at hp
    rw [Formula.flPy, hv]
    show ∃ w, flPvPow Q v n = .ok w
    cases v with
    | num y =>
      cases y with
      | real x => exact ⟨_, by rw [flPvPow, if_neg (by omega)]⟩
      | cplx z => exact ⟨_, by rw [flPvPow, if_neg (by omega)]⟩
    | pauli p => exact absurd rfl hp
    | term t =>
      by_cases h0 : (n : ℤ) = 0
      · exact ⟨_, by simp only [flPvPow, PTerm.flPow]; rw [if_neg (by omega), if_pos h0]⟩
      · exact ⟨_, by simp only [flPvPow, PTerm.flPow]; rw [if_neg (by omega), if_neg h0]⟩
    | expr e =>
      by_cases h0 : (n : ℤ) = 0
      · exact ⟨_, by simp only [flPvPow, PExpr.flPow]; rw [if_neg (by omega), if_pos h0]⟩
      · exact ⟨_, by simp only [flPvPow, PExpr.flPow]; rw [if_neg (by omega), if_neg h0]⟩

/-! ## Witnesses -/

/-- `(X[0] + 0.5)**2 * Z[1] - Y[0] / 2` in double precision: 12 terms at most, all entries of the matrix accurate to `10^-14`. -/
theorem pauli_alg_doubles (fl : ℝ → ℝ) (hfl : RoundsTo fl (1 / 2 ^ 53)) :
    let t : Formula := .sub (.mul (.pow (.add (.pauli (.op ⟨.X, 0⟩)) (.num (.real 0.5))) 2) (.pauli (.op ⟨.Z, 1⟩)))
      (.div (.pauli (.op ⟨.Y, 0⟩)) (.real 2))
    ∃ v, t.flPy (.rounded fl) = .ok v ∧ ∀ i j, ‖(valOp v - t.op) (basis j) i‖ ≤ 1 / 10 ^ 13 := by
  intro t
  obtain ⟨v, hv⟩ := C102_defined (.rounded fl) t (by simp [t, Formula.Accepted, Formula.kind, PyNum.val])
  have hQ := C102_doubles fl (1 / 2 ^ 53) (by norm_num) (by norm_num) hfl
  refine ⟨v, hv, fun i j => ((C102_formula _ _ hQ (by norm_num) t (Or.inl (by simp [t, Formula.NoTermPower, Formula.kind])) v hv).2
    i j).trans ?_⟩
  have hs : t.size = 2.75 := by
    simp only [t, Formula.size, PyNum.val]
    norm_num
  have hr : t.roundings = 18 := by
    simp [t, Formula.roundings, Formula.terms]
  rw [hs, hr]
  norm_num

/-- C102. Rounded coefficients need not cancel: for every `u > 0` there is a rounding with relative error `u` for which
`1*X[0] + 2*X[0] - 3*X[0]`, which is zero, is an expression with a term. -/
theorem C102_residue (u : ℝ) (hu : 0 < u) : ∃ fl, RoundsTo fl u ∧ ∃ (t : Formula) (e : PExpr),
    t.op = 0 ∧ t.flPy (.rounded fl) = .ok (.expr e) ∧ e.terms ≠ [] := by
  let fl : ℝ → ℝ := fun x => if x = 3 then 3 * (1 + u) else x
  have hfl : RoundsTo fl u := by
    intro x
    simp only [fl]
    split_ifs with h
    · rw [h, show 3 * (1 + u) - 3 = u * 3 by ring, abs_mul, abs_of_pos hu]
    · rw [sub_self, abs_zero]; positivity
  let P := PauliOps.rounded fl
  have h1 : P.add 1 2 = ((3 * (1 + u) : ℝ) : ℂ) := by
    apply Complex.ext <;> simp [P, PauliOps.rounded, FloatOps.rounded, fl] <;> norm_num
  have h2 : P.add 1 2 ≠ 0 := by
    rw [h1]
    exact_mod_cast (by positivity : 3 * (1 + u) ≠ 0)
  have h3 : P.add (P.add 1 2) (-3) ≠ 0 := by
    intro h
    have := congrArg Complex.re h
    rw [h1] at this
    simp [P, PauliOps.rounded, FloatOps.rounded, fl] at this
    split_ifs at this <;> linarith
  let X : Formula := .pauli (.op ⟨.X, 0⟩)
  refine ⟨fl, hfl, .sub (.add (.mul (.num (.real 1)) X) (.mul (.num (.real 2)) X)) (.mul (.num (.real 3)) X),
    ⟨[⟨[⟨.X, 0⟩], P.add (P.add 1 2) (-3)⟩]⟩, ?_, ?_, by simp⟩
  · simp only [Formula.op, X, PyNum.val, smul_mul_assoc, one_mul]
    push_cast
    module
  · have e : (AlgOps.rounded fl).toPauliOps = P := rfl
    simp only [Formula.flPy, X, bind, Except.bind, e]
    simp [flPvMul, flPvAdd, flPvSub, PVal.toExpr, PTerm.fromPauli, PyNum.val, PExpr.flAdd, PExpr.flSub, PExpr.fromTerm,
      PExpr.termsToDict, PyDict.set, flAddStep, flSubStep, PyDict.get, PExpr.fromTermsDict, h2, h3]

example : AlgAccurate (.rounded roundDouble) (4 * (1 / 2 ^ 53)) := C102_doubles _ _ (by norm_num) (by norm_num) roundDouble_rounds

/-- C102. In double precision, `X[0] + e*X[0] - X[0] - e*X[0]` with `e = 2**-54` is `-e*X[0]` instead of zero. -/
theorem C102_residue_double :
    let X : Formula := .pauli (.op ⟨.X, 0⟩)
    let e : Formula := .num (.real (1 / 2 ^ 54))
    let t : Formula := .sub (.sub (.add X (.mul e X)) X) (.mul e X)
    t.op = 0 ∧ t.flPy (.rounded roundDouble) = .ok (.expr ⟨[⟨[⟨.X, 0⟩], -((1 / 2 ^ 54 : ℝ) : ℂ)⟩]⟩) := by
  intro X e t
  have h0 := roundDouble_zero
  have r1 : roundDouble (1 + 1 / 2 ^ 54) = 1 := by
    rw [roundDouble_eq (2 ^ 52) (-52)] <;> norm_num [zpow_neg, abs_lt]
  let P := PauliOps.rounded roundDouble
  have h1 : P.add 1 ((1 / 2 ^ 54 : ℝ) : ℂ) = 1 := by
    apply Complex.ext <;> simp only [P, PauliOps.rounded, FloatOps.rounded, Complex.one_re, Complex.one_im, Complex.ofReal_re,
      Complex.ofReal_im, add_zero, h0, r1]
  have h2 : P.add 1 (-1) = 0 := by
    apply Complex.ext <;> simp [P, PauliOps.rounded, FloatOps.rounded, h0]
  have he : ((1 / 2 ^ 54 : ℝ) : ℂ) ≠ 0 := by exact_mod_cast (by positivity : (1 / 2 ^ 54 : ℝ) ≠ 0)
  constructor
  · simp only [Formula.op, t, X, e, PyNum.val, smul_mul_assoc, one_mul]
    module
  · have ep : (AlgOps.rounded roundDouble).toPauliOps = P := rfl
    simp only [Formula.flPy, t, X, e, bind, Except.bind, ep]
    generalize ((1 / 2 ^ 54 : ℝ)) = c at h1 he
    simp [flPvMul, flPvAdd, flPvSub, PVal.toExpr, PTerm.fromPauli, Pauli.toTerm, Pauli.toExpr, PyNum.val, PExpr.flAdd, PExpr.flSub, PExpr.fromTerm,
      PExpr.termsToDict, PyDict.set, PyDict.del, flAddStep, flSubStep, PyDict.get, PExpr.fromTermsDict, h1, h2, he]

end

end Blueqat
