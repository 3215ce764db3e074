import Verif.Spec.Diagonal
import Verif.Props.VqeRun
import Verif.Props.PauliCommute

/-!
# Diagonal Hamiltonians
-/

set_option linter.unusedSimpArgs false
set_option linter.unusedVariables false

namespace Blueqat

open Spec
open scoped ComplexConjugate

noncomputable section

theorem diagOp_apply (d : ℕ → ℂ) (ψ : Vec) (k : ℕ) : diagOp d ψ k = d k * ψ k := rfl

theorem diagOp_mul (c d : ℕ → ℂ) : diagOp c * diagOp d = diagOp (fun k => c k * d k) := by
  refine LinearMap.ext fun ψ => funext fun k => ?_
  simp [diagOp_apply, mul_assoc]

theorem diagOp_add (c d : ℕ → ℂ) : diagOp c + diagOp d = diagOp (fun k => c k + d k) := by
  refine LinearMap.ext fun ψ => funext fun k => ?_
  simp [diagOp_apply, add_mul]

theorem diagOp_sub (c d : ℕ → ℂ) : diagOp c - diagOp d = diagOp (fun k => c k - d k) := by
  refine LinearMap.ext fun ψ => funext fun k => ?_
  simp [diagOp_apply, sub_mul]

theorem diagOp_smul (z : ℂ) (d : ℕ → ℂ) : z • diagOp d = diagOp (fun k => z * d k) := by
  refine LinearMap.ext fun ψ => funext fun k => ?_
  simp [diagOp_apply, mul_assoc]

theorem diagOp_one : (1 : Operator) = diagOp (fun _ => 1) := by
  refine LinearMap.ext fun ψ => funext fun k => ?_
  simp [diagOp_apply]

theorem diagOp_zero : (0 : Operator) = diagOp (fun _ => 0) := by
  refine LinearMap.ext fun ψ => funext fun k => ?_
  simp [diagOp_apply]

theorem diagOp_inj {c d : ℕ → ℂ} (h : diagOp c = diagOp d) : c = d := by
  funext k
  have := congrFun (LinearMap.congr_fun h (fun _ => (1 : ℂ))) k
  simpa [diagOp_apply] using this

theorem diagOp_pow (d : ℕ → ℂ) (n : ℕ) : diagOp d ^ n = diagOp (fun k => d k ^ n) := by
  induction n with
  | zero => simp [diagOp_one]
  | succ n ih => rw [pow_succ, ih, diagOp_mul]; rfl

theorem diagOp_commute (c d : ℕ → ℂ) : diagOp c * diagOp d = diagOp d * diagOp c := by
  rw [diagOp_mul, diagOp_mul]; congr 1; funext k; ring

/-! ## Z words -/

/-- The value of `Z` on qubit `i` of the basis state `k`. -/
def zsign (k i : ℕ) : ℝ := if k.testBit i then -1 else 1

theorem opOp_Z (i : ℕ) : opOp ⟨.Z, i⟩ = diagOp (fun k => (zsign k i : ℂ)) := by
  refine LinearMap.ext fun ψ => funext fun k => ?_
  simp only [opOp, letterM, matAt_apply, app, mZ, diagOp_apply, zsign]
  split_ifs <;> simp

/-- The value of a product of `Z`s. -/
def zword (w : List POp) (k : ℕ) : ℝ := (w.map (fun o => zsign k o.n)).prod

theorem wordOp_Z (w : List POp) (h : ∀ o ∈ w, o.p = .Z) : wordOp w = diagOp (fun k => (zword w k : ℂ)) := by
  induction w with
  | nil => simp [wordOp_nil, zword, diagOp_one]
  | cons o w ih =>
    obtain ⟨p, i⟩ := o
    have hp : p = .Z := h ⟨p, i⟩ (by simp)
    subst hp
    rw [wordOp_cons, opOp_Z, ih (fun o ho => h o (by simp [ho])), diagOp_mul]
    congr 1; funext k; simp [zword]

theorem termOp_Z (t : PTerm) (h : ∀ o ∈ t.ops, o.p = .Z) : termOp t = diagOp (fun k => t.coeff * (zword t.ops k : ℂ)) := by
  rw [termOp, wordOp_Z _ h, diagOp_smul]

theorem diagOp_sum (ts : List PTerm) (f : PTerm → ℕ → ℂ) (h : ∀ t ∈ ts, termOp t = diagOp (f t)) :
    (ts.map termOp).sum = diagOp (fun k => (ts.map (fun t => f t k)).sum) := by
  induction ts with
  | nil => simp [diagOp_zero]
  | cons t ts ih =>
    rw [List.map_cons, List.sum_cons, h t (by simp), ih (fun s hs => h s (by simp [hs])), diagOp_add]
    congr 1

/-! ## Uniqueness of coefficients -/

theorem terms_zero (ts : List PTerm) (hw : (ts.map PTerm.ops).Nodup) (hn : ∀ t ∈ ts, NormalWord t.ops)
    (h : (ts.map termOp).sum = 0) : ∀ t ∈ ts, t.coeff = 0 := by
  intro t ht
  set d : PyDict (List POp) ℂ := ts.map (fun t => (t.ops, t.coeff)) with hd
  have e1 : d.map Prod.fst = ts.map PTerm.ops := by rw [hd, List.map_map]; rfl
  have hwf : d.WF := by rw [PyDict.WF, e1]; exact hw
  have hno : DictIn NormalWord d := by
    intro w hw
    rw [e1] at hw
    obtain ⟨s, hs, rfl⟩ := List.mem_map.1 hw
    exact hn s hs
  have hop : dictOp d = dictOp [] := by
    rw [dictOp_nil, ← h, dictOp, hd, List.map_map]; rfl
  have key := coef_ext hwf (by simp [PyDict.WF]) hno (by intro w hw; simp at hw) hop t.ops
  rw [coef, PyDict.get_of_mem hwf (v := t.coeff) (List.mem_map.2 ⟨t, ht, rfl⟩)] at key
  simpa [coef, PyDict.get] using key

theorem scaled_terms_zero (e : PExpr) (f : PTerm → ℂ)
    (h : (e.simplify.terms.map (fun t => f t • wordOp t.ops)).sum = 0) : ∀ t ∈ e.simplify.terms, f t = 0 := by
  intro t ht
  have := terms_zero (e.simplify.terms.map (fun t => ⟨t.ops, f t⟩)) (by
      rw [List.map_map]; exact exprSimplify_nodup e) (by
      intro s hs
      obtain ⟨r, hr, rfl⟩ := List.mem_map.1 hs
      exact exprSimplify_normal e r.ops (List.mem_map.2 ⟨r, hr, rfl⟩)) (by
      rw [List.map_map]; exact h) ⟨t.ops, f t⟩ (List.mem_map.2 ⟨t, ht, rfl⟩)
  exact this

/-- An operator that commutes with the letter `x` has only words that do so. -/
theorem commute_letters (e : PExpr) (x : POp) (h : opOp x * exprOp e = exprOp e * opOp x) :
    ∀ t ∈ e.simplify.terms, signW t.ops x = 1 := by
  intro t ht
  have hcomm : opOp x * exprOp e.simplify = exprOp e.simplify * opOp x := by
    rw [exprSimplify_op, h]
  have key := scaled_terms_zero e (fun t => (signW t.ops x - 1) * t.coeff) (by
    have e1 : ∀ ts : List PTerm, opOp x * (ts.map termOp).sum - (ts.map termOp).sum * opOp x =
        (ts.map (fun t => ((signW t.ops x - 1) * t.coeff) • wordOp t.ops)).sum * opOp x := by
      intro ts
      induction ts with
      | nil => simp
      | cons s ts ih =>
        simp only [List.map_cons, List.sum_cons, mul_add, add_mul]
        rw [← ih, termOp, mul_smul_comm, opOp_word, smul_mul_assoc, smul_mul_assoc, smul_smul]
        module
    have e2 := e1 e.simplify.terms
    rw [show (e.simplify.terms.map termOp).sum = exprOp e.simplify from rfl, hcomm, sub_self] at e2
    have e3 := congrArg (fun A => A * opOp x) e2
    simp only [mul_assoc, opOp_sq, mul_one, zero_mul] at e3
    exact e3.symm) t ht
  rcases mul_eq_zero.1 key with h | h
  · linear_combination h
  · exact absurd h (exprSimplify_coeff e t ht)

/-- The simplified form of a diagonal operator has only `Z` letters. -/
theorem diag_letters (e : PExpr) (d : ℕ → ℂ) (he : exprOp e = diagOp d) :
    ∀ t ∈ e.simplify.terms, ∀ o ∈ t.ops, o.p = .Z := by
  intro t ht o ho
  have hz : ∀ q, signW t.ops ⟨.Z, q⟩ = 1 := fun q =>
    commute_letters e ⟨.Z, q⟩ (by rw [he, opOp_Z, diagOp_commute]) t ht
  obtain ⟨p, q⟩ := o
  have hn : NormalWord t.ops := exprSimplify_normal e _ (List.mem_map_of_mem ht)
  have hs := signW_present hn ho .Z
  rw [hz q] at hs
  by_contra hp
  rw [if_neg (by simpa using Ne.symm hp)] at hs
  norm_num at hs

theorem diag_values (e : PExpr) (d : ℕ → ℂ) (he : exprOp e = diagOp d) (k : ℕ) :
    d k = (e.simplify.terms.map (fun t => t.coeff * (zword t.ops k : ℂ))).sum := by
  have h := diagOp_sum e.simplify.terms _ (fun t ht => termOp_Z t (diag_letters e d he t ht))
  rw [show (e.simplify.terms.map termOp).sum = exprOp e.simplify from rfl, exprSimplify_op, he] at h
  exact congrFun (diagOp_inj h) k

/-- The coefficients of a real cost function are real. -/
theorem diag_real (e : PExpr) (d : ℕ → ℝ) (he : exprOp e = costOp d) : ∀ t ∈ e.simplify.terms, t.coeff.im = 0 := by
  intro t ht
  have key := scaled_terms_zero e (fun t => t.coeff - conj t.coeff) (by
    have hl := diag_letters e _ he
    have e1 : ∀ ts : List PTerm, (∀ t ∈ ts, ∀ o ∈ t.ops, o.p = .Z) →
        (ts.map (fun t => (t.coeff - conj t.coeff) • wordOp t.ops)).sum =
        diagOp (fun k => (ts.map (fun t => t.coeff * (zword t.ops k : ℂ))).sum -
          conj (ts.map (fun t => t.coeff * (zword t.ops k : ℂ))).sum) := by
      intro ts hts
      induction ts with
      | nil => simp [diagOp_zero]
      | cons s ts ih =>
        simp only [List.map_cons, List.sum_cons]
        rw [ih (fun t ht => hts t (by simp [ht])), wordOp_Z _ (hts s (by simp)), diagOp_smul, diagOp_add]
        congr 1; funext k
        simp only [map_add, map_mul, Complex.conj_ofReal]
        ring
    rw [e1 _ hl, diagOp_zero]
    congr 1; funext k
    rw [← diag_values e _ he k, Complex.conj_ofReal, sub_self]) t ht
  have := congrArg Complex.im key
  simp at this
  linarith

/-- The terms of a diagonal operator commute. -/
theorem diag_commute (e : PExpr) (d : ℕ → ℂ) (he : exprOp e = diagOp d) : ∀ s ∈ e.simplify.terms, ∀ t ∈ e.simplify.terms,
    termOp s * termOp t = termOp t * termOp s := by
  intro s hs t ht
  rw [termOp_Z s (diag_letters e d he s hs), termOp_Z t (diag_letters e d he t ht), diagOp_commute]

theorem combinations2_mem {α : Type} (l : List α) : ∀ p ∈ combinations2 l, p.1 ∈ l ∧ p.2 ∈ l := by
  induction l with
  | nil => simp [combinations2]
  | cons x l ih =>
    intro p hp
    simp only [combinations2, List.mem_append, List.mem_map] at hp
    rcases hp with ⟨y, hy, rfl⟩ | hp
    · exact ⟨by simp, by simp [hy]⟩
    · exact ⟨by simp [(ih p hp).1], by simp [(ih p hp).2]⟩

theorem diag_accepted (e : PExpr) (d : ℕ → ℂ) (he : exprOp e = diagOp d) : e.simplify.isAllTermsCommutable = true := by
  rw [PExpr.isAllTermsCommutable, List.all_eq_true]
  intro p hp
  obtain ⟨h1, h2⟩ := combinations2_mem _ p hp
  refine C38_commuting _ _ _ (by norm_num) ?_
  rw [fromTerm_op, fromTerm_op]
  exact diag_commute e d he _ h1 _ h2

/-! ## Evolution -/

theorem costPhases_add (c d : ℕ → ℝ) (t : ℝ) : costPhases c t * costPhases d t = costPhases (fun k => c k + d k) t := by
  rw [costPhases, costPhases, diagOp_mul, costPhases]
  congr 1; funext k
  rw [← Complex.exp_add]; congr 1; push_cast; ring

/-- The evolution under a cost function is unique. -/
theorem evolution_cost (d : ℕ → ℝ) (U : ℝ → Operator) (hU : IsEvolution (costOp d) U) (t : ℝ) : U t = costPhases d t := by
  refine LinearMap.ext fun ψ => funext fun k => ?_
  have hd : ∀ s, HasDerivAt (fun s : ℝ => Complex.exp (-(Complex.I * (s * d k))) * U s ψ k) 0 s := by
    intro s
    have h1 : HasDerivAt (fun s : ℝ => Complex.exp (-(Complex.I * (s * d k))))
        (Complex.exp (-(Complex.I * (s * d k))) * (-(Complex.I * d k))) s := by
      have h0 : HasDerivAt (fun s : ℝ => (s : ℂ)) 1 s := Complex.ofRealCLM.hasDerivAt (x := s)
      have := (((h0.mul_const (d k : ℂ)).const_mul Complex.I).neg).cexp
      simpa using this
    refine (h1.mul (hU.deriv ψ k s)).congr_deriv ?_
    have : costOp d (U s ψ) k = d k * U s ψ k := rfl
    rw [this]
    ring
  have hc := is_const_of_deriv_eq_zero (fun s => (hd s).differentiableAt) (fun s => (hd s).deriv) t 0
  simp only [hU.start, Complex.ofReal_zero, zero_mul, mul_zero, neg_zero, Complex.exp_zero, one_mul, Module.End.one_apply] at hc
  show U t ψ k = Complex.exp (Complex.I * (t * d k)) * ψ k
  rw [← hc, ← mul_assoc, ← Complex.exp_add]
  simp

theorem evolutions_cost (Hs : List Operator) (ds : List (ℕ → ℝ)) (Us : List (ℝ → Operator))
    (h1 : Hs = ds.map costOp) (h2 : List.Forall₂ IsEvolution Hs Us) (t : ℝ) :
    inOrder (Us.map (fun V => V t)) = costPhases (fun k => (ds.map (fun d => d k)).sum) t := by
  induction h2 generalizing ds with
  | nil =>
    have : ds = [] := by simpa using h1.symm
    subst this
    simp [inOrder, costPhases, diagOp_one]
  | cons hU _ ih =>
    cases ds with
    | nil => simp at h1
    | cons d ds =>
      simp only [List.map_cons, List.cons.injEq] at h1
      obtain ⟨e1, e2⟩ := h1
      subst e1
      rw [List.map_cons, inOrder, ih ds e2, evolution_cost d _ hU, costPhases_add]
      congr 1; funext k; simp [add_comm]

theorem productEvolution_cost (e : PExpr) (d : ℕ → ℝ) (he : exprOp e = costOp d) (U : ℝ → Operator)
    (hU : IsProductEvolution (e.simplify.terms.map termOp) U) (t : ℝ) : U t = costPhases d t := by
  obtain ⟨Us, h1, h2⟩ := hU
  have hl := diag_letters e _ he
  have hr := diag_real e d he
  rw [h2, evolutions_cost _ (e.simplify.terms.map (fun s k => s.coeff.re * zword s.ops k)) Us (by
    rw [List.map_map]
    refine List.map_congr_left fun s hs => ?_
    rw [termOp_Z s (hl s hs)]
    show _ = costOp (fun k => s.coeff.re * zword s.ops k)
    rw [costOp]
    congr 1; funext k
    have : s.coeff = (s.coeff.re : ℂ) := Complex.ext rfl (by simpa using hr s hs)
    rw [Complex.ofReal_mul, ← this]) h1]
  congr 1; funext k
  have := congrArg Complex.re (diag_values e _ he k)
  rw [Complex.ofReal_re] at this
  rw [this, List.map_map]
  clear this h1 h2
  generalize e.simplify.terms = ts
  induction ts with
  | nil => simp
  | cons s ts ih =>
    simp only [List.map_cons, List.sum_cons, Complex.add_re, ← ih, Function.comp]
    simp

theorem expectation_cost (n : ℕ) (d : ℕ → ℝ) (ψ : Vec) : (expectation n (costOp d) ψ).re = meanCost n d ψ := by
  rw [expectation, Complex.re_sum, meanCost]
  refine Finset.sum_congr rfl fun k _ => ?_
  have : conj (ψ k) * costOp d ψ k = ((‖ψ k‖ ^ 2 * d k : ℝ) : ℂ) := by
    show conj (ψ k) * ((d k : ℂ) * ψ k) = _
    have : conj (ψ k) * ψ k = ((‖ψ k‖ ^ 2 : ℝ) : ℂ) := by
      rw [mul_comm, Complex.mul_conj, Complex.normSq_eq_norm_sq]
    push_cast at this ⊢
    linear_combination (d k : ℂ) * this
  rw [this, Complex.ofReal_re]

theorem zword_high (w : List POp) (n : ℕ) (hw : ∀ o ∈ w, o.n < n) (j k : ℕ) (h : ∀ i < n, j.testBit i = k.testBit i) :
    zword w j = zword w k := by
  rw [zword, zword]
  congr 1
  refine List.map_congr_left fun o ho => ?_
  rw [zsign, zsign, h _ (hw o ho)]

/-- A cost function depends only on the qubits of its simplified form. -/
theorem cost_high (e : PExpr) (d : ℕ → ℝ) (he : exprOp e = costOp d) (j k : ℕ)
    (h : ∀ i < e.simplify.nQubits, j.testBit i = k.testBit i) : d j = d k := by
  have h1 := diag_values e _ he j
  have h2 := diag_values e _ he k
  have : (d j : ℂ) = d k := by
    rw [h1, h2]
    congr 1
    refine List.map_congr_left fun t ht => ?_
    rw [zword_high t.ops _ (expr_nQubits _ t ht) j k h]
  exact_mod_cast this

/-- A cost function that does not depend on a qubit has no letter on it. -/
theorem cost_low (e : PExpr) (d : ℕ → ℝ) (he : exprOp e = costOp d) (q : ℕ) (hq : ∀ k, d (flipBit q k) = d k) :
    ∀ t ∈ e.simplify.terms, ∀ o ∈ t.ops, o.n ≠ q := by
  intro t ht o ho hoq
  have hs := commute_letters e ⟨.X, q⟩ (by
    rw [he]
    refine LinearMap.ext fun ψ => funext fun k => ?_
    show opOp ⟨.X, q⟩ (costOp d ψ) k = costOp d (opOp ⟨.X, q⟩ ψ) k
    simp only [opOp, letterM, matAt_apply, app, mX, costOp, diagOp_apply, hq]
    split_ifs <;> ring) t ht
  have hn : NormalWord t.ops := exprSimplify_normal e _ (List.mem_map_of_mem ht)
  have hp := diag_letters e _ he t ht o ho
  obtain ⟨p, i⟩ := o
  subst hoq
  subst hp
  have h2 := signW_present hn ho .X
  rw [hs, if_neg (by simp)] at h2
  norm_num at h2

end

end Blueqat
