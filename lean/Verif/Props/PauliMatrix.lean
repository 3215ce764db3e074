import Verif.PauliMatrixRefine

/-!
# Properties C36, C37: matrices of Pauli terms and expressions
-/

set_option linter.unusedSimpArgs false
set_option linter.unusedVariables false

namespace Blueqat

open Spec

noncomputable section

/-! ## C37 -/

/-- C37. `_kron_1d_rec(krons, cumsum, 0, len(krons))` of a non-empty list of non-empty vectors is the Kronecker product
from left to right, found with a recursion at most as deep as the list is long. -/
theorem C37_kron (v : List ℂ) (vs : List (List ℂ)) (h : ∀ w ∈ v :: vs, w ≠ []) :
    kron1dRec (v :: vs) (cumsumFrom 0 ((v :: vs).map List.length)) (v :: vs).length 0 (v :: vs).length =
      .ok (kronAll v vs) := by
  rw [kron1dRec_all _ (by simp) h _ le_rfl, kronAll_eq]

/-- C37. The same for every part `krons[lo:hi]`, with the sums over the whole list. -/
theorem C37_part (krons : List (List ℂ)) (h : ∀ w ∈ krons, w ≠ []) (lo hi : ℕ) (hl : lo < hi)
    (hh : hi ≤ krons.length) (v : List ℂ) (vs : List (List ℂ)) (hs : (krons.drop lo).take (hi - lo) = v :: vs) :
    kron1dRec krons (cumsumFrom 0 (krons.map List.length)) (hi - lo) lo hi = .ok (kronAll v vs) := by
  rw [kron1dRec_ok krons _ h (by simp [length_cumsumFrom]) (fun i j hij hj => cumsumFrom_mono _ _ _ _ hij
    (by simpa [length_cumsumFrom] using hj)) _ lo hi hl hh le_rfl, sliceOf, hs, kronAll_eq]

example : ∃ l : List (List ℂ), l.length = 3 ∧ (∀ w ∈ l, w ≠ []) ∧ kron1dRec l [4, 6, 8] 3 0 3 =
    .ok [1, -1, -1, 1, 1, -1, -1, 1, 1, -1, -1, 1, 1, -1, -1, 1] := by
  refine ⟨[[1, 1, 1, 1], [1, -1], [1, -1]], rfl, by simp, ?_⟩
  have := C37_kron [1, 1, 1, 1] [[1, -1], [1, -1]] (by simp)
  simp only [List.map_cons, List.map_nil, cumsumFrom, List.length_cons, List.length_nil] at this
  norm_num at this
  rw [this]
  simp [kronAll, kron]

/-! ## C36 -/

/-- C36. `Term.to_matrix` on at least as many qubits as the term has is, in every format, the matrix of the term. -/
theorem C36_term (t : PTerm) (n : ℕ) (h : ∀ o ∈ t.ops, o.n < n) (f : SparseArg) (hf : f ≠ .other) :
    t.toMatrix n f = .ok ⟨f, opRows n (termOp t)⟩ := by
  refine termToMatrix_ok t n ?_ f hf
  rw [PTerm.nQubits]
  suffices ∀ (l : List POp) m, m ≤ n → (∀ o ∈ l, o.n < n) → l.foldl (fun m o => max m (o.n + 1)) m ≤ n from
    this t.ops 0 (Nat.zero_le _) h
  intro l
  induction l with
  | nil => intro m hm _; exact hm
  | cons x l ih =>
    intro m hm hl
    exact ih _ (max_le hm (hl x (by simp))) (fun o ho => hl o (List.mem_cons_of_mem _ ho))

/-- C36. Without `n_qubits`, the number of qubits is the largest qubit of the term plus one. -/
theorem C36_term_default (t : PTerm) (f : SparseArg) (hf : f ≠ .other) :
    t.toMatrix (-1) f = .ok ⟨f, opRows t.nQubits (termOp t)⟩ ∧ (∀ o ∈ t.ops, o.n < t.nQubits) ∧
    (t.nQubits = 0 ∨ ∃ o ∈ t.ops, o.n + 1 = t.nQubits) := by
  refine ⟨by rw [termToMatrix_default, termToMatrix_ok t _ le_rfl f hf], term_nQubits t, ?_⟩
  rw [PTerm.nQubits]
  suffices ∀ (l : List POp) m, l.foldl (fun m o => max m (o.n + 1)) m = m ∨
      ∃ o ∈ l, o.n + 1 = l.foldl (fun m o => max m (o.n + 1)) m from this t.ops 0
  intro l
  induction l with
  | nil => intro m; left; rfl
  | cons x l ih =>
    intro m
    rw [List.foldl_cons]
    rcases ih (max m (x.n + 1)) with h | ⟨o, ho, h⟩
    · rw [h]
      rcases le_total m (x.n + 1) with h' | h'
      · right; exact ⟨x, by simp, (max_eq_right h').symm⟩
      · left; exact max_eq_left h'
    · right; exact ⟨o, by simp [ho], h⟩

/-- C36. `X[n].to_matrix` and its kin, the identity included. -/
theorem C36_pauli (p : Pauli) (n : ℕ) (h : ∀ o, p = .op o → o.n < n) (f : SparseArg) (hf : f ≠ .other) :
    p.toMatrix n f = .ok ⟨f, opRows n (pauliOp p)⟩ := by
  rw [Pauli.toMatrix, C36_term _ n ?_ f hf, toTerm_op]
  intro o ho
  cases p with
  | I => simp [Pauli.toTerm, PTerm.fromPauli] at ho
  | op o' => simp [Pauli.toTerm, PTerm.fromPauli] at ho; subst ho; exact h _ rfl

/-- C36. The `matrix` attribute is the matrix of the operator moved to qubit 0. -/
theorem C36_matrix (p : PLetter) (n : ℕ) :
    Pauli.matrix (.op ⟨p, n⟩) = opRows 1 (opOp ⟨p, 0⟩) ∧ Pauli.matrix .I = opRows 1 1 := by
  constructor
  · cases p <;>
      simp [Pauli.matrix, opRows, opOp, matAt, letterM, app, mX, mY, mZ, basis, flipBit, List.range_succ]
  · simp [Pauli.matrix, opRows, basis, List.range_succ]

/-- C36 (partial). `Expr.to_matrix` of a non-zero expression, or on no qubits, is in every format the matrix of the
expression, whatever the memory of `np.empty` contains. Missing: zero expressions, for which the code raises, see
`C36_zero_refuted`. -/
theorem C36_expr_partial (jv : ℕ → ℂ) (ji : ℕ → ℕ) (e : PExpr) (n : ℕ) (h : ∀ t ∈ e.terms, ∀ o ∈ t.ops, o.n < n)
    (hz : n = 0 ∨ exprOp e ≠ 0) (f : SparseArg) (hf : f ≠ .other) :
    e.toMatrix jv ji n f = .ok ⟨f, opRows n (exprOp e)⟩ := by
  refine exprToMatrix_ok jv ji e n ?_ hz f hf
  rw [PExpr.nQubits]
  have ht : ∀ t ∈ e.terms, t.nQubits ≤ n := by
    intro t ht
    rcases (C36_term_default t .none (by simp)).2.2 with h0 | ⟨o, ho, e'⟩
    · omega
    · have := h t ht o ho; omega
  suffices ∀ (l : List PTerm) m, m ≤ n → (∀ t ∈ l, t.nQubits ≤ n) → l.foldl (fun m t => max m t.nQubits) m ≤ n from
    this _ 0 (Nat.zero_le _) (fun t hm => ht t (List.mem_of_mem_filter hm))
  intro l
  induction l with
  | nil => intro m hm _; exact hm
  | cons x l ih =>
    intro m hm hl
    exact ih _ (max_le hm (hl x (by simp))) (fun o ho => hl o (List.mem_cons_of_mem _ ho))

/-- C36 (partial). Without `n_qubits`, for a non-zero expression. -/
theorem C36_expr_default_partial (jv : ℕ → ℂ) (ji : ℕ → ℕ) (e : PExpr) (hz : exprOp e ≠ 0) (f : SparseArg)
    (hf : f ≠ .other) :
    e.toMatrix jv ji (-1) f = .ok ⟨f, opRows e.nQubits (exprOp e)⟩ ∧
    ∀ t ∈ e.terms, ∀ o ∈ t.ops, o.n < e.nQubits :=
  ⟨by rw [exprToMatrix_default, exprToMatrix_ok jv ji e _ le_rfl (Or.inr hz) f hf], expr_nQubits e⟩

/-- C36 is false for a zero expression on one qubit or more: `np.arange` gets the step 0. `(X[0]*Y[0] + Y[0]*X[0])` is
such an expression even without `n_qubits`. -/
theorem C36_zero_refuted :
    (∀ jv ji (e : PExpr) (n : ℕ), 0 < n → exprOp e = 0 → ∀ f : SparseArg, f ≠ .other →
      e.toMatrix jv ji n f = .error .zeroDivisionError) ∧
    ∃ e : PExpr, e = PExpr.add ⟨[⟨[⟨.X, 0⟩, ⟨.Y, 0⟩], 1⟩]⟩ ⟨[⟨[⟨.Y, 0⟩, ⟨.X, 0⟩], 1⟩]⟩ ∧ exprOp e = 0 ∧ e.nQubits = 1 ∧
      ∀ jv ji f, f ≠ .other → e.toMatrix jv ji (-1) f = .error .zeroDivisionError := by
  refine ⟨fun jv ji e n hn hz f hf => exprToMatrix_zero jv ji e n hn hz f hf, _, rfl, ?_⟩
  have h0 : exprOp (PExpr.add ⟨[⟨[⟨.X, 0⟩, ⟨.Y, 0⟩], 1⟩]⟩ ⟨[⟨[⟨.Y, 0⟩, ⟨.X, 0⟩], 1⟩]⟩) = 0 := by
    rw [exprAdd_op _ _ (by simp [PExpr.words])]
    have h1 := opOp_anti ⟨.X, 0⟩ ⟨.Y, 0⟩
    rw [show sign1 ⟨.X, 0⟩ ⟨.Y, 0⟩ = -1 by simp [sign1]] at h1
    simp only [exprOp, termOp, List.map_cons, List.map_nil, List.sum_cons, List.sum_nil, wordOp_cons, wordOp_nil,
      mul_one, h1]
    module
  have h1 : (PExpr.add ⟨[⟨[⟨.X, 0⟩, ⟨.Y, 0⟩], 1⟩]⟩ ⟨[⟨[⟨.Y, 0⟩, ⟨.X, 0⟩], 1⟩]⟩).nQubits = 1 := by
    simp [PExpr.add, PExpr.termsToDict, PyDict.set, PyDict.get, addStep, PExpr.fromTermsDict, PExpr.nQubits, PTerm.nQubits]
  refine ⟨h0, h1, fun jv ji f hf => ?_⟩
  rw [exprToMatrix_default, h1]
  exact exprToMatrix_zero jv ji _ 1 one_pos h0 f hf

theorem setPaulis_error (ops : List POp) (l : List (Option PLetter)) (h : ∃ o ∈ ops, l.length ≤ o.n) :
    setPaulis l ops = .error .indexError := by
  induction ops generalizing l with
  | nil => simp at h
  | cons x ops ih =>
    rw [setPaulis]
    split_ifs with e
    · obtain ⟨o, ho, hl⟩ := h
      rcases List.mem_cons.1 ho with rfl | ho
      · omega
      · exact ih _ ⟨o, ho, by rw [List.length_set]; exact hl⟩
    · rfl

/-- C36. Too few qubits (but at least one) for a simplified term raise IndexError; an unknown format raises ValueError
before anything else. -/
theorem C36_errors (t : PTerm) (e : PExpr) (jv : ℕ → ℂ) (ji : ℕ → ℕ) (n : ℕ) (hn : 0 < n) :
    (∀ f : SparseArg, f ≠ .other → (∃ o ∈ t.simplify.ops, n ≤ o.n) → t.toMatrix n f = .error .indexError) ∧
    (∀ k, t.toMatrix k .other = .error .valueError ∧ e.toMatrix jv ji k .other = .error .valueError) := by
  constructor
  · rintro f hf ⟨o, ho, h⟩
    rw [PTerm.toMatrix, if_neg hf]
    simp only [show ((n : ℤ) = -1) = False by simp, if_false]
    rw [if_neg (by omega)]
    simp only [Int.toNat_natCast, termToDataarray, bind, Except.bind]
    rw [setPaulis_error _ _ ⟨o, ho, by simpa using h⟩]
  · intro k; simp [PTerm.toMatrix, PExpr.toMatrix]

/-- Entries of a matrix: for `2 * Y[1]` on two qubits, row 0 has `-2i` in column 2. -/
example : ((opRows 2 (termOp ⟨[⟨.Y, 1⟩], 2⟩)).getD 0 []).getD 2 0 = -(2 * Complex.I) := by
  simp [opRows, List.range_succ, termOp, wordOp_singleton, opOp, matAt, letterM, app, mY, basis, flipBit]

example : ∃ e : PExpr, (∀ t ∈ e.terms, ∀ o ∈ t.ops, o.n < 2) ∧ exprOp e ≠ 0 ∧ e.terms.length = 2 := by
  refine ⟨⟨[⟨[⟨.X, 0⟩], 1⟩, ⟨[⟨.Z, 1⟩], 1⟩]⟩, by simp, ?_, rfl⟩
  intro h
  have := congrFun (DFunLike.congr_fun h (basis 0)) 0
  simp [exprOp, termOp, wordOp_singleton, opOp, matAt, letterM, app, mX, mZ, basis, flipBit] at this

end

end Blueqat
