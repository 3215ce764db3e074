import Verif.PauliFloatLemmas
import Verif.Props.EnergyFloat
import Verif.Props.PauliMatrix

/-!
# C98: `simplify`, `to_matrix` and the sparse energy in floating point

`PExpr.flSimplify P`, `PTerm.flToMatrix P`, `PExpr.flToMatrix P`, `flMakeSparse P` and `flGetEnergySparse P R` are
`Expr.simplify`, `Term.to_matrix`, `Expr.to_matrix`, `AnsatzBase.make_sparse` and `AnsatzBase.get_energy_sparse` with the
arithmetic `P`, circuits being run by `R`. `PauliAccurate P δ`, `DotAccurate P n ν` (Verif/Spec/PauliFloat.lean) bound the
errors of the arithmetic.
-/

set_option linter.unusedSimpArgs false
set_option linter.unusedVariables false

namespace Blueqat

open Spec

noncomputable section

/-! ## What the hypotheses mean -/

theorem add_step {P : PauliOps} {δ : ℝ} (hP : PauliAccurate P δ) (hδ : 0 ≤ δ) {a b f g : ℂ} {A s E : ℝ} (hE : 1 ≤ E)
    (hb : ‖b‖ ≤ A) (hab : ‖a - b‖ ≤ (E - 1) * A) (hg : ‖g‖ ≤ s) (hfg : ‖f - g‖ ≤ (E - 1) * s) :
    ‖b + g‖ ≤ A + s ∧ ‖P.add a f - (b + g)‖ ≤ (E * (1 + δ) - 1) * (A + s) := by
  refine ⟨(norm_add_le _ _).trans (add_le_add hb hg), ?_⟩
  have ha : ‖a‖ ≤ E * A := by
    have : a = (a - b) + b := by ring
    rw [this]; refine (norm_add_le _ _).trans ?_; linarith
  have hf : ‖f‖ ≤ E * s := by
    have : f = (f - g) + g := by ring
    rw [this]; refine (norm_add_le _ _).trans ?_; linarith
  have h1 := (hP.add a f).trans (mul_le_mul_of_nonneg_left ((norm_add_le a f).trans (add_le_add ha hf)) hδ)
  have e : P.add a f - (b + g) = (P.add a f - (a + f)) + ((a - b) + (f - g)) := by ring
  rw [e]
  refine (norm_add_le _ _).trans ((add_le_add h1 ((norm_add_le _ _).trans (add_le_add hab hfg))).trans (le_of_eq ?_))
  ring

theorem foldl_add_near {P : PauliOps} {δ : ℝ} (hP : PauliAccurate P δ) (hδ : 0 ≤ δ) {ι : Type} (f g : ι → ℂ) (s : ι → ℝ)
    (k : ℕ) (l : List ι) (h : ∀ x ∈ l, ‖g x‖ ≤ s x ∧ ‖f x - g x‖ ≤ ((1 + δ) ^ k - 1) * s x) : ∀ (a b : ℂ) (A : ℝ) (m : ℕ),
    k ≤ m → ‖b‖ ≤ A → ‖a - b‖ ≤ ((1 + δ) ^ m - 1) * A →
    ‖(l.map f).foldl P.add a - (b + (l.map g).sum)‖ ≤ ((1 + δ) ^ (m + l.length) - 1) * (A + (l.map s).sum) := by
  have hone : (1 : ℝ) ≤ 1 + δ := by linarith
  induction l with
  | nil => intro a b A m _ _ hab; simpa using hab
  | cons x l ih =>
    intro a b A m hkm hb hab
    obtain ⟨h1, h2⟩ := h x (by simp)
    have hs : 0 ≤ s x := (norm_nonneg _).trans h1
    have h2' : ‖f x - g x‖ ≤ ((1 + δ) ^ m - 1) * s x :=
      h2.trans (mul_le_mul_of_nonneg_right (by have := pow_le_pow_right₀ hone hkm; linarith) hs)
    obtain ⟨c1, c2⟩ := add_step hP hδ (one_le_pow₀ hone) hb hab h1 h2'
    rw [← pow_succ] at c2
    have := ih (fun y hy => h y (List.mem_cons_of_mem _ hy)) (P.add a (f x)) (b + g x) (A + s x) (m + 1) (by omega) c1 c2
    simp only [List.map_cons, List.foldl_cons, List.sum_cons, List.length_cons]
    rw [show m + (l.length + 1) = m + 1 + l.length by omega, ← add_assoc, ← add_assoc]
    exact this

/-- Arithmetic which rounds with a relative error of `u` after every operation on floats is accurate to `4u`, and sums of
`2^n` products, added up one after the other, to `(1 + 4u)^(2^n + 1) - 1`. -/
theorem C98_doubles (fl : ℝ → ℝ) (u : ℝ) (hu : 0 ≤ u) (hu4 : u ≤ 1 / 4) (hfl : RoundsTo fl u) (n : ℕ) :
    PauliAccurate (PauliOps.rounded fl) (4 * u) ∧
    DotAccurate (PauliOps.rounded fl) n ((1 + 4 * u) ^ (2 ^ n + 1) - 1) := by
  have hF := C89_doubles fl Real.cos Real.sin u 0 hu hu4 hfl (by simp [hu]) (by simp [hu])
  have hP : PauliAccurate (PauliOps.rounded fl) (4 * u) := ⟨fun a b => hF.mul a b, fun a b => hF.add a b⟩
  have hsum : ∀ a b : ℕ → ℂ, ‖(((List.range (2 ^ n)).map fun i => (PauliOps.rounded fl).mul (a i) (b i)).foldl
      (PauliOps.rounded fl).add 0) - ∑ i ∈ Finset.range (2 ^ n), a i * b i‖ ≤
      ((1 + 4 * u) ^ (2 ^ n + 1) - 1) * ∑ i ∈ Finset.range (2 ^ n), ‖a i‖ * ‖b i‖ := by
    intro a b
    have := foldl_add_near hP (by linarith) (fun i => (PauliOps.rounded fl).mul (a i) (b i)) (fun i => a i * b i)
      (fun i => ‖a i‖ * ‖b i‖) 1 (List.range (2 ^ n)) (fun i _ => ⟨(norm_mul _ _).le, by
        have := hP.mul (a i) (b i)
        rw [norm_mul (a i)] at this
        refine this.trans (le_of_eq ?_); ring⟩) 0 0 0 1 le_rfl (by simp) (by simp)
    rw [zero_add, zero_add, List.length_range, add_comm 1 (2 ^ n)] at this
    have e1 : ∀ f : ℕ → ℂ, ((List.range (2 ^ n)).map f).sum = ∑ i ∈ Finset.range (2 ^ n), f i := fun f => by
      rw [← List.sum_toFinset _ List.nodup_range, List.toFinset_range]
    have e2 : ∀ f : ℕ → ℝ, ((List.range (2 ^ n)).map f).sum = ∑ i ∈ Finset.range (2 ^ n), f i := fun f => by
      rw [← List.sum_toFinset _ List.nodup_range, List.toFinset_range]
    rw [e1, e2] at this
    exact this
  refine ⟨hP, ⟨fun f g => ?_, fun f g => ?_⟩⟩
  · have := hsum f g
    simp only [PauliOps.rounded, List.zipWith_map, List.zipWith_self] at this ⊢
    exact this
  · have := hsum (fun i => (starRingEnd ℂ) (f i)) g
    simp only [PauliOps.rounded, List.zipWith_map, List.zipWith_self, RCLike.norm_conj] at this ⊢
    exact this

theorem flKron1dRec_exact (krons : List (List ℂ)) (cs : List ℕ) : ∀ fuel lo hi,
    flKron1dRec .exact krons cs fuel lo hi = kron1dRec krons cs fuel lo hi := by
  intro fuel
  induction fuel with
  | zero => intro lo hi; rfl
  | succ fuel ih => intro lo hi; simp only [flKron1dRec, kron1dRec, ih]; rfl

theorem flScaleFirst_exact (c : ℂ) (m : ℕ) (l : List (List ℂ)) : flScaleFirst .exact c m l = scaleFirst c m l := by
  induction l with
  | nil => rfl
  | cons a l ih => simp only [flScaleFirst, scaleFirst, ih]; rfl

theorem flTermToDataarray_exact (t : PTerm) (n : ℕ) (rm : Bool) :
    flTermToDataarray .exact t n rm = termToDataarray t n rm := by
  simp only [flTermToDataarray, termToDataarray, flKron1dRec_exact, flScaleFirst_exact]

theorem flTermSimplify_exact (t : PTerm) : t.flSimplify .exact = t.simplify := by
  have h : ∀ (before : PyDict ℕ (List PLetter)) (ns : List ℕ) s,
      flSimplifyLoop .exact before ns s = simplifyLoop before ns s := by
    intro before ns
    induction ns with
    | nil => intro s; rfl
    | cons n ns ih =>
      intro s
      obtain ⟨c, ops⟩ := s
      simp only [flSimplifyLoop, simplifyLoop, ih]
      rfl
  simp only [PTerm.flSimplify, PTerm.simplify, h]

theorem flExprSimplify_exact (e : PExpr) : e.flSimplify .exact = e.simplify := by
  have h : e.flSimplifyDict .exact = e.simplifyDict := by
    simp only [PExpr.flSimplifyDict, PExpr.simplifyDict]
    rw [show PTerm.flSimplify .exact = PTerm.simplify from funext flTermSimplify_exact]
    rfl
  simp only [PExpr.flSimplify, PExpr.simplify, h]

theorem flFillGroups_exact (n dim N : ℕ) (b : Bool) : ∀ (grps : List (List PTerm)) i v d,
    flFillGroups .exact n dim N b i grps v d = fillGroups n dim N b i grps v d := by
  have h : ∀ (ts : List PTerm) acc, flGroupValues .exact n b ts acc = groupValues n b ts acc := by
    intro ts
    induction ts with
    | nil => intro acc; rfl
    | cons t ts ih => intro acc; simp only [flGroupValues, groupValues, flTermToDataarray_exact, ih]; rfl
  intro grps
  induction grps with
  | nil => intro i v d; rfl
  | cons g grps ih =>
    intro i v d
    cases g with
    | nil => rfl
    | cons t ts => simp only [flFillGroups, fillGroups, flTermToDataarray_exact, h, ih]

/-- In exact arithmetic the functions are those the other properties are about. -/
theorem C98_exact (jv : ℕ → ℂ) (ji : ℕ → ℕ) (t : PTerm) (e : PExpr) (k : ℤ) (f : SparseArg) (m : PyMatrix) (c : OpsVal)
    (rnd : ℕ → ℝ) :
    t.flSimplify .exact = t.simplify ∧ e.flSimplify .exact = e.simplify ∧ t.flToMatrix .exact k f = t.toMatrix k f ∧
    e.flToMatrix .exact jv ji k f = e.toMatrix jv ji k f ∧ flMakeSparse .exact jv ji e = makeSparse jv ji e ∧
    flGetEnergySparse .exact (flNpStatevector .exact) m c rnd = getEnergySparse m c rnd := by
  have h4 : ∀ k f, e.flToMatrix .exact jv ji k f = e.toMatrix jv ji k f := by
    intro k f
    simp only [PExpr.flToMatrix, PExpr.toMatrix, flFillGroups_exact, flExprSimplify_exact]
    rw [List.sum_eq_foldl]
    rfl
  refine ⟨flTermSimplify_exact t, flExprSimplify_exact e, ?_, h4 k f, h4 _ _, ?_⟩
  · simp only [PTerm.flToMatrix, PTerm.toMatrix, flTermToDataarray_exact, flTermSimplify_exact]
  · have h1 : flNpStatevector .exact c rnd = runDefault c rnd := by
      simp only [flNpStatevector, runDefault, C89_exact]
      rfl
    have h2 : ∀ v, flSparseExpectation .exact m v = sparseExpectation m v := by
      intro v
      have h3 : flMatDot .exact m v = matDot m v := rfl
      simp only [flSparseExpectation, sparseExpectation, h3, vdot, bind, Except.bind]
      cases matDot m v with
      | error x => rfl
      | ok w =>
        simp only
        split_ifs <;> rfl
    simp only [flGetEnergySparse, getEnergySparse, h1, h2]

/-! ## simplify -/

/-- C98. `Expr.simplify` in floating point: the words are simplified exactly (strictly increasing qubits), there are not
more terms than before, and every matrix entry of the result differs from that of the expression by at most
`(1 + δ)^(L + T) - 1` times what the terms contribute to it, for `T` terms with at most `L` letters. -/
theorem C98_simplify (P : PauliOps) (δ : ℝ) (hP : PauliAccurate P δ) (hδ : 0 ≤ δ) (e : PExpr) (L : ℕ)
    (hL : ∀ t ∈ e.terms, t.ops.length ≤ L) :
    (∀ t ∈ (e.flSimplify P).terms, t.ops.Pairwise (fun a b => a.n < b.n)) ∧
    (e.flSimplify P).terms.length ≤ e.terms.length ∧
    ∀ i j, ‖exprOp (e.flSimplify P) (basis j) i - exprOp e (basis j) i‖ ≤
      ((1 + δ) ^ (L + e.terms.length) - 1) * entrySize e i j := by
  obtain ⟨h1, h2, h3⟩ := flSimplify_near hP hδ e e.nQubits L (expr_nQubits e) hL
  refine ⟨fun t ht => (h1 t ht).1, h2, fun i j => ?_⟩
  rw [exprOp, sum_apply]
  exact (h3 i j).1

/-! ## to_matrix -/

/-- C98. `Term.to_matrix` in floating point: every entry has a relative error of at most `(1 + δ)^(2n + l) - 1`, for a term
of `l` letters. In particular the entries that should be zero are. -/
theorem C98_term (P : PauliOps) (δ : ℝ) (hP : PauliAccurate P δ) (hδ : 0 ≤ δ) (t : PTerm) (n : ℕ)
    (h : ∀ o ∈ t.ops, o.n < n) (f : SparseArg) (hf : f ≠ .other) :
    ∃ M : ℕ → ℕ → ℂ, t.flToMatrix P n f =
        .ok ⟨f, (List.range (2 ^ n)).map fun i => (List.range (2 ^ n)).map fun j => M i j⟩ ∧
      ∀ i < 2 ^ n, ∀ j < 2 ^ n, ‖M i j - termOp t (basis j) i‖ ≤
        ((1 + δ) ^ (2 * n + t.ops.length) - 1) * ‖termOp t (basis j) i‖ := by
  rw [PTerm.flToMatrix, if_neg hf]
  simp only [show (n : ℤ) ≠ -1 by omega, if_false]
  by_cases hn : n = 0
  · subst hn
    have h0 : t.ops = [] := by
      rw [List.eq_nil_iff_forall_not_mem]; intro o ho; exact absurd (h o ho) (by omega)
    refine ⟨fun _ _ => t.coeff, by simp, fun i hi j hj => ?_⟩
    have hi : i = 0 := by simpa using hi
    have hj : j = 0 := by simpa using hj
    subst hi hj
    simp [termOp, h0, wordOp_nil, basis]
  · rw [if_neg (by omega)]
    obtain ⟨ho, hc⟩ := flTermSimplify_near hP hδ t
    have hw : NormalWord (t.flSimplify P).ops := by rw [ho]; exact simplify_normal t
    have hq : ∀ o ∈ (t.flSimplify P).ops, o.n < n := by rw [ho]; exact simplify_qubits t n h
    simp only [Int.toNat_natCast, bind, Except.bind]
    obtain ⟨v, e1, e2⟩ := dataarray_tab hP hδ (t.flSimplify P) hw n (by omega) hq (decide (f = .csr))
    rw [e1]
    simp only
    have hcn := hc.norm
    rw [Close] at hc
    have hX := one_le_pow₀ (show (1 : ℝ) ≤ 1 + δ by linarith) (n := 2 * n)
    have key : ∀ major < 2 ^ n, ∀ minor, ‖(if major ^^^ xorBits (t.flSimplify P).ops = minor then v major else 0) -
        entryOf (decide (f = .csr)) t.simplify major minor‖ ≤
        ((1 + δ) ^ (2 * n + t.ops.length) - 1) * ‖entryOf (decide (f = .csr)) t.simplify major minor‖ := by
      intro major hm minor
      rw [entryOf, ho]
      split_ifs with hx
      · have h1 := e2 major hm
        have e3 : v major - t.simplify.coeff * wordPhase (decide (f = .csr)) t.simplify.ops major =
            (v major - (t.flSimplify P).coeff * wordPhase (decide (f = .csr)) (t.flSimplify P).ops major) +
            ((t.flSimplify P).coeff - t.simplify.coeff) * wordPhase (decide (f = .csr)) t.simplify.ops major := by
          rw [ho]; ring
        rw [e3, norm_mul t.simplify.coeff, wordPhase_norm, mul_one]
        refine (norm_add_le _ _).trans ?_
        rw [norm_mul _ (wordPhase _ _ _), wordPhase_norm, mul_one]
        have h2 := h1.trans (mul_le_mul_of_nonneg_left hcn (by linarith))
        refine (add_le_add h2 hc).trans (le_of_eq ?_)
        rw [pow_add]; ring
      · simp
    have hone : ∀ major < 2 ^ n, ∀ minor, compressedEntry (tab (2 ^ n) v) (termToIndices (t.flSimplify P) (2 ^ n))
        (List.range (2 ^ n + 1)) major minor = if major ^^^ xorBits (t.flSimplify P).ops = minor then v major else 0 := by
      intro major hm minor
      rw [compressedEntry, range_getD _ _ _ (by omega), range_getD _ _ _ (by omega), show major + 1 - major = 1 by omega]
      simp only [List.range'_one, List.map_cons, List.map_nil, List.sum_cons, List.sum_nil, add_zero]
      rw [termToIndices, rangeMap_getD _ _ _ _ hm, tab_getD _ _ _ hm]
    have hs := simplify_normal t
    split_ifs with h1 h2
    · rw [cscRows, if_pos (check_one _ hw n hq _)]
      refine ⟨_, rfl, fun i hi j hj => ?_⟩
      rw [← simplify_op t, ← entryOf_col _ hs, hone j hj]
      have := key j hj i
      rwa [show decide (f = .csr) = false by simp [h1]] at this
    · rw [csrRows, if_pos (check_one _ hw n hq _)]
      refine ⟨_, rfl, fun i hi j hj => ?_⟩
      rw [← simplify_op t, ← entryOf_row _ hs, hone i hi]
      have := key i hi j
      rwa [show decide (f = .csr) = true by simp [h2]] at this
    · rw [cooRows, if_pos ⟨by simp [termToIndices, tab_length], by simp [tab_length], termToIndices_lt _ hw n hq,
        fun k hk => List.mem_range.1 hk⟩]
      refine ⟨_, rfl, fun i hi j hj => ?_⟩
      rw [← simplify_op t, ← entryOf_col _ hs]
      have := key j hj i
      rw [show decide (f = .csr) = false by simp [h2]] at this
      rw [tab_length, sum_range_single _ j hj, termToIndices, rangeMap_getD _ _ _ _ hj, tab_getD _ _ _ hj,
        range_getD _ _ _ hj]
      · simpa using this
      · intro k hk hkj
        rw [range_getD _ _ _ hk, if_neg (fun e => hkj e.2)]

/-- C98. `Expr.to_matrix` in floating point, on enough qubits and in every format: every entry differs from that of the
matrix of the expression by at most `(1 + δ)^matrixDepth - 1` times what the terms contribute to it, whatever the memory of
`np.empty` contains; or `simplify` has no terms left and the code raises, which it does only if the expression is zero up to
these errors. -/
theorem C98_matrix (P : PauliOps) (δ : ℝ) (hP : PauliAccurate P δ) (hδ : 0 ≤ δ) (jv : ℕ → ℂ) (ji : ℕ → ℕ) (e : PExpr)
    (n L : ℕ) (hq : ∀ t ∈ e.terms, ∀ o ∈ t.ops, o.n < n) (hL : ∀ t ∈ e.terms, t.ops.length ≤ L) (f : SparseArg)
    (hf : f ≠ .other) :
    (∃ M : ℕ → ℕ → ℂ, e.flToMatrix P jv ji n f =
        .ok ⟨f, (List.range (2 ^ n)).map fun i => (List.range (2 ^ n)).map fun j => M i j⟩ ∧
      ∀ i < 2 ^ n, ∀ j < 2 ^ n, ‖M i j - exprOp e (basis j) i‖ ≤
        ((1 + δ) ^ matrixDepth n e.terms.length L - 1) * entrySize e i j) ∨
    (0 < n ∧ e.flToMatrix P jv ji n f = .error .zeroDivisionError ∧
      ∀ i < 2 ^ n, ∀ j < 2 ^ n, ‖exprOp e (basis j) i‖ ≤
        ((1 + δ) ^ matrixDepth n e.terms.length L - 1) * entrySize e i j) := by
  have hone : (1 : ℝ) ≤ 1 + δ := by linarith
  by_cases hn : n = 0
  · left
    subst hn
    have h0 : ∀ t ∈ e.terms, t.ops = [] := by
      intro t ht
      rw [List.eq_nil_iff_forall_not_mem]; intro o ho; exact absurd (hq t ht o ho) (by omega)
    refine ⟨fun _ _ => (e.terms.map PTerm.coeff).foldl P.add 0, by simp [PExpr.flToMatrix, hf], fun i hi j hj => ?_⟩
    have hi : i = 0 := by simpa using hi
    have hj : j = 0 := by simpa using hj
    subst hi hj
    have ht : ∀ t ∈ e.terms, termOp t (basis 0) 0 = t.coeff := by
      intro t ht
      simp [termOp, h0 t ht, wordOp_nil, basis]
    rw [exprOp, sum_apply, List.map_congr_left ht, entrySize,
      List.map_congr_left (g := fun t : PTerm => ‖t.coeff‖) (fun t h => by rw [ht t h])]
    have := foldl_add_near hP hδ PTerm.coeff PTerm.coeff (fun t => ‖t.coeff‖) 0 e.terms (fun t _ => by simp) 0 0 0 0 le_rfl
      (by simp) (by simp)
    simp only [zero_add] at this
    refine this.trans (mul_le_mul_of_nonneg_right ?_ (List.sum_nonneg (by simp)))
    have := pow_le_pow_right₀ hone (show e.terms.length ≤ matrixDepth 0 e.terms.length L by rw [matrixDepth]; omega)
    linarith
  · by_cases hne : (e.flSimplify P).terms = []
    · right
      refine ⟨by omega, ?_, fun i hi j hj => ?_⟩
      · rw [PExpr.flToMatrix, if_neg hf]
        simp only [show ((n : ℤ) = -1) = False by simp, if_false]
        rw [if_neg (by omega), if_neg (by omega), hne]
        simp [groupByKey, flFillGroups, arangeStep, bind, Except.bind]
      · obtain ⟨-, -, h3⟩ := C98_simplify P δ hP hδ e L hL
        have := h3 i j
        rw [exprOp, hne, List.map_nil, List.sum_nil, LinearMap.zero_apply, Pi.zero_apply, zero_sub, norm_neg] at this
        refine this.trans (mul_le_mul_of_nonneg_right ?_ (entrySize_nonneg e i j))
        have := pow_le_pow_right₀ hone (show L + e.terms.length ≤ matrixDepth n e.terms.length L by rw [matrixDepth]; omega)
        linarith
    · left
      exact flExprRows_near hP hδ jv ji e n L (by omega) hq hL hne f hf

/-- `2 * Y[1] + X[0] * Z[1]` on two qubits in double precision: there is a matrix, in row 0 it has `-2i` in column 2 up to
10⁻¹³, and exactly 0 in column 0. -/
example (fl : ℝ → ℝ) (hfl : RoundsTo fl (1 / 2 ^ 53)) (jv : ℕ → ℂ) (ji : ℕ → ℕ) : ∃ M : ℕ → ℕ → ℂ,
    (⟨[⟨[⟨.Y, 1⟩], 2⟩, ⟨[⟨.X, 0⟩, ⟨.Z, 1⟩], 1⟩]⟩ : PExpr).flToMatrix (PauliOps.rounded fl) jv ji 2 .csr =
      .ok ⟨.csr, (List.range 4).map fun i => (List.range 4).map fun j => M i j⟩ ∧
    ‖M 0 2 - (-(2 * Complex.I))‖ ≤ 1 / 10 ^ 13 ∧ M 0 0 = 0 := by
  have hP := (C98_doubles fl (1 / 2 ^ 53) (by norm_num) (by norm_num) hfl 2).1
  have e1 : termOp ⟨[⟨.Y, 1⟩], 2⟩ (basis 2) 0 = -(2 * Complex.I) ∧ termOp ⟨[⟨.X, 0⟩, ⟨.Z, 1⟩], 1⟩ (basis 2) 0 = 0 := by
    constructor <;> simp [termOp, wordOp_cons, wordOp_nil, opOp, matAt, letterM, app, mX, mY, mZ, basis, flipBit]
  have e2 : termOp ⟨[⟨.Y, 1⟩], 2⟩ (basis 0) 0 = 0 ∧ termOp ⟨[⟨.X, 0⟩, ⟨.Z, 1⟩], 1⟩ (basis 0) 0 = 0 := by
    constructor <;> simp [termOp, wordOp_cons, wordOp_nil, opOp, matAt, letterM, app, mX, mY, mZ, basis, flipBit]
  rcases C98_matrix _ _ hP (by norm_num) jv ji ⟨[⟨[⟨.Y, 1⟩], 2⟩, ⟨[⟨.X, 0⟩, ⟨.Z, 1⟩], 1⟩]⟩ 2 2 (by simp) (by simp) .csr (by simp)
    with ⟨M, h1, h2⟩ | ⟨-, -, h2⟩
  · refine ⟨M, h1, ?_, ?_⟩
    · have := h2 0 (by norm_num) 2 (by norm_num)
      simp [exprOp, entrySize, e1.1, e1.2] at this
      refine le_trans (by simpa using this) ?_
      norm_num [matrixDepth]
    · have := h2 0 (by norm_num) 0 (by norm_num)
      simpa [exprOp, entrySize, e2.1, e2.2] using this
  · exfalso
    have := h2 0 (by norm_num) 2 (by norm_num)
    simp [exprOp, entrySize, e1.1, e1.2, matrixDepth] at this
    norm_num at this

/-- In floating point the coefficients of an expression which is zero need not cancel: then `simplify` leaves a term, and
`to_matrix` does not raise. Here `X[0] + 2*X[0] - 3*X[0]`, in an arithmetic which adds 1 and 2 with a relative error of `δ`. -/
theorem C98_cancel (δ : ℝ) (hδ : 0 < δ) : ∃ P, PauliAccurate P δ ∧ ∃ e : PExpr, exprOp e = 0 ∧
    e.simplify = ⟨[]⟩ ∧ (e.flSimplify P).terms = [⟨[⟨.X, 0⟩], 3 * δ⟩] := by
  classical
  refine ⟨⟨fun a b => a * b, fun a b => if a = 1 ∧ b = 2 then 3 * (1 + δ) else a + b, PauliOps.exact.dot,
    PauliOps.exact.vdot⟩, ⟨fun a b => by simp; positivity, fun a b => ?_⟩,
    ⟨[⟨[⟨.X, 0⟩], 1⟩, ⟨[⟨.X, 0⟩], 2⟩, ⟨[⟨.X, 0⟩], -3⟩]⟩, ?_, ?_, ?_⟩
  · simp only
    split_ifs with h
    · rw [h.1, h.2]
      rw [show (3 : ℂ) * (1 + δ) - (1 + 2) = ((3 * δ : ℝ) : ℂ) by push_cast; ring, show (1 : ℂ) + 2 = ((3 : ℝ) : ℂ) by norm_num,
        Complex.norm_real, Complex.norm_real, Real.norm_eq_abs, Real.norm_eq_abs, abs_of_nonneg (by positivity)]
      norm_num
      linarith
    · simp; positivity
  · simp only [exprOp, termOp, List.map_cons, List.map_nil, List.sum_cons, List.sum_nil]
    module
  · have h : ∀ c, (⟨[⟨.X, 0⟩], c⟩ : PTerm).simplify = ⟨[⟨.X, 0⟩], c⟩ := fun c => simplify_of_normal _ (by simp [NormalWord])
    simp [PExpr.simplify, PExpr.simplifyDict, h, dictAdd, PyDict.get, PyDict.set, sortByRepr, PExpr.fromTermsIter]
    norm_num
  · rw [PExpr.flSimplify, PExpr.flSimplifyDict]
    have h : ∀ c P, (∀ c, P.mul c 1 = c) → (⟨[⟨.X, 0⟩], c⟩ : PTerm).flSimplify P = ⟨[⟨.X, 0⟩], c⟩ := by
      intro c P hm
      simp [PTerm.flSimplify, simplifyBefore, pySorted, PyDict.set, PyDict.get, flSimplifyLoop, flSimplifyQubit, hm, castReal_eq]
    simp only [List.map_cons, List.map_nil]
    rw [h _ _ (by simp), h _ _ (by simp), h _ _ (by simp)]
    have h3 : ¬ ((3 : ℂ) * (1 + δ) = 1 ∧ (-3 : ℂ) = 2) := fun h => absurd h.2 (by norm_num)
    have h4 : (3 : ℂ) * (1 + δ) + -3 = 3 * δ := by ring
    have h5 : (δ : ℂ) ≠ 0 := by exact_mod_cast hδ.ne'
    simp [flDictAdd, PyDict.get, PyDict.set, sortByRepr, PExpr.fromTermsIter, h3, h4, h5]

/-! ## The sparse energy -/

/-- What the terms contribute, summed against two vectors. -/
theorem entrySize_form (e : PExpr) (n : ℕ) (hq : ∀ t ∈ e.terms, ∀ o ∈ t.ops, o.n < n) (a b : ℕ → ℂ) :
    ∑ i ∈ Finset.range (2 ^ n), ‖a i‖ * ∑ j ∈ Finset.range (2 ^ n), entrySize e i j * ‖b j‖ ≤
      (e.terms.map (fun t => ‖t.coeff‖)).sum *
        (√(∑ i ∈ Finset.range (2 ^ n), ‖a i‖ ^ 2) * √(∑ i ∈ Finset.range (2 ^ n), ‖b i‖ ^ 2)) := by
  obtain ⟨ts⟩ := e
  simp only [entrySize] at hq ⊢
  induction ts with
  | nil => simp
  | cons t ts ih =>
    have ih := ih (fun s hs => hq s (List.mem_cons_of_mem _ hs))
    simp only [List.map_cons, List.sum_cons, add_mul, mul_add, Finset.sum_add_distrib]
    refine add_le_add ?_ ih
    have hw := simplify_normal t
    have hx : xorBits t.simplify.ops < 2 ^ n := xorBits_lt _ hw n (simplify_qubits t n (hq t (by simp)))
    set x := xorBits t.simplify.ops with hxdef
    have hent : ∀ i j, ‖termOp t (basis j) i‖ = if i ^^^ x = j then ‖t.coeff‖ else 0 := by
      intro i j
      rw [← simplify_op t, ← entryOf_row _ hw, entryOf, ← hxdef]
      split_ifs
      · rw [norm_mul, wordPhase_norm, mul_one, simplify_norm]
      · simp
    have hin : ∀ i ∈ Finset.range (2 ^ n), ‖a i‖ * ∑ j ∈ Finset.range (2 ^ n), ‖termOp t (basis j) i‖ * ‖b j‖ =
        ‖t.coeff‖ * (‖a i‖ * ‖b (i ^^^ x)‖) := by
      intro i hi
      have hlt : i ^^^ x ∈ Finset.range (2 ^ n) := Finset.mem_range.2 (Nat.xor_lt_two_pow (Finset.mem_range.1 hi) hx)
      simp only [hent, ite_mul, zero_mul]
      rw [Finset.sum_ite_eq, if_pos hlt]
      ring
    rw [Finset.sum_congr rfl hin, ← Finset.mul_sum]
    refine mul_le_mul_of_nonneg_left ?_ (norm_nonneg _)
    refine (Real.sum_mul_le_sqrt_mul_sqrt _ _ _).trans (le_of_eq ?_)
    congr 2
    refine Finset.sum_bij (fun i _ => i ^^^ x) ?_ ?_ ?_ ?_
    · intro i hi
      exact Finset.mem_range.2 (Nat.xor_lt_two_pow (Finset.mem_range.1 hi) hx)
    · intro i _ k _ h
      exact Nat.xor_left_injective (x := x) h
    · intro k hk
      exact ⟨k ^^^ x, Finset.mem_range.2 (Nat.xor_lt_two_pow (Finset.mem_range.1 hk) hx), by
        rw [Nat.xor_assoc, Nat.xor_self, Nat.xor_zero]⟩
    · intro i _; rfl

theorem entry_le_size (e : PExpr) (i j : ℕ) : ‖exprOp e (basis j) i‖ ≤ entrySize e i j := by
  rw [exprOp, sum_apply, entrySize]
  obtain ⟨ts⟩ := e
  induction ts with
  | nil => simp
  | cons t ts ih =>
    simp only [List.map_cons, List.sum_cons]
    exact (norm_add_le _ _).trans (add_le_add le_rfl ih)

/-- The form of an expression between two vectors. -/
theorem form_le (e : PExpr) (n : ℕ) (hq : ∀ t ∈ e.terms, ∀ o ∈ t.ops, o.n < n) (a b : ℕ → ℂ) :
    ‖∑ i ∈ Finset.range (2 ^ n), (starRingEnd ℂ) (a i) * exprOp e b i‖ ≤ (e.terms.map (fun t => ‖t.coeff‖)).sum *
        (√(∑ i ∈ Finset.range (2 ^ n), ‖a i‖ ^ 2) * √(∑ i ∈ Finset.range (2 ^ n), ‖b i‖ ^ 2)) := by
  refine le_trans ?_ (entrySize_form e n hq a b)
  refine (norm_sum_le _ _).trans (Finset.sum_le_sum fun i hi => ?_)
  rw [norm_mul, RCLike.norm_conj]
  refine mul_le_mul_of_nonneg_left ?_ (norm_nonneg _)
  rw [← opRows_apply n e hq b i (Finset.mem_range.1 hi)]
  refine (norm_sum_le _ _).trans (Finset.sum_le_sum fun j _ => ?_)
  rw [norm_mul]
  exact mul_le_mul_of_nonneg_right (entry_le_size e i j) (norm_nonneg _)

/-- The expectation value in a state near `χ`. -/
theorem form_near (e : PExpr) (n : ℕ) (hq : ∀ t ∈ e.terms, ∀ o ∈ t.ops, o.n < n) (φ χ : Vec) (B : ℝ)
    (hχ : normSqN n χ = 1) (hB : √(∑ i ∈ Finset.range (2 ^ n), ‖φ i - χ i‖ ^ 2) ≤ B) :
    ‖∑ i ∈ Finset.range (2 ^ n), (starRingEnd ℂ) (φ i) * exprOp e φ i -
      ∑ i ∈ Finset.range (2 ^ n), (starRingEnd ℂ) (χ i) * exprOp e χ i‖ ≤
      (e.terms.map (fun t => ‖t.coeff‖)).sum * ((1 + B) ^ 2 - 1) ∧
    √(∑ i ∈ Finset.range (2 ^ n), ‖φ i‖ ^ 2) ≤ 1 + B := by
  have hB0 : 0 ≤ B := (Real.sqrt_nonneg _).trans hB
  have hC : 0 ≤ (e.terms.map (fun t => ‖t.coeff‖)).sum := List.sum_nonneg (by simp)
  have hχ' : √(∑ i ∈ Finset.range (2 ^ n), ‖χ i‖ ^ 2) = 1 := by
    rw [show ∑ i ∈ Finset.range (2 ^ n), ‖χ i‖ ^ 2 = normSqN n χ from rfl, hχ, Real.sqrt_one]
  have hφ : √(∑ i ∈ Finset.range (2 ^ n), ‖φ i‖ ^ 2) ≤ 1 + B := by
    have := gap_triangle n φ χ 0
    simp only [gap, normSqN, Pi.zero_apply, sub_zero] at this
    linarith
  refine ⟨?_, hφ⟩
  set d : Vec := fun i => φ i - χ i with hd
  have e1 : ∑ i ∈ Finset.range (2 ^ n), (starRingEnd ℂ) (φ i) * exprOp e φ i -
      ∑ i ∈ Finset.range (2 ^ n), (starRingEnd ℂ) (χ i) * exprOp e χ i =
      ∑ i ∈ Finset.range (2 ^ n), (starRingEnd ℂ) (d i) * exprOp e χ i +
      ∑ i ∈ Finset.range (2 ^ n), (starRingEnd ℂ) (φ i) * exprOp e d i := by
    rw [← Finset.sum_sub_distrib, ← Finset.sum_add_distrib]
    refine Finset.sum_congr rfl fun i _ => ?_
    have : exprOp e d i = exprOp e φ i - exprOp e χ i := by
      rw [show d = φ - χ from rfl, map_sub]; rfl
    rw [this, hd]
    simp only [map_sub]
    ring
  rw [e1]
  refine (norm_add_le _ _).trans ((add_le_add (form_le e n hq d χ) (form_le e n hq φ d)).trans ?_)
  rw [hχ', ← mul_add]
  refine mul_le_mul_of_nonneg_left ?_ hC
  have h3 : √(∑ i ∈ Finset.range (2 ^ n), ‖φ i‖ ^ 2) * √(∑ i ∈ Finset.range (2 ^ n), ‖d i‖ ^ 2) ≤ (1 + B) * B :=
    mul_le_mul hφ hB (Real.sqrt_nonneg _) (by linarith)
  nlinarith

/-- `sparse_expectation` of a matrix near that of `e`. -/
theorem flSparseExpectation_near {P : PauliOps} {ν : ℝ} (n : ℕ) (hν : 0 ≤ ν) (hD : DotAccurate P n ν) (e : PExpr)
    (hq : ∀ t ∈ e.terms, ∀ o ∈ t.ops, o.n < n) (f : SparseArg) (M : ℕ → ℕ → ℂ) (D : ℝ) (hD1 : 1 ≤ D)
    (hM : ∀ i < 2 ^ n, ∀ j < 2 ^ n, ‖M i j - exprOp e (basis j) i‖ ≤ (D - 1) * entrySize e i j) (φ : Vec) :
    ∃ z : ℂ, flSparseExpectation P ⟨f, (List.range (2 ^ n)).map fun i => (List.range (2 ^ n)).map fun j => M i j⟩
        (amplitudes n φ) = .ok z.re ∧
      ‖z - ∑ i ∈ Finset.range (2 ^ n), (starRingEnd ℂ) (φ i) * exprOp e φ i‖ ≤
        ((1 + ν) ^ 2 * D - 1) * ((e.terms.map (fun t => ‖t.coeff‖)).sum * (√(∑ i ∈ Finset.range (2 ^ n), ‖φ i‖ ^ 2)) ^ 2) := by
  set w : ℕ → ℂ := fun i => P.dot ((List.range (2 ^ n)).map fun j => M i j) (amplitudes n φ) with hw
  set s : ℕ → ℝ := fun i => ∑ j ∈ Finset.range (2 ^ n), entrySize e i j * ‖φ j‖ with hs
  refine ⟨P.vdot (amplitudes n φ) ((List.range (2 ^ n)).map w), ?_, ?_⟩
  · have h1 : flMatDot P ⟨f, (List.range (2 ^ n)).map fun i => (List.range (2 ^ n)).map fun j => M i j⟩ (amplitudes n φ) =
        .ok ((List.range (2 ^ n)).map w) := by
      rw [flMatDot, if_pos (by intro r hr; obtain ⟨i, -, rfl⟩ := List.mem_map.1 hr; simp [amplitudes])]
      simp only [List.map_map]
      rfl
    simp only [flSparseExpectation, h1, bind, Except.bind]
    rw [if_pos (by simp [amplitudes])]
  have hs0 : ∀ i, 0 ≤ s i := fun i => Finset.sum_nonneg fun j _ => mul_nonneg (entrySize_nonneg e i j) (norm_nonneg _)
  have hMn : ∀ i < 2 ^ n, ∀ j < 2 ^ n, ‖M i j‖ ≤ D * entrySize e i j := by
    intro i hi j hj
    have h1 := hM i hi j hj
    have h2 := entry_le_size e i j
    have h3 : M i j = (M i j - exprOp e (basis j) i) + exprOp e (basis j) i := by ring
    rw [h3]
    refine (norm_add_le _ _).trans ?_
    linarith
  have hw1 : ∀ i < 2 ^ n, ‖w i - exprOp e φ i‖ ≤ (ν * D + (D - 1)) * s i := by
    intro i hi
    have h1 := hD.dot (fun j => M i j) φ
    have h2 : ∑ j ∈ Finset.range (2 ^ n), ‖M i j‖ * ‖φ j‖ ≤ D * s i := by
      rw [hs, Finset.mul_sum]
      refine Finset.sum_le_sum fun j hj => ?_
      rw [← mul_assoc]
      exact mul_le_mul_of_nonneg_right (hMn i hi j (Finset.mem_range.1 hj)) (norm_nonneg _)
    have h3 : ‖∑ j ∈ Finset.range (2 ^ n), M i j * φ j - exprOp e φ i‖ ≤ (D - 1) * s i := by
      rw [← opRows_apply n e hq φ i hi, ← Finset.sum_sub_distrib, hs, Finset.mul_sum]
      refine (norm_sum_le _ _).trans (Finset.sum_le_sum fun j hj => ?_)
      rw [← sub_mul, norm_mul, ← mul_assoc]
      exact mul_le_mul_of_nonneg_right (hM i hi j (Finset.mem_range.1 hj)) (norm_nonneg _)
    have h4 : w i - exprOp e φ i = (w i - ∑ j ∈ Finset.range (2 ^ n), M i j * φ j) +
        (∑ j ∈ Finset.range (2 ^ n), M i j * φ j - exprOp e φ i) := by ring
    rw [h4]
    refine (norm_add_le _ _).trans ?_
    have h5 := h1.trans (mul_le_mul_of_nonneg_left h2 hν)
    have h6 : ‖w i - ∑ j ∈ Finset.range (2 ^ n), M i j * φ j‖ ≤ ν * (D * s i) := h5
    linarith
  have hex : ∀ i < 2 ^ n, ‖exprOp e φ i‖ ≤ s i := by
    intro i hi
    rw [← opRows_apply n e hq φ i hi]
    refine (norm_sum_le _ _).trans (Finset.sum_le_sum fun j _ => ?_)
    rw [norm_mul]
    exact mul_le_mul_of_nonneg_right (entry_le_size e i j) (norm_nonneg _)
  have hw2 : ∀ i < 2 ^ n, ‖w i‖ ≤ (1 + ν) * D * s i := by
    intro i hi
    have h1 := hw1 i hi
    have h2 := hex i hi
    have h3 : w i = (w i - exprOp e φ i) + exprOp e φ i := by ring
    rw [h3]
    refine (norm_add_le _ _).trans ?_
    nlinarith
  set Q := ∑ i ∈ Finset.range (2 ^ n), ‖φ i‖ * s i with hQ
  have hQ1 : Q ≤ (e.terms.map (fun t => ‖t.coeff‖)).sum * (√(∑ i ∈ Finset.range (2 ^ n), ‖φ i‖ ^ 2)) ^ 2 := by
    rw [sq]; exact entrySize_form e n hq φ φ
  have h1 := hD.vdot φ w
  have h2 : ∑ i ∈ Finset.range (2 ^ n), ‖φ i‖ * ‖w i‖ ≤ (1 + ν) * D * Q := by
    rw [hQ, Finset.mul_sum]
    refine Finset.sum_le_sum fun i hi => ?_
    have := mul_le_mul_of_nonneg_left (hw2 i (Finset.mem_range.1 hi)) (norm_nonneg (φ i))
    linarith
  have h3 : ‖∑ i ∈ Finset.range (2 ^ n), (starRingEnd ℂ) (φ i) * w i -
      ∑ i ∈ Finset.range (2 ^ n), (starRingEnd ℂ) (φ i) * exprOp e φ i‖ ≤ (ν * D + (D - 1)) * Q := by
    rw [← Finset.sum_sub_distrib, hQ, Finset.mul_sum]
    refine (norm_sum_le _ _).trans (Finset.sum_le_sum fun i hi => ?_)
    rw [← mul_sub, norm_mul, RCLike.norm_conj]
    have := mul_le_mul_of_nonneg_left (hw1 i (Finset.mem_range.1 hi)) (norm_nonneg (φ i))
    linarith
  have h4 : P.vdot (amplitudes n φ) ((List.range (2 ^ n)).map w) -
      ∑ i ∈ Finset.range (2 ^ n), (starRingEnd ℂ) (φ i) * exprOp e φ i =
      (P.vdot (amplitudes n φ) ((List.range (2 ^ n)).map w) - ∑ i ∈ Finset.range (2 ^ n), (starRingEnd ℂ) (φ i) * w i) +
      (∑ i ∈ Finset.range (2 ^ n), (starRingEnd ℂ) (φ i) * w i -
        ∑ i ∈ Finset.range (2 ^ n), (starRingEnd ℂ) (φ i) * exprOp e φ i) := by ring
  rw [h4]
  refine (norm_add_le _ _).trans ?_
  have h5 : ‖P.vdot (amplitudes n φ) ((List.range (2 ^ n)).map w) -
      ∑ i ∈ Finset.range (2 ^ n), (starRingEnd ℂ) (φ i) * w i‖ ≤ ν * ((1 + ν) * D * Q) :=
    h1.trans (mul_le_mul_of_nonneg_left h2 hν)
  have h6 : 0 ≤ (1 + ν) ^ 2 * D - 1 := by nlinarith [sq_nonneg ν]
  refine le_trans ?_ (mul_le_mul_of_nonneg_left hQ1 h6)
  linarith

theorem flToMatrix_default (P : PauliOps) (jv : ℕ → ℂ) (ji : ℕ → ℕ) (e : PExpr) (f : SparseArg) :
    e.flToMatrix P jv ji (-1) f = e.flToMatrix P jv ji e.nQubits f := by
  simp only [PExpr.flToMatrix, if_true]
  simp only [show ((e.nQubits : ℤ) = -1) = False by simp, if_false]

/-- C98. `get_energy_sparse` in floating point: for every Hamiltonian, whatever its terms, and every circuit of unitary
gates with valid targets on the qubits of the Hamiltonian the energy differs from the real part of `⟨ψ|H|ψ⟩` by at most
`sparseErr`; on any other number of qubits there is a ValueError. If `make_sparse` raises, the expectation value is zero up to
the same error. -/
theorem C98_energy (P : PauliOps) (δ ν : ℝ) (hP : PauliAccurate P δ) (hδ : 0 ≤ δ) (hν : 0 ≤ ν) (R : StateRunner) (n : ℕ)
    (hD : DotAccurate P n ν) (Θ κ : ℝ) (hR : RunsNear R n Θ κ) (jv : ℕ → ℂ) (ji : ℕ → ℕ) (H : PExpr) (L : ℕ)
    (hL : ∀ t ∈ H.terms, t.ops.length ≤ L) (gates : List Gate) (es : List Elem) (hd : GatesDenote n gates es)
    (hv : ∀ e ∈ es, e.Valid n) (hu : ∀ e ∈ es, e.IsUnitary) (hA : ∀ e ∈ es, ∀ x ∈ e.angles, |x| ≤ Θ) (rnd : ℕ → ℝ)
    (hr : InUnit rnd) :
    (∃ m, flMakeSparse P jv ji H = .ok m ∧
      (n = H.nQubits → ∃ x, flGetEnergySparse P R m ⟨n, gates⟩ rnd = .ok (x, rnd) ∧
        |x - (expectation n (exprOp H) (unitaries phDoc es (fun j => if j = 0 then 1 else 0))).re| ≤
          sparseErr δ ν κ n (passes es) L H) ∧
      (n ≠ H.nQubits → flGetEnergySparse P R m ⟨n, gates⟩ rnd = .error .valueError)) ∨
    (flMakeSparse P jv ji H = .error .zeroDivisionError ∧ (n = H.nQubits →
      |(expectation n (exprOp H) (unitaries phDoc es (fun j => if j = 0 then 1 else 0))).re| ≤
        sparseErr δ ν κ n (passes es) L H)) := by
  obtain ⟨z, φ, hz, h1, h2⟩ := hR gates es rnd hr hd hv hu hA
  have hC : 0 ≤ (H.terms.map (fun t => ‖t.coeff‖)).sum := List.sum_nonneg (by simp)
  have hone : (1 : ℝ) ≤ 1 + δ := by linarith
  have hκ : 1 ≤ (1 + κ) ^ (2 * passes es) := by
    rw [← sq_pow_passes]
    have := (Real.sqrt_nonneg _).trans h2
    nlinarith
  set ψ := unitaries phDoc es (fun j => if j = 0 then 1 else 0) with hψ
  have hexp : ∑ i ∈ Finset.range (2 ^ n), (starRingEnd ℂ) (z * ψ i) * exprOp H (fun i => z * ψ i) i =
      expectation n (exprOp H) ψ := by
    rw [expectation]
    refine Finset.sum_congr rfl fun i _ => ?_
    have hzz : (starRingEnd ℂ) z * z = 1 := by
      rw [← Complex.normSq_eq_conj_mul_self, Complex.normSq_eq_norm_sq, hz]; simp
    have : exprOp H (fun i => z * ψ i) i = z * exprOp H ψ i := by
      rw [show (fun i => z * ψ i) = z • ψ from rfl, map_smul]; rfl
    rw [this, map_mul]
    linear_combination ((starRingEnd ℂ) (ψ i) * exprOp H ψ i) * hzz
  have hD1 := one_le_pow₀ hone (n := matrixDepth H.nQubits H.terms.length L)
  rcases C98_matrix P δ hP hδ jv ji H H.nQubits L (expr_nQubits H) hL .csc (by simp) with ⟨M, e1, e2⟩ | ⟨-, e1, e2⟩
  · left
    refine ⟨_, by rw [flMakeSparse, flToMatrix_default]; exact e1, ?_, ?_⟩
    · intro hn
      subst hn
      obtain ⟨y, f1, f2⟩ := flSparseExpectation_near H.nQubits hν hD H (expr_nQubits H) .csc M _ hD1 e2 φ
      obtain ⟨g1, g2⟩ := form_near H H.nQubits (expr_nQubits H) φ _ _ (unitaries_norm hv z hz) h2
      refine ⟨y.re, ?_, ?_⟩
      · simp only [flGetEnergySparse, h1, f1, bind, Except.bind]
      · rw [hexp] at g1
        rw [← Complex.sub_re]
        refine (Complex.abs_re_le_norm _).trans ?_
        set B := (1 + κ) ^ passes es - 1 with hB
        have hB2 : (1 + B) ^ 2 = (1 + κ) ^ (2 * passes es) := sq_pow_passes _ _
        have g3 : (√(∑ i ∈ Finset.range (2 ^ H.nQubits), ‖φ i‖ ^ 2)) ^ 2 ≤ (1 + B) ^ 2 :=
          pow_le_pow_left₀ (Real.sqrt_nonneg _) g2 2
        rw [hB2] at g1 g3
        have h6 : 0 ≤ (1 + ν) ^ 2 * (1 + δ) ^ matrixDepth H.nQubits H.terms.length L - 1 := by nlinarith [sq_nonneg ν]
        have f3 := f2.trans (mul_le_mul_of_nonneg_left (mul_le_mul_of_nonneg_left g3 hC) h6)
        have e3 : y - expectation H.nQubits (exprOp H) ψ =
            (y - ∑ i ∈ Finset.range (2 ^ H.nQubits), (starRingEnd ℂ) (φ i) * exprOp H φ i) +
            (∑ i ∈ Finset.range (2 ^ H.nQubits), (starRingEnd ℂ) (φ i) * exprOp H φ i -
              expectation H.nQubits (exprOp H) ψ) := by ring
        rw [e3, sparseErr]
        refine (norm_add_le _ _).trans ((add_le_add f3 g1).trans (le_of_eq ?_))
        ring
    · intro hn
      simp only [flGetEnergySparse, h1, bind, Except.bind, flSparseExpectation, flMatDot]
      rw [if_neg]
      intro h
      have h0 := h ((List.range (2 ^ H.nQubits)).map fun j => M 0 j) (List.mem_map.2 ⟨0, by simp, rfl⟩)
      simp only [List.length_map, List.length_range, amplitudes] at h0
      exact hn (Nat.pow_right_injective le_rfl h0).symm
  · right
    refine ⟨by rw [flMakeSparse, flToMatrix_default]; exact e1, fun hn => ?_⟩
    subst hn
    refine (Complex.abs_re_le_norm _).trans ?_
    set D := (1 + δ) ^ matrixDepth H.nQubits H.terms.length L with hDd
    have k1 : ‖expectation H.nQubits (exprOp H) ψ‖ ≤ (D - 1) * ∑ i ∈ Finset.range (2 ^ H.nQubits), ‖ψ i‖ *
        ∑ j ∈ Finset.range (2 ^ H.nQubits), entrySize H i j * ‖ψ j‖ := by
      rw [expectation, Finset.mul_sum]
      refine (norm_sum_le _ _).trans (Finset.sum_le_sum fun i hi => ?_)
      rw [norm_mul, RCLike.norm_conj, mul_left_comm]
      refine mul_le_mul_of_nonneg_left ?_ (norm_nonneg _)
      rw [← opRows_apply _ H (expr_nQubits H) ψ i (Finset.mem_range.1 hi), Finset.mul_sum]
      refine (norm_sum_le _ _).trans (Finset.sum_le_sum fun j hj => ?_)
      rw [norm_mul, ← mul_assoc]
      exact mul_le_mul_of_nonneg_right (e2 i (Finset.mem_range.1 hi) j (Finset.mem_range.1 hj)) (norm_nonneg _)
    have hn1 : ∑ i ∈ Finset.range (2 ^ H.nQubits), ‖ψ i‖ ^ 2 = 1 := by
      have := unitaries_norm hv 1 (by simp)
      simpa [normSqN] using this
    have k2 := entrySize_form H H.nQubits (expr_nQubits H) ψ ψ
    rw [hn1, Real.sqrt_one, mul_one, mul_one] at k2
    refine k1.trans ((mul_le_mul_of_nonneg_left k2 (by linarith)).trans ?_)
    rw [sparseErr, ← hDd]
    refine mul_le_mul_of_nonneg_right ?_ hC
    have : D ≤ (1 + ν) ^ 2 * D * (1 + κ) ^ (2 * passes es) := by
      have a1 : 1 ≤ (1 + ν) ^ 2 := by nlinarith
      have a2 : D ≤ (1 + ν) ^ 2 * D := by nlinarith
      nlinarith
    linarith

/-- The Bell state in double precision, on numpy and on numba: the energy for `X[0]*X[1] + 2*Z[0]*Z[1] + Y[0]*Y[1]` is 2 up
to 10⁻¹¹. -/
theorem bell_sparse (fl : ℝ → ℝ) (hfl : RoundsTo fl (1 / 2 ^ 53)) (R : StateRunner)
    (hR : RunsNear R 2 2 (passErr (4 * (1 / 2 ^ 53)) 2)) (jv : ℕ → ℂ) (ji : ℕ → ℕ) (rnd : ℕ → ℝ) (hr : InUnit rnd) :
    ∃ m x, flMakeSparse (PauliOps.rounded fl) jv ji
        ⟨[⟨[⟨.X, 0⟩, ⟨.X, 1⟩], 1⟩, ⟨[⟨.Z, 0⟩, ⟨.Z, 1⟩], 2⟩, ⟨[⟨.Y, 0⟩, ⟨.Y, 1⟩], 1⟩]⟩ = .ok m ∧
      flGetEnergySparse (PauliOps.rounded fl) R m ⟨2, [on1 .h 0, on2 .cx 0 1]⟩ rnd = .ok (x, rnd) ∧ |x - 2| ≤ 1 / 10 ^ 11 := by
  have hd : GatesDenote 2 [on1 .h 0, on2 .cx 0 1] [.one .h 0, .two .cx 0 1] :=
    ⟨_, _, gateDenotes_on1 2 .h 0, ⟨_, _, gateDenotes_on2 2 .cx 0 1 (by norm_num), rfl, rfl⟩, rfl⟩
  obtain ⟨hP, hD⟩ := C98_doubles fl (1 / 2 ^ 53) (by norm_num) (by norm_num) hfl 2
  have hx : (expectation 2 (exprOp ⟨[⟨[⟨.X, 0⟩, ⟨.X, 1⟩], 1⟩, ⟨[⟨.Z, 0⟩, ⟨.Z, 1⟩], 2⟩, ⟨[⟨.Y, 0⟩, ⟨.Y, 1⟩], 1⟩]⟩)
      (unitaries phDoc [.one .h 0, .two .cx 0 1] (fun j => if j = 0 then 1 else 0))).re = 2 := by
    have h1 := C44_energy_partial ⟨[⟨[⟨.X, 0⟩, ⟨.X, 1⟩], 1⟩, ⟨[⟨.Z, 0⟩, ⟨.Z, 1⟩], 2⟩, ⟨[⟨.Y, 0⟩, ⟨.Y, 1⟩], 1⟩]⟩ (by simp)
      ⟨2, [on1 .h 0, on2 .cx 0 1]⟩ (by simp) (by simp [yCount]) _ hd (by simp [Elem.Valid, Elem.IsUnitary]) rnd
    rw [bell_energy] at h1
    simp only [Except.ok.injEq, Prod.mk.injEq, and_true] at h1
    exact h1.symm
  have hn : (⟨[⟨[⟨.X, 0⟩, ⟨.X, 1⟩], 1⟩, ⟨[⟨.Z, 0⟩, ⟨.Z, 1⟩], 2⟩, ⟨[⟨.Y, 0⟩, ⟨.Y, 1⟩], 1⟩]⟩ : PExpr).nQubits = 2 := by
    simp [PExpr.nQubits, PTerm.nQubits]
  have hb : sparseErr (4 * (1 / 2 ^ 53)) ((1 + 4 * (1 / 2 ^ 53)) ^ (2 ^ 2 + 1) - 1) (passErr (4 * (1 / 2 ^ 53)) 2) 2
      (passes [.one .h 0, .two .cx 0 1]) 2
      ⟨[⟨[⟨.X, 0⟩, ⟨.X, 1⟩], 1⟩, ⟨[⟨.Z, 0⟩, ⟨.Z, 1⟩], 2⟩, ⟨[⟨.Y, 0⟩, ⟨.Y, 1⟩], 1⟩]⟩ ≤ 1 / 10 ^ 11 := by
    norm_num [sparseErr, matrixDepth, passErr, passes, Elem.passes]
  rcases C98_energy (PauliOps.rounded fl) _ _ hP (by norm_num) (by norm_num) R 2 hD 2 _ hR jv ji
    ⟨[⟨[⟨.X, 0⟩, ⟨.X, 1⟩], 1⟩, ⟨[⟨.Z, 0⟩, ⟨.Z, 1⟩], 2⟩, ⟨[⟨.Y, 0⟩, ⟨.Y, 1⟩], 1⟩]⟩ 2 (by simp) _ _ hd (by simp [Elem.Valid])
    (by simp [Elem.IsUnitary]) (by simp [Elem.angles]) rnd hr with ⟨m, h1, h2, -⟩ | ⟨-, h2⟩
  · obtain ⟨x, h3, h4⟩ := h2 hn.symm
    rw [hx] at h4
    exact ⟨m, x, h1, h3, h4.trans hb⟩
  · have := (h2 hn.symm).trans hb
    rw [hx] at this
    norm_num at this

example (fl : ℝ → ℝ) (hfl : RoundsTo fl (1 / 2 ^ 53)) (jv : ℕ → ℂ) (ji : ℕ → ℕ) (rnd : ℕ → ℝ) (hr : InUnit rnd) :
    ∃ m x, flMakeSparse (PauliOps.rounded fl) jv ji
        ⟨[⟨[⟨.X, 0⟩, ⟨.X, 1⟩], 1⟩, ⟨[⟨.Z, 0⟩, ⟨.Z, 1⟩], 2⟩, ⟨[⟨.Y, 0⟩, ⟨.Y, 1⟩], 1⟩]⟩ = .ok m ∧
      flGetEnergySparse (PauliOps.rounded fl) (flNpStatevector (FloatOps.rounded fl Real.cos Real.sin)) m
        ⟨2, [on1 .h 0, on2 .cx 0 1]⟩ rnd = .ok (x, rnd) ∧ |x - 2| ≤ 1 / 10 ^ 11 := by
  have hpi : Real.pi / 2 ≤ 2 := by have := Real.pi_le_four; linarith
  have hF := C89_doubles fl Real.cos Real.sin (1 / 2 ^ 53) 2 (by norm_num) (by norm_num) hfl (by simp) (by simp)
  exact bell_sparse fl hfl _ (C97_numpy_runs _ 2 _ _ _ hF hpi (by norm_num [passErr])) jv ji rnd hr

end

end Blueqat
