import Verif.PauliCommute
import Mathlib.Tactic.Linarith
import Mathlib.Tactic.NormNum

/-!
# Property C38: commutators
-/

set_option linter.unusedSimpArgs false
set_option linter.unusedVariables false

namespace Blueqat

open Spec

/-- C38. `commutator(a, b)` denotes `ab - ba`. -/
theorem C38_commutator (a b : PExpr) :
    exprOp (commutator a b) = exprOp a * exprOp b - exprOp b * exprOp a := commutator_op a b

/-- C38. `is_commutable(a, b, eps)` is True for every positive `eps` if `a` and `b` commute. -/
theorem C38_commuting (a b : PExpr) (eps : ℝ) (he : 0 < eps) (h : exprOp a * exprOp b = exprOp b * exprOp a) :
    isCommutable a b eps = true := by
  have : commutator a b = ⟨[]⟩ := by
    rw [← simplify_zero]
    refine simplify_canonical ?_
    rw [exprSub_op _ _ (exprMul_nodup _ _), exprMul_op, exprMul_op, exprSimplify_op, exprSimplify_op, h, sub_self]
    simp [exprOp]
  simp [isCommutable, this, he]

theorem coeff_sq (z : ℂ) : (z * (starRingEnd ℂ) z).re = ‖z‖ ^ 2 := by
  rw [Complex.mul_conj, Complex.ofReal_re, Complex.normSq_eq_norm_sq]

/-- C38. `is_commutable` decides commutation of two terms exactly, as long as `eps` is positive and at most
`(2 |c d|)²` for the coefficients `c`, `d`. -/
theorem C38_terms_eps (s t : PTerm) (eps : ℝ) (he : 0 < eps) (hc : eps ≤ (2 * ‖s.coeff * t.coeff‖) ^ 2) :
    isCommutable (.fromTerm s) (.fromTerm t) eps = true ↔ termOp s * termOp t = termOp t * termOp s := by
  constructor
  · intro h
    by_contra hne
    obtain ⟨g, hg, hw⟩ := word_comm_cases s.ops t.ops
    have hm : g = -1 := by
      rcases hg with rfl | rfl
      · exfalso; apply hne
        simp only [termOp, smul_mul_smul_comm, hw, one_smul, mul_comm s.coeff]
      · rfl
    subst hm
    have hcd : s.coeff * t.coeff ≠ 0 := by
      intro h0; rw [h0] at hc; simp at hc; linarith
    have hc2 : (2 * (s.coeff * t.coeff)) ≠ 0 := mul_ne_zero two_ne_zero hcd
    have hop : exprOp (.fromTerm s) * exprOp (.fromTerm t) - exprOp (.fromTerm t) * exprOp (.fromTerm s) =
        termOp ⟨s.ops ++ t.ops, 2 * (s.coeff * t.coeff)⟩ := by
      have hw' : wordOp t.ops * wordOp s.ops = (-1 : ℂ) • (wordOp s.ops * wordOp t.ops) := by
        rw [hw, smul_smul]; norm_num
      simp only [fromTerm_op, termOp, smul_mul_smul_comm, hw', wordOp_append, mul_comm t.coeff]
      module
    have ht := commutator_of_term hc2 hop
    rw [isCommutable, ht, decide_eq_true_eq] at h
    simp only [List.map_cons, List.map_nil, List.sum_cons, List.sum_nil, add_zero, coeff_sq, simplify_norm] at h
    rw [norm_mul, Complex.norm_two] at h
    linarith
  · intro h
    exact C38_commuting _ _ _ he (by rw [fromTerm_op, fromTerm_op, h])

/-- C38. With the default `eps = 1e-8`, `is_commutable` is exact for two terms whose coefficients have a product of
modulus at least 5e-5. -/
theorem C38_terms (s t : PTerm) (hc : 5e-5 ≤ ‖s.coeff * t.coeff‖) :
    isCommutable (.fromTerm s) (.fromTerm t) 1e-8 = true ↔ termOp s * termOp t = termOp t * termOp s := by
  refine C38_terms_eps s t _ (by norm_num) ?_
  have : (2 * (5e-5 : ℝ)) ^ 2 ≤ (2 * ‖s.coeff * t.coeff‖) ^ 2 := by gcongr
  norm_num at this ⊢
  linarith

/-- The bound is sharp: below it, anticommuting terms are reported as commuting. -/
theorem C38_small_coefficients (c : ℂ) (h0 : c ≠ 0) (hc : ‖c‖ < 5e-5) :
    isCommutable (.fromTerm ⟨[⟨.X, 0⟩], c⟩) (.fromTerm ⟨[⟨.Z, 0⟩], 1⟩) 1e-8 = true ∧
    termOp ⟨[⟨.X, 0⟩], c⟩ * termOp ⟨[⟨.Z, 0⟩], 1⟩ ≠ termOp ⟨[⟨.Z, 0⟩], 1⟩ * termOp ⟨[⟨.X, 0⟩], c⟩ := by
  have hxz := opOp_anti ⟨.X, 0⟩ ⟨.Z, 0⟩
  rw [show sign1 ⟨.X, 0⟩ ⟨.Z, 0⟩ = -1 by simp [sign1]] at hxz
  have hzx : opOp ⟨.Z, 0⟩ * opOp ⟨.X, 0⟩ = (-1 : ℂ) • (opOp ⟨.X, 0⟩ * opOp ⟨.Z, 0⟩) := by
    rw [hxz, smul_smul]; norm_num
  have hop : exprOp (.fromTerm ⟨[⟨.X, 0⟩], c⟩) * exprOp (.fromTerm ⟨[⟨.Z, 0⟩], 1⟩) -
      exprOp (.fromTerm ⟨[⟨.Z, 0⟩], 1⟩) * exprOp (.fromTerm ⟨[⟨.X, 0⟩], c⟩) =
      termOp ⟨[⟨.X, 0⟩, ⟨.Z, 0⟩], 2 * c⟩ := by
    simp only [fromTerm_op, termOp, smul_mul_smul_comm, wordOp_singleton, wordOp_cons, wordOp_nil, mul_one, one_mul, hzx]
    module
  have hc2 : 2 * c ≠ 0 := mul_ne_zero two_ne_zero h0
  constructor
  · rw [isCommutable, commutator_of_term hc2 hop, decide_eq_true_eq]
    simp only [List.map_cons, List.map_nil, List.sum_cons, List.sum_nil, add_zero, coeff_sq, simplify_norm]
    rw [norm_mul, Complex.norm_two]
    have : (2 * ‖c‖) ^ 2 < (2 * 5e-5) ^ 2 := by gcongr
    norm_num at this ⊢
    linarith
  · intro h
    rw [fromTerm_op, fromTerm_op, h, sub_self, termOp] at hop
    exact (smul_ne_zero hc2 (wordOp_ne _)) hop.symm

theorem mem_combinations2 {α : Type} (l : List α) (x y : α) :
    (x, y) ∈ combinations2 l ↔ ∃ i j : ℕ, i < j ∧ l[i]? = some x ∧ l[j]? = some y := by
  induction l with
  | nil => simp [combinations2]
  | cons a l ih =>
    rw [combinations2, List.mem_append, ih]
    constructor
    · rintro (h | ⟨i, j, hij, h1, h2⟩)
      · simp only [List.mem_map, Prod.mk.injEq] at h
        obtain ⟨z, hz, rfl, rfl⟩ := h
        obtain ⟨j, hj⟩ := List.mem_iff_getElem?.1 hz
        exact ⟨0, j + 1, by omega, rfl, by simpa using hj⟩
      · exact ⟨i + 1, j + 1, by omega, by simpa using h1, by simpa using h2⟩
    · rintro ⟨i, j, hij, h1, h2⟩
      obtain ⟨j, rfl⟩ : ∃ k, j = k + 1 := ⟨j - 1, by omega⟩
      cases i with
      | zero =>
        left
        simp only [List.getElem?_cons_zero, Option.some.injEq] at h1
        rw [List.getElem?_cons_succ] at h2
        simp only [List.mem_map, Prod.mk.injEq]
        exact ⟨y, List.mem_of_getElem? h2, h1, rfl⟩
      | succ i =>
        right
        exact ⟨i, j, by omega, by simpa using h1, by simpa using h2⟩

/-- C38. `is_all_terms_commutable()` is exact for expressions whose coefficients have modulus at least 0.01. -/
theorem C38_all_terms (e : PExpr) (hc : ∀ t ∈ e.terms, 0.01 ≤ ‖t.coeff‖) :
    e.isAllTermsCommutable = true ↔
      ∀ s ∈ e.terms, ∀ t ∈ e.terms, termOp s * termOp t = termOp t * termOp s := by
  have hcd : ∀ s ∈ e.terms, ∀ t ∈ e.terms, 5e-5 ≤ ‖s.coeff * t.coeff‖ := by
    intro s hs t ht
    rw [norm_mul]
    have := mul_le_mul (hc s hs) (hc t ht) (by norm_num) (norm_nonneg _)
    norm_num at this ⊢; linarith
  have he : (0.00000001 : ℝ) = 1e-8 := by norm_num
  rw [PExpr.isAllTermsCommutable, List.all_eq_true, he]
  constructor
  · intro h s hs t ht
    obtain ⟨i, hi⟩ := List.mem_iff_getElem?.1 hs
    obtain ⟨j, hj⟩ := List.mem_iff_getElem?.1 ht
    rcases lt_trichotomy i j with hij | rfl | hij
    · exact (C38_terms s t (hcd s hs t ht)).1 (h (s, t) ((mem_combinations2 _ _ _).2 ⟨i, j, hij, hi, hj⟩))
    · rw [hi, Option.some.injEq] at hj; rw [hj]
    · exact ((C38_terms t s (hcd t ht s hs)).1 (h (t, s) ((mem_combinations2 _ _ _).2 ⟨j, i, hij, hj, hi⟩))).symm
  · rintro h ⟨s, t⟩ hp
    obtain ⟨i, j, _, hi, hj⟩ := (mem_combinations2 _ _ _).1 hp
    have hs := List.mem_of_getElem? hi
    have ht := List.mem_of_getElem? hj
    exact (C38_terms s t (hcd s hs t ht)).2 (h s hs t ht)

/-- `XX` and `ZZ` commute. -/
example : ∃ s t : PTerm, 5e-5 ≤ ‖s.coeff * t.coeff‖ ∧ s.ops ≠ t.ops ∧
    isCommutable (.fromTerm s) (.fromTerm t) 1e-8 = true := by
  have hop : ∀ n, opOp ⟨.X, n⟩ * opOp ⟨.Z, n⟩ = (-1 : ℂ) • (opOp ⟨.Z, n⟩ * opOp ⟨.X, n⟩) := by
    intro n; have := opOp_anti ⟨.X, n⟩ ⟨.Z, n⟩; simpa [sign1] using this
  refine ⟨⟨[⟨.X, 0⟩, ⟨.X, 1⟩], 1⟩, ⟨[⟨.Z, 0⟩, ⟨.Z, 1⟩], 1⟩, by norm_num, by simp, ?_⟩
  rw [C38_terms _ _ (by norm_num)]
  simp only [termOp, one_smul, wordOp_cons, wordOp_nil, mul_one]
  have h01 := opOp_comm (a := ⟨.X, 1⟩) (b := ⟨.Z, 0⟩) (by simp)
  have h10 := opOp_comm (a := ⟨.X, 0⟩) (b := ⟨.Z, 1⟩) (by simp)
  calc opOp ⟨.X, 0⟩ * opOp ⟨.X, 1⟩ * (opOp ⟨.Z, 0⟩ * opOp ⟨.Z, 1⟩)
      = opOp ⟨.X, 0⟩ * (opOp ⟨.X, 1⟩ * opOp ⟨.Z, 0⟩) * opOp ⟨.Z, 1⟩ := by simp only [mul_assoc]
    _ = (opOp ⟨.X, 0⟩ * opOp ⟨.Z, 0⟩) * (opOp ⟨.X, 1⟩ * opOp ⟨.Z, 1⟩) := by rw [h01]; simp only [mul_assoc]
    _ = (opOp ⟨.Z, 0⟩ * opOp ⟨.X, 0⟩) * (opOp ⟨.Z, 1⟩ * opOp ⟨.X, 1⟩) := by
        rw [hop, hop, smul_mul_smul_comm]; norm_num
    _ = opOp ⟨.Z, 0⟩ * (opOp ⟨.X, 0⟩ * opOp ⟨.Z, 1⟩) * opOp ⟨.X, 1⟩ := by simp only [mul_assoc]
    _ = _ := by rw [h10]; simp only [mul_assoc]

end Blueqat
