import Verif.PauliCommFloatLemmas
import Verif.Props.PauliAlgFloat
import Verif.Props.PauliCommute
import Verif.Props.QaoaFloat
import Verif.DoubleLemmas
import Mathlib.Tactic.Linarith
import Mathlib.Tactic.NormNum

/-!
# Property C103: deciding commutation in floating point
-/

set_option linter.unusedSimpArgs false
set_option linter.unusedVariables false

namespace Blueqat

open Spec

noncomputable section

/-! ## Expressions -/

theorem sum_bounds {x F S ε η η' : ℝ} (hF : 0 ≤ F) (hε : 0 ≤ ε) (h1 : √F ≤ √S + ε) (h2 : √S ≤ √F + ε) (h0 : 0 ≤ η) (hη : η' ≤ η)
    (hx : |x - F| ≤ η' * F) :
    x ≤ (1 + η) * (√S + ε) ^ 2 ∧ (ε ≤ √S → η ≤ 1 → (1 - η) * (√S - ε) ^ 2 ≤ x) := by
  have hx' : |x - F| ≤ η * F := hx.trans (mul_le_mul_of_nonneg_right hη hF)
  obtain ⟨g1, g2⟩ := abs_le.1 hx'
  have hsq : √F ^ 2 = F := Real.sq_sqrt hF
  have hs0 := Real.sqrt_nonneg F
  have hS0 := Real.sqrt_nonneg S
  have up : F ≤ (√S + ε) ^ 2 := by
    rw [← hsq]; gcongr
  constructor
  · have := mul_le_mul_of_nonneg_left up (show 0 ≤ 1 + η by linarith)
    linarith
  · intro he h1'
    have down : (√S - ε) ^ 2 ≤ F := by
      rw [← hsq]
      have : √S - ε ≤ √F := by linarith
      have hd : 0 ≤ √S - ε := by linarith
      gcongr
    have := mul_le_mul_of_nonneg_left down (show 0 ≤ 1 - η by linarith)
    linarith

/-- C103. The sum of squares that `is_commutable` compares with `eps`: if `S` is the sum of squares for the commutator, then
the computed one lies between `(1 - η)(√S - ε)²` and `(1 + η)(√S + ε)²`, for small `ε` and `η`. -/
theorem C103_size (P : PauliOps) (δ : ℝ) (hP : PauliAccurate P δ) (hδ : 0 ≤ δ) (a b : PExpr) (L M : ℕ)
    (ha : ∀ t ∈ a.terms, t.ops.length ≤ L) (hb : ∀ t ∈ b.terms, t.ops.length ≤ M) (S : ℝ)
    (hS : SquareSum (exprOp a * exprOp b - exprOp b * exprOp a) S) :
    flCommutatorSize P a b ≤ (1 + sumErr δ a b) * (√S + commErr δ L M a b) ^ 2 ∧
    (commErr δ L M a b ≤ √S → sumErr δ a b ≤ 1 →
      (1 - sumErr δ a b) * (√S - commErr δ L M a b) ^ 2 ≤ flCommutatorSize P a b) := by
  obtain ⟨l, h1, h2, h3, rfl⟩ := hS
  obtain ⟨n1, n2, n3, n4⟩ := flCommutator_near hP hδ a b ha hb
  have near : SizeLe (sumOp (flCommutator P a b).terms - sumOp l) (commErr δ L M a b) := by
    have := n1.near
    rw [h3] at this
    exact this
  have near' : SizeLe (sumOp l - sumOp (flCommutator P a b).terms) (commErr δ L M a b) := by
    have := near.neg
    rwa [neg_sub] at this
  have hpow : ∀ k, 1 ≤ (1 + δ) ^ k := fun k => one_le_pow₀ (by linarith)
  have hc0 : 0 ≤ commErr δ L M a b := by
    refine mul_nonneg (by have := hpow (commRoundings L M a.terms.length b.terms.length); linarith) ?_
    have := mul_nonneg (coeffTotal_nonneg a.terms) (coeffTotal_nonneg b.terms)
    linarith
  refine sum_bounds (sqTotal_nonneg (flCommutator P a b).terms) hc0 (sqTotal_near n3 h1 n4 h2 near) (sqTotal_near h1 n3 h2 n4 near')
    (by have := hpow (1 + 2 * (a.terms.length * b.terms.length)); rw [sumErr]; linarith) ?_ (flCommutatorSize_near hP hδ a b)
  rw [sumErr]
  have := pow_le_pow_right₀ (show 1 ≤ 1 + δ by linarith) (show 1 + (flCommutator P a b).terms.length ≤
    1 + 2 * (a.terms.length * b.terms.length) by omega)
  linarith

/-- Every commutator has such a sum of squares, and only one; it is what exact arithmetic compares with `eps`. -/
theorem C103_square_sum (a b : PExpr) :
    (∃ S, SquareSum (exprOp a * exprOp b - exprOp b * exprOp a) S ∧ ∀ eps, isCommutable a b eps = true ↔ S < eps) ∧
    ∀ S S', SquareSum (exprOp a * exprOp b - exprOp b * exprOp a) S → SquareSum (exprOp a * exprOp b - exprOp b * exprOp a) S' →
      S = S' := by
  constructor
  · refine ⟨sqTotal (commutator a b).terms, ⟨(commutator a b).terms, ?_, exprSimplify_nodup _, (commutator_op a b).symm, rfl⟩, ?_⟩
    · intro t ht
      exact exprSimplify_normal _ _ (List.mem_map_of_mem ht)
    · intro eps
      rw [isCommutable, decide_eq_true_eq, sqTotal]
      simp only [coeff_sq]
  · rintro S S' ⟨l, h1, h2, h3, rfl⟩ ⟨m, g1, g2, g3, rfl⟩
    have e : sumOp l = sumOp m := h3.symm.trans g3
    have k1 := sqTotal_near (r := 0) h1 g1 h2 g2 (by rw [e, sub_self]; exact .zero le_rfl)
    have k2 := sqTotal_near (r := 0) g1 h1 g2 h2 (by rw [e, sub_self]; exact .zero le_rfl)
    have : √(sqTotal l) = √(sqTotal m) := le_antisymm (by linarith) (by linarith)
    exact (Real.sqrt_inj (sqTotal_nonneg l) (sqTotal_nonneg m)).1 this

/-- C103. `is_commutable(a, b, eps)` in rounded arithmetic decides as in exact arithmetic, unless the sum of squares is close
to `eps`. -/
theorem C103_decision (P : PauliOps) (δ : ℝ) (hP : PauliAccurate P δ) (hδ : 0 ≤ δ) (a b : PExpr) (L M : ℕ)
    (ha : ∀ t ∈ a.terms, t.ops.length ≤ L) (hb : ∀ t ∈ b.terms, t.ops.length ≤ M) (S : ℝ)
    (hS : SquareSum (exprOp a * exprOp b - exprOp b * exprOp a) S) (eps : ℝ) :
    ((1 + sumErr δ a b) * (√S + commErr δ L M a b) ^ 2 < eps → flIsCommutable P a b eps = true) ∧
    (commErr δ L M a b ≤ √S → sumErr δ a b ≤ 1 → eps ≤ (1 - sumErr δ a b) * (√S - commErr δ L M a b) ^ 2 →
      flIsCommutable P a b eps = false) := by
  obtain ⟨h1, h2⟩ := C103_size P δ hP hδ a b L M ha hb S hS
  refine ⟨fun h => ?_, fun h3 h4 h5 => ?_⟩
  · rw [flIsCommutable, decide_eq_true_eq]
    exact h1.trans_lt h
  · rw [flIsCommutable, decide_eq_false_iff_not, not_lt]
    exact h5.trans (h2 h3 h4)

/-- C103. Expressions that commute are found to commute if `eps` is larger than the square of the rounding errors. -/
theorem C103_commuting (P : PauliOps) (δ : ℝ) (hP : PauliAccurate P δ) (hδ : 0 ≤ δ) (a b : PExpr) (L M : ℕ)
    (ha : ∀ t ∈ a.terms, t.ops.length ≤ L) (hb : ∀ t ∈ b.terms, t.ops.length ≤ M) (eps : ℝ)
    (hab : exprOp a * exprOp b = exprOp b * exprOp a) (he : (1 + sumErr δ a b) * commErr δ L M a b ^ 2 < eps) :
    flIsCommutable P a b eps = true := by
  refine (C103_decision P δ hP hδ a b L M ha hb 0 ⟨[], by simp, by simp, ?_, by simp⟩ eps).1 ?_
  · rw [hab, sub_self]; simp
  · rw [Real.sqrt_zero, zero_add]; exact he

/-! ## Terms -/

/-- C103. Two commuting terms are found to commute in rounded arithmetic, for every positive `eps`: products of two numbers do
not depend on the order, and the phases of products of Pauli operators are applied without rounding. -/
theorem C103_terms_commuting (fl : ℝ → ℝ) (u : ℝ) (hu : 0 ≤ u) (hu4 : u ≤ 1 / 4) (hfl : RoundsTo fl u) (hs : SignedRounding fl)
    (s t : PTerm) (eps : ℝ) (he : 0 < eps) (hc : wordOp s.ops * wordOp t.ops = wordOp t.ops * wordOp s.ops) :
    flIsCommutable (.rounded fl) (.fromTerm s) (.fromTerm t) eps = true := by
  rw [flIsCommutable, flCommutatorSize, flCommutator_commuting hs (C98_doubles fl u hu hu4 hfl 0).1 (by linarith) s t hc]
  simpa using he

theorem anti_squareSum (s t : PTerm) (h : termOp s * termOp t ≠ termOp t * termOp s) :
    SquareSum (exprOp (.fromTerm s) * exprOp (.fromTerm t) - exprOp (.fromTerm t) * exprOp (.fromTerm s))
      ((2 * ‖s.coeff * t.coeff‖) ^ 2) := by
  obtain ⟨g, hg, hw⟩ := word_comm_cases s.ops t.ops
  have hm : g = -1 := by
    rcases hg with rfl | rfl
    · exfalso; apply h
      simp only [termOp, smul_mul_smul_comm, hw, one_smul, mul_comm s.coeff]
    · rfl
  subst hm
  refine ⟨[PTerm.simplify ⟨s.ops ++ t.ops, 2 * (s.coeff * t.coeff)⟩], ?_, by simp, ?_, ?_⟩
  · intro r hr
    rw [List.mem_singleton] at hr
    subst hr
    exact simplify_normal _
  · have hw' : wordOp t.ops * wordOp s.ops = (-1 : ℂ) • (wordOp s.ops * wordOp t.ops) := by
      rw [hw, smul_smul]; norm_num
    simp only [List.map_cons, List.map_nil, List.sum_cons, List.sum_nil, add_zero, simplify_op]
    simp only [fromTerm_op, termOp, smul_mul_smul_comm, hw', wordOp_append, mul_comm t.coeff]
    module
  · simp [simplify_norm]

/-- C103. Two terms that do not commute are found not to commute, in any accurate arithmetic, if the product of their
coefficients is large enough. -/
theorem C103_terms_anticommuting (P : PauliOps) (δ : ℝ) (hP : PauliAccurate P δ) (hδ : 0 ≤ δ) (s t : PTerm) (N : ℕ)
    (hN : s.ops.length + t.ops.length ≤ N) (eps : ℝ) (h : termOp s * termOp t ≠ termOp t * termOp s)
    (h2 : (1 + δ) ^ (2 * N + 7) ≤ 2)
    (he : eps ≤ (2 - (1 + δ) ^ 3) * (2 * ‖s.coeff * t.coeff‖ * (2 - (1 + δ) ^ (2 * N + 7))) ^ 2) :
    flIsCommutable P (.fromTerm s) (.fromTerm t) eps = false := by
  have hs0 : s.coeff ≠ 0 := by rintro h0; apply h; simp [termOp, h0]
  have ht0 : t.coeff ≠ 0 := by rintro h0; apply h; simp [termOp, h0]
  have es : PExpr.fromTerm s = ⟨[s]⟩ := by simp [PExpr.fromTerm, hs0]
  have et : PExpr.fromTerm t = ⟨[t]⟩ := by simp [PExpr.fromTerm, ht0]
  have hsum : sumErr δ (.fromTerm s) (.fromTerm t) = (1 + δ) ^ 3 - 1 := by simp [sumErr, es, et]
  have hcomm : commErr δ s.ops.length t.ops.length (.fromTerm s) (.fromTerm t) ≤
      ((1 + δ) ^ (2 * N + 7) - 1) * (2 * ‖s.coeff * t.coeff‖) := by
    simp only [commErr, es, et, commRoundings, List.length_singleton, coeffTotal_singleton]
    rw [← norm_mul]
    refine mul_le_mul_of_nonneg_right (sub_le_sub_right (pow_le_pow_right₀ (by linarith) (by omega)) _) (by positivity)
  have hpow3 : (1 + δ) ^ 3 ≤ (1 + δ) ^ (2 * N + 7) := pow_le_pow_right₀ (by linarith) (by omega)
  have hsq : √((2 * ‖s.coeff * t.coeff‖) ^ 2) = 2 * ‖s.coeff * t.coeff‖ := Real.sqrt_sq (by positivity)
  have hκ : 0 ≤ 2 * ‖s.coeff * t.coeff‖ := by positivity
  refine (C103_decision P δ hP hδ _ _ s.ops.length t.ops.length ?_ ?_ _ (anti_squareSum s t h) eps).2 ?_ ?_ ?_
  · rw [es]; simp
  · rw [et]; simp
  · rw [hsq]
    refine hcomm.trans ?_
    have := mul_le_mul_of_nonneg_right (show (1 + δ) ^ (2 * N + 7) - 1 ≤ 1 by linarith) hκ
    linarith
  · rw [hsum]; linarith
  · rw [hsum, hsq]
    refine he.trans ?_
    rw [show 1 - ((1 + δ) ^ 3 - 1) = 2 - (1 + δ) ^ 3 by ring]
    have h0 : 0 ≤ 2 * ‖s.coeff * t.coeff‖ * (2 - (1 + δ) ^ (2 * N + 7)) := mul_nonneg hκ (by linarith)
    refine mul_le_mul_of_nonneg_left ?_ (by linarith)
    refine pow_le_pow_left₀ h0 ?_ 2
    linarith

theorem small_pow (N : ℕ) (hN : N ≤ 1000000) : (1 + 4 * (1 / 2 ^ 53) : ℝ) ^ (2 * N + 7) ≤ 1 + 1 / 10 ^ 8 := by
  have h1 : (1 + 4 * (1 / 2 ^ 53) : ℝ) ^ (2 * N + 7) ≤ Real.exp (4 * (1 / 2 ^ 53) * (2 * N + 7)) := by
    have := Real.add_one_le_exp (4 * (1 / 2 ^ 53) : ℝ)
    calc (1 + 4 * (1 / 2 ^ 53) : ℝ) ^ (2 * N + 7) ≤ (Real.exp (4 * (1 / 2 ^ 53))) ^ (2 * N + 7) :=
          pow_le_pow_left₀ (by norm_num) (by linarith) _
      _ = _ := by rw [← Real.exp_nat_mul]; congr 1; push_cast; ring
  have h2 : (4 * (1 / 2 ^ 53) * (2 * N + 7) : ℝ) ≤ 9 / 10 ^ 10 := by
    norm_num
    have : (N : ℝ) ≤ 1000000 := by exact_mod_cast hN
    linarith
  have h3 : Real.exp (9 / 10 ^ 10) ≤ 1 + 1 / 10 ^ 8 := by
    have := Real.exp_bound_div_one_sub_of_interval (x := 9 / 10 ^ 10) (by norm_num) (by norm_num)
    refine this.trans ?_
    norm_num
  exact h1.trans ((Real.exp_le_exp.2 h2).trans h3)

/-- C103. With doubles and the default `eps = 1e-8`, `is_commutable` is exact for two terms of up to a million letters whose
coefficients have a product of modulus at least 5.001e-5. -/
theorem C103_terms (fl : ℝ → ℝ) (hfl : RoundsTo fl (1 / 2 ^ 53)) (hs : SignedRounding fl) (s t : PTerm)
    (hN : s.ops.length + t.ops.length ≤ 1000000) (hc : 5.001e-5 ≤ ‖s.coeff * t.coeff‖) :
    flIsCommutable (.rounded fl) (.fromTerm s) (.fromTerm t) 1e-8 = true ↔ termOp s * termOp t = termOp t * termOp s := by
  constructor
  · intro h
    by_contra hne
    have hp := small_pow _ hN
    have h3 : (1 + 4 * (1 / 2 ^ 53) : ℝ) ^ 3 ≤ 1 + 1 / 10 ^ 8 := by norm_num
    have := C103_terms_anticommuting (.rounded fl) (4 * (1 / 2 ^ 53)) (C98_doubles fl _ (by norm_num) (by norm_num) hfl 0).1
      (by norm_num) s t _ le_rfl 1e-8 hne (hp.trans (by norm_num)) ?_
    · rw [this] at h; simp at h
    · have a1 : (2 * 5.001e-5 * (1 - 1 / 10 ^ 8) : ℝ) ≤
          2 * ‖s.coeff * t.coeff‖ * (2 - (1 + 4 * (1 / 2 ^ 53)) ^ (2 * (s.ops.length + t.ops.length) + 7)) :=
        mul_le_mul (by linarith) (by linarith) (by norm_num) (by positivity)
      have a2 := pow_le_pow_left₀ (by norm_num) a1 2
      have a3 : (1 - 1 / 10 ^ 8 : ℝ) ≤ 2 - (1 + 4 * (1 / 2 ^ 53)) ^ 3 := by linarith
      have a4 := mul_le_mul a3 a2 (by positivity) (by linarith)
      refine le_trans ?_ a4
      norm_num
  · intro h
    have hs0 : s.coeff ≠ 0 := by rintro h0; rw [h0] at hc; simp at hc; norm_num at hc
    have ht0 : t.coeff ≠ 0 := by rintro h0; rw [h0] at hc; simp at hc; norm_num at hc
    refine C103_terms_commuting fl _ (by norm_num) (by norm_num) hfl hs s t _ (by norm_num) ?_
    simp only [termOp, smul_mul_smul_comm, mul_comm t.coeff] at h
    exact smul_right_injective Operator (mul_ne_zero hs0 ht0) h

/-- C103. `is_all_terms_commutable()` with doubles. -/
theorem C103_all_terms (fl : ℝ → ℝ) (hfl : RoundsTo fl (1 / 2 ^ 53)) (hs : SignedRounding fl) (e : PExpr)
    (hL : ∀ t ∈ e.terms, t.ops.length ≤ 500000) (hc : ∀ t ∈ e.terms, 0.01 ≤ ‖t.coeff‖) :
    e.flIsAllTermsCommutable (.rounded fl) = true ↔
      ∀ s ∈ e.terms, ∀ t ∈ e.terms, termOp s * termOp t = termOp t * termOp s := by
  have hcd : ∀ s ∈ e.terms, ∀ t ∈ e.terms, 5.001e-5 ≤ ‖s.coeff * t.coeff‖ := by
    intro s hs t ht
    rw [norm_mul]
    have := mul_le_mul (hc s hs) (hc t ht) (by norm_num) (norm_nonneg _)
    norm_num at this ⊢; linarith
  have hlen : ∀ s ∈ e.terms, ∀ t ∈ e.terms, s.ops.length + t.ops.length ≤ 1000000 := by
    intro s hs t ht
    have := hL s hs
    have := hL t ht
    omega
  have he : (0.00000001 : ℝ) = 1e-8 := by norm_num
  rw [PExpr.flIsAllTermsCommutable, List.all_eq_true, he]
  constructor
  · intro h s hs' t ht
    obtain ⟨i, hi⟩ := List.mem_iff_getElem?.1 hs'
    obtain ⟨j, hj⟩ := List.mem_iff_getElem?.1 ht
    rcases lt_trichotomy i j with hij | rfl | hij
    · exact (C103_terms fl hfl hs s t (hlen s hs' t ht) (hcd s hs' t ht)).1 (h (s, t) ((mem_combinations2 _ _ _).2 ⟨i, j, hij, hi, hj⟩))
    · rw [hi, Option.some.injEq] at hj; rw [hj]
    · exact ((C103_terms fl hfl hs t s (hlen t ht s hs') (hcd t ht s hs')).1
        (h (t, s) ((mem_combinations2 _ _ _).2 ⟨j, i, hij, hj, hi⟩))).symm
  · rintro h ⟨s, t⟩ hp
    obtain ⟨i, j, _, hi, hj⟩ := (mem_combinations2 _ _ _).1 hp
    have hs' := List.mem_of_getElem? hi
    have ht := List.mem_of_getElem? hj
    exact (C103_terms fl hfl hs s t (hlen s hs' t ht) (hcd s hs' t ht)).2 (h s hs' t ht)

/-! ## Hamiltonians of QAOA -/

theorem flSimplify_word_of {P : PauliOps} (hP : PauliAccurate P δ) (hδ : 0 ≤ δ) (e : PExpr) :
    ∀ t ∈ (e.flSimplify P).terms, ∃ s ∈ e.terms, t.ops = s.simplify.ops := by
  intro t ht
  have h := (List.mem_filter.1 ((flSimplify_perm P e).mem_iff.1 ht)).1
  rw [dictTerms, List.mem_map] at h
  obtain ⟨p, hp, rfl⟩ := h
  have hd : DictIn (fun w => ∃ s ∈ e.terms, w = s.simplify.ops) (e.flSimplifyDict P) := by
    refine dictIn_foldl (flDictAdd P) (fun d t h ht => ?_) _ _ (by simp [DictIn]) ?_
    · intro w hw
      rw [flDictAdd, PyDict.mem_map_fst_set] at hw
      rcases hw with rfl | hw
      · exact ht
      · exact h w hw
    · intro t ht
      obtain ⟨s, hs, rfl⟩ := List.mem_map.1 ht
      exact ⟨s, hs, (flTermSimplify_near hP hδ s).1⟩
  exact hd p.1 (List.mem_map_of_mem hp)

/-- C103. The test of `QaoaAnsatz` accepts every Hamiltonian whose terms commute, however large or small the coefficients. -/
theorem C103_qaoa_accepts (fl : ℝ → ℝ) (u : ℝ) (hu : 0 ≤ u) (hu4 : u ≤ 1 / 4) (hfl : RoundsTo fl u) (hs : SignedRounding fl)
    (e : PExpr) (h : ∀ s ∈ e.terms, ∀ t ∈ e.terms, wordOp s.ops * wordOp t.ops = wordOp t.ops * wordOp s.ops) :
    (e.flSimplify (.rounded fl)).flIsAllTermsCommutable (.rounded fl) = true := by
  have hP := (C98_doubles fl u hu hu4 hfl 0).1
  have hδ : 0 ≤ 4 * u := by linarith
  rw [PExpr.flIsAllTermsCommutable, List.all_eq_true]
  rintro ⟨s, t⟩ hp
  obtain ⟨i, j, _, hi, hj⟩ := (mem_combinations2 _ _ _).1 hp
  refine C103_terms_commuting fl u hu hu4 hfl hs s t _ (by norm_num) ?_
  obtain ⟨s', hs', e1⟩ := flSimplify_word_of hP hδ e s (List.mem_of_getElem? hi)
  obtain ⟨t', ht', e2⟩ := flSimplify_word_of hP hδ e t (List.mem_of_getElem? hj)
  obtain ⟨g, hg⟩ := simplify_word_phase s'
  obtain ⟨g', hg'⟩ := simplify_word_phase t'
  rw [e1, e2, hg, hg', smul_mul_smul_comm, smul_mul_smul_comm, h s' hs' t' ht', mul_comm]

/-- C103. `QaoaAnsatz` raises a ValueError for a Hamiltonian that has, after simplification, two terms that do not commute and
whose coefficients have a product of modulus at least 5.001e-5. -/
theorem C103_qaoa_rejects (kit : Kit C B A R) (isAttr : String → Bool) (fl : ℝ → ℝ) (hfl : RoundsTo fl (1 / 2 ^ 53))
    (hs : SignedRounding fl) (O : AngleOps) (e : PExpr) (step : ℕ) (initCircuit : Option ℕ) (mixer : Option (List PVal)) (a : A)
    (w : World V M C B) (s t : PTerm) (h1 : s ∈ (e.flSimplify (.rounded fl)).terms) (h2 : t ∈ (e.flSimplify (.rounded fl)).terms)
    (hN : s.ops.length + t.ops.length ≤ 1000000) (hc : 5.001e-5 ≤ ‖s.coeff * t.coeff‖)
    (hne : termOp s * termOp t ≠ termOp t * termOp s) :
    QaoaAnsatz.flNew kit isAttr (.rounded fl) O (.expr e) step initCircuit mixer a w = (w, .error .valueError) := by
  have key : (e.flSimplify (.rounded fl)).flIsAllTermsCommutable (.rounded fl) = false := by
    by_contra hh
    rw [Bool.not_eq_false, PExpr.flIsAllTermsCommutable, List.all_eq_true] at hh
    obtain ⟨i, hi⟩ := List.mem_iff_getElem?.1 h1
    obtain ⟨j, hj⟩ := List.mem_iff_getElem?.1 h2
    have he : (0.00000001 : ℝ) = 1e-8 := by norm_num
    rw [he] at hh
    rcases lt_trichotomy i j with hij | rfl | hij
    · exact hne ((C103_terms fl hfl hs s t hN hc).1 (hh (s, t) ((mem_combinations2 _ _ _).2 ⟨i, j, hij, hi, hj⟩)))
    · rw [hi, Option.some.injEq] at hj; rw [hj] at hne; exact hne rfl
    · exact hne ((C103_terms fl hfl hs t s (by omega) (by rwa [mul_comm])).1
        (hh (t, s) ((mem_combinations2 _ _ _).2 ⟨j, i, hij, hj, hi⟩))).symm
  rw [QaoaAnsatz.flNew]
  simp [PVal.hasMaxN, PVal.toExpr, key]

/-! ## Double precision -/

/-- `X X` and `Z Z` commute in double precision; their coefficients may be anything. -/
example (c d : ℂ) : flIsCommutable (.rounded roundDouble) (.fromTerm ⟨[⟨.X, 0⟩, ⟨.X, 1⟩], c⟩)
    (.fromTerm ⟨[⟨.Z, 0⟩, ⟨.Z, 1⟩], d⟩) 1e-8 = true := by
  refine C103_terms_commuting roundDouble _ (by norm_num) (by norm_num) roundDouble_rounds roundDouble_signed _ _ _ (by norm_num) ?_
  have hop : ∀ n, opOp ⟨.X, n⟩ * opOp ⟨.Z, n⟩ = (-1 : ℂ) • (opOp ⟨.Z, n⟩ * opOp ⟨.X, n⟩) := by
    intro n; have := opOp_anti ⟨.X, n⟩ ⟨.Z, n⟩; simpa [sign1] using this
  simp only [wordOp_cons, wordOp_nil, mul_one]
  have h01 := opOp_comm (a := ⟨.X, 1⟩) (b := ⟨.Z, 0⟩) (by simp)
  have h10 := opOp_comm (a := ⟨.X, 0⟩) (b := ⟨.Z, 1⟩) (by simp)
  calc opOp ⟨.X, 0⟩ * opOp ⟨.X, 1⟩ * (opOp ⟨.Z, 0⟩ * opOp ⟨.Z, 1⟩)
      = opOp ⟨.X, 0⟩ * (opOp ⟨.X, 1⟩ * opOp ⟨.Z, 0⟩) * opOp ⟨.Z, 1⟩ := by simp only [mul_assoc]
    _ = (opOp ⟨.X, 0⟩ * opOp ⟨.Z, 0⟩) * (opOp ⟨.X, 1⟩ * opOp ⟨.Z, 1⟩) := by rw [h01]; simp only [mul_assoc]
    _ = (opOp ⟨.Z, 0⟩ * opOp ⟨.X, 0⟩) * (opOp ⟨.Z, 1⟩ * opOp ⟨.X, 1⟩) := by
        rw [hop, hop, smul_mul_smul_comm]; norm_num
    _ = opOp ⟨.Z, 0⟩ * (opOp ⟨.X, 0⟩ * opOp ⟨.Z, 1⟩) * opOp ⟨.X, 1⟩ := by simp only [mul_assoc]
    _ = _ := by rw [h10]; simp only [mul_assoc]

/-- `X` and `Z` do not, and QAOA rejects `X[0] + Z[0]`. -/
theorem xz_not_comm : termOp ⟨[⟨.X, 0⟩], 1⟩ * termOp ⟨[⟨.Z, 0⟩], 1⟩ ≠ termOp ⟨[⟨.Z, 0⟩], 1⟩ * termOp ⟨[⟨.X, 0⟩], 1⟩ := by
  intro h
  have hop := opOp_anti ⟨.X, 0⟩ ⟨.Z, 0⟩
  simp only [termOp, one_smul, wordOp_singleton] at h
  rw [h, show sign1 ⟨.X, 0⟩ ⟨.Z, 0⟩ = -1 by simp [sign1]] at hop
  have h0 : opOp ⟨.Z, 0⟩ * opOp ⟨.X, 0⟩ = 0 := by
    have h2 : (2 : ℂ) • (opOp ⟨.Z, 0⟩ * opOp ⟨.X, 0⟩) = 0 := by
      rw [two_smul]
      nth_rewrite 1 [hop]
      module
    exact (smul_eq_zero.1 h2).resolve_left two_ne_zero
  have := wordOp_ne [⟨.Z, 0⟩, ⟨.X, 0⟩]
  rw [wordOp_cons, wordOp_singleton] at this
  exact this h0

example : flIsCommutable (.rounded roundDouble) (.fromTerm ⟨[⟨.X, 0⟩], 1⟩) (.fromTerm ⟨[⟨.Z, 0⟩], 1⟩) 1e-8 = false := by
  have h := C103_terms roundDouble roundDouble_rounds roundDouble_signed ⟨[⟨.X, 0⟩], 1⟩ ⟨[⟨.Z, 0⟩], 1⟩ (by simp) (by norm_num)
  rw [← Bool.not_eq_true, h]
  exact xz_not_comm

/-! ## Large coefficients -/

section Residue

variable {fl : ℝ → ℝ}

theorem sort_two : sortByRepr [[⟨.X, 0⟩], [⟨.Y, 0⟩]] = [[⟨.X, 0⟩], [⟨.Y, 0⟩]] := by
  rw [sortByRepr, List.mergeSort_of_pairwise]
  simp only [List.pairwise_cons, List.mem_singleton, forall_eq, List.not_mem_nil, false_imp_iff, implies_true, List.Pairwise.nil, and_true]
  decide

theorem flSimplify_xy (h : SignedRounding fl) {x y : ℂ} (hx : IsFloat fl x) (hy : IsFloat fl y) (x0 : x ≠ 0) (y0 : y ≠ 0) :
    (⟨[⟨[⟨.X, 0⟩], x⟩, ⟨[⟨.Y, 0⟩], y⟩]⟩ : PExpr).flSimplify (.rounded fl) = ⟨[⟨[⟨.X, 0⟩], x⟩, ⟨[⟨.Y, 0⟩], y⟩]⟩ := by
  have e1 : (⟨[⟨[⟨.X, 0⟩], x⟩, ⟨[⟨.Y, 0⟩], y⟩]⟩ : PExpr).flSimplifyDict (.rounded fl) = [([⟨.X, 0⟩], x), ([⟨.Y, 0⟩], y)] := by
    simp [PExpr.flSimplifyDict, (flTermSimplify_float h (t := ⟨[⟨.X, 0⟩], x⟩) hx).1,
      (flTermSimplify_float h (t := ⟨[⟨.Y, 0⟩], y⟩) hy).1, simplify_of_normal ⟨[⟨.X, 0⟩], x⟩ (by simp [NormalWord]),
      simplify_of_normal ⟨[⟨.Y, 0⟩], y⟩ (by simp [NormalWord]), flDictAdd, PyDict.get, PyDict.set, rounded_zero_add hx,
      rounded_zero_add hy]
  rw [PExpr.flSimplify, e1]
  simp [sort_two, PyDict.get, PExpr.fromTermsIter, x0, y0]

/-- The commutator of two expressions in `X` and `Y`: the term in `Z` is twice the difference of the two products, as rounded. -/
theorem flCommutator_xy (h : SignedRounding fl) {x y x' y' p q r : ℂ} (hx : IsFloat fl x) (hy : IsFloat fl y) (hx' : IsFloat fl x')
    (hy' : IsFloat fl y') (x0 : x ≠ 0) (y0 : y ≠ 0) (x0' : x' ≠ 0) (y0' : y' ≠ 0)
    (hp : (PauliOps.rounded fl).add 0 ((PauliOps.rounded fl).mul x y') = p)
    (hq : (PauliOps.rounded fl).add 0 ((PauliOps.rounded fl).mul y x') = q)
    (hr : (PauliOps.rounded fl).add p (-q) = r) (p0 : p ≠ 0) (q0 : q ≠ 0) (r0 : r ≠ 0)
    (d0 : (PauliOps.rounded fl).add ((PauliOps.rounded fl).add 0 ((PauliOps.rounded fl).mul x x')) ((PauliOps.rounded fl).mul y y') ≠ 0)
    (w0 : (PauliOps.rounded fl).add (Complex.I * r) (Complex.I * r) ≠ 0) :
    flCommutator (.rounded fl) ⟨[⟨[⟨.X, 0⟩], x⟩, ⟨[⟨.Y, 0⟩], y⟩]⟩ ⟨[⟨[⟨.X, 0⟩], x'⟩, ⟨[⟨.Y, 0⟩], y'⟩]⟩ =
      ⟨[⟨[⟨.Z, 0⟩], (PauliOps.rounded fl).add (Complex.I * r) (Complex.I * r)⟩]⟩ := by
  rw [flCommutator, flSimplify_xy h hx hy x0 y0, flSimplify_xy h hx' hy' x0' y0']
  have j1 : joinOps [⟨.X, 0⟩] [⟨.X, 0⟩] = [] := by decide
  have j2 : joinOps [⟨.X, 0⟩] [⟨.Y, 0⟩] = [⟨.X, 0⟩, ⟨.Y, 0⟩] := by decide
  have j3 : joinOps [⟨.Y, 0⟩] [⟨.X, 0⟩] = [⟨.Y, 0⟩, ⟨.X, 0⟩] := by decide
  have j4 : joinOps [⟨.Y, 0⟩] [⟨.Y, 0⟩] = [] := by decide
  set d := (PauliOps.rounded fl).add ((PauliOps.rounded fl).add 0 ((PauliOps.rounded fl).mul x x')) ((PauliOps.rounded fl).mul y y') with hd
  have m1 : (⟨[⟨[⟨.X, 0⟩], x⟩, ⟨[⟨.Y, 0⟩], y⟩]⟩ : PExpr).flMul (.rounded fl) ⟨[⟨[⟨.X, 0⟩], x'⟩, ⟨[⟨.Y, 0⟩], y'⟩]⟩ =
      ⟨[⟨[], d⟩, ⟨[⟨.X, 0⟩, ⟨.Y, 0⟩], p⟩, ⟨[⟨.Y, 0⟩, ⟨.X, 0⟩], q⟩]⟩ := by
    simp [PExpr.flMul, PTerm.flMul, j1, j2, j3, j4, flDictAdd, PyDict.get, PyDict.set, PExpr.fromTermsDict, hp, hq, ← hd, p0, q0, d0]
  have m2 : (⟨[⟨[⟨.X, 0⟩], x'⟩, ⟨[⟨.Y, 0⟩], y'⟩]⟩ : PExpr).flMul (.rounded fl) ⟨[⟨[⟨.X, 0⟩], x⟩, ⟨[⟨.Y, 0⟩], y⟩]⟩ =
      ⟨[⟨[], d⟩, ⟨[⟨.X, 0⟩, ⟨.Y, 0⟩], q⟩, ⟨[⟨.Y, 0⟩, ⟨.X, 0⟩], p⟩]⟩ := by
    rw [rounded_mul_comm] at hp hq
    rw [rounded_mul_comm fl x x', rounded_mul_comm fl y y'] at hd
    simp [PExpr.flMul, PTerm.flMul, j1, j2, j3, j4, flDictAdd, PyDict.get, PyDict.set, PExpr.fromTermsDict, hp, hq, ← hd, p0, q0, d0]
  have hr' : (PauliOps.rounded fl).add q (-p) = -r := by
    rw [← hr]
    refine Complex.ext ?_ ?_
    · simp only [PauliOps.rounded, FloatOps.rounded, Complex.neg_re]
      rw [← h.odd]; congr 1; ring
    · simp only [PauliOps.rounded, FloatOps.rounded, Complex.neg_im]
      rw [← h.odd]; congr 1; ring
  have m3 : (⟨[⟨[], d⟩, ⟨[⟨.X, 0⟩, ⟨.Y, 0⟩], p⟩, ⟨[⟨.Y, 0⟩, ⟨.X, 0⟩], q⟩]⟩ : PExpr).flSub (.rounded fl)
      ⟨[⟨[], d⟩, ⟨[⟨.X, 0⟩, ⟨.Y, 0⟩], q⟩, ⟨[⟨.Y, 0⟩, ⟨.X, 0⟩], p⟩]⟩ = ⟨[⟨[⟨.X, 0⟩, ⟨.Y, 0⟩], r⟩, ⟨[⟨.Y, 0⟩, ⟨.X, 0⟩], -r⟩]⟩ := by
    simp [PExpr.flSub, PExpr.termsToDict, flSubStep, PyDict.get, PyDict.set, PyDict.del, PExpr.fromTermsDict, p0, q0, d0, r0, hr, hr',
      rounded_add_neg h]
  have hrf : IsFloat fl r := by rw [← hr]; exact rounded_add_float h _ _
  have s1 : PTerm.simplify ⟨[⟨.X, 0⟩, ⟨.Y, 0⟩], r⟩ = ⟨[⟨.Z, 0⟩], Complex.I * r⟩ := by
    simp [PTerm.simplify, simplifyBefore, PyDict.get, PyDict.set, pySorted, simplifyLoop, simplifyQubit, simplifyMul, mulMap, castReal_eq,
      mul_comm]
  have s2 : PTerm.simplify ⟨[⟨.Y, 0⟩, ⟨.X, 0⟩], -r⟩ = ⟨[⟨.Z, 0⟩], Complex.I * r⟩ := by
    simp [PTerm.simplify, simplifyBefore, PyDict.get, PyDict.set, pySorted, simplifyLoop, simplifyQubit, simplifyMul, mulMap, castReal_eq,
      mul_comm]
  obtain ⟨f1, f2⟩ := flTermSimplify_float h (t := ⟨[⟨.X, 0⟩, ⟨.Y, 0⟩], r⟩) hrf
  obtain ⟨f3, f4⟩ := flTermSimplify_float h (t := ⟨[⟨.Y, 0⟩, ⟨.X, 0⟩], -r⟩) (hrf.neg h)
  rw [s1] at f1 f2
  rw [s2] at f3
  have e1 : (⟨[⟨[⟨.X, 0⟩, ⟨.Y, 0⟩], r⟩, ⟨[⟨.Y, 0⟩, ⟨.X, 0⟩], -r⟩]⟩ : PExpr).flSimplifyDict (.rounded fl) =
      [([⟨.Z, 0⟩], (PauliOps.rounded fl).add (Complex.I * r) (Complex.I * r))] := by
    simp [PExpr.flSimplifyDict, f1, f3, flDictAdd, PyDict.get, PyDict.set, rounded_zero_add f2]
  rw [m1, m2, m3, PExpr.flSimplify, e1]
  simp [sortByRepr, PyDict.get, PExpr.fromTermsIter, w0]

/-- Real numbers in rounded arithmetic. -/
theorem rounded_real (h : SignedRounding fl) (x y : ℝ) :
    (PauliOps.rounded fl).add (x : ℂ) (y : ℂ) = (fl (x + y) : ℝ) ∧ (PauliOps.rounded fl).mul (x : ℂ) (y : ℂ) = (fl (x * y) : ℝ) := by
  constructor
  · refine Complex.ext ?_ ?_ <;> simp [PauliOps.rounded, FloatOps.rounded, h.zero]
  · refine Complex.ext ?_ ?_ <;> simp [PauliOps.rounded, FloatOps.rounded, h.zero, h.idem]

end Residue

/-- The coefficients of the example. -/
def bigX : ℝ := 1000000001 / 65536

/-- The coefficients of the example. -/
def bigY : ℝ := 1000000007 / 65536

theorem bigX_float : roundDouble bigX = bigX := by
  have := roundDouble_fixed 1000000001 (-16) (by norm_num)
  rw [show ((1000000001 : ℤ) : ℝ) * 2 ^ (-16 : ℤ) = bigX by rw [bigX]; norm_num [zpow_neg]] at this
  exact this

theorem bigY_float : roundDouble bigY = bigY := by
  have := roundDouble_fixed 1000000007 (-16) (by norm_num)
  rw [show ((1000000007 : ℤ) : ℝ) * 2 ^ (-16 : ℤ) = bigY by rw [bigY]; norm_num [zpow_neg]] at this
  exact this

/-- `fl(x x)` -/
def bigXX : ℝ := 7812500015625000 / 2 ^ 25
/-- `fl(y x)` -/
def bigYX : ℝ := 7812500062500000 / 2 ^ 25

theorem round_xx : roundDouble (bigX * bigX) = bigXX := by
  rw [roundDouble_eq 7812500015625000 (-25)] <;> simp only [bigX, bigXX] <;> norm_num [zpow_neg, abs_lt]

theorem round_yx : roundDouble (bigY * bigX) = bigYX := by
  rw [roundDouble_eq 7812500062500000 (-25)] <;> simp only [bigX, bigY, bigYX] <;> norm_num [zpow_neg, abs_lt]

theorem round_p : roundDouble (bigX * bigYX) = 7275957679667044 / 2 ^ 11 := by
  rw [roundDouble_eq 7275957679667044 (-11)] <;> (try simp only [bigX, bigYX]) <;> norm_num [zpow_neg, abs_lt]

theorem round_q : roundDouble (bigY * bigXX) = 7275957679667045 / 2 ^ 11 := by
  rw [roundDouble_eq 7275957679667045 (-11)] <;> (try simp only [bigY, bigXX]) <;> norm_num [zpow_neg, abs_lt]

/-- C103. With larger coefficients, rounding errors exceed the fixed `eps = 1e-8`. Take `a = x*X[0] + y*Y[0]` with
`x = 1000000001/65536` and `y = 1000000007/65536`, which commutes with `x*a`. In double precision, `is_commutable(a, x*a)` is
False, although the test passes for the same two expressions (`x*a` rounded) in exact arithmetic. -/
theorem C103_multiple_refuted :
    let a : PExpr := ⟨[⟨[⟨.X, 0⟩], (bigX : ℂ)⟩, ⟨[⟨.Y, 0⟩], (bigY : ℂ)⟩]⟩
    let b := a.flScale (.rounded roundDouble) (bigX : ℂ)
    exprOp a * exprOp (a.scale (bigX : ℂ)) = exprOp (a.scale (bigX : ℂ)) * exprOp a ∧
    isCommutable a b 1e-8 = true ∧
    flIsCommutable (.rounded roundDouble) a b 1e-8 = false := by
  intro a b
  have hx0 : bigX ≠ 0 := by rw [bigX]; norm_num
  have hy0 : bigY ≠ 0 := by rw [bigY]; norm_num
  have hxx0 : bigXX ≠ 0 := by rw [bigXX]; norm_num
  have hyx0 : bigYX ≠ 0 := by rw [bigYX]; norm_num
  have real := fun x y => rounded_real roundDouble_signed x y
  have hb : b = ⟨[⟨[⟨.X, 0⟩], (bigXX : ℂ)⟩, ⟨[⟨.Y, 0⟩], (bigYX : ℂ)⟩]⟩ := by
    simp only [b, a, PExpr.flScale, Complex.ofReal_eq_zero, hx0, if_false, List.map_cons, List.map_nil, (real _ _).2, round_xx, round_yx,
      PExpr.fromTermsIter]
    simp [hxx0, hyx0]
  refine ⟨?_, ?_, ?_⟩
  · rw [exprScale_op, mul_smul_comm, smul_mul_assoc]
  · have hyx : opOp ⟨.Y, 0⟩ * opOp ⟨.X, 0⟩ = (-1 : ℂ) • (opOp ⟨.X, 0⟩ * opOp ⟨.Y, 0⟩) := by
      have := opOp_anti ⟨.Y, 0⟩ ⟨.X, 0⟩; simpa [sign1] using this
    have hop : exprOp a * exprOp b - exprOp b * exprOp a =
        termOp ⟨[⟨.X, 0⟩, ⟨.Y, 0⟩], 2 * ((bigX : ℂ) * bigYX - (bigY : ℂ) * bigXX)⟩ := by
      rw [hb]
      simp only [a, exprOp, termOp, List.map_cons, List.map_nil, List.sum_cons, List.sum_nil, add_zero, wordOp_singleton, wordOp_cons,
        wordOp_nil, mul_one]
      simp only [add_mul, mul_add, smul_mul_smul_comm, hyx]
      module
    have hv : 2 * ((bigX : ℂ) * bigYX - (bigY : ℂ) * bigXX) = ((2 * (bigX * bigYX - bigY * bigXX) : ℝ) : ℂ) := by push_cast; ring
    have hne : 2 * (bigX * bigYX - bigY * bigXX) ≠ 0 := by simp only [bigX, bigY, bigXX, bigYX]; norm_num
    rw [hv] at hop
    rw [isCommutable, commutator_of_term (Complex.ofReal_ne_zero.2 hne) hop, decide_eq_true_eq]
    simp only [List.map_cons, List.map_nil, List.sum_cons, List.sum_nil, add_zero, coeff_sq, simplify_norm]
    rw [Complex.norm_real, Real.norm_eq_abs, sq_abs]
    simp only [bigX, bigY, bigXX, bigYX]
    norm_num
  · have fX : IsFloat roundDouble (bigX : ℂ) := by simp [IsFloat, bigX_float, roundDouble_zero]
    have fY : IsFloat roundDouble (bigY : ℂ) := by simp [IsFloat, bigY_float, roundDouble_zero]
    have fXX : IsFloat roundDouble (bigXX : ℂ) := by
      simp [IsFloat, ← round_xx, roundDouble_signed.idem, roundDouble_zero]
    have fYX : IsFloat roundDouble (bigYX : ℂ) := by
      simp [IsFloat, ← round_yx, roundDouble_signed.idem, roundDouble_zero]
    have zadd : ∀ x : ℝ, (PauliOps.rounded roundDouble).add 0 (x : ℂ) = (roundDouble x : ℝ) := by
      intro x
      have := (real 0 x).1
      simpa using this
    have hp : (PauliOps.rounded roundDouble).add 0 ((PauliOps.rounded roundDouble).mul (bigX : ℂ) (bigYX : ℂ)) =
        ((7275957679667044 / 2 ^ 11 : ℝ) : ℂ) := by
      rw [(real _ _).2, zadd, roundDouble_signed.idem, round_p]
    have hq : (PauliOps.rounded roundDouble).add 0 ((PauliOps.rounded roundDouble).mul (bigY : ℂ) (bigXX : ℂ)) =
        ((7275957679667045 / 2 ^ 11 : ℝ) : ℂ) := by
      rw [(real _ _).2, zadd, roundDouble_signed.idem, round_q]
    have hr : (PauliOps.rounded roundDouble).add ((7275957679667044 / 2 ^ 11 : ℝ) : ℂ) (-((7275957679667045 / 2 ^ 11 : ℝ) : ℂ)) =
        ((-(1 / 2 ^ 11) : ℝ) : ℂ) := by
      rw [← Complex.ofReal_neg, (real _ _).1]
      congr 1
      have := roundDouble_fixed (-1) (-11) (by norm_num)
      rw [show ((-1 : ℤ) : ℝ) * 2 ^ (-11 : ℤ) = -(1 / 2 ^ 11) by norm_num [zpow_neg]] at this
      rw [show (7275957679667044 / 2 ^ 11 + -(7275957679667045 / 2 ^ 11) : ℝ) = -(1 / 2 ^ 11) by norm_num, this]
    have hw : (PauliOps.rounded roundDouble).add (Complex.I * ((-(1 / 2 ^ 11) : ℝ) : ℂ)) (Complex.I * ((-(1 / 2 ^ 11) : ℝ) : ℂ)) =
        ⟨0, -(1 / 2 ^ 10)⟩ := by
      have := roundDouble_fixed (-1) (-10) (by norm_num)
      rw [show ((-1 : ℤ) : ℝ) * 2 ^ (-10 : ℤ) = -(1 / 2 ^ 10) by norm_num [zpow_neg]] at this
      refine Complex.ext ?_ ?_
      · simp only [PauliOps.rounded, FloatOps.rounded, Complex.mul_re, Complex.I_re, Complex.I_im, Complex.ofReal_re, Complex.ofReal_im,
          zero_mul, mul_zero, sub_zero, add_zero, roundDouble_zero]
      · simp only [PauliOps.rounded, FloatOps.rounded, Complex.mul_im, Complex.I_re, Complex.I_im, Complex.ofReal_re, Complex.ofReal_im,
          zero_mul, zero_add, one_mul, mul_zero]
        rw [show (-(1 / 2 ^ 11) + -(1 / 2 ^ 11) : ℝ) = -(1 / 2 ^ 10) by norm_num, this]
    have d0 : (PauliOps.rounded roundDouble).add ((PauliOps.rounded roundDouble).add 0
        ((PauliOps.rounded roundDouble).mul (bigX : ℂ) (bigXX : ℂ))) ((PauliOps.rounded roundDouble).mul (bigY : ℂ) (bigYX : ℂ)) ≠ 0 := by
      rw [(real _ _).2, (real _ _).2, zadd, (real _ _).1, roundDouble_signed.idem]
      rw [Complex.ofReal_ne_zero]
      have pos : ∀ x : ℝ, 0 < x → 0 < roundDouble x := by
        intro x hx
        have := roundDouble_rounds x
        rw [abs_of_pos hx] at this
        have := (abs_le.1 this).1
        norm_num at this
        linarith
      refine (pos _ (add_pos (pos _ ?_) (pos _ ?_))).ne'
      · simp only [bigX, bigXX]; norm_num
      · simp only [bigY, bigYX]; norm_num
    have c0 : ∀ x : ℝ, x ≠ 0 → (x : ℂ) ≠ 0 := fun x hx => by exact_mod_cast hx
    have hc := flCommutator_xy roundDouble_signed fX fY fXX fYX (c0 _ hx0) (c0 _ hy0) (c0 _ hxx0) (c0 _ hyx0) hp hq hr
      (c0 _ (by norm_num)) (c0 _ (by norm_num)) (c0 _ (by norm_num)) d0 (by rw [hw]; intro h0; have := congrArg Complex.im h0; norm_num at this)
    have hn := flCommutatorSize_near (C98_doubles roundDouble _ (by norm_num) (by norm_num) roundDouble_rounds 0).1 (by norm_num) a b
    rw [hb] at hn ⊢
    rw [flIsCommutable, decide_eq_false_iff_not, not_lt]
    rw [hc, hw] at hn
    have hs : sqTotal [(⟨[⟨.Z, 0⟩], ⟨0, -(1 / 2 ^ 10)⟩⟩ : PTerm)] = 1 / 2 ^ 20 := by
      simp only [sqTotal, List.map_cons, List.map_nil, List.sum_cons, List.sum_nil, add_zero, ← Complex.normSq_eq_norm_sq,
        Complex.normSq_mk]
      norm_num
    rw [hs] at hn
    have := (abs_le.1 hn).1
    simp only [List.length_singleton] at this
    norm_num at this ⊢
    linarith

end

end Blueqat
