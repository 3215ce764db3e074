import Verif.SymPolyLemmas
import Mathlib.Tactic.LinearCombination
import Mathlib.Data.Finset.Sort

/-!
# C74, C75: QUBOs given as polynomials
-/

set_option linter.unusedSimpArgs false
set_option linter.unusedVariables false

namespace Blueqat

noncomputable section

open Classical MvPolynomial
open Spec

/-! ## Lemmas -/

theorem multilinear_first {f : SymPoly} (h : IsMultilinear f) (hv : f.vars.Nonempty) :
    ∀ i, f.degreeOf i ≤ f.degreeOf (f.vars.min' hv) := by
  intro i
  have h1 : f.degreeOf i ≤ 1 := degreeOf_le_iff.2 fun m hm => h m hm i
  have h2 : 1 ≤ f.degreeOf (f.vars.min' hv) := by
    obtain ⟨m, hm, hi⟩ := (mem_vars _).1 (f.vars.min'_mem hv)
    have := degreeOf_le_iff.1 (le_refl (f.degreeOf (f.vars.min' hv))) m hm
    have := Finsupp.mem_support_iff.1 hi
    omega
  exact h1.trans h2

theorem expandQubo_multilinear {ord : Finset ℕ → List ℕ} (ho : ListsSets ord) {f : SymPoly} (h : IsMultilinear f)
    (hv : f.vars.Nonempty) : expandQubo ord f = .ok f := by
  rw [expandQubo_cap ho hv (multilinear_first h hv), cap_self h]

theorem expandQubo_const {ord : Finset ℕ → List ℕ} {f : SymPoly} (h : f.vars = ∅) :
    expandQubo ord f = .error .generatorsNeeded := by
  rw [expandQubo, polyDegree, dif_neg (by rw [h]; simp)]; rfl

/-- The first call of `expand_qubo`. -/
theorem expand_text {ord : Finset ℕ → List ℕ} (ho : ListsSets ord) {P : PolyText} {f g : SymPoly} (hf : Denotes P f)
    (hd : FirstIsLargest f) (hv : f.vars ≠ ∅) (hg : IsMultilinear g)
    (hb : ∀ x, IsBits x → eval x g = valueOf P x) : expandQubo ord P.expand = .ok g := by
  have hv' := Finset.nonempty_iff_ne_empty.2 hv
  rw [expand_unique hf, expandQubo_cap ho hv' (hd _ (f.vars.min'_mem hv') (fun k hk => f.vars.min'_le k hk))]
  congr 1
  apply multilinear_ext (cap_multilinear f) hg
  intro x hx
  rw [eval_cap hx, hf x, hb x hx]

theorem bits_zero : IsBits (fun _ => 0) := fun _ => Or.inl rfl

theorem quadForm_zero (n : ℕ) (c : ℝ) (a : ℕ → ℝ) (b : ℕ → ℕ → ℝ) : quadForm n c a b (fun _ => 0) = c := by
  simp [quadForm]

/-- The upper triangular matrix of a quadratic form. -/
theorem quad_energy (n : ℕ) (c : ℝ) (a : ℕ → ℝ) (b : ℕ → ℕ → ℝ) (x : ℕ → ℝ) (hx : IsBits x) :
    quboEnergy n (fun i j => if i = j then a i else if i < j then b i j else 0) x = quadForm n c a b x - c := by
  have hs : ∀ i, x i * x i = x i := fun i => by rcases hx i with h | h <;> simp [h]
  rw [quboEnergy, quadForm, add_assoc, add_sub_cancel_left, ← Finset.sum_add_distrib]
  apply Finset.sum_congr rfl
  intro i hi
  have : ∀ j ∈ Finset.range n, (if i = j then a i else if i < j then b i j else 0) * x i * x j =
      (if i = j then a i * x i else 0) + (if i < j then b i j * x i * x j else 0) := by
    intro j _
    by_cases hij : i = j
    · subst hij; simp [mul_assoc, hs]
    · by_cases h : i < j <;> simp [hij, h]
  rw [Finset.sum_congr rfl this, Finset.sum_add_distrib, Finset.sum_ite_eq, if_pos hi]

/-! ## C74: `Opt.add` of a polynomial -/

/-- The matrix of a quadratic form. -/
theorem matrix_text {ord : Finset ℕ → List ℕ} (ho : ListsSets ord) (n : ℕ) (hn : 0 < n) (c : ℝ) (a : ℕ → ℝ)
    (b : ℕ → ℕ → ℝ) (hocc : ∀ i < n, a i ≠ 0 ∨ InProduct n b i) :
    ∃ m, quboToMatrix ord (quadPoly n c a b) = .ok m ∧ m.rows = n ∧ m.cols = n ∧
      ∀ i < n, ∀ j < n, m.ent i j = if i = j then a i else if i < j then b i j else 0 := by
  have hvars := quad_vars (c := c) hocc
  have hne : (quadPoly n c a b).vars.Nonempty := by
    rw [hvars]; exact ⟨0, Finset.mem_range.2 hn⟩
  have hmem : ∀ i, i ∈ ord (quadPoly n c a b).vars ↔ i < n := by
    intro i; rw [(ho _).2, hvars, Finset.mem_range]
  obtain ⟨m, h1, h2, h3, h4⟩ := qmAll_ok (f := quadPoly n c a b) (n := n) (ord (quadPoly n c a b).vars)
    (ord (quadPoly n c a b).vars) (npZeros n) rfl rfl (by
      intro i hi j hj
      exact ⟨(hmem i).1 hi, (hmem j).1 hj, fun hij => (quad_coeff_of_pair n c a b hij).1⟩)
  refine ⟨m.triu 0, ?_, h2, h3, ?_⟩
  · rw [quboToMatrix, expandQubo_multilinear ho (quad_multilinear n c a b) hne]
    change ((List.foldlM _ _ _ : Except PyErr NpMat) >>= fun m => pure (NpMat.triu m 0)) = _
    rw [show (npZeros (quadPoly n c a b).vars.card) = npZeros n by rw [hvars, Finset.card_range], h1]
    rfl
  · intro i hi j hj
    have h4' := h4 i j
    rw [if_pos ⟨(hmem i).2 hi, (hmem j).2 hj⟩, entryVal] at h4'
    simp only [NpMat.triu, add_zero]
    rw [h4']
    by_cases hij : i = j
    · subst hij
      rw [if_pos le_rfl, if_pos rfl, if_pos rfl, quad_coeff_of_single, if_pos hi]
    · rw [if_neg hij, if_neg hij, (quad_coeff_of_pair n c a b hij).2]
      by_cases h : i < j
      · rw [if_pos h.le, if_pos h, max_eq_right h.le, min_eq_left h.le, if_pos hj]
      · rw [if_neg (by omega), if_neg h]

/-- C74. A polynomial in which no symbol has a larger power than the first one, and which is on bits the quadratic form
`c + Σ a_i q_i + Σ b_ij q_i q_j` in `q0, ..., q(n-1)`, all of which occur: the matrix added is the one with `a` on the
diagonal and `b` above it; its energy is the value of the polynomial without the constant. -/
theorem C74_add_partial (ord : Finset ℕ → List ℕ) (ho : ListsSets ord) (P : PolyText) (f : MvPolynomial ℕ ℝ)
    (hf : Denotes P f) (hd : FirstIsLargest f) (n : ℕ) (hn : 0 < n) (c : ℝ) (a : ℕ → ℝ) (b : ℕ → ℕ → ℝ)
    (hq : ∀ x, IsBits x → valueOf P x = quadForm n c a b x) (hocc : ∀ i < n, a i ≠ 0 ∨ InProduct n b i) (M : ℝ) :
    ∃ m : NpMat, optAddText ord (.rows []) P M = .ok (.array (m.scale M)) ∧ m.rows = n ∧ m.cols = n ∧
      (∀ i < n, ∀ j < n, m.ent i j = if i = j then a i else if i < j then b i j else 0) ∧
      (∀ x, IsBits x → quboEnergy n m.ent x = valueOf P x - valueOf P (fun _ => 0)) ∧
      ∀ s : NpMat, s.rows = n → s.cols = n →
        optAddText ord (.array s) P M = .ok (.array ⟨n, n, fun i j => s.ent i j + M * m.ent i j⟩) := by
  have hv : f.vars ≠ ∅ := by
    intro h0
    have hconst : ∀ x, valueOf P x = f.coeff 0 := by
      intro x
      rw [← hf x, eval_eq]
      rw [vars_empty_iff] at h0
      by_cases hz : (0 : ℕ →₀ ℕ) ∈ f.support
      · rw [Finset.sum_eq_single 0]
        · simp
        · intro m hm hne; exact absurd (h0 m hm) hne
        · intro hh; exact absurd hz hh
      · rw [Finset.sum_eq_zero]
        · exact (notMem_support_iff.1 hz).symm
        · intro m hm; exact absurd (h0 m hm ▸ hm) hz
    have hg := multilinear_ext (quad_multilinear n c a b) (g := C (f.coeff 0)) (by
      intro m hm i
      by_contra hi
      have h1 : (C (f.coeff 0) : SymPoly).vars = ∅ := vars_C' _
      rw [vars_empty_iff] at h1
      rw [h1 m hm] at hi; simp at hi) (by
        intro x hx
        rw [quad_eval', ← hq x hx, hconst, eval_C])
    have h1 := quad_vars (c := c) hocc
    rw [hg, vars_C'] at h1
    have : 0 ∈ Finset.range n := Finset.mem_range.2 hn
    rw [← h1] at this; simp at this
  have hb : ∀ x, IsBits x → eval x (quadPoly n c a b) = valueOf P x := by
    intro x hx; rw [quad_eval', hq x hx]
  have he := expand_text ho hf hd hv (quad_multilinear n c a b) hb
  obtain ⟨m, h1, h2, h3, h4⟩ := matrix_text ho n hn c a b hocc
  refine ⟨m, ?_, h2, h3, h4, ?_, ?_⟩
  · rw [optAddText, he]
    show (do let m ← quboToMatrix ord (quadPoly n c a b); optAdd _ _ _) = _
    rw [h1]
    show optAdd _ _ _ = _
    rw [optAdd, if_neg (by simp only [QuboVal.len, List.length_nil, h2]; omega), if_pos (by simp [QuboVal.eqEmpty])]
    rfl
  · intro x hx
    have : quboEnergy n m.ent x = quboEnergy n (fun i j => if i = j then a i else if i < j then b i j else 0) x := by
      apply Finset.sum_congr rfl
      intro i hi
      apply Finset.sum_congr rfl
      intro j hj
      rw [h4 i (Finset.mem_range.1 hi) j (Finset.mem_range.1 hj)]
    rw [this, quad_energy n c a b x hx, hq x hx, hq _ bits_zero, quadForm_zero]
  · intro s hr hc
    rw [optAddText, he]
    show (do let m ← quboToMatrix ord (quadPoly n c a b); optAdd _ _ _) = _
    rw [h1]
    show optAdd _ _ _ = _
    rw [optAdd, if_pos (by simp only [QuboVal.len]; omega)]
    simp only [QuboVal.toArray, bind, Except.bind, NpMat.plus, NpMat.scale, hr, hc, h2, h3, and_self, if_true, pure,
      Except.pure, NpMat.add]

/-- C74. Everything else with this bound on the powers is refused: polynomials that are constant on bits, that skip a
number, or that have a product of three symbols. -/
theorem C74_rejects (ord : Finset ℕ → List ℕ) (ho : ListsSets ord) (P : PolyText) (f g : MvPolynomial ℕ ℝ)
    (hf : Denotes P f) (hd : FirstIsLargest f) (hg : IsMultilinear g) (hb : ∀ x, IsBits x → eval x g = valueOf P x)
    (self : QuboVal) (M : ℝ)
    (h : (∀ n, g.vars ≠ Finset.range n) ∨ g.vars = ∅ ∨ ∃ m ∈ g.support, 3 ≤ m.support.card) :
    ∃ e, optAddText ord self P M = .error e := by
  by_cases hv : f.vars = ∅
  · exact ⟨.generatorsNeeded, by rw [optAddText, expand_unique hf, expandQubo_const hv]; rfl⟩
  have he := expand_text ho hf hd hv hg hb
  suffices ∃ e, quboToMatrix ord g = .error e by
    obtain ⟨e, hm⟩ := this
    refine ⟨e, ?_⟩
    rw [optAddText, he]
    show (do let m ← quboToMatrix ord g; optAdd _ _ _) = _
    rw [hm]; rfl
  by_cases hgv : g.vars = ∅
  · exact ⟨.generatorsNeeded, by rw [quboToMatrix, expandQubo_const hgv]; rfl⟩
  have herr := qmAll_err (f := g) (n := g.vars.card) (ord g.vars) (ord g.vars) (npZeros g.vars.card) rfl rfl ?_
  · obtain ⟨e, he'⟩ := herr
    refine ⟨e, ?_⟩
    rw [quboToMatrix, expandQubo_multilinear ho hg (Finset.nonempty_iff_ne_empty.2 hgv)]
    change ((List.foldlM _ _ _ : Except PyErr NpMat) >>= fun m => pure (NpMat.triu m 0)) = _
    rw [he']; rfl
  · rcases h with h | h | ⟨m, hm, h3⟩
    · have : ∃ v ∈ g.vars, g.vars.card ≤ v := by
        by_contra hc
        push Not at hc
        exact h _ (Finset.eq_of_subset_of_card_le (fun v hv => Finset.mem_range.2 (hc v hv))
          (by rw [Finset.card_range]))
      obtain ⟨v, hv, hle⟩ := this
      refine ⟨v, ((ho _).2 v).2 hv, v, ((ho _).2 v).2 hv, ?_⟩
      intro hok; have := hok.1; omega
    · exact absurd h hgv
    · obtain ⟨i, hi, j, hj, k, hk, hij, hik, hjk⟩ := Finset.two_lt_card.1 h3
      have hmem : ∀ v ∈ m.support, v ∈ ord g.vars := fun v hv =>
        ((ho _).2 v).2 ((mem_vars v).2 ⟨m, hm, hv⟩)
      refine ⟨i, hmem i hi, j, hmem j hj, ?_⟩
      intro hok
      have h0 := (vars_empty_iff _).1 (hok.2.2 hij)
      have hone : ∀ v ∈ m.support, m v = 1 := fun v hv => by
        have h1 := hg m hm v
        have h2 := Finsupp.mem_support_iff.1 hv
        omega
      have hz : ∀ v ∈ ({i, j} : Finset ℕ), (m.filter (fun v => v ∉ ({i, j} : Finset ℕ))) v = 0 := by
        intro v hv; rw [Finsupp.filter_apply, if_neg (not_not.2 hv)]
      have hsum : m.filter (fun v => v ∉ ({i, j} : Finset ℕ)) + ∑ v ∈ ({i, j} : Finset ℕ), Finsupp.single v 1 = m := by
        rw [Finset.sum_pair hij]
        ext v
        rw [Finsupp.add_apply, pair_apply, Finsupp.filter_apply]
        by_cases hvi : v = i
        · subst hvi; simp [hij, hone v hi]
        · by_cases hvj : v = j
          · subst hvj; simp [hvi, hone v hj]
          · simp [hvi, hvj]
      have hs : m.filter (fun v => v ∉ ({i, j} : Finset ℕ)) ∈ (symCoeff g {i, j}).support := by
        rw [mem_support_iff, symCoeff_coeff _ _ _ hz, hsum]
        exact mem_support_iff.1 hm
      have hk0 := DFunLike.congr_fun (h0 _ hs) k
      rw [Finsupp.filter_apply, if_pos (by simp [hik.symm, hjk.symm]), hone k hk] at hk0
      simp at hk0

/-- `q0 + q1**k` as a polynomial. -/
theorem late_denotes (k : ℕ) : Denotes (.add (.sym 0) (.pow (.sym 1) k))
    (monomial (Finsupp.single 0 1) 1 + monomial (Finsupp.single 1 k) 1) := by
  intro x
  rw [map_add, eval_monomial, eval_monomial]
  simp [valueOf]

theorem late_support {k : ℕ} {m : ℕ →₀ ℕ}
    (h : m ∈ (monomial (Finsupp.single 0 1) 1 + monomial (Finsupp.single 1 k) 1 : SymPoly).support) :
    m = Finsupp.single 0 1 ∨ m = Finsupp.single 1 k := by
  by_contra hc
  push Not at hc
  rw [mem_support_iff, coeff_add, coeff_monomial, coeff_monomial, if_neg hc.1.symm, if_neg hc.2.symm] at h
  simp at h

theorem late_ne {k : ℕ} (hk : 2 ≤ k) (a : ℕ) : (Finsupp.single 1 k : ℕ →₀ ℕ) ≠ Finsupp.single a 1 := by
  intro h
  have := DFunLike.congr_fun h 1
  rw [Finsupp.single_apply, Finsupp.single_apply] at this
  split_ifs at this <;> omega

theorem expandQubo_first {ord : Finset ℕ → List ℕ} (ho : ListsSets ord) {f : SymPoly} (hv : f.vars.Nonempty)
    (hd : f.degreeOf (f.vars.min' hv) = 1) : expandQubo ord f = .ok f := by
  rw [expandQubo, polyDegree, dif_pos hv]
  show Except.ok _ = _
  rw [expand_fold ho, hd]
  congr 1
  apply mapMono_self
  intro m _
  ext i
  simp [powLoop, powSubs]

/-- C74 is false of the code if a later symbol has a larger power than the first one: `q0 + q1**k` is read as `q0`. -/
theorem C74_degree_refuted (ord : Finset ℕ → List ℕ) (ho : ListsSets ord) (k : ℕ) (hk : 2 ≤ k) :
    ∃ m : NpMat, optAddText ord (.rows []) (.add (.sym 0) (.pow (.sym 1) k)) 1 = .ok (.array m) ∧
      m.rows = 2 ∧ m.cols = 2 ∧ m.ent 0 0 = 1 ∧ m.ent 0 1 = 0 ∧ m.ent 1 0 = 0 ∧ m.ent 1 1 = 0 ∧
      ¬∃ c, ∀ x, IsBits x → quboEnergy 2 m.ent x + c = valueOf (.add (.sym 0) (.pow (.sym 1) k)) x := by
  have hP := expand_unique (late_denotes k)
  generalize hf : (monomial (Finsupp.single 0 1) 1 + monomial (Finsupp.single 1 k) 1 : SymPoly) = f at hP
  have hs : ∀ m ∈ f.support, m = Finsupp.single 0 1 ∨ m = Finsupp.single 1 k := by
    intro m hm; rw [← hf] at hm; exact late_support hm
  have h0 : Finsupp.single 0 1 ∈ f.support := by
    rw [mem_support_iff, ← hf, coeff_add, coeff_monomial, coeff_monomial, if_pos rfl, if_neg (late_ne hk 0)]; simp
  have h1 : Finsupp.single 1 k ∈ f.support := by
    rw [mem_support_iff, ← hf, coeff_add, coeff_monomial, coeff_monomial, if_pos rfl, if_neg (late_ne hk 0).symm]; simp
  have hvars : f.vars = {0, 1} := by
    ext v
    rw [mem_vars]
    constructor
    · rintro ⟨m, hm, hv⟩
      rw [Finsupp.mem_support_iff] at hv
      rcases hs m hm with rfl | rfl <;> rw [Finsupp.single_apply] at hv <;> split_ifs at hv with hh <;> simp_all
      all_goals (try simp [← hh])
    · intro hv
      rcases Finset.mem_insert.1 hv with rfl | hv
      · exact ⟨_, h0, by simp⟩
      · rw [Finset.mem_singleton.1 hv]
        exact ⟨_, h1, by rw [Finsupp.mem_support_iff]; simp; omega⟩
  have hne : f.vars.Nonempty := by rw [hvars]; simp
  have hmin : f.vars.min' hne = 0 := by
    apply Nat.le_zero.1
    exact Finset.min'_le _ _ (by rw [hvars]; simp)
  have hdeg : f.degreeOf (f.vars.min' hne) = 1 := by
    rw [hmin]
    apply le_antisymm
    · rw [degreeOf_le_iff]
      intro m hm
      rcases hs m hm with rfl | rfl <;> simp
    · have := degreeOf_le_iff.1 (le_refl (f.degreeOf 0)) _ h0
      simpa using this
  have hcoef : f.coeff (Finsupp.single 0 1) = 1 ∧ f.coeff (Finsupp.single 1 1) = 0 := by
    constructor
    · rw [← hf, coeff_add, coeff_monomial, coeff_monomial, if_pos rfl, if_neg (late_ne hk 0), add_zero]
    · rw [← hf, coeff_add, coeff_monomial, coeff_monomial, if_neg (late_ne hk 1), if_neg, add_zero]
      intro h
      have := DFunLike.congr_fun h 0
      simp at this
  have hpair : ∀ i j, i ≠ j → symCoeff f {i, j} = 0 := by
    intro i j hij
    rw [← support_eq_empty, Finset.eq_empty_iff_forall_notMem]
    intro m hm
    have h2 := (symCoeff_support hm).2
    rw [Finset.sum_pair hij] at h2
    rcases hs _ h2 with h | h
    · have hi := DFunLike.congr_fun h i
      have hj := DFunLike.congr_fun h j
      rw [Finsupp.add_apply, pair_apply, Finsupp.single_apply] at hi hj
      split_ifs at hi hj <;> omega
    · have hi := DFunLike.congr_fun h i
      have hj := DFunLike.congr_fun h j
      rw [Finsupp.add_apply, pair_apply, Finsupp.single_apply] at hi hj
      split_ifs at hi hj <;> omega
  have hmem : ∀ i, i ∈ ord f.vars ↔ i < 2 := by
    intro i; rw [(ho _).2, hvars]; simp; omega
  obtain ⟨m, q1, q2, q3, q4⟩ := qmAll_ok (f := f) (n := 2) (ord f.vars) (ord f.vars) (npZeros 2) rfl rfl (by
      intro i hi j hj
      exact ⟨(hmem i).1 hi, (hmem j).1 hj, fun hij => by rw [hpair i j hij]; exact vars_0⟩)
  have hent : ∀ i j, i < 2 → j < 2 → (m.triu 0).ent i j = if i = 0 ∧ j = 0 then 1 else 0 := by
    intro i j hi hj
    have h4' := q4 i j
    rw [if_pos ⟨(hmem i).2 hi, (hmem j).2 hj⟩, entryVal] at h4'
    simp only [NpMat.triu, add_zero]
    rw [h4']
    by_cases hij : i = j
    · subst hij
      rw [if_pos rfl, if_pos le_rfl, symCoeff_coeff _ _ _ (by simp), zero_add, Finset.sum_singleton]
      rcases Nat.lt_or_ge i 1 with h | h
      · have : i = 0 := by omega
        subst this; simp [hcoef.1]
      · have : i = 1 := by omega
        subst this; simp [hcoef.2]
    · have h00 : ¬(i = 0 ∧ j = 0) := by omega
      rw [if_neg hij, hpair i j hij, if_neg h00, coeff_zero, ite_self]
  refine ⟨(m.triu 0).scale 1, ?_, q2, q3, ?_, ?_, ?_, ?_, ?_⟩
  · rw [optAddText, hP, expandQubo_first ho hne hdeg]
    show (do let m ← quboToMatrix ord f; optAdd _ _ _) = _
    have : quboToMatrix ord f = .ok (m.triu 0) := by
      rw [quboToMatrix, expandQubo_first ho hne hdeg]
      change ((List.foldlM _ _ _ : Except PyErr NpMat) >>= fun m => pure (NpMat.triu m 0)) = _
      rw [show (npZeros f.vars.card) = npZeros 2 by rw [hvars]; rfl, q1]
      rfl
    rw [this]
    show optAdd _ _ _ = _
    rw [optAdd, if_neg (by simp [QuboVal.len, NpMat.triu, q2]), if_pos (by simp [QuboVal.eqEmpty])]
    rfl
  all_goals try (simp only [NpMat.scale, one_mul]; rw [hent _ _ (by omega) (by omega)]; simp)
  rintro ⟨c, hc⟩
  have e0 := hc (fun _ => 0) (fun _ => Or.inl rfl)
  have e1 := hc (fun i => if i = 1 then 1 else 0) (fun i => by by_cases h : i = 1 <;> simp [h])
  simp only [quboEnergy, Finset.sum_range_succ, Finset.sum_range_zero, NpMat.scale, one_mul] at e0 e1
  rw [hent 0 0 (by omega) (by omega), hent 0 1 (by omega) (by omega), hent 1 0 (by omega) (by omega),
    hent 1 1 (by omega) (by omega)] at e0 e1
  have : k ≠ 0 := by omega
  simp [valueOf, this] at e0 e1
  rw [e0] at e1; simp at e1

/-- The example of the documentation, `"(q0+q1)^2"`: the matrix with 1 on the diagonal and 2 above it. -/
theorem C74_doc (ord : Finset ℕ → List ℕ) (ho : ListsSets ord) : ∃ m : NpMat,
    optAddText ord (.rows []) (.pow (.add (.sym 0) (.sym 1)) 2) 1 = .ok (.array m) ∧ m.rows = 2 ∧ m.cols = 2 ∧
    m.ent 0 0 = 1 ∧ m.ent 0 1 = 2 ∧ m.ent 1 0 = 0 ∧ m.ent 1 1 = 1 := by
  have hf : Denotes (.pow (.add (.sym 0) (.sym 1)) 2) ((X 0 + X 1) ^ 2) := by
    intro x; simp [valueOf]
  have hle : ∀ j, (((X 0 + X 1) ^ 2 : SymPoly)).degreeOf j ≤ 2 := by
    intro j
    refine (degreeOf_pow_le j _ 2).trans ?_
    have : (X 0 + X 1 : SymPoly).degreeOf j ≤ 1 := by
      refine (degreeOf_add_le j _ _).trans ?_
      rw [degreeOf_X, degreeOf_X]; split_ifs <;> simp
    omega
  have hd : FirstIsLargest ((X 0 + X 1) ^ 2) := by
    intro i hi _ j
    refine (hle j).trans ?_
    have hi' : i = 0 ∨ i = 1 := by
      have := vars_add_subset _ _ (vars_pow _ _ hi)
      simpa [vars_X] using this
    have hc : (Finsupp.single i 2) ∈ ((X 0 + X 1) ^ 2 : SymPoly).support := by
      have : ((X 0 + X 1) ^ 2 : SymPoly) = monomial (Finsupp.single 0 2) 1 +
          monomial (Finsupp.single 0 1 + Finsupp.single 1 1) 2 + monomial (Finsupp.single 1 2) 1 := by
        apply MvPolynomial.funext
        intro x
        simp only [map_add, map_pow, eval_X, eval_monomial]
        rw [Finsupp.prod_add_index', Finsupp.prod_single_index, Finsupp.prod_single_index, Finsupp.prod_single_index,
          Finsupp.prod_single_index] <;> simp [pow_add]
        ring
      rw [this, mem_support_iff, coeff_add, coeff_add, coeff_monomial, coeff_monomial, coeff_monomial]
      have hp : (Finsupp.single 0 1 + Finsupp.single 1 1 : ℕ →₀ ℕ) ≠ Finsupp.single i 2 := by
        intro h
        have h1 := DFunLike.congr_fun h 0
        have h2 := DFunLike.congr_fun h 1
        rcases hi' with rfl | rfl <;> simp at h1 h2
      rw [if_neg hp]
      rcases hi' with rfl | rfl <;> simp [Finsupp.single_left_inj]
    have := degreeOf_le_iff.1 (le_refl (degreeOf i ((X 0 + X 1) ^ 2 : SymPoly))) _ hc
    simpa using this
  obtain ⟨m, h1, h2, h3, h4, _⟩ := C74_add_partial ord ho _ _ hf hd 2 (by omega) 0 (fun _ => 1) (fun _ _ => 2) (by
    intro x hx
    have hs : ∀ i, x i * x i = x i := fun i => by rcases hx i with h | h <;> simp [h]
    have h0 := hs 0
    have h1 := hs 1
    simp [valueOf, quadForm, Finset.sum_range_succ]
    linear_combination h0 + h1) (by intro i _; left; norm_num) 1
  refine ⟨_, h1, h2, h3, ?_, ?_, ?_, ?_⟩ <;> simp only [NpMat.scale, one_mul] <;>
    rw [h4 _ (by omega) _ (by omega)] <;> norm_num

example : ∃ ord, ListsSets ord := ⟨fun s => s.sort (· ≤ ·), fun s => ⟨s.sort_nodup _, fun i => Finset.mem_sort _⟩⟩

/-- The hypotheses of `C74_rejects` are met by a product of three symbols. -/
example (ord : Finset ℕ → List ℕ) (ho : ListsSets ord) : ∃ e,
    optAddText ord (.rows []) (.mul (.mul (.sym 0) (.sym 1)) (.sym 2)) 1 = .error e := by
  have hm : (X 0 * X 1 * X 2 : SymPoly) = monomial (Finsupp.single 0 1 + Finsupp.single 1 1 + Finsupp.single 2 1) 1 := by
    rw [X, X, X, monomial_mul, monomial_mul]; norm_num
  have hs : ∀ m ∈ (X 0 * X 1 * X 2 : SymPoly).support,
      m = Finsupp.single 0 1 + Finsupp.single 1 1 + Finsupp.single 2 1 := by
    intro m h
    rw [hm, mem_support_iff, coeff_monomial] at h
    by_contra hc; rw [if_neg fun hh => hc hh.symm] at h; exact h rfl
  have hml : IsMultilinear (X 0 * X 1 * X 2) := by
    intro m h i
    rw [hs m h, Finsupp.add_apply, pair_apply, Finsupp.single_apply]
    split_ifs <;> omega
  have hvars : ((X 0 * X 1 * X 2 : SymPoly)).vars.Nonempty := by
    refine ⟨0, (mem_vars 0).2 ⟨Finsupp.single 0 1 + Finsupp.single 1 1 + Finsupp.single 2 1, ?_, ?_⟩⟩
    · rw [hm, mem_support_iff, coeff_monomial]; simp
    · rw [Finsupp.mem_support_iff, Finsupp.add_apply, pair_apply]; simp
  refine C74_rejects ord ho _ (X 0 * X 1 * X 2) (X 0 * X 1 * X 2) (by intro x; simp [valueOf]) ?_ hml
    (by intro x _; simp [valueOf]) _ _ (Or.inr (Or.inr
      ⟨Finsupp.single 0 1 + Finsupp.single 1 1 + Finsupp.single 2 1, ?_, ?_⟩))
  · intro i hi hmin j
    have h1 := multilinear_first hml hvars j
    have : (X 0 * X 1 * X 2 : SymPoly).vars.min' hvars = i :=
      le_antisymm (Finset.min'_le _ _ hi) (hmin _ (Finset.min'_mem _ _))
    rwa [this] at h1
  · rw [hm, mem_support_iff, coeff_monomial]; simp
  · have : ({0, 1, 2} : Finset ℕ) ⊆ (Finsupp.single 0 1 + Finsupp.single 1 1 + Finsupp.single 2 1 : ℕ →₀ ℕ).support := by
      intro i hi
      simp only [Finset.mem_insert, Finset.mem_singleton] at hi
      rw [Finsupp.mem_support_iff, Finsupp.add_apply, pair_apply, Finsupp.single_apply]
      rcases hi with rfl | rfl | rfl <;> simp
    exact le_trans (by simp) (Finset.card_le_card this)

end

end Blueqat
