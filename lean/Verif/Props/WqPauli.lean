import Verif.QuboLemmas

/-!
# Property C42: a QUBO as a Pauli expression
-/

set_option linter.unusedSimpArgs false
set_option linter.unusedVariables false

namespace Blueqat

open Spec Finset

noncomputable section

/-- The bit of a basis state. -/
def bitOf (k i : ℕ) : ℝ := if k.testBit i then 1 else 0

theorem quboBit_op (i : ℕ) (ψ : Vec) (k : ℕ) : valOp (quboBit i) ψ k = (bitOf k i : ℂ) * ψ k := by
  rw [quboBit, pvSub_op _ _ (by
    apply distinct_toExpr; exact distinct_of_kind (by simp [kindOf])), pvMul_op]
  show (((0.5 : ℝ) : ℂ) • ψ) k - (((0.5 : ℝ) : ℂ) • app mZ i ψ) k = _
  simp only [Pi.smul_apply, smul_eq_mul, app, mZ, bitOf]
  split_ifs <;> push_cast <;> ring

theorem scaled_op (a : PVal) (x : ℝ) (ψ : Vec) (k : ℕ) :
    valOp (pvMul a (.num (.real x))) ψ k = (x : ℂ) * valOp a ψ k := by
  rw [pvMul_op]
  show valOp a ((x : ℂ) • ψ) k = _
  rw [map_smul]; rfl

theorem pair_op (i j : ℕ) (ψ : Vec) (k : ℕ) :
    valOp (pvMul (quboBit i) (quboBit j)) ψ k = (bitOf k i : ℂ) * (bitOf k j : ℂ) * ψ k := by
  rw [pvMul_op, Module.End.mul_apply, quboBit_op, quboBit_op, mul_assoc]

theorem add_op (h v : PVal) (hd : h.Distinct) (ψ : Vec) (k : ℕ) :
    valOp (pvAdd h v) ψ k = valOp h ψ k + valOp v ψ k := by
  rw [pvAdd_op _ _ (distinct_toExpr hd)]; rfl

theorem wqPauli_ok (q : Rows) (hq : ∀ r ∈ q, r.length = q.length) (ψ : Vec) (k : ℕ) :
    ∃ v, wqPauli q = .ok v ∧ valOp v ψ k = ((quboEnergy q.length (entryOf q) (bitOf k) : ℝ) : ℂ) * ψ k := by
  have hent : ∀ i < q.length, ∀ j < q.length, q.entry i j = .ok (entryOf q i j) :=
    fun i hi j hj => quboRows_entry (fun r hr => (hq r hr).ge) hi hj
  have hall : q.all (fun r => decide (r.length = q.length)) = true := by simpa using hq
  obtain ⟨v, h1, -, h2⟩ := foldlM_sum (f := fun h i => do
      let d ← q.entry i i
      let h := pvAdd h (pvMul (quboBit i) (.num (.real d)))
      (List.range' (i + 1) (q.length - (i + 1))).foldlM (fun h j => do
        let a ← q.entry i j
        let b ← q.entry j i
        pure (pvAdd h (pvMul (pvMul (quboBit i) (quboBit j)) (.num (.real (a + b)))))) h)
    (Inv := PVal.Distinct) (val := fun v => valOp v ψ k)
    (g := fun i => (((entryOf q i i * bitOf k i + ∑ j ∈ range q.length, if i < j then
        (entryOf q i j + entryOf q j i) * (bitOf k i * bitOf k j) else 0 : ℝ)) : ℂ) * ψ k)
    (List.range q.length) (by
      intro i hi s hs
      have hi' : i < q.length := by simpa using hi
      obtain ⟨v, h1, h2, h3⟩ := foldlM_sum (f := fun h j => do
          let a ← q.entry i j
          let b ← q.entry j i
          pure (pvAdd h (pvMul (pvMul (quboBit i) (quboBit j)) (.num (.real (a + b))))))
        (Inv := PVal.Distinct) (val := fun v => valOp v ψ k)
        (g := fun j => (((entryOf q i j + entryOf q j i) * (bitOf k i * bitOf k j) : ℝ) : ℂ) * ψ k)
        (List.range' (i + 1) (q.length - (i + 1))) (by
          intro j hj s hs
          have hj' : j < q.length := by simp at hj; omega
          refine ⟨_, by simp only [hent i hi' j hj', hent j hj' i hi']; rfl, distinct_add _ _, ?_⟩
          rw [add_op _ _ hs, scaled_op, pair_op]
          push_cast; ring) (pvAdd s (pvMul (quboBit i) (.num (.real (entryOf q i i))))) (distinct_add _ _)
      refine ⟨v, by simp only [hent i hi' i hi']; exact h1, h2, ?_⟩
      beta_reduce at h3 ⊢
      rw [h3, add_op _ _ hs, scaled_op, quboBit_op, list_range'_sum]
      push_cast
      rw [add_mul, Finset.sum_mul]
      simp only [Nat.succ_le_iff]
      rw [add_assoc]
      congr 1
      congr 1
      · ring
      · refine Finset.sum_congr rfl (fun j _ => ?_)
        split_ifs <;> simp) (.num (.real 0)) (distinct_of_kind (by simp [kindOf]))
  refine ⟨v, by rw [wqPauli, if_pos hall]; exact h1, ?_⟩
  beta_reduce at h2
  have h0 : valOp (.num (.real 0)) ψ k = 0 := by
    show (((0 : ℝ) : ℂ) • ψ) k = 0
    simp
  rw [h2, h0, zero_add, list_range_sum, quboEnergy, sum_square, ← Finset.sum_mul, ← Complex.ofReal_sum,
    Finset.sum_add_distrib]
  have hb : ∀ i, bitOf k i * bitOf k i = bitOf k i := by intro i; simp only [bitOf]; split_ifs <;> simp
  congr 3
  · refine Finset.sum_congr rfl (fun i _ => ?_)
    rw [mul_assoc, hb]
  · refine Finset.sum_congr rfl (fun i _ => Finset.sum_congr rfl (fun j _ => ?_))
    split_ifs
    · ring
    · rfl

/-- C42. For every square matrix `wq.pauli` returns an operator that multiplies the amplitude of every basis state `k` by
`Σ_ij Q_ij b_i b_j`, where `b` are the bits of `k`. -/
theorem C42_pauli (q : Rows) (hq : ∀ r ∈ q, r.length = q.length) :
    ∃ v, wqPauli q = .ok v ∧ ∀ (ψ : Vec) (k : ℕ),
      valOp v ψ k = ((quboEnergy q.length (entryOf q) (fun i => if k.testBit i then 1 else 0) : ℝ) : ℂ) * ψ k := by
  obtain ⟨v, hv, -⟩ := wqPauli_ok q hq 0 0
  refine ⟨v, hv, fun ψ k => ?_⟩
  obtain ⟨w, hw, h⟩ := wqPauli_ok q hq ψ k
  rw [hv] at hw
  cases hw
  exact h

/-- C42. A matrix that is not square is rejected. -/
theorem C42_not_square (q : Rows) (hq : ∃ r ∈ q, r.length ≠ q.length) : wqPauli q = .error .assertionError := by
  rw [wqPauli, if_neg]
  simpa using hq

/-- `[[1, 2], [3, 4]]` on the basis state with bits 1, 1. -/
example : ∃ v, wqPauli [[1, 2], [3, 4]] = .ok v ∧ ∀ ψ : Vec, valOp v ψ 3 = 10 * ψ 3 := by
  obtain ⟨v, h1, h2⟩ := C42_pauli [[1, 2], [3, 4]] (by simp)
  refine ⟨v, h1, fun ψ => ?_⟩
  rw [h2]
  congr 1
  have b0 : Nat.testBit 3 0 = true := by decide
  have b1 : Nat.testBit 3 1 = true := by decide
  norm_num [quboEnergy, Finset.sum_range_succ, entryOf, b0, b1]

example : wqPauli [[1, 2], [3]] = .error .assertionError := C42_not_square _ (by simp)

end

end Blueqat
