import Verif.Props.Examples

/-!
# Property C87: the number partition example
-/

set_option linter.unusedSimpArgs false
set_option linter.unusedVariables false

namespace Blueqat

open Spec

noncomputable section

variable {V M C B A R : Type} (kit : Kit C B A R) (isAttr : String → Bool)

/-- The difference of the sums of the two groups. -/
def signedSum (nums : List ℝ) (k : ℕ) : ℝ := ∑ i ∈ Finset.range nums.length, zsign k i * nums.getD i 0

theorem signedSum_eq (nums : List ℝ) (k : ℕ) :
    signedSum nums k = groupSum nums k.testBit false - groupSum nums k.testBit true := by
  simp only [signedSum, groupSum, Finset.sum_filter, ← Finset.sum_sub_distrib]
  refine Finset.sum_congr rfl fun i _ => ?_
  cases h : k.testBit i <;> simp [zsign, h]

theorem zipIdx_sum (nums : List ℝ) (f : ℕ → ℝ → ℝ) (o : ℕ) :
    ((nums.zipIdx o).map (fun p => f p.2 p.1)).sum = ∑ i ∈ Finset.range nums.length, f (i + o) (nums.getD i 0) := by
  induction nums generalizing o with
  | nil => simp
  | cons x l ih =>
    rw [List.zipIdx_cons, List.map_cons, List.sum_cons, ih, List.length_cons, Finset.sum_range_succ']
    simp only [List.getD_cons_succ, List.getD_cons_zero, zero_add]
    rw [add_comm]
    congr 1
    exact Finset.sum_congr rfl fun i _ => by rw [show i + 1 + o = i + (o + 1) by ring]

theorem foldl_add_expr {α : Type} (g : α → PTerm) (l : List α) (e : PExpr) :
    ∃ e', l.foldl (fun h x => pvAdd h (.term (g x))) (.expr e) = .expr e' := by
  induction l generalizing e with
  | nil => exact ⟨e, rfl⟩
  | cons x l ih => exact ih _

/-- **C87.** The Hamiltonian of `numpartition_qaoa` is, for every list of numbers, the square of the difference of the sums
of the two groups: the numbers whose bit is 0 and the numbers whose bit is 1. -/
theorem C87_energy (nums : List ℝ) : ∃ e, numpartitionHamiltonian nums = .ok (.expr e) ∧
    valOp (.expr e) = costOp (fun k => (groupSum nums k.testBit false - groupSum nums k.testBit true) ^ 2) := by
  have h1 := foldl_costOp (fun hamiltonian (p : ℝ × ℕ) => pvAdd hamiltonian (pvMul (.pauli (.op ⟨.Z, p.2⟩)) (.num (.real p.1))))
    (fun p k => zsign k p.2 * p.1) nums.zipIdx (by
      intro h p _ hd
      refine ⟨distinct_add _ _, ?_⟩
      rw [pvAdd_op _ _ (distinct_toExpr hd), pvMul_op, valOp_Z]
      congr 1
      have : valOp (.num (.real p.1)) = diagOp (fun _ => (p.1 : ℂ)) := by
        show (p.1 : ℂ) • (1 : Operator) = _
        rw [diagOp_one, diagOp_smul]; simp
      rw [this, diagOp_mul, costOp]
      congr 1; funext k; push_cast; rfl)
    (.expr .zero) (by simp [PVal.Distinct, PExpr.zero, PExpr.words]) (fun _ => 0) (by
      refine LinearMap.ext fun ψ => funext fun k => ?_
      simp [valOp, exprOp, PExpr.zero, costOp, diagOp_apply])
  obtain ⟨e, he⟩ := foldl_add_expr (fun p : ℝ × ℕ => PTerm.fromPauli (.op ⟨.Z, p.2⟩) (PyNum.real p.1).val) nums.zipIdx .zero
  have he' : nums.zipIdx.foldl
      (fun hamiltonian (p : ℝ × ℕ) => pvAdd hamiltonian (pvMul (.pauli (.op ⟨.Z, p.2⟩)) (.num (.real p.1)))) (.expr .zero) = .expr e := he
  rw [he'] at h1
  have hpow : pvPow (.expr e) 2 = .ok (.expr (e.mul e)) := rfl
  refine ⟨(e.mul e).simplify, by simp only [numpartitionHamiltonian, he', hpow], ?_⟩
  have hop := pvPow_op (n := 2) hpow
  show exprOp (e.mul e).simplify = _
  rw [exprSimplify_op]
  refine hop.trans ?_
  rw [h1.2, costOp, diagOp_pow, costOp]
  congr 1; funext k
  have := zipIdx_sum nums (fun i x => zsign k i * x) 0
  rw [this, ← signedSum_eq, signedSum]
  push_cast; simp

/-- C87. The energy is never negative, and 0 exactly for the partitions into groups of the same sum. -/
theorem C87_perfect (nums : List ℝ) (side : ℕ → Bool) :
    0 ≤ (groupSum nums side false - groupSum nums side true) ^ 2 ∧
    ((groupSum nums side false - groupSum nums side true) ^ 2 = 0 ↔ groupSum nums side false = groupSum nums side true) := by
  refine ⟨sq_nonneg _, ?_⟩
  rw [sq_eq_zero_iff, sub_eq_zero]

theorem testBit_flip (k i j : ℕ) : (k ^^^ 2 ^ j).testBit i = (k.testBit i ^^ decide (j = i)) := by
  rw [Nat.testBit_xor, Nat.testBit_two_pow]

theorem signedSum_flip (nums : List ℝ) (k j : ℕ) :
    signedSum nums (k ^^^ 2 ^ j) = signedSum nums k - 2 * (zsign k j * nums.getD j 0) := by
  have hz : ∀ i, zsign (k ^^^ 2 ^ j) i = if i = j then -zsign k j else zsign k i := by
    intro i
    simp only [zsign, testBit_flip]
    by_cases h : i = j
    · subst h; cases k.testBit i <;> simp
    · rw [if_neg h]; simp [Ne.symm h]
  simp only [signedSum, hz]
  by_cases hj : j < nums.length
  · rw [← Finset.add_sum_erase _ _ (Finset.mem_range.2 hj), ← Finset.add_sum_erase _ (fun i => zsign k i * _) (Finset.mem_range.2 hj)]
    rw [if_pos rfl]
    rw [Finset.sum_congr rfl (fun i hi => by rw [if_neg (Finset.ne_of_mem_erase hi)])]
    ring
  · have h0 : nums.getD j 0 = 0 := by simp [List.getD, List.getElem?_eq_none (by omega : nums.length ≤ j)]
    rw [h0, mul_zero, mul_zero, sub_zero]
    refine Finset.sum_congr rfl fun i hi => ?_
    rw [if_neg]
    intro h; subst h; exact hj (Finset.mem_range.1 hi)

/-- With two numbers that are not 0, every number that is not 0 has a qubit. -/
theorem numpartition_qubits (nums : List ℝ) (e : PExpr) (he : numpartitionHamiltonian nums = .ok (.expr e)) (i j : ℕ) (hij : i ≠ j)
    (hi : nums.getD i 0 ≠ 0) (hj : nums.getD j 0 ≠ 0) : i < (PVal.expr e).toExpr.simplify.nQubits := by
  by_contra hn
  obtain ⟨e', h1, h2⟩ := C87_energy nums
  rw [he] at h1
  cases h1
  have hflip : ∀ k, signedSum nums k - zsign k i * nums.getD i 0 = 0 := by
    intro k
    have h := cost_depends (.expr e) _ h2 (k ^^^ 2 ^ i) k (by
      intro l hl
      rw [testBit_flip]
      simp [show i ≠ l by omega])
    simp only [← signedSum_eq, signedSum_flip] at h
    have hz : zsign k i ≠ 0 := by rw [zsign]; split_ifs <;> norm_num
    have hp : (zsign k i * nums.getD i 0) * (signedSum nums k - zsign k i * nums.getD i 0) = 0 := by linarith
    rcases mul_eq_zero.1 hp with h3 | h3
    · rcases mul_eq_zero.1 h3 with h4 | h4
      · exact absurd h4 hz
      · exact absurd h4 hi
    · exact h3
  have f0 := hflip 0
  have f1 := hflip (0 ^^^ 2 ^ j)
  rw [signedSum_flip] at f1
  have z0 : zsign 0 j = 1 := by simp [zsign]
  have z1 : zsign (0 ^^^ 2 ^ j) i = zsign 0 i := by simp [zsign, Nat.testBit_two_pow, Ne.symm hij]
  rw [z0, z1] at f1
  apply hj
  linarith

theorem zip_bits (nums : List ℝ) (n k : ℕ) (b : ℕ) (c : Bool) (hb : ∀ x : Bool, ((if x then 1 else 0 : ℕ) = b ↔ x = c)) (o : ℕ) :
    (((nums.zip ((List.range n).map fun q => if k.testBit (q + o) then 1 else 0)).filter (fun p => p.2 = b)).map Prod.fst).sum =
      ∑ i ∈ Finset.range nums.length, if i < n ∧ k.testBit (i + o) = c then nums.getD i 0 else 0 := by
  induction nums generalizing n o with
  | nil => simp
  | cons x l ih =>
    cases n with
    | zero => simp
    | succ n =>
      rw [List.range_succ_eq_map, List.map_cons, List.map_map, List.zip_cons_cons, List.length_cons, Finset.sum_range_succ']
      have := ih n (o + 1)
      simp only [List.getD_cons_succ, List.getD_cons_zero, zero_add, Nat.succ_lt_succ_iff, Nat.zero_lt_succ, true_and,
        show ∀ i, i + 1 + o = i + (o + 1) by intro i; ring]
      rw [← this, List.filter_cons]
      have e1 : ((fun q => if k.testBit (q + o) then 1 else 0) ∘ Nat.succ : ℕ → ℕ) =
          fun q => if k.testBit (q + (o + 1)) then 1 else 0 := by
        funext q; simp only [Function.comp, Nat.succ_eq_add_one, show q + 1 + o = q + (o + 1) by ring]
      rw [e1]
      by_cases hc : k.testBit o = c
      · rw [if_pos (by simpa using (hb _).2 hc), if_pos hc]
        simp [add_comm]
      · rw [if_neg (by simpa using fun h => hc ((hb _).1 h)), if_neg hc]
        simp

theorem zip_fst_take {α β : Type} (l : List α) (m : List β) : (l.zip m).map Prod.fst = l.take m.length := by
  induction l generalizing m with
  | nil => simp
  | cons x l ih =>
    cases m with
    | nil => simp
    | cons y m => simp [ih]

/-- **C87, partial.** For numbers of which at least two are not 0: in the groups the main program prints for the outcome `k`,
no number but zeros is missing, and their sums are those of the two sides of `k`, so the energy of `k` is the square of the difference of
the printed sums. Missing: lists in which only one number is not 0 (`C87_groups_refuted`). -/
theorem C87_groups_partial (nums : List ℝ) (e : PExpr) (he : numpartitionHamiltonian nums = .ok (.expr e))
    (h2 : ∃ i j, i ≠ j ∧ nums.getD i 0 ≠ 0 ∧ nums.getD j 0 ≠ 0) (k : ℕ) :
    let n := (PVal.expr e).toExpr.simplify.nQubits
    let groups := partitionGroups nums (bitsAt (List.range n) k)
    groups.1.sum = groupSum nums k.testBit false ∧ groups.2.sum = groupSum nums k.testBit true ∧
    ∃ rest, (groups.1 ++ groups.2 ++ rest).Perm nums ∧ ∀ x ∈ rest, x = 0 := by
  intro n groups
  obtain ⟨i0, j0, hij, hi0, hj0⟩ := h2
  have hhigh : ∀ i, n ≤ i → nums.getD i 0 = 0 := by
    intro i hi
    by_contra h0
    have : i < n := by
      by_cases h : i = i0
      · exact numpartition_qubits nums e he i j0 (by rw [h]; exact hij) h0 hj0
      · exact numpartition_qubits nums e he i i0 h h0 hi0
    omega
  have hsum : ∀ (b : ℕ) (c : Bool), (∀ x : Bool, ((if x then 1 else 0 : ℕ) = b ↔ x = c)) →
      (((nums.zip (bitsAt (List.range n) k)).filter (fun p => p.2 = b)).map Prod.fst).sum = groupSum nums k.testBit c := by
    intro b c hb
    have := zip_bits nums n k b c hb 0
    simp only [add_zero] at this
    rw [bitsAt, this, groupSum, Finset.sum_filter]
    refine Finset.sum_congr rfl fun i _ => ?_
    by_cases hi : i < n
    · simp [hi]
    · rw [hhigh i (by omega)]; simp
  refine ⟨hsum 0 false (by intro x; cases x <;> simp), hsum 1 true (by intro x; cases x <;> simp), nums.drop n, ?_, ?_⟩
  · have hz : (nums.zip (bitsAt (List.range n) k)).map Prod.fst = nums.take n := by
      rw [zip_fst_take]
      simp [bitsAt]
    have hp : (groups.1 ++ groups.2).Perm (nums.take n) := by
      rw [← hz]
      show (List.map Prod.fst _ ++ List.map Prod.fst _).Perm _
      rw [← List.map_append]
      refine List.Perm.map _ ?_
      have := List.filter_append_perm (fun p : ℝ × ℕ => decide (p.2 = 0)) (nums.zip (bitsAt (List.range n) k))
      refine List.Perm.trans ?_ this
      refine List.Perm.append_left _ ?_
      refine List.Perm.of_eq (List.filter_congr fun p hp => ?_)
      have : p.2 = 0 ∨ p.2 = 1 := by
        have := (List.of_mem_zip (a := p.1) (b := p.2) hp).2
        simp only [bitsAt, List.mem_map] at this
        obtain ⟨q, -, hq⟩ := this
        rw [← hq]; split_ifs <;> simp
      rcases this with h | h <;> simp [h]
    exact (hp.append_right _).trans (by rw [List.take_append_drop])
  · intro x hx
    obtain ⟨i, hi, rfl⟩ := List.mem_iff_getElem.1 hx
    rw [List.getElem_drop]
    have := hhigh (n + i) (by omega)
    rwa [List.getD_eq_getElem _ _ (by simp at hi; omega)] at this

/-- C87, the other lists: if at most one number is not 0, no qubit is needed and both printed groups are empty for every outcome,
whatever the numbers are. -/
theorem C87_groups_single (nums : List ℝ) (e : PExpr) (he : numpartitionHamiltonian nums = .ok (.expr e))
    (h1 : ¬∃ i j, i ≠ j ∧ nums.getD i 0 ≠ 0 ∧ nums.getD j 0 ≠ 0) (k : ℕ) :
    (PVal.expr e).toExpr.simplify.nQubits = 0 ∧
      partitionGroups nums (bitsAt (List.range (PVal.expr e).toExpr.simplify.nQubits) k) = ([], []) := by
  obtain ⟨e', h2, h3⟩ := C87_energy nums
  rw [he] at h2
  cases h2
  have hc : ∀ k : ℕ, (groupSum nums k.testBit false - groupSum nums k.testBit true) ^ 2 =
      ∑ i ∈ Finset.range nums.length, nums.getD i 0 ^ 2 := by
    intro k
    rw [← signedSum_eq, signedSum, sq, Finset.sum_mul_sum]
    refine Finset.sum_congr rfl fun i hi => ?_
    rw [Finset.sum_eq_single i]
    · simp only [zsign]; split_ifs <;> ring
    · intro j _ hji
      by_cases hi0 : nums.getD i 0 = 0
      · rw [hi0]; ring
      · have : nums.getD j 0 = 0 := by
          by_contra hj0
          exact h1 ⟨i, j, Ne.symm hji, hi0, hj0⟩
        rw [this]; ring
    · intro h; exact absurd hi h
  have hn : (PVal.expr e).toExpr.simplify.nQubits = 0 :=
    Nat.le_zero.1 ((C85_qubits (.expr e) _ h3 0).2 fun j k _ => by rw [hc, hc])
  exact ⟨hn, by rw [hn]; simp [bitsAt, partitionGroups]⟩

/-- **C87 is false of the printed groups** if only one number is not 0: for `[5]` the Hamiltonian is the constant 25 and needs
no qubit, so that every outcome has no bits and the program prints two empty groups of sum 0. -/
theorem C87_groups_refuted : ∃ e, numpartitionHamiltonian [5] = .ok (.expr e) ∧ ∀ k : ℕ,
    partitionGroups [5] (bitsAt (List.range (PVal.expr e).toExpr.simplify.nQubits) k) = ([], []) ∧
    (groupSum [5] k.testBit false - groupSum [5] k.testBit true) ^ 2 = 25 := by
  obtain ⟨e, h1, h2⟩ := C87_energy [5]
  have hcost : ∀ k : ℕ, (groupSum [5] k.testBit false - groupSum [5] k.testBit true) ^ 2 = 25 := by
    intro k
    rw [← signedSum_eq, signedSum]
    simp only [List.length_singleton, Finset.sum_range_one, List.getD_cons_zero, zsign]
    split_ifs <;> norm_num
  refine ⟨e, h1, fun k => ⟨?_, hcost k⟩⟩
  refine (C87_groups_single [5] e h1 ?_ k).2
  rintro ⟨i, j, hij, hi, hj⟩
  have hz : ∀ m : ℕ, m ≠ 0 → ([5] : List ℝ).getD m 0 = 0 := fun m hm => by
    cases m with
    | zero => exact absurd rfl hm
    | succ m => simp
  by_cases h0 : i = 0
  · exact hj (hz j (by omega))
  · exact hi (hz i h0)

/-- **C87.** Running the object of `numpartition_qaoa` (without a sampler) minimizes the mean of the energies of the outcomes; if the
parameters in the result have mean energy 0, then the outcome `most_common()` gives is a partition into groups of the same sum. -/
theorem C87_run (jv : ℕ → ℂ) (ji : ℕ → ℕ) (b : B) (reg : Registry V M C) (h : List (Cmd V M C A)) (dflt : ℕ → Minimizer)
    (step : ℕ) (nums : List ℝ) (minimizer : Option (ℕ → Minimizer)) (a : A) (v : VqeObj) (verbose : Bool) (rnd : ℕ → ℝ)
    (hv : (numpartitionQaoa kit isAttr dflt step nums minimizer none a ((World.start b reg).exec kit isAttr h)).2 = .ok v)
    (hm : HasDim (2 * step) ((minimizer.getD dflt) (2 * step))) :
    ∃ e, numpartitionHamiltonian nums = .ok (.expr e) ∧
    let n := (PVal.expr e).toExpr.simplify.nQubits
    let d := fun k : ℕ => (groupSum nums k.testBit false - groupSum nums k.testBit true) ^ 2
    let ψ := qaoaState n step d
    let E := fun p => meanCost n d (ψ p)
    ∃ out : VqeOutcome,
      (v.run jv ji verbose rnd).2 = .ok (out, rnd) ∧ out.params = answer E ((minimizer.getD dflt) (2 * step)) ∧
      (out.printed = if verbose then trace E ((minimizer.getD dflt) (2 * step)) else []) ∧
      ∀ rnd', ∃ r' k, out.result.mostCommon 1 rnd' = (r', .ok ([(bitsAt (List.range n) k, ‖ψ out.params k‖ ^ 2)], rnd')) ∧
        k < 2 ^ n ∧ (∀ j < 2 ^ n, ‖ψ out.params j‖ ^ 2 ≤ ‖ψ out.params k‖ ^ 2) ∧
        (E out.params = 0 → groupSum nums k.testBit false = groupSum nums k.testBit true) := by
  obtain ⟨e, he, hop⟩ := C87_energy nums
  refine ⟨e, he, ?_⟩
  intro n d ψ E
  simp only [numpartitionQaoa, he] at hv
  obtain ⟨out, e1, e2, e3, e4, e5, -⟩ := vqeOfQaoa_run kit isAttr jv ji b reg h dflt (.expr e) d step
    minimizer none a v verbose rnd hop hv hm (.inl rfl)
  refine ⟨out, e1, e2, e3, fun rnd' => ?_⟩
  obtain ⟨r', k, f1, f2, f3, f4⟩ := e5 rnd'
  refine ⟨r', k, f1, f2, f4, fun hE => ?_⟩
  have hp : out.params.length = 2 * step := by rw [e2]; exact answer_dim _ _ _ hm
  have := ((C85_bound n d 0 (fun k _ => (C87_perfect nums k.testBit).1) _ (e4 _ hp)).2.1 hE) k f2 f3
  exact (C87_perfect nums k.testBit).2.1 this

/-- `[1, 2, 3]` and the outcome 1, 1, 0. -/
example : ∃ e, numpartitionHamiltonian [1, 2, 3] = .ok (.expr e) ∧
    groupSum [1, 2, 3] (Nat.testBit 3) false = groupSum [1, 2, 3] (Nat.testBit 3) true ∧
    (partitionGroups [1, 2, 3] (bitsAt (List.range (PVal.expr e).toExpr.simplify.nQubits) 3)).1.sum = 3 := by
  obtain ⟨e, h1, -⟩ := C87_energy [1, 2, 3]
  have b0 : Nat.testBit 3 0 = true := by decide
  have b1 : Nat.testBit 3 1 = true := by decide
  have b2 : Nat.testBit 3 2 = false := by decide
  have hf : groupSum [1, 2, 3] (Nat.testBit 3) false = 3 := by
    simp [groupSum, Finset.sum_filter, Finset.sum_range_succ, b0, b1, b2]
  refine ⟨e, h1, ?_, ?_⟩
  · rw [hf]
    simp [groupSum, Finset.sum_filter, Finset.sum_range_succ, b0, b1, b2]; norm_num
  · rw [(C87_groups_partial [1, 2, 3] e h1 ⟨0, 1, by simp, by simp, by simp⟩ 3).1, hf]

/-- The hypotheses of `C87_run` are met. -/
example (jv : ℕ → ℂ) (ji : ℕ → ℕ) (rnd : ℕ → ℝ) : ∃ v out,
    (numpartitionQaoa demoKit (fun _ => false) (fun _ => .ask [0, 0] fun e => .done [e, 1]) 1 [1, 2, 3] none none () demoStart).2 = .ok v ∧
    (v.run jv ji true rnd).2 = .ok (out, rnd) ∧ out.printed.length = 1 := by
  obtain ⟨e, h1, h2⟩ := C87_energy [1, 2, 3]
  obtain ⟨q, hq⟩ := diag_demo (.expr e) _ h2 (.inr ⟨e, rfl⟩) 1
  have hv : ∃ v, (numpartitionQaoa demoKit (fun _ => false) (fun _ => .ask [0, 0] fun e => .done [e, 1]) 1 [1, 2, 3] none none ()
      demoStart).2 = .ok v := by
    unfold numpartitionQaoa vqeOfQaoa
    rw [h1]
    simp only
    cases hx : QaoaAnsatz.new demoKit (fun _ => false) (.expr e) 1 none none () demoStart with
    | mk w x =>
      rw [hx] at hq
      simp only at hq
      subst hq
      exact ⟨_, rfl⟩
  obtain ⟨v, hv⟩ := hv
  obtain ⟨_, _, out, k1, k2, k3, -⟩ := C87_run demoKit (fun _ => false) jv ji 0 demoReg [] (fun _ => .ask [0, 0] fun e => .done [e, 1]) 1
    [1, 2, 3] none () v true rnd hv ⟨rfl, fun _ => rfl⟩
  exact ⟨v, out, hv, k1, by rw [k3]; rfl⟩

end

end Blueqat
