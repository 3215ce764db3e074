import Verif.Examples
import Verif.Spec.Examples
import Verif.Props.Diagonal

/-!
# Properties C86, C87, C88: the examples
-/

set_option linter.unusedSimpArgs false
set_option linter.unusedVariables false

namespace Blueqat

open Spec

noncomputable section

variable {V M C B A R : Type} (kit : Kit C B A R) (isAttr : String → Bool)

theorem valOp_Z (i : ℕ) : valOp (.pauli (.op ⟨.Z, i⟩)) = diagOp (fun k => (zsign k i : ℂ)) := opOp_Z i

theorem foldl_costOp {α : Type} (f : PVal → α → PVal) (g : α → ℕ → ℝ) (l : List α)
    (hf : ∀ h x, x ∈ l → PVal.Distinct h → PVal.Distinct (f h x) ∧ valOp (f h x) = valOp h + costOp (g x))
    (h : PVal) (hd : h.Distinct) (c : ℕ → ℝ) (hc : valOp h = costOp c) :
    (l.foldl f h).Distinct ∧ valOp (l.foldl f h) = costOp (fun k => c k + (l.map (fun x => g x k)).sum) := by
  induction l generalizing h c with
  | nil => simpa using ⟨hd, hc⟩
  | cons x l ih =>
    obtain ⟨h1, h2⟩ := hf h x (by simp) hd
    have := ih (fun h y hy => hf h y (by simp [hy])) (f h x) h1 (fun k => c k + g x k) (by
      rw [h2, hc, costOp, costOp, diagOp_add, costOp]; congr 1; funext k; push_cast; rfl)
    refine ⟨this.1, ?_⟩
    rw [List.foldl_cons, this.2]
    congr 1; funext k; simp [add_assoc]

/-! ## The `Vqe` objects -/

theorem vqeOfQaoa_ok {dflt : ℕ → Minimizer} {ham : PVal} {nStep : ℕ} {minimizer : Option (ℕ → Minimizer)}
    {sampler : Option Sampler} {a : A} {w : World V M C B} {v : VqeObj}
    (h : (vqeOfQaoa kit isAttr dflt ham nStep minimizer sampler a w).2 = .ok v) :
    ∃ q, (QaoaAnsatz.new kit isAttr ham nStep none none a w).2 = .ok q ∧
      v = VqeObj.new dflt (q.toAnsatz kit isAttr (QaoaAnsatz.new kit isAttr ham nStep none none a w).1) minimizer sampler := by
  unfold vqeOfQaoa at h
  cases hx : QaoaAnsatz.new kit isAttr ham nStep none none a w with
  | mk w1 x =>
    rw [hx] at h
    cases x with
    | error e => simp at h
    | ok q => exact ⟨q, rfl, by simpa using h.symm⟩

/-- The run of such an object (C85). -/
theorem vqeOfQaoa_run (jv : ℕ → ℂ) (ji : ℕ → ℕ) (b : B) (reg : Registry V M C) (h : List (Cmd V M C A)) (dflt : ℕ → Minimizer)
    (ham : PVal) (d : ℕ → ℝ) (step : ℕ) (minimizer : Option (ℕ → Minimizer)) (sampler : Option Sampler) (a : A) (v : VqeObj)
    (verbose : Bool) (rnd : ℕ → ℝ) :
    let n := ham.toExpr.simplify.nQubits
    let E := fun p => meanCost n d (qaoaState n step d p)
    let m := (minimizer.getD dflt) (2 * step)
    valOp ham = costOp d →
    (vqeOfQaoa kit isAttr dflt ham step minimizer sampler a ((World.start b reg).exec kit isAttr h)).2 = .ok v →
    HasDim (2 * step) m → sampler = none ∨ sampler = some nonSamplingSampler →
    ∃ out, (v.run jv ji verbose rnd).2 = .ok (out, rnd) ∧ out.params = answer E m ∧
      (out.printed = if verbose then trace E m else []) ∧
      (∀ p, p.length = 2 * step → normSqN n (qaoaState n step d p) = 1) ∧
      (∀ rnd', ∃ r' k, out.result.mostCommon 1 rnd' =
          (r', .ok ([(bitsAt (List.range n) k, ‖qaoaState n step d out.params k‖ ^ 2)], rnd')) ∧ k < 2 ^ n ∧
        qaoaState n step d out.params k ≠ 0 ∧
        ∀ j < 2 ^ n, ‖qaoaState n step d out.params j‖ ^ 2 ≤ ‖qaoaState n step d out.params k‖ ^ 2) ∧
      ∀ (m : ℕ) rnd', ∃ r' ks, out.result.mostCommon m rnd' =
          (r', .ok (ks.map (fun k => (bitsAt (List.range n) k, ‖qaoaState n step d out.params k‖ ^ 2)), rnd')) ∧
        MostLikely n (qaoaState n step d out.params) m ks := by
  intro n E m hd hv hm hs
  obtain ⟨q, hq, rfl⟩ := vqeOfQaoa_ok kit isAttr hv
  obtain ⟨out, e1, e2, e3, e4⟩ := C85_run kit isAttr jv ji b reg h ham d step a q (minimizer.getD dflt) sampler verbose rnd hd hq hm hs
  have hnorm := fun p hp => qaoaState_norm kit isAttr b reg h ham d hd step a q hq p hp
  refine ⟨out, e1, e2, e3, hnorm, fun rnd' => ?_, e4⟩
  obtain ⟨r', ks, f1, f2⟩ := e4 1 rnd'
  obtain ⟨k, rfl, f3⟩ := mostLikely_one f2 (hnorm _ (by rw [e2]; exact answer_dim _ _ _ hm))
  exact ⟨r', k, f1, f3⟩

/-! ## C86: maxcut -/

theorem zsign_mul (k i j : ℕ) : zsign k i * zsign k j = if k.testBit i ≠ k.testBit j then -1 else 1 := by
  simp only [zsign]
  cases k.testBit i <;> cases k.testBit j <;> simp

theorem zz_op (i j : ℕ) : valOp (pvMul (.pauli (.op ⟨.Z, i⟩)) (.pauli (.op ⟨.Z, j⟩))) =
    costOp (fun k => if k.testBit i ≠ k.testBit j then -1 else 1) := by
  rw [pvMul_op, valOp_Z, valOp_Z, diagOp_mul, costOp]
  congr 1; funext k
  rw [← zsign_mul]; push_cast; rfl

/-- **C86.** The Hamiltonian of `maxcut_qaoa` is, for every list of edges, the number of edges minus twice the number of
edges that are cut: the sides are given by the bits of the basis state. -/
theorem C86_energy (edges : List (ℕ × ℕ)) : valOp (maxcutHamiltonian edges) =
    costOp (fun k => (edges.length : ℝ) - 2 * cutSize edges k.testBit) := by
  have h0 : valOp (pvMul (.pauli .I) (.num (.real 0))) = costOp (fun _ => 0) := by
    rw [pvMul_op]
    refine LinearMap.ext fun ψ => funext fun k => ?_
    show (1 : Operator) (((0 : ℝ) : ℂ) • (1 : Operator) ψ) k = ((0 : ℝ) : ℂ) * ψ k
    simp
  have := (foldl_costOp (fun hamiltonian (e : ℕ × ℕ) =>
      pvAdd hamiltonian (pvMul (.pauli (.op ⟨.Z, e.1⟩)) (.pauli (.op ⟨.Z, e.2⟩))))
    (fun e k => if k.testBit e.1 ≠ k.testBit e.2 then -1 else 1) edges (by
      intro h e _ hd
      exact ⟨distinct_add _ _, by rw [pvAdd_op _ _ (distinct_toExpr hd), zz_op]⟩)
    (pvMul (.pauli .I) (.num (.real 0))) (distinct_of_kind (by simp [pvMul, kindOf])) _ h0).2
  rw [maxcutHamiltonian, this]
  congr 1; funext k
  clear this
  induction edges with
  | nil => simp [cutSize]
  | cons e edges ih =>
    simp only [List.map_cons, List.sum_cons, zero_add, List.length_cons] at ih ⊢
    rw [ih]
    by_cases hc : k.testBit e.1 = k.testBit e.2
    · simp [cutSize, hc]; ring
    · simp [cutSize, hc]; ring

theorem maxcut_kind (edges : List (ℕ × ℕ)) : (∃ t, maxcutHamiltonian edges = .term t) ∨ ∃ e, maxcutHamiltonian edges = .expr e := by
  have : ∀ (l : List (ℕ × ℕ)) (h : PVal), ((∃ t, h = .term t) ∨ ∃ e, h = .expr e) →
      (∃ t, l.foldl (fun hamiltonian (e : ℕ × ℕ) =>
        pvAdd hamiltonian (pvMul (.pauli (.op ⟨.Z, e.1⟩)) (.pauli (.op ⟨.Z, e.2⟩)))) h = .term t) ∨
      ∃ e, l.foldl (fun hamiltonian (e : ℕ × ℕ) =>
        pvAdd hamiltonian (pvMul (.pauli (.op ⟨.Z, e.1⟩)) (.pauli (.op ⟨.Z, e.2⟩)))) h = .expr e := by
    intro l
    induction l with
    | nil => intro h hh; exact hh
    | cons e l ih =>
      intro h hh
      refine ih _ (Or.inr ?_)
      rcases hh with ⟨t, rfl⟩ | ⟨x, rfl⟩
      · exact ⟨_, rfl⟩
      · exact ⟨_, rfl⟩
  exact this edges _ (Or.inl ⟨_, rfl⟩)

/-- Moving a side along the qubits that are not measured. -/
theorem exists_code (side : ℕ → Bool) (n : ℕ) : ∃ k < 2 ^ n, ∀ i < n, k.testBit i = side i := by
  induction n with
  | zero => exact ⟨0, by simp, by simp⟩
  | succ n ih =>
    obtain ⟨k, hk, h⟩ := ih
    by_cases hs : side n = true
    · refine ⟨2 ^ n + k, by rw [pow_succ]; omega, fun i hi => ?_⟩
      rcases Nat.lt_succ_iff_lt_or_eq.1 hi with hi | rfl
      · rw [Nat.testBit_two_pow_add_gt hi, h i hi]
      · rw [Nat.testBit_two_pow_add_eq, Nat.testBit_lt_two_pow hk, hs]; rfl
    · refine ⟨k, by rw [pow_succ]; omega, fun i hi => ?_⟩
      rcases Nat.lt_succ_iff_lt_or_eq.1 hi with hi | rfl
      · exact h i hi
      · rw [Nat.testBit_lt_two_pow hk]; simpa using hs

theorem mean_affine (n : ℕ) (c : ℝ) (f : ℕ → ℝ) (ψ : Vec) (hψ : normSqN n ψ = 1) :
    meanCost n (fun k => c - 2 * f k) ψ = c - 2 * meanCost n f ψ := by
  simp only [meanCost, mul_sub, Finset.sum_sub_distrib, ← Finset.sum_mul]
  rw [show ∑ k ∈ Finset.range (2 ^ n), ‖ψ k‖ ^ 2 = 1 from hψ, one_mul, Finset.mul_sum]
  congr 1
  exact Finset.sum_congr rfl fun k _ => by ring

/-- **C86.** Running the object of `maxcut_qaoa` (with the default sampler) tells the minimizer, for every parameters, the
number of edges minus twice the mean number of cut edges of the outcomes in the QAOA state; this is at least the number of
edges minus twice the size of a largest cut; and if the parameters in the result reach this bound, then the outcome
`most_common()` gives is a largest cut. -/
theorem C86_run (jv : ℕ → ℂ) (ji : ℕ → ℕ) (b : B) (reg : Registry V M C) (h : List (Cmd V M C A)) (dflt powell : ℕ → Minimizer)
    (step : ℕ) (edges : List (ℕ × ℕ)) (minimizer : Option (ℕ → Minimizer)) (a : A) (v : VqeObj) (verbose : Bool) (rnd : ℕ → ℝ)
    (hv : (maxcutQaoa kit isAttr dflt powell step edges minimizer none a ((World.start b reg).exec kit isAttr h)).2 = .ok v)
    (hm : HasDim (2 * step) ((minimizer.getD powell) (2 * step))) (best : ℕ) (hbest : ∀ side, cutSize edges side ≤ best) :
    let n := (maxcutHamiltonian edges).toExpr.simplify.nQubits
    let d := fun k : ℕ => (edges.length : ℝ) - 2 * cutSize edges k.testBit
    let ψ := qaoaState n step d
    let E := fun p => meanCost n d (ψ p)
    (∀ p, p.length = 2 * step → normSqN n (ψ p) = 1 ∧
      E p = edges.length - 2 * meanCost n (fun k => (cutSize edges k.testBit : ℝ)) (ψ p) ∧ edges.length - 2 * (best : ℝ) ≤ E p) ∧
    ∃ out : VqeOutcome,
      (v.run jv ji verbose rnd).2 = .ok (out, rnd) ∧ out.params = answer E ((minimizer.getD powell) (2 * step)) ∧
      (out.printed = if verbose then trace E ((minimizer.getD powell) (2 * step)) else []) ∧
      ∀ rnd', ∃ r' k, out.result.mostCommon 1 rnd' = (r', .ok ([(bitsAt (List.range n) k, ‖ψ out.params k‖ ^ 2)], rnd')) ∧
        k < 2 ^ n ∧ (∀ j < 2 ^ n, ‖ψ out.params j‖ ^ 2 ≤ ‖ψ out.params k‖ ^ 2) ∧
        (E out.params = edges.length - 2 * (best : ℝ) → cutSize edges k.testBit = best) := by
  intro n d ψ E
  have hlow : ∀ k < 2 ^ n, (edges.length : ℝ) - 2 * best ≤ d k := by
    intro k _
    have : (cutSize edges k.testBit : ℝ) ≤ best := by exact_mod_cast hbest k.testBit
    simp only [d]; linarith
  obtain ⟨out, e1, e2, e3, e4, e5, -⟩ := vqeOfQaoa_run kit isAttr jv ji b reg h dflt (maxcutHamiltonian edges) d step
    (some (minimizer.getD powell)) (some nonSamplingSampler) a v verbose rnd (C86_energy edges) hv hm (.inr rfl)
  refine ⟨fun p hp => ?_, out, e1, e2, e3, fun rnd' => ?_⟩
  · exact ⟨e4 p hp, mean_affine n _ _ _ (e4 p hp), (C85_bound n d _ hlow _ (e4 p hp)).1⟩
  · obtain ⟨r', k, f1, f2, f3, f4⟩ := e5 rnd'
    refine ⟨r', k, f1, f2, f4, fun hE => ?_⟩
    have hp : out.params.length = 2 * step := by rw [e2]; exact answer_dim _ _ _ hm
    have := ((C85_bound n d _ hlow _ (e4 _ hp)).2.1 hE) k f2 f3
    simp only [d] at this
    have : (cutSize edges k.testBit : ℝ) = best := by linarith
    exact_mod_cast this

/-- C86. The bound is attained: some basis state of the measured qubits is a largest cut. -/
theorem C86_attained (edges : List (ℕ × ℕ)) (side : ℕ → Bool) : ∃ k < 2 ^ (maxcutHamiltonian edges).toExpr.simplify.nQubits,
    cutSize edges k.testBit = cutSize edges side := by
  obtain ⟨N, hN⟩ : ∃ N, ∀ e ∈ edges, e.1 < N ∧ e.2 < N := by
    induction edges with
    | nil => exact ⟨0, by simp⟩
    | cons e l ih =>
      obtain ⟨N, hN⟩ := ih
      refine ⟨N + e.1 + e.2 + 1, fun x hx => ?_⟩
      rcases List.mem_cons.1 hx with rfl | hx
      · omega
      · have := hN x hx; omega
  obtain ⟨j, -, hj⟩ := exists_code side N
  obtain ⟨k, hk, hkj⟩ := exists_code j.testBit (maxcutHamiltonian edges).toExpr.simplify.nQubits
  refine ⟨k, hk, ?_⟩
  have h1 := cost_depends (maxcutHamiltonian edges) _ (C86_energy edges) k j hkj
  have h2 : cutSize edges j.testBit = cutSize edges side := by
    simp only [cutSize]
    congr 1
    refine List.filter_congr fun e he => ?_
    rw [hj _ (hN e he).1, hj _ (hN e he).2]
  rw [← h2]
  have : (cutSize edges k.testBit : ℝ) = cutSize edges j.testBit := by linarith
  exact_mod_cast this

/-- A triangle, one step, a minimizer that asks once. -/
example (jv : ℕ → ℂ) (ji : ℕ → ℕ) (rnd : ℕ → ℝ) : ∃ v out,
    (maxcutQaoa demoKit (fun _ => false) (fun _ => .done []) (fun _ => .ask [0, 0] fun e => .done [e, 1]) 1
      [(0, 1), (1, 2), (2, 0)] none none () demoStart).2 = .ok v ∧
    (v.run jv ji true rnd).2 = .ok (out, rnd) ∧ out.printed.length = 1 ∧ ∀ x ∈ out.printed, -1 ≤ x.2 := by
  obtain ⟨q, hq⟩ := diag_demo (maxcutHamiltonian [(0, 1), (1, 2), (2, 0)]) _ (C86_energy _) (maxcut_kind _) 1
  have hv : (maxcutQaoa demoKit (fun _ => false) (fun _ => .done []) (fun _ => .ask [0, 0] fun e => .done [e, 1]) 1
      [(0, 1), (1, 2), (2, 0)] none none () demoStart).2 = .ok (VqeObj.new (fun _ => .done [])
        (q.toAnsatz demoKit (fun _ => false) (QaoaAnsatz.new demoKit (fun _ => false)
          (maxcutHamiltonian [(0, 1), (1, 2), (2, 0)]) 1 none none () demoStart).1)
        (some (fun _ => .ask [0, 0] fun e => .done [e, 1])) (some nonSamplingSampler)) := by
    unfold maxcutQaoa vqeOfQaoa
    cases hx : QaoaAnsatz.new demoKit (fun _ => false) (maxcutHamiltonian [(0, 1), (1, 2), (2, 0)]) 1 none none () demoStart with
    | mk w x =>
      rw [hx] at hq
      simp only at hq
      subst hq
      rfl
  obtain ⟨h1, out, h2, h3, h4, -⟩ := C86_run demoKit (fun _ => false) jv ji 0 demoReg [] (fun _ => .done [])
    (fun _ => .ask [0, 0] fun e => .done [e, 1]) 1 [(0, 1), (1, 2), (2, 0)] none () _ true rnd hv
    ⟨rfl, fun _ => rfl⟩ 2 (by
      intro side
      simp only [cutSize, List.filter_cons]
      cases side 0 <;> cases side 1 <;> cases side 2 <;> simp)
  refine ⟨_, out, hv, h2, by rw [h4]; rfl, fun x hx => ?_⟩
  rw [h4] at hx
  simp only [if_true, Option.getD_none, trace, List.mem_singleton] at hx
  subst hx
  have := (h1 [0, 0] rfl).2.2
  norm_num at this ⊢
  exact this

end

end Blueqat
