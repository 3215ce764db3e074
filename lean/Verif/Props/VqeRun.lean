import Verif.Spec.VqeRun
import Verif.Props.Energy
import Verif.Props.Qaoa

/-!
# Property C70: `Vqe.run`
-/

set_option linter.unusedSimpArgs false
set_option linter.unusedVariables false

namespace Blueqat

open Spec
open scoped ComplexConjugate

noncomputable section

/-! ## Minimizers -/

/-- On an objective that is a function, a minimizer does what it does on that function. -/
theorem minimizer_run (f : Objective) (E : List ℝ → ℝ) (k : ℕ)
    (hf : ∀ p rnd, p.length = k → f p rnd = .ok (E p, rnd)) (m : Minimizer) (hm : HasDim k m) (rnd : ℕ → ℝ) :
    m.run f rnd = .ok (answer E m, rnd, trace E m) := by
  induction m generalizing rnd with
  | done p => rfl
  | ask p next ih =>
    simp only [Minimizer.run, hf p rnd hm.1, ih _ (hm.2 _)]
    rfl

theorem answer_dim (E : List ℝ → ℝ) (k : ℕ) (m : Minimizer) (hm : HasDim k m) : (answer E m).length = k := by
  induction m with
  | done p => exact hm
  | ask p next ih => exact ih _ (hm.2 _)

theorem trace_mem (E : List ℝ → ℝ) (k : ℕ) (m : Minimizer) (hm : HasDim k m) :
    ∀ x ∈ trace E m, x.1.length = k ∧ x.2 = E x.1 := by
  induction m with
  | done p => simp [trace]
  | ask p next ih =>
    intro x hx
    rcases List.mem_cons.1 hx with rfl | hx
    · exact ⟨hm.1, rfl⟩
    · exact ih _ (hm.2 _) x hx

/-! ## Energies of the prepared states -/

theorem expectation_phase (n : ℕ) (A : Operator) (z : ℂ) (hz : ‖z‖ = 1) (ψ : Vec) :
    expectation n A (z • ψ) = expectation n A ψ := by
  simp only [expectation, map_smul, Pi.smul_apply, smul_eq_mul, map_mul]
  refine Finset.sum_congr rfl fun i _ => ?_
  have : conj z * z = 1 := by
    rw [mul_comm, Complex.mul_conj, Complex.normSq_eq_norm_sq, hz]; norm_num
  linear_combination (conj (ψ i) * A ψ i) * this

theorem zeroState_norm (n : ℕ) : normSqN n zeroState = 1 := by
  simp only [normSqN, zeroState]
  rw [Finset.sum_eq_single_of_mem 0 (Finset.mem_range.2 (Nat.two_pow_pos n))]
  · simp
  · intro i _ hi; simp [hi]

theorem prepares_norm {a : Ansatz} {n : ℕ} {ψ : List ℝ → Vec} (h : Prepares a n ψ) (p : List ℝ) (hp : p.length = a.nParams) :
    normSqN n (ψ p) = 1 := by
  obtain ⟨gs, es, -, -, hv, z, hz, he⟩ := h p hp
  have h1 := (isom_unitaries norm_phDoc es (fun e he => (hv e he).1) (n := n)).norm zeroState
  rw [zeroState_norm, he] at h1
  rw [← h1]
  simp [normSqN, hz]

theorem cacheRun_ok {n : ℕ} {gs : List Gate} {es : List Elem} (hd : GatesDenote n gs es)
    (hv : ∀ e ∈ es, e.Valid n ∧ e.IsUnitary) (rnd : ℕ → ℝ) : cacheRun ⟨n, gs⟩ rnd = .ok rnd := by
  obtain ⟨z, -, -, h⟩ := run_unitary ⟨n, gs⟩ es hd hv rnd
  simp only [cacheRun, h]

/-- With the exact sampler, the objective is the signed energy of the prepared state. -/
theorem objective_ok {a : Ansatz} {n : ℕ} {ψ : List ℝ → Vec} (h : Prepares a n ψ)
    (hn : ∀ t ∈ a.hamiltonian.terms, t.ops.Pairwise (fun a b => a.n ≠ b.n))
    (hb : ∀ t ∈ a.hamiltonian.terms, ∀ o ∈ t.ops, o.n < n) (p : List ℝ) (rnd : ℕ → ℝ) (hp : p.length = a.nParams) :
    a.objective nonSamplingSampler p rnd =
      .ok ((expectation n (a.hamiltonian.terms.map signedOp).sum (ψ p)).re, rnd) := by
  obtain ⟨gs, es, hc, hd, hv, z, hz, he⟩ := h p hp
  simp only [Ansatz.objective, hc, cacheRun_ok hd hv]
  have := C44_energy_signed a.hamiltonian hn ⟨n, gs⟩ hb es hd hv rnd
  rw [this, ← expectation_phase n _ z hz (ψ p), ← he]
  rfl

theorem objExpect_ok {a : Ansatz} {n : ℕ} {ψ : List ℝ → Vec} (h : Prepares a n ψ) (jv : ℕ → ℂ) (ji : ℕ → ℕ)
    (hz : a.hamiltonian.nQubits = 0 ∨ exprOp a.hamiltonian ≠ 0) (hn : n = a.hamiltonian.nQubits) (m : PyMatrix)
    (hm : makeSparse jv ji a.hamiltonian = .ok m) (p : List ℝ) (rnd : ℕ → ℝ) (hp : p.length = a.nParams) :
    a.objExpect m p rnd = .ok ((expectation n (exprOp a.hamiltonian) (ψ p)).re, rnd) := by
  obtain ⟨gs, es, hc, hd, hv, z, hz', he⟩ := h p hp
  simp only [Ansatz.objExpect, hc, cacheRun_ok hd hv]
  obtain ⟨m', h1, h2, -⟩ := C44_sparse jv ji a.hamiltonian hz ⟨n, gs⟩ es hd hv rnd
  rw [hm] at h1
  cases h1
  rw [h2 hn, ← expectation_phase n _ z hz' (ψ p), ← he]
  rfl

/-! ## C70 -/

/-- What `Vqe.run` does with the exact sampler: the minimizer minimizes the expectation value of the Hamiltonian in which
every term is multiplied by `(-1)^(number of Y)`, and the result has the parameters it returns and their circuit. -/
theorem C70_run_signed (jv : ℕ → ℂ) (ji : ℕ → ℕ) (a : Ansatz) (n : ℕ) (ψ : List ℝ → Vec) (h : Prepares a n ψ)
    (hn : ∀ t ∈ a.hamiltonian.terms, t.ops.Pairwise (fun a b => a.n ≠ b.n))
    (hb : ∀ t ∈ a.hamiltonian.terms, ∀ o ∈ t.ops, o.n < n)
    (minimizer : ℕ → Minimizer) (hm : HasDim a.nParams (minimizer a.nParams)) (verbose : Bool) (rnd : ℕ → ℝ) :
    let E := fun p => (expectation n (a.hamiltonian.terms.map signedOp).sum (ψ p)).re
    ∃ c, a.getCircuit (answer E (minimizer a.nParams)) = .ok c ∧
      vqeRun jv ji a minimizer (some nonSamplingSampler) verbose rnd =
        .ok (⟨a, answer E (minimizer a.nParams), ⟨some nonSamplingSampler, c, none⟩,
          if verbose then trace E (minimizer a.nParams) else []⟩, rnd) := by
  intro E
  obtain ⟨gs, es, hc, -⟩ := h (answer E (minimizer a.nParams)) (answer_dim _ _ _ hm)
  refine ⟨_, hc, ?_⟩
  simp only [vqeRun, Ansatz.getObjective,
    minimizer_run _ E a.nParams (fun p rnd hp => objective_ok h hn hb p rnd hp) _ hm rnd, hc]

/-- **C70, partial.** With the exact sampler, `Vqe.run` minimizes `⟨ψ(params)|H|ψ(params)⟩`: the minimizer is told these
values and nothing else, the lines printed are the points and these values, and the result has the parameters the
minimizer returns, and their circuit. Missing: terms with an odd number of `Y` (`C70_run_signed`). -/
theorem C70_run_partial (jv : ℕ → ℂ) (ji : ℕ → ℕ) (a : Ansatz) (n : ℕ) (ψ : List ℝ → Vec) (h : Prepares a n ψ)
    (hn : ∀ t ∈ a.hamiltonian.terms, t.ops.Pairwise (fun a b => a.n ≠ b.n))
    (hb : ∀ t ∈ a.hamiltonian.terms, ∀ o ∈ t.ops, o.n < n) (hy : ∀ t ∈ a.hamiltonian.terms, Even (yCount t.ops))
    (minimizer : ℕ → Minimizer) (hm : HasDim a.nParams (minimizer a.nParams)) (verbose : Bool) (rnd : ℕ → ℝ) :
    let E := fun p => (expectation n (exprOp a.hamiltonian) (ψ p)).re
    ∃ c, a.getCircuit (answer E (minimizer a.nParams)) = .ok c ∧
      vqeRun jv ji a minimizer (some nonSamplingSampler) verbose rnd =
        .ok (⟨a, answer E (minimizer a.nParams), ⟨some nonSamplingSampler, c, none⟩,
          if verbose then trace E (minimizer a.nParams) else []⟩, rnd) := by
  have e : a.hamiltonian.terms.map signedOp = a.hamiltonian.terms.map termOp :=
    List.map_congr_left (fun t ht => by rw [signedOp, (hy t ht).neg_one_pow, one_smul])
  have := C70_run_signed jv ji a n ψ h hn hb minimizer hm verbose rnd
  rw [e] at this
  exact this

/-- **C70 without a sampler.** `Vqe.run` minimizes `⟨ψ(params)|H|ψ(params)⟩` for every Hamiltonian, whatever its terms, that
has as many qubits as the circuits. The ansatz keeps the matrix, so that the same holds of the next run. -/
theorem C70_run_sparse (jv : ℕ → ℂ) (ji : ℕ → ℕ) (a : Ansatz) (ψ : List ℝ → Vec) (h : Prepares a a.hamiltonian.nQubits ψ)
    (hz : a.hamiltonian.nQubits = 0 ∨ exprOp a.hamiltonian ≠ 0)
    (hs : ∀ m ∈ a.sparse, makeSparse jv ji a.hamiltonian = .ok m)
    (minimizer : ℕ → Minimizer) (hm : HasDim a.nParams (minimizer a.nParams)) (verbose : Bool) (rnd : ℕ → ℝ) :
    let E := fun p => (expectation a.hamiltonian.nQubits (exprOp a.hamiltonian) (ψ p)).re
    ∃ c m, a.getCircuit (answer E (minimizer a.nParams)) = .ok c ∧ makeSparse jv ji a.hamiltonian = .ok m ∧
      vqeRun jv ji a minimizer none verbose rnd =
        .ok (⟨{ a with sparse := some m }, answer E (minimizer a.nParams), ⟨none, c, none⟩,
          if verbose then trace E (minimizer a.nParams) else []⟩, rnd) := by
  intro E
  obtain ⟨gs, es, hc, hd, hv, -⟩ := h (answer E (minimizer a.nParams)) (answer_dim _ _ _ hm)
  obtain ⟨m, hmk, -⟩ := C44_sparse jv ji a.hamiltonian hz ⟨_, gs⟩ es hd hv rnd
  refine ⟨_, m, hc, hmk, ?_⟩
  have hobj : a.getObjective jv ji none = .ok ({ a with sparse := some m }, a.objExpect m) := by
    simp only [Ansatz.getObjective]
    match hsp : a.sparse with
    | none => simp only [hmk]
    | some m' =>
      have := hs m' (by rw [hsp]; rfl)
      rw [hmk] at this
      cases this
      simp only
      congr 2
      cases a
      simp only at hsp
      rw [hsp]
  simp only [vqeRun, hobj, minimizer_run _ E a.nParams (fun p rnd hp => objExpect_ok h jv ji hz rfl m hmk p rnd hp) _ hm rnd, hc]

/-- **C70, variational principle.** No value that the minimizer is told in either of these runs, and no energy of the circuit
in the result, is below the lowest energy of the Hamiltonian. -/
theorem C70_variational (a : Ansatz) (n : ℕ) (ψ : List ℝ → Vec) (h : Prepares a n ψ) (H : Operator) (E₀ : ℝ)
    (hE : IsEnergyBound n H E₀) (m : Minimizer) (hm : HasDim a.nParams m) :
    let E := fun p => (expectation n H (ψ p)).re
    (∀ x ∈ trace E m, E₀ ≤ x.2) ∧ E₀ ≤ E (answer E m) := by
  intro E
  refine ⟨fun x hx => ?_, hE _ (prepares_norm h _ (answer_dim _ _ _ hm))⟩
  obtain ⟨h1, h2⟩ := trace_mem E _ m hm x hx
  rw [h2]
  exact hE _ (prepares_norm h _ h1)

/-- **C70 is false for circuits with more qubits than the Hamiltonian** (as `QaoaAnsatz` makes for a larger `init_circuit`):
without a sampler every run of a minimizer that evaluates the objective raises ValueError. -/
theorem C70_size_refuted (jv : ℕ → ℂ) (ji : ℕ → ℕ) (a : Ansatz) (n : ℕ) (ψ : List ℝ → Vec) (h : Prepares a n ψ)
    (hz : a.hamiltonian.nQubits = 0 ∨ exprOp a.hamiltonian ≠ 0) (hs : a.sparse = none) (hn : n ≠ a.hamiltonian.nQubits)
    (minimizer : ℕ → Minimizer) (p : List ℝ) (next : ℝ → Minimizer) (hp : p.length = a.nParams)
    (hm : minimizer a.nParams = .ask p next) (verbose : Bool) (rnd : ℕ → ℝ) :
    vqeRun jv ji a minimizer none verbose rnd = .error .valueError := by
  obtain ⟨gs, es, hc, hd, hv, -⟩ := h p hp
  obtain ⟨m, hmk, -, herr⟩ := C44_sparse jv ji a.hamiltonian hz ⟨_, gs⟩ es hd hv rnd
  simp only [vqeRun, Ansatz.getObjective, hs, hmk, hm, Minimizer.run, Ansatz.objExpect, hc, cacheRun_ok hd hv, herr hn]

/-- **C70 is false of `Vqe.result`**: after any number of runs, successful or not, the property raises AttributeError. -/
theorem C70_result_refuted (jv : ℕ → ℂ) (ji : ℕ → ℕ) (empty : VqeResult) (dflt : ℕ → Minimizer) (a : Ansatz)
    (m : Option (ℕ → Minimizer)) (s : Option Sampler) (runs : List (Bool × (ℕ → ℝ))) :
    (runs.foldl (fun v r => (VqeObj.run jv ji v r.1 r.2).1) (VqeObj.new dflt a m s)).result empty = .error .attributeError := by
  have h : ∀ v : VqeObj, v.resultAttr = none →
      (runs.foldl (fun v r => (VqeObj.run jv ji v r.1 r.2).1) v).resultAttr = none := by
    induction runs with
    | nil => exact fun v hv => hv
    | cons r runs ih =>
      intro v hv
      refine ih _ ?_
      cases h : v.ansatz.getObjective jv ji v.sampler <;> simp only [VqeObj.run, h] <;> exact hv
  rw [VqeObj.result, h _ rfl]

/-- **C70, again.** A `Vqe` object can be run again: the matrix a first run has stored does not change what the second
computes. -/
theorem C70_again (jv : ℕ → ℂ) (ji : ℕ → ℕ) (dflt : ℕ → Minimizer) (a : Ansatz) (hs : a.sparse = none)
    (m : Option (ℕ → Minimizer)) (s : Option Sampler) (verbose verbose' : Bool) (rnd rnd' : ℕ → ℝ) :
    (VqeObj.run jv ji (VqeObj.run jv ji (VqeObj.new dflt a m s) verbose rnd).1 verbose' rnd').2 =
      (VqeObj.run jv ji (VqeObj.new dflt a m s) verbose' rnd').2 := by
  obtain ⟨ham, k, gc, sp⟩ := a
  simp only at hs
  subst hs
  cases s with
  | some s => simp [VqeObj.run, VqeObj.new, Ansatz.getObjective]
  | none =>
    cases hm : makeSparse jv ji ham with
    | error e => simp [VqeObj.run, VqeObj.new, Ansatz.getObjective, hm]
    | ok mat => simp [VqeObj.run, VqeObj.new, Ansatz.getObjective, hm, vqeRun, Ansatz.objExpect]; rfl

/-- The default minimizer starts at one random number for every parameter. -/
theorem C70_scipy (scipy : List ℝ → Minimizer) (random : ℕ → ℝ) (n : ℕ) :
    ∃ start, start.length = n ∧ (∀ i (h : i < start.length), start[i] = random i) ∧
      scipyMinimizer scipy random n = scipy start :=
  ⟨(List.range n).map random, by simp, by simp, rfl⟩

/-! ## QAOA -/

theorem app_plus (m : ℕ) : app mH m (plusState m) = plusState (m + 1) := by
  funext i
  have hs : (1 / ((√2 : ℝ) : ℂ)) * (1 / ((√(2 ^ m) : ℝ) : ℂ)) = 1 / ((√(2 ^ (m + 1)) : ℝ) : ℂ) := by
    rw [pow_succ, Real.sqrt_mul (by positivity)]
    push_cast
    field_simp
  have hp : 2 ^ (m + 1) = 2 * 2 ^ m := by ring
  simp only [app, plusState, mH]
  by_cases h1 : i < 2 ^ m
  · have hb : i.testBit m = false := Nat.testBit_lt_two_pow h1
    have hf : ¬ flipBit m i < 2 ^ m := by
      intro h
      have : (flipBit m i).testBit m = false := Nat.testBit_lt_two_pow h
      simp [flipBit, Nat.testBit_xor, hb] at this
    rw [hb, if_neg (by simp), if_pos h1, if_neg hf, if_pos (by omega), mul_zero, add_zero, hs]
  · by_cases h2 : i < 2 ^ (m + 1)
    · have hb : i.testBit m = true := by
        rw [Nat.testBit_eq_decide_div_mod_eq]
        have : i / 2 ^ m = 1 := by
          rw [Nat.div_eq_iff (by positivity)]; omega
        simp [this]
      have hf : flipBit m i < 2 ^ m := by
        refine Nat.lt_pow_two_of_testBit _ (fun j hj => ?_)
        simp only [flipBit, Nat.testBit_xor, Nat.testBit_two_pow]
        rcases Nat.eq_or_lt_of_le hj with rfl | hj
        · simp [hb]
        · have : i.testBit j = false :=
            Nat.testBit_lt_two_pow (lt_of_lt_of_le h2 (Nat.pow_le_pow_right (by norm_num) hj))
          simp [this, hj.ne]
      rw [hb, if_pos rfl, if_pos hf, if_neg h1, if_pos h2, mul_zero, add_zero, hs]
    · have hf : ¬ flipBit m i < 2 ^ m := by
        intro h
        refine h2 ?_
        have e : i = flipBit m i ^^^ 2 ^ m := by simp [flipBit, Nat.xor_assoc]
        rw [e]
        exact Nat.xor_lt_two_pow (h.trans (by omega)) (by omega)
      rw [if_neg h1, if_neg hf, if_neg h2]
      simp

theorem unitaries_h_all (ph : ℝ → ℂ) (n : ℕ) : unitaries ph ((List.range n).map (.one .h)) zeroState = plusState n := by
  induction n with
  | zero =>
    funext j
    simp [unitaries, zeroState, plusState]
  | succ n ih =>
    rw [List.range_succ, List.map_append, unitaries_append, ih]
    exact app_plus n

variable {V M C B A R : Type} (kit : Kit C B A R) (isAttr : String → Bool)

theorem qubitsOfAll_le {e : PExpr} : qubitsOfAll (e.terms.map PTerm.ops) ≤ e.nQubits := by
  have h1 : ∀ (l : List POp) (n : ℕ), (∀ o ∈ l, o.n < n) → qubitsOf l ≤ n := by
    intro l n
    induction l with
    | nil => intro _; exact Nat.zero_le _
    | cons o l ih => intro h; exact max_le (h o (by simp)) (ih (fun x hx => h x (by simp [hx])))
  have h2 : ∀ (ts : List PTerm) (n : ℕ), (∀ t ∈ ts, ∀ o ∈ t.ops, o.n < n) → qubitsOfAll (ts.map PTerm.ops) ≤ n := by
    intro ts n
    induction ts with
    | nil => intro _; exact Nat.zero_le _
    | cons t ts ih => intro h; exact max_le (h1 _ _ (h t (by simp))) (ih (fun x hx => h x (by simp [hx])))
  exact h2 _ _ (expr_nQubits e)

theorem simplify_nonzero (e : PExpr) : e.simplify.nQubits = 0 ∨ exprOp e.simplify ≠ 0 := by
  by_cases h : exprOp e.simplify = 0
  · left
    have h0 : exprOp e = exprOp ⟨[]⟩ := by rw [← exprSimplify_op, h]; simp [exprOp]
    rw [simplify_canonical h0]
    have : (⟨[]⟩ : PExpr).simplify.terms = [] := by
      rw [simplify_terms]; simp [simpWords, PExpr.simplifyDict, sortByRepr]
    simp [PExpr.nQubits, this]
  · exact Or.inr h

/-- The circuits of a default `QaoaAnsatz` prepare the alternating operator applied to the uniform superposition. -/
theorem qaoa_prepares (b : B) (reg : Registry V M C) (h h' : List (Cmd V M C A)) (ham : PVal) (step : ℕ) (a : A) (q : QaoaAnsatz)
    (hq : (QaoaAnsatz.new kit isAttr ham step none none a ((World.start b reg).exec kit isAttr h)).2 = .ok q)
    (hy : ∀ t ∈ q.hamiltonian.terms, Even (yCount t.ops)) :
    ∃ ψ, Prepares (q.toAnsatz kit isAttr
        (QaoaAnsatz.new kit isAttr ham step none none a ((World.start b reg).exec kit isAttr h)).1) q.hamiltonian.nQubits ψ ∧
      ∀ p, ∃ cost mix, IsProductEvolution (q.hamiltonian.terms.map termOp) cost ∧
        ((∀ t ∈ q.hamiltonian.terms, 0.01 ≤ ‖t.coeff‖) → IsEvolution (valOp ham) cost) ∧
        IsProductEvolution (xMixer q.hamiltonian.nQubits) mix ∧
        ψ p = qaoaOp cost mix ((p.take step).zip (p.drop step)) (plusState q.hamiltonian.nQubits) := by
  obtain ⟨-, -, -, -, -, hfresh⟩ := C46_new kit isAttr b reg h ham step none none a q (by simp) hq
  obtain ⟨hi, hvn, hvo⟩ := hfresh rfl
  have key : ∀ p : List ℝ, ∃ ψp : Vec, (∃ gs es, (q.toAnsatz kit isAttr
        (QaoaAnsatz.new kit isAttr ham step none none a ((World.start b reg).exec kit isAttr h)).1).getCircuit p =
          .ok ⟨q.hamiltonian.nQubits, gs⟩ ∧ GatesDenote q.hamiltonian.nQubits gs es ∧
          (∀ e ∈ es, e.Valid q.hamiltonian.nQubits ∧ e.IsUnitary) ∧
          ∃ z : ℂ, ‖z‖ = 1 ∧ unitaries phDoc es zeroState = z • ψp) ∧
      ∃ cost mix, IsProductEvolution (q.hamiltonian.terms.map termOp) cost ∧
        ((∀ t ∈ q.hamiltonian.terms, 0.01 ≤ ‖t.coeff‖) → IsEvolution (valOp ham) cost) ∧
        IsProductEvolution (xMixer q.hamiltonian.nQubits) mix ∧
        ψp = qaoaOp cost mix ((p.take step).zip (p.drop step)) (plusState q.hamiltonian.nQubits) := by
    intro p
    obtain ⟨k1, -, ms, n', gs', -, -, m1, m2, m3, -⟩ :=
      C46_circuit_signed kit isAttr b reg h [] ham step none none a q p (by simp) hq
    obtain ⟨-, -, n, gs, cost, mix, e2, e3, e4, e5, e6, z, hz, e7⟩ :=
      C46_circuit_partial kit isAttr b reg h [] ham step none none a q p (by simp) hq hy (by simp)
    have hms : ms = [] := by simpa using m1.symm
    subst hms
    have hexec : ∀ w : World V M C B, w.exec kit isAttr [] = w := fun _ => rfl
    simp only [hexec] at k1 m2 m3 e3
    rw [hi] at m2 m3 e3
    have hnn : n = n' := by
      have := congrArg CircView.n e3
      rw [m3] at this
      exact this.symm
    have hn : n = q.hamiltonian.nQubits := by
      rw [hnn, m2, hvn]
      split_ifs
      · rfl
      · have := qubitsOfAll_le (e := q.hamiltonian)
        have h0 : qubitsOfAll (([] : List PTerm).map (fun t => t.simplify.ops)) = 0 := rfl
        rw [h0]
        omega
    subst hn
    obtain ⟨es, hd, hv, hu⟩ := e7
    have hd0 : GatesDenote q.hamiltonian.nQubits [.g1 .h (.one (.slice none none none))]
        ((List.range q.hamiltonian.nQubits).map (.one .h)) :=
      ⟨_, [], ⟨List.range q.hamiltonian.nQubits, sliceAll_denotes _, rfl⟩, rfl, by simp⟩
    refine ⟨_, ⟨[.g1 .h (.one (.slice none none none))] ++ gs, (List.range q.hamiltonian.nQubits).map (.one .h) ++ es, ?_,
      gatesDenote_append hd0 hd, ?_, z, hz, ?_⟩, cost, mix, e4, e5, e6, rfl⟩
    · simp only [QaoaAnsatz.toAnsatz]
      generalize QaoaAnsatz.getCircuit kit isAttr q p
        (QaoaAnsatz.new kit isAttr ham step none none a ((World.start b reg).exec kit isAttr h)).1 = x at k1 e3
      obtain ⟨x1, x2⟩ := x
      simp only at k1
      subst k1
      have f1 := congrArg CircView.n e3
      have f2 := congrArg CircView.ops e3
      rw [hvo] at f2
      simp only [view] at f1 f2
      simp only [f1, f2]
    · intro e he
      rcases List.mem_append.1 he with he | he
      · obtain ⟨k, hk, rfl⟩ := List.mem_map.1 he
        exact ⟨by simpa [Elem.Valid] using hk, trivial⟩
      · exact hv e he
    · rw [unitaries_append, unitaries_h_all, hu]
      rfl
  choose ψ h1 h2 using key
  exact ⟨ψ, fun p _ => h1 p, h2⟩

/-- **C70 for QAOA, partial.** `Vqe(QaoaAnsatz(H, step)).run()` with any minimizer minimizes, over `2 * step` angles, the
energy `⟨ψ|H|ψ⟩` of the state `ψ` which the alternating operator of `H` and `rx` makes from the uniform superposition;
nothing it is told is below the lowest energy of `H`. Missing: terms with an odd number of `Y`. -/
theorem C70_qaoa_partial (jv : ℕ → ℂ) (ji : ℕ → ℕ) (b : B) (reg : Registry V M C) (h : List (Cmd V M C A)) (ham : PVal)
    (step : ℕ) (a : A) (q : QaoaAnsatz) (minimizer : ℕ → Minimizer) (verbose : Bool) (rnd : ℕ → ℝ) :
    let r := QaoaAnsatz.new kit isAttr ham step none none a ((World.start b reg).exec kit isAttr h)
    let n := q.hamiltonian.nQubits
    r.2 = .ok q → (∀ t ∈ q.hamiltonian.terms, Even (yCount t.ops)) → (∀ t ∈ q.hamiltonian.terms, 0.01 ≤ ‖t.coeff‖) →
    HasDim (2 * step) (minimizer (2 * step)) →
    ∃ E : List ℝ → ℝ,
      (∀ p, ∃ cost mix, IsEvolution (valOp ham) cost ∧ IsProductEvolution (xMixer n) mix ∧
        E p = (expectation n (valOp ham) (qaoaOp cost mix ((p.take step).zip (p.drop step)) (plusState n))).re) ∧
      (∀ E₀, IsEnergyBound n (valOp ham) E₀ → ∀ x ∈ trace E (minimizer (2 * step)), E₀ ≤ x.2) ∧
      ∃ out, vqeRun jv ji (q.toAnsatz kit isAttr r.1) minimizer none verbose rnd = .ok (out, rnd) ∧
        out.params = answer E (minimizer (2 * step)) ∧
        (q.toAnsatz kit isAttr r.1).getCircuit out.params = .ok out.result.circuit ∧
        out.printed = if verbose then trace E (minimizer (2 * step)) else [] := by
  intro r n hq hy hc hm
  obtain ⟨ψ, hp, hψ⟩ := qaoa_prepares kit isAttr b reg h [] ham step a q hq hy
  obtain ⟨hop, hnp, -⟩ := C46_new kit isAttr b reg h ham step none none a q (by simp) hq
  obtain ⟨ms, hn⟩ := new_ok kit isAttr (WF_exec kit isAttr (WF_start b reg) h) (by simp) hq
  have hdim : (q.toAnsatz kit isAttr r.1).nParams = 2 * step := hnp
  have hham : (q.toAnsatz kit isAttr r.1).hamiltonian = q.hamiltonian := rfl
  obtain ⟨c, m, k1, k2, k3⟩ := C70_run_sparse jv ji (q.toAnsatz kit isAttr r.1) ψ hp
    (by rw [hham, hn.hamEq]; exact simplify_nonzero _) (by simp [QaoaAnsatz.toAnsatz]) minimizer (by rw [hdim]; exact hm) verbose rnd
  rw [hham, hop, hdim] at k1 k3
  refine ⟨fun p => (expectation n (valOp ham) (ψ p)).re, fun p => ?_, fun E₀ hE => ?_, _, k3, rfl, k1, rfl⟩
  · obtain ⟨cost, mix, -, h2, h3, h4⟩ := hψ p
    exact ⟨cost, mix, h2 hc, h3, by simp only [h4]; rfl⟩
  · exact (C70_variational _ n ψ hp (valOp ham) E₀ hE _ (by rw [hdim]; exact hm)).1

/-! ## Examples -/

/-- One parameter θ, the circuit `rx(θ)[0]`. -/
def rxAnsatz (H : PExpr) (n : ℕ) : Ansatz := ⟨H, 1, fun p => .ok ⟨n, [on1 (.rx (p.getD 0 0)) 0]⟩, none⟩

theorem rxAnsatz_prepares (H : PExpr) (n : ℕ) (hn : 0 < n) :
    Prepares (rxAnsatz H n) n (fun p => app (mRX (p.getD 0 0)) 0 zeroState) := by
  intro p _
  refine ⟨_, [.one (.rx (p.getD 0 0)) 0], rfl, ⟨_, _, gateDenotes_on1 n _ 0, rfl, rfl⟩, ?_, 1, by simp, ?_⟩
  · simp [Elem.Valid, Elem.IsUnitary, hn]
  · rw [one_smul]; rfl

/-- The minimizer that compares 0 and π. -/
def twoPoints : Minimizer := .ask [0] fun u => .ask [Real.pi] fun v => .done (if u ≤ v then [0] else [Real.pi])

/-- For `H = Z[0]` it is told 1 and -1 and returns π. -/
example (jv : ℕ → ℂ) (ji : ℕ → ℕ) (rnd : ℕ → ℝ) : ∃ out,
    vqeRun jv ji (rxAnsatz ⟨[⟨[⟨.Z, 0⟩], 1⟩]⟩ 1) (fun _ => twoPoints) (some nonSamplingSampler) true rnd = .ok (out, rnd) ∧
    out.params = [Real.pi] ∧ out.printed = [([0], 1), ([Real.pi], -1)] := by
  obtain ⟨c, h1, h2⟩ := C70_run_partial jv ji _ 1 _ (rxAnsatz_prepares ⟨[⟨[⟨.Z, 0⟩], 1⟩]⟩ 1 (by norm_num)) (by simp [rxAnsatz])
    (by simp [rxAnsatz]) (by simp [rxAnsatz, yCount]) (fun _ => twoPoints)
    (by
      refine ⟨rfl, fun u => ⟨rfl, fun v => ?_⟩⟩
      show (if u ≤ v then [0] else [Real.pi]).length = 1
      split_ifs <;> rfl) true rnd
  refine ⟨_, h2, ?_⟩
  have e1 : (expectation 1 (exprOp (rxAnsatz ⟨[⟨[⟨.Z, 0⟩], 1⟩]⟩ 1).hamiltonian)
      (app (mRX (([0] : List ℝ).getD 0 0)) 0 zeroState)).re = 1 := by
    simp [expectation, exprOp, rxAnsatz, termOp, wordOp, opOp, letterM, matAt_apply, app, mRX, mZ, flipBit, zeroState,
      Finset.sum_range_succ]
  have e2 : (expectation 1 (exprOp (rxAnsatz ⟨[⟨[⟨.Z, 0⟩], 1⟩]⟩ 1).hamiltonian)
      (app (mRX (([Real.pi] : List ℝ).getD 0 0)) 0 zeroState)).re = -1 := by
    simp [expectation, exprOp, rxAnsatz, termOp, wordOp, opOp, letterM, matAt_apply, app, mRX, mZ, flipBit, zeroState,
      Finset.sum_range_succ]
  simp only [twoPoints, answer, trace, e1, e2, if_true]
  rw [if_neg (by norm_num)]
  exact ⟨rfl, trivial⟩

/-- With one more qubit the default run raises. -/
example (jv : ℕ → ℂ) (ji : ℕ → ℕ) (rnd : ℕ → ℝ) :
    vqeRun jv ji (rxAnsatz ⟨[⟨[⟨.Z, 0⟩], 1⟩]⟩ 2) (fun _ => twoPoints) none false rnd = .error .valueError := by
  refine C70_size_refuted jv ji _ 2 _ (rxAnsatz_prepares ⟨[⟨[⟨.Z, 0⟩], 1⟩]⟩ 2 (by norm_num)) (Or.inr ?_) rfl
    (by simp [rxAnsatz, PExpr.nQubits, PTerm.nQubits]) (fun _ => twoPoints) _ _ rfl rfl false rnd
  intro h
  have := congrFun (congrArg (fun A : Operator => A zeroState) h) 0
  simp [exprOp, rxAnsatz, termOp, wordOp, opOp, letterM, matAt_apply, app, mZ, flipBit, zeroState] at this

/-- The default QAOA ansatz of `Z[0]*Z[1]` with one step meets the hypotheses of `C70_qaoa_partial`. -/
example (jv : ℕ → ℂ) (ji : ℕ → ℕ) (rnd : ℕ → ℝ) : ∃ q out,
    (QaoaAnsatz.new demoKit (fun _ => false) (.term ⟨[⟨.Z, 0⟩, ⟨.Z, 1⟩], 1⟩) 1 none none () demoStart).2 = .ok q ∧
    vqeRun jv ji (q.toAnsatz demoKit (fun _ => false)
        (QaoaAnsatz.new demoKit (fun _ => false) (.term ⟨[⟨.Z, 0⟩, ⟨.Z, 1⟩], 1⟩) 1 none none () demoStart).1)
      (scipyMinimizer (fun p => .ask p fun v => .done p) (fun _ => 1 / 2)) none true rnd = .ok (out, rnd) ∧
    out.params = [1 / 2, 1 / 2] := by
  obtain ⟨m, hq⟩ := new_demo ⟨[⟨.Z, 0⟩, ⟨.Z, 1⟩], 1⟩ (by simp [NormalWord]) (by simp) (by simp) 1
  obtain ⟨E, -, -, out, h1, h2, -⟩ := C70_qaoa_partial demoKit (fun _ => false) jv ji 0 demoReg [] _ 1 () _
    (scipyMinimizer (fun p => .ask p fun v => .done p) (fun _ => 1 / 2)) true rnd hq (by simp [yCount]) (by norm_num)
    ⟨by simp, fun v => by simp [HasDim]⟩
  refine ⟨_, out, hq, h1, ?_⟩
  rw [h2]
  simp [scipyMinimizer, answer, List.range_succ]

end

end Blueqat
