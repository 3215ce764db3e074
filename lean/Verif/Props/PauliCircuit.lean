import Verif.PauliEvolution
import Verif.PauliMatrixOps
import Verif.PauliCommute
import Mathlib.Analysis.Calculus.MeanValue
import Mathlib.Tactic.Linarith

/-!
# Properties C39, C40: circuits made from Pauli terms
-/

set_option linter.unusedSimpArgs false
set_option linter.unusedVariables false

namespace Blueqat

open Spec

noncomputable section

/-! ## C40 -/

theorem appendToCircuit_ok (t : PTerm) (simplify : Bool) (c : OpsVal) :
    ∃ gs, t.appendToCircuit simplify c =
        .ok ⟨max c.n (qubitsOf (if simplify then t.simplify else t).ops), c.ops ++ gs⟩ ∧
      ActsAs (max c.n (qubitsOf (if simplify then t.simplify else t).ops)) gs
        (wordOp (if simplify then t.simplify else t).ops) := by
  generalize hu : (if simplify then t.simplify else t) = u
  have hq : ∀ (l : List POp), qubitsOf l = (l.map POp.n).foldr (fun q m => max (q + 1) m) 0 := by
    intro l; simp [qubitsOf, List.foldr_map]
  refine ⟨u.ops.reverse.map (fun o => on1 o.p.gate o.n), ?_, ?_⟩
  · have h := appendAll_lit (u.ops.reverse.map (fun o => (on1 o.p.gate o.n, [o.n]))) (by
      intro p hp
      obtain ⟨o, -, rfl⟩ := List.mem_map.1 hp
      exact .one _ _) c
    have hm : ((u.ops.reverse.map (fun o => (on1 o.p.gate (o.n : ℤ), [o.n]))).flatMap Prod.snd) =
        u.ops.reverse.map POp.n := by
      generalize u.ops.reverse = l
      induction l <;> simp_all
    rw [hm, maxSucc_eq _ (u.ops.map POp.n) (by simp) (by simp), ← hq] at h
    simp only [PTerm.appendToCircuit, hu]
    simpa [List.map_map, Function.comp_def] using h
  · refine actsAs_word u.ops (fun o ho => ?_)
    have := lt_maxSucc (List.mem_map_of_mem (f := POp.n) ho)
    rw [← hq] at this
    omega

/-- C40. `append_to_circuit` appends gates, and nothing else, that act as the product of the Pauli operators of the
simplified term, or of the term itself with `simplify=False`; the register grows exactly to the qubits of the term.
`C40_simplified` relates the simplified product to the term. -/
theorem C40_append_to_circuit (t : PTerm) (simplify : Bool) (c : OpsVal) :
    ∃ gs, t.appendToCircuit simplify c =
        .ok ⟨max c.n (qubitsOf (if simplify then t.simplify else t).ops), c.ops ++ gs⟩ ∧
      ActsAs (max c.n (qubitsOf (if simplify then t.simplify else t).ops)) gs
        (wordOp (if simplify then t.simplify else t).ops) := appendToCircuit_ok t simplify c

/-- C40. The appended operator is the term up to the dropped coefficient, in both modes. -/
theorem C40_simplified (t : PTerm) (simplify : Bool) :
    (if simplify then t.simplify else t).coeff • wordOp (if simplify then t.simplify else t).ops = termOp t := by
  cases simplify
  · rfl
  · exact simplify_op t

example : ∃ gs, (⟨[⟨.X, 0⟩, ⟨.Y, 2⟩, ⟨.X, 0⟩], 3⟩ : PTerm).appendToCircuit false ⟨1, []⟩ = .ok ⟨3, gs⟩ ∧
    ActsAs 3 gs (opOp ⟨.X, 0⟩ * (opOp ⟨.Y, 2⟩ * opOp ⟨.X, 0⟩)) := by
  obtain ⟨gs, h1, h2⟩ := C40_append_to_circuit ⟨[⟨.X, 0⟩, ⟨.Y, 2⟩, ⟨.X, 0⟩], 3⟩ false ⟨1, []⟩
  refine ⟨gs, by simpa [qubitsOf] using h1, ?_⟩
  simpa [qubitsOf, wordOp] using h2

/-! ## Time evolution -/

theorem hasDerivAt_cos_mul (c t : ℝ) :
    HasDerivAt (fun s : ℝ => ((Real.cos (c * s) : ℝ) : ℂ)) (-(Real.sin (c * t) * c) : ℂ) t := by
  have h : HasDerivAt (fun s : ℝ => Real.cos (c * s)) (-Real.sin (c * t) * (c * 1)) t :=
    (Real.hasDerivAt_cos (c * t)).comp t ((hasDerivAt_id t).const_mul c)
  have h' := h.ofReal_comp
  convert h' using 1
  push_cast; ring

theorem hasDerivAt_sin_mul (c t : ℝ) :
    HasDerivAt (fun s : ℝ => ((Real.sin (c * s) : ℝ) : ℂ)) (Real.cos (c * t) * c : ℂ) t := by
  have h : HasDerivAt (fun s : ℝ => Real.sin (c * s)) (Real.cos (c * t) * (c * 1)) t :=
    (Real.hasDerivAt_sin (c * t)).comp t ((hasDerivAt_id t).const_mul c)
  have h' := h.ofReal_comp
  convert h' using 1
  push_cast; ring

theorem expI_apply (θ : ℝ) (P : Operator) (ψ : Vec) (k : ℕ) :
    expI θ P ψ k = Real.cos θ * ψ k + Complex.I * Real.sin θ * P ψ k := by
  simp only [expI, LinearMap.add_apply, LinearMap.smul_apply, Module.End.one_apply, Pi.add_apply, Pi.smul_apply,
    smul_eq_mul]

/-- `cos(ct) + i sin(ct) P` is the evolution under `cP` if `P² = 1`. -/
theorem isEvolution_expI (c : ℝ) (P : Operator) (hP : P * P = 1) :
    IsEvolution ((c : ℂ) • P) (fun t => expI (c * t) P) := by
  constructor
  · simp [expI]
  · intro ψ k t
    have hPP : P (P ψ) = ψ := by
      have := congrArg (fun A : Operator => A ψ) hP
      simpa using this
    have hr : Complex.I * (((c : ℂ) • P) (expI (c * t) P ψ)) k =
        (-(Real.sin (c * t) * c) : ℂ) * ψ k + Complex.I * (Real.cos (c * t) * c) * P ψ k := by
      have : expI (c * t) P ψ = (Real.cos (c * t) : ℂ) • ψ + (Complex.I * Real.sin (c * t)) • P ψ := by
        simp [expI]
      rw [this]
      simp only [LinearMap.smul_apply, map_add, map_smul, hPP, Pi.add_apply, Pi.smul_apply, smul_eq_mul]
      linear_combination ((Real.sin (c * t) : ℂ) * c * ψ k) * Complex.I_mul_I
    show HasDerivAt (fun s => expI (c * s) P ψ k) (Complex.I * (((c : ℂ) • P) (expI (c * t) P ψ)) k) t
    rw [hr]
    simp only [expI_apply]
    exact ((hasDerivAt_cos_mul c t).mul_const _).add (((hasDerivAt_sin_mul c t).const_mul _).mul_const _)

theorem isEvolution_unique_local (c : ℝ) (P : Operator) (a : ℕ → ℂ) (g : ℕ → ℕ)
    (hloc : ∀ (χ : Vec) (k : ℕ), P χ k = a k * χ (g k)) (hP : P * P = 1)
    (U : ℝ → Operator) (hU : IsEvolution ((c : ℂ) • P) U) (t : ℝ) : U t = expI (c * t) P := by
  have hsm : ∀ (χ : Vec) (k : ℕ), ((c : ℂ) • P) χ k = c * P χ k := fun _ _ => rfl
  have hPP : ∀ ψ, P (P ψ) = ψ := by
    intro ψ
    have := congrArg (fun A : Operator => A ψ) hP
    simpa using this
  have hdP : ∀ (ψ : Vec) (k : ℕ) (s : ℝ), HasDerivAt (fun s => P (U s ψ) k) (Complex.I * (c * U s ψ k)) s := by
    intro ψ k s
    have h1 := ((hU.deriv ψ (g k) s).const_mul (a k))
    have h2 := hloc (P (U s ψ)) k
    rw [hPP] at h2
    have e : (fun s => P (U s ψ) k) = fun s => a k * U s ψ (g k) := by funext s; exact hloc _ _
    rw [e]
    refine h1.congr_deriv ?_
    rw [hsm, h2]; ring
  have key : ∀ (ψ : Vec) (k : ℕ) (s : ℝ), expI (-(c * s)) P (U s ψ) k = ψ k := by
    intro ψ k s
    have hd : ∀ s, HasDerivAt (fun s => expI (-(c * s)) P (U s ψ) k) 0 s := by
      intro s
      simp only [expI_apply, Real.cos_neg, Real.sin_neg]
      have h1 := ((hasDerivAt_cos_mul c s).mul (hU.deriv ψ k s)).sub
        (((hasDerivAt_sin_mul c s).const_mul Complex.I).mul (hdP ψ k s))
      have h2 : (fun s => ((Real.cos (c * s) : ℝ) : ℂ) * U s ψ k + Complex.I * ((-Real.sin (c * s) : ℝ) : ℂ) * P (U s ψ) k) =
          ((fun s : ℝ => ((Real.cos (c * s) : ℝ) : ℂ)) * fun s => U s ψ k) -
            (fun s : ℝ => Complex.I * ((Real.sin (c * s) : ℝ) : ℂ)) * fun s => P (U s ψ) k := by
        funext s; simp [-Complex.ofReal_cos, -Complex.ofReal_sin]; ring
      rw [h2]
      refine h1.congr_deriv ?_
      rw [hsm]
      linear_combination (-((Real.sin (c * s) : ℂ) * c * U s ψ k)) * Complex.I_mul_I
    have hc := is_const_of_deriv_eq_zero (fun s => (hd s).differentiableAt) (fun s => (hd s).deriv) s 0
    beta_reduce at hc
    rw [hc, hU.start]
    simp [expI]
  have hinv : expI (c * t) P * expI (-(c * t)) P = 1 := by
    have hcs : ((Real.cos (c * t) : ℝ) : ℂ) ^ 2 + ((Real.sin (c * t) : ℝ) : ℂ) ^ 2 = 1 := by
      exact_mod_cast Real.cos_sq_add_sin_sq (c * t)
    refine LinearMap.ext fun ψ => ?_
    funext k
    have : expI (-(c * t)) P ψ = (Real.cos (c * t) : ℂ) • ψ + (-(Complex.I * Real.sin (c * t))) • P ψ := by
      simp [expI]
    rw [Module.End.mul_apply, expI_apply, this]
    simp only [map_add, map_smul, hPP, Pi.add_apply, Pi.smul_apply, smul_eq_mul, Module.End.one_apply]
    linear_combination ψ k * hcs - ((Real.sin (c * t) : ℂ) ^ 2 * ψ k) * Complex.I_mul_I
  have hkey : expI (-(c * t)) P * U t = 1 := by
    refine LinearMap.ext fun ψ => ?_
    funext k; exact key ψ k t
  calc U t = (expI (c * t) P * expI (-(c * t)) P) * U t := by rw [hinv, one_mul]
    _ = _ := by rw [mul_assoc, hkey, mul_one]

/-- Evolutions under a multiple of a product of Pauli operators are unique, so `IsEvolution` determines the operator. -/
theorem isEvolution_unique (c : ℝ) (w : List POp) (hw : NormalWord w) (hP : wordOp w * wordOp w = 1)
    (U : ℝ → Operator) (hU : IsEvolution ((c : ℂ) • wordOp w) U) (t : ℝ) : U t = expI (c * t) (wordOp w) :=
  isEvolution_unique_local c (wordOp w) (wordPhase true w) (fun k => k ^^^ xorBits w) (fun χ k => wordOp_apply w hw χ k)
    hP U hU t

theorem word_sq (w : List POp) (hw : NormalWord w) : wordOp w * wordOp w = 1 := by
  induction w with
  | nil => simp [wordOp]
  | cons o l ih =>
    obtain ⟨h1, h2⟩ := List.pairwise_cons.1 hw
    have hc : Commute (opOp o) (wordOp l) := by
      clear ih h2 hw
      induction l with
      | nil => simp [wordOp]
      | cons a l ih =>
        have := (opOp_comm (a := o) (b := a) (ne_of_lt (h1 a (by simp)))).mul_right (ih (fun x hx => h1 x (by simp [hx])))
        simpa [wordOp] using this
    have e : wordOp (o :: l) = opOp o * wordOp l := by simp [wordOp]
    rw [e, mul_assoc, ← mul_assoc (wordOp l), ← hc.eq, mul_assoc, ih h2, mul_one, opOp_sq]

/-- C39. `get_time_evolution` raises ValueError exactly if the coefficient of the simplified term is not real, and
otherwise returns a function. -/
theorem C39_value_error (t : PTerm) :
    (t.simplify.coeff.im ≠ 0 → t.getTimeEvolution = .error .valueError) ∧
    (t.simplify.coeff.im = 0 → ∃ f, t.getTimeEvolution = .ok f) := by
  constructor
  · intro h; simp [PTerm.getTimeEvolution, h]
  · intro h; simp [PTerm.getTimeEvolution, h]

example : (⟨[⟨.X, 0⟩, ⟨.Y, 0⟩], 1⟩ : PTerm).getTimeEvolution = .error .valueError := by
  refine (C39_value_error _).1 ?_
  simp [PTerm.simplify, simplifyBefore, PyDict.set, PyDict.get, pySorted, simplifyLoop, simplifyQubit, simplifyMul, mulMap,
    castReal_eq]

/-- What the code implements: the evolution under `(-1)^(number of Y) * H`, on the register enlarged to the qubits of
the simplified term, for every circuit and every time. -/
theorem evolution_signed (t : PTerm) (f : OpsVal → ℝ → Except PyErr OpsVal) (hf : t.getTimeEvolution = .ok f)
    (h0 : t.simplify.ops ≠ []) :
    ∃ U, IsEvolution (((-1 : ℂ) ^ yCount t.simplify.ops) • termOp t) U ∧
      ∀ (c : OpsVal) (τ : ℝ), ∃ gs, f c τ = .ok ⟨max c.n (qubitsOf t.simplify.ops), c.ops ++ gs⟩ ∧
        ActsAs (max c.n (qubitsOf t.simplify.ops)) gs (U τ) := by
  have him : t.simplify.coeff.im = 0 := by
    by_contra h; rw [(C39_value_error t).1 h] at hf; simp at hf
  have hfe : f = fun circuit time => circuit.appendAll (evolutionGates t.simplify.ops t.simplify.coeff.re time) := by
    simp [PTerm.getTimeEvolution, him] at hf; exact hf.symm
  have hn := simplify_normal t
  have hco : (t.simplify.coeff : ℂ) = ((t.simplify.coeff.re : ℝ) : ℂ) := Complex.ext rfl (by simpa using him)
  have hs : (((-1 : ℂ) ^ yCount t.simplify.ops) * (-1) ^ yCount t.simplify.ops) = 1 := by
    rw [← mul_pow]; norm_num
  refine ⟨fun τ => expI (t.simplify.coeff.re * τ) (((-1 : ℂ) ^ yCount t.simplify.ops) • wordOp t.simplify.ops), ?_, ?_⟩
  · have hE := isEvolution_expI t.simplify.coeff.re (((-1 : ℂ) ^ yCount t.simplify.ops) • wordOp t.simplify.ops) (by
      rw [smul_mul_smul_comm, hs, word_sq _ hn, one_smul])
    rw [smul_comm, ← hco] at hE
    rw [← simplify_op t]
    exact hE
  · intro c τ
    obtain ⟨gs, h1, h2, h3⟩ := lit_evolution t.simplify.ops t.simplify.coeff.re τ
    have hm : (gs.flatMap Prod.snd).foldr (fun q m => max (q + 1) m) 0 = qubitsOf t.simplify.ops := by
      rw [maxSucc_eq _ (t.simplify.ops.map POp.n)]
      · simp [qubitsOf, List.foldr_map]
      · intro q hq
        obtain ⟨p, hp, hqp⟩ := List.mem_flatMap.1 hq
        exact (h2 p hp).2 q hqp
      · intro q hq
        obtain ⟨o, ho, rfl⟩ := List.mem_map.1 hq
        obtain ⟨p, hp, hqp⟩ := h3 o ho
        exact List.mem_flatMap.2 ⟨p, hp, hqp⟩
    have h4 := appendAll_lit gs (fun p hp => (h2 p hp).1) c
    rw [hm, h1] at h4
    refine ⟨_, by rw [hfe]; exact h4, ?_⟩
    refine evolution_op _ _ _ (hn.imp ne_of_lt) (fun o ho => ?_) h0
    have := lt_maxSucc (List.mem_map_of_mem (f := POp.n) ho)
    rw [List.foldr_map] at this
    have : o.n < qubitsOf t.simplify.ops := this
    omega

/-- C39, partial: the appended gates implement `exp(i τ H)` exactly, for every term that simplifies to a product with an
even number of `Y` and at least one operator, for every circuit and every time. Missing: an odd number of `Y` (the
evolution runs backwards, `C39_odd`, `C39_refuted`) and multiples of the identity (`C39_constant`). -/
theorem C39_evolution_partial (t : PTerm) (f : OpsVal → ℝ → Except PyErr OpsVal) (hf : t.getTimeEvolution = .ok f)
    (h0 : t.simplify.ops ≠ []) (hy : Even (yCount t.simplify.ops)) :
    ∃ U, IsEvolution (termOp t) U ∧
      ∀ (c : OpsVal) (τ : ℝ), ∃ gs, f c τ = .ok ⟨max c.n (qubitsOf t.simplify.ops), c.ops ++ gs⟩ ∧
        ActsAs (max c.n (qubitsOf t.simplify.ops)) gs (U τ) := by
  have h := evolution_signed t f hf h0
  rwa [hy.neg_one_pow, one_smul] at h

example : ∃ f U, (⟨[⟨.Y, 0⟩, ⟨.X, 1⟩, ⟨.Y, 3⟩], 1 / 2⟩ : PTerm).getTimeEvolution = .ok f ∧
    IsEvolution (termOp ⟨[⟨.Y, 0⟩, ⟨.X, 1⟩, ⟨.Y, 3⟩], 1 / 2⟩) U ∧
    ∀ τ, ∃ gs, f ⟨0, []⟩ τ = .ok ⟨4, gs⟩ ∧ ActsAs 4 gs (U τ) := by
  have hs : (⟨[⟨.Y, 0⟩, ⟨.X, 1⟩, ⟨.Y, 3⟩], 1 / 2⟩ : PTerm).simplify = ⟨[⟨.Y, 0⟩, ⟨.X, 1⟩, ⟨.Y, 3⟩], 1 / 2⟩ :=
    simplify_of_normal _ (by simp [NormalWord])
  obtain ⟨f, hf⟩ := (C39_value_error ⟨[⟨.Y, 0⟩, ⟨.X, 1⟩, ⟨.Y, 3⟩], 1 / 2⟩).2 (by rw [hs]; simp)
  obtain ⟨U, h1, h2⟩ := C39_evolution_partial _ f hf (by rw [hs]; simp) (by rw [hs]; simp [yCount])
  refine ⟨f, U, hf, h1, fun τ => ?_⟩
  obtain ⟨gs, h3, h4⟩ := h2 ⟨0, []⟩ τ
  rw [hs] at h3 h4
  exact ⟨gs, by simpa [qubitsOf] using h3, by simpa [qubitsOf] using h4⟩

/-- C39. With an odd number of `Y` the appended gates implement `exp(-i τ H)`. -/
theorem C39_odd (t : PTerm) (f : OpsVal → ℝ → Except PyErr OpsVal) (hf : t.getTimeEvolution = .ok f)
    (hy : Odd (yCount t.simplify.ops)) :
    ∃ U, IsEvolution ((-1 : ℂ) • termOp t) U ∧
      ∀ (c : OpsVal) (τ : ℝ), ∃ gs, f c τ = .ok ⟨max c.n (qubitsOf t.simplify.ops), c.ops ++ gs⟩ ∧
        ActsAs (max c.n (qubitsOf t.simplify.ops)) gs (U τ) := by
  have h0 : t.simplify.ops ≠ [] := by intro h; rw [h] at hy; simp [yCount] at hy
  have h := evolution_signed t f hf h0
  rwa [hy.neg_one_pow] at h

/-- C39. For a multiple of the identity nothing is appended: the global phase is dropped. -/
theorem C39_constant (t : PTerm) (f : OpsVal → ℝ → Except PyErr OpsVal) (hf : t.getTimeEvolution = .ok f)
    (h0 : t.simplify.ops = []) (c : OpsVal) (τ : ℝ) :
    f c τ = .ok c ∧ IsEvolution (termOp t) (fun s => (Complex.exp (Complex.I * t.simplify.coeff * s)) • (1 : Operator)) := by
  have him : t.simplify.coeff.im = 0 := by
    by_contra h; rw [(C39_value_error t).1 h] at hf; simp at hf
  have hfe : f = fun circuit time => circuit.appendAll (evolutionGates t.simplify.ops t.simplify.coeff.re time) := by
    simp [PTerm.getTimeEvolution, him] at hf; exact hf.symm
  refine ⟨by rw [hfe, h0]; simp [evolutionGates, OpsVal.appendAll], ?_⟩
  constructor
  · simp
  · intro ψ k s
    have ht : termOp t = t.simplify.coeff • (1 : Operator) := by
      rw [← simplify_op, termOp, h0]; simp [wordOp]
    rw [ht]
    simp only [LinearMap.smul_apply, Module.End.one_apply, Pi.smul_apply, smul_eq_mul]
    have h1 : HasDerivAt (fun s : ℝ => Complex.exp (Complex.I * t.simplify.coeff * (s : ℂ)))
        (Complex.exp (Complex.I * t.simplify.coeff * s) * (Complex.I * t.simplify.coeff * 1)) s :=
      HasDerivAt.cexp ((HasDerivAt.ofReal_comp (hasDerivAt_id s)).const_mul _)
    refine (h1.mul_const (ψ k)).congr_deriv ?_
    ring

/-- C39 is false of the code: the circuit for `Y[0]` and time π/4 is not the evolution, not even up to a global
factor. -/
theorem C39_refuted : ∃ (t : PTerm) (f : OpsVal → ℝ → Except PyErr OpsVal) (τ : ℝ) (n : ℕ) (gs : List Gate),
    t.getTimeEvolution = .ok f ∧ f ⟨0, []⟩ τ = .ok ⟨n, gs⟩ ∧
    ∀ U, IsEvolution (termOp t) U → ∀ z : ℂ, ¬ ActsAs n gs (z • U τ) := by
  have hsimp : (⟨[⟨.Y, 0⟩], 1⟩ : PTerm).simplify = ⟨[⟨.Y, 0⟩], 1⟩ := simplify_of_normal _ (by simp [NormalWord])
  obtain ⟨f, hf⟩ := (C39_value_error ⟨[⟨.Y, 0⟩], 1⟩).2 (by rw [hsimp]; simp)
  obtain ⟨V, hV, h⟩ := evolution_signed ⟨[⟨.Y, 0⟩], 1⟩ f hf (by rw [hsimp]; simp)
  obtain ⟨gs, h1, h2⟩ := h ⟨0, []⟩ (Real.pi / 4)
  refine ⟨_, f, Real.pi / 4, _, gs, hf, by simpa using h1, ?_⟩
  intro U hU z hz
  rw [hsimp] at hV
  have ht : termOp ⟨[⟨.Y, 0⟩], 1⟩ = wordOp [⟨.Y, 0⟩] := by simp [termOp]
  have hn : NormalWord [⟨.Y, 0⟩] := by simp [NormalWord]
  have eU := isEvolution_unique 1 [⟨.Y, 0⟩] hn (word_sq _ hn) U (by rw [ht] at hU; simpa using hU) (Real.pi / 4)
  have eV := isEvolution_unique (-1) [⟨.Y, 0⟩] hn (word_sq _ hn) V (by
    rw [ht] at hV; simpa [yCount] using hV) (Real.pi / 4)
  have e := actsAs_unique h2 hz
  rw [eU, eV] at e
  have e0 := congrArg (fun A : Operator => A (fun i => if i = 0 then 1 else 0) 0) e
  have e1 := congrArg (fun A : Operator => A (fun i => if i = 0 then 1 else 0) 1) e
  have hY : ∀ ψ : Vec, wordOp [⟨.Y, 0⟩] ψ = app mY 0 ψ := by intro ψ; simp [wordOp, opOp, letterM, matAt_apply]
  simp [expI_apply, hY, app, mY, flipBit] at e0 e1
  subst e0
  have h2 : ((√2 : ℝ) : ℂ) ^ 2 = 2 := by
    rw [sq, ← Complex.ofReal_mul, Real.mul_self_sqrt (by norm_num)]; norm_num
  have h3 : ((√2 : ℝ) : ℂ) = 0 := by linear_combination e1 + ((√2 : ℝ) : ℂ) * Complex.I_mul_I
  rw [h3] at h2; norm_num at h2

end

end Blueqat
