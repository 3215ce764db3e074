import Verif.Props.VqeResult
import Verif.Props.PauliCircuit
import Verif.Props.PauliMatrix
import Verif.NormLemmas
import Verif.Spec.Matrix

/-!
# Property C44: energies
-/

set_option linter.unusedSimpArgs false
set_option linter.unusedVariables false

namespace Blueqat

open Spec
open scoped ComplexConjugate

noncomputable section

/-! ## The circuit that is measured -/

theorem energyBasis_eq (ops : List POp) : ∀ c, energyBasis ops c = c.appendAll (basisGates (-(Real.pi / 2)) ops) := by
  induction ops with
  | nil => intro c; rfl
  | cons o ops ih =>
    intro c
    obtain ⟨p, q⟩ := o
    cases p with
    | X =>
      simp only [energyBasis, basisGates, OpsVal.appendAll]
      cases c.append (on1 .h q) with
      | error e => rfl
      | ok c => exact ih c
    | Y =>
      simp only [energyBasis, basisGates, OpsVal.appendAll, neg_div]
      cases c.append (on1 (.rx (-(Real.pi / 2))) q) with
      | error e => rfl
      | ok c => exact ih c
    | Z => exact ih c

theorem energyBasis_ok (ops : List POp) (c : OpsVal) (h : ∀ o ∈ ops, o.n < c.n) :
    energyBasis ops c = .ok ⟨c.n, c.ops ++ basisGates (-(Real.pi / 2)) ops⟩ := by
  obtain ⟨gs, h1, h2⟩ := lit_basis (-(Real.pi / 2)) ops
  rw [energyBasis_eq, ← h1, appendAll_lit gs (fun p hp => (h2 p hp).1) c]
  congr 2
  have le : ∀ (l : List ℕ) (b : ℕ), (∀ q ∈ l, q + 1 ≤ b) → l.foldr (fun q r => max (q + 1) r) 0 ≤ b := by
    intro l b
    induction l with
    | nil => simp
    | cons a l ih => intro hl; simp at hl; simp only [List.foldr_cons]; exact max_le hl.1 (ih hl.2)
  refine max_eq_left (le _ _ ?_)
  intro q hq
  obtain ⟨p, hp, hqp⟩ := List.mem_flatMap.1 hq
  obtain ⟨o, ho, rfl⟩ := List.mem_map.1 ((h2 p hp).2 q hqp)
  exact h o ho

/-! ## Sums over outcomes -/

theorem dict_weighted {α : Type} [DecidableEq α] (f : α → ℂ) (d : PyDict α ℝ) (h : d.WF) :
    (d.map (fun p => f p.1 * (p.2 : ℂ))).sum = ∑ k ∈ (d.map Prod.fst).toFinset, f k * (((d.get k).getD 0 : ℝ) : ℂ) := by
  induction d with
  | nil => simp
  | cons p d ih =>
    obtain ⟨a, b⟩ := p
    have hn : a ∉ d.map Prod.fst ∧ (d.map Prod.fst).Nodup := by simpa [PyDict.WF] using h
    rw [List.map_cons, List.sum_cons, List.map_cons, List.toFinset_cons, Finset.sum_insert (by simpa using hn.1), ih hn.2]
    congr 1
    · simp [PyDict.get]
    · refine Finset.sum_congr rfl (fun k hk => ?_)
      have : a ≠ k := by rintro rfl; exact hn.1 (by simpa using hk)
      simp [PyDict.get, this]

open Classical in
/-- Averaging a function of the outcome over the result of `expect`. -/
theorem expect_weighted (f : List ℕ → ℂ) (v : List ℂ) (meas : List ℕ) (d : PyDict (List ℕ) ℝ) (h2 : (d.map Prod.fst).Nodup)
    (h3 : ∀ key, d.get key = if outcomeProb v meas key = 0 then none else some (outcomeProb v meas key)) :
    (d.map (fun p => f p.1 * (p.2 : ℂ))).sum =
      ∑ i ∈ Finset.range v.length, f (bitsAt meas i) * ((‖v.getD i 0‖ ^ 2 : ℝ) : ℂ) := by
  rw [dict_weighted f d h2]
  have e1 : ∀ key, (d.get key).getD 0 = outcomeProb v meas key := by
    intro key; rw [h3]; split_ifs with h <;> simp [h]
  rw [Finset.sum_congr rfl (fun key _ => by rw [e1 key])]
  have e2 : ∑ i ∈ Finset.range v.length, f (bitsAt meas i) * ((‖v.getD i 0‖ ^ 2 : ℝ) : ℂ) =
      ∑ key ∈ (Finset.range v.length).image (bitsAt meas), f key * (outcomeProb v meas key : ℂ) := by
    rw [← Finset.sum_fiberwise_of_maps_to (g := bitsAt meas) (t := (Finset.range v.length).image (bitsAt meas))
      (fun i hi => Finset.mem_image_of_mem _ hi)]
    refine Finset.sum_congr rfl (fun key _ => ?_)
    rw [outcomeProb, Complex.ofReal_sum, Finset.mul_sum]
    refine Finset.sum_congr rfl (fun i hi => ?_)
    rw [(Finset.mem_filter.1 hi).2]
  rw [e2]
  refine Finset.sum_subset_zero_on_sdiff ?_ ?_ (fun _ _ => rfl)
  · intro key hkey
    by_contra hne
    have h0 : outcomeProb v meas key = 0 := by
      refine Finset.sum_eq_zero (fun i hi => ?_)
      have := Finset.mem_filter.1 hi
      exact absurd (Finset.mem_image.2 ⟨i, this.1, this.2⟩) hne
    have := h3 key
    rw [if_pos h0, PyDict.get_eq_none] at this
    exact this (by simpa using hkey)
  · intro key hkey
    have hnot : key ∉ d.map Prod.fst := by
      have := (Finset.mem_sdiff.1 hkey).2
      simpa using this
    have := h3 key
    rw [PyDict.get_eq_none.2 hnot] at this
    by_contra h
    rw [if_neg] at this
    · cases this
    · intro h0; rw [h0] at h; simp at h

theorem energySum_eq (coeff : ℂ) (d : PyDict (List ℕ) ℝ) : ∀ val,
    energySum coeff d val = val + coeff * (d.map (fun p => (-1 : ℂ) ^ p.1.sum * (p.2 : ℂ))).sum := by
  induction d with
  | nil => intro val; simp [energySum]
  | cons p d ih =>
    obtain ⟨k, x⟩ := p
    intro val
    simp only [energySum, List.map_cons, List.sum_cons]
    rcases Nat.even_or_odd k.sum with h | h
    · rw [if_neg (by rw [Nat.even_iff.1 h]; simp), ih, h.neg_one_pow]; ring
    · rw [if_pos (by rw [Nat.odd_iff.1 h]; simp), ih, h.neg_one_pow]; ring

/-! ## Operators -/

theorem zWord_apply (ops : List POp) (φ : Vec) (i : ℕ) :
    zWord ops φ i = (-1 : ℂ) ^ (bitsAt (ops.map POp.n) i).sum * φ i := by
  induction ops with
  | nil => simp [zWord, bitsAt]
  | cons o ops ih =>
    rw [zWord_cons, Module.End.mul_apply, matAt_apply]
    simp only [app, mZ, ih, bitsAt, List.map_cons, List.sum_cons, pow_add]
    by_cases h : i.testBit o.n <;> simp [h, bitsAt]

theorem isom_basisOp {n : ℕ} (θ : ℝ) (ops : List POp) (h : ∀ o ∈ ops, o.n < n) : Isom n (basisOp θ ops) := by
  induction ops with
  | nil => intro ψ χ; rfl
  | cons o ops ih =>
    have hu : (basisM θ o.p).Unit := by
      cases o.p
      · exact unit_H
      · exact unit_RX θ
      · exact unit_one
    exact (ih (fun x hx => h x (by simp [hx]))).comp (isom_app (h o (by simp)) hu)

/-- The measured circuit gives the expectation value of the word, with the sign of its `Y`s. -/
theorem inner_basis {n : ℕ} (ops : List POp) (hn : ops.Pairwise (fun a b => a.n ≠ b.n)) (h : ∀ o ∈ ops, o.n < n) (ψ : Vec) :
    inner n (basisOp (-(Real.pi / 2)) ops ψ) (zWord ops (basisOp (-(Real.pi / 2)) ops ψ)) =
      (-1) ^ yCount ops * expectation n (wordOp ops) ψ := by
  rw [← isom_basisOp (Real.pi / 2) ops h]
  have e1 : basisOp (Real.pi / 2) ops (basisOp (-(Real.pi / 2)) ops ψ) = ψ := by
    have := congrArg (fun A : Operator => A ψ) (basisOp_inv ops hn)
    simpa using this
  have e2 : basisOp (Real.pi / 2) ops (zWord ops (basisOp (-(Real.pi / 2)) ops ψ)) =
      ((-1 : ℂ) ^ yCount ops) • wordOp ops ψ := by
    have := congrArg (fun A : Operator => A ψ) (basisOp_zWord ops hn)
    simpa [mul_assoc] using this
  rw [e1, e2, inner, expectation, Finset.mul_sum]
  refine Finset.sum_congr rfl (fun i _ => ?_)
  simp only [Pi.smul_apply, smul_eq_mul]; ring

theorem inner_phase (n : ℕ) (z : ℂ) (hz : ‖z‖ = 1) (φ : Vec) (ops : List POp) :
    ∑ i ∈ Finset.range (2 ^ n), (-1 : ℂ) ^ (bitsAt (ops.map POp.n) i).sum * ((‖z * φ i‖ ^ 2 : ℝ) : ℂ) =
      inner n φ (zWord ops φ) := by
  rw [inner]
  refine Finset.sum_congr rfl (fun i _ => ?_)
  rw [zWord_apply, norm_mul, hz, one_mul]
  have : ((‖φ i‖ ^ 2 : ℝ) : ℂ) = conj (φ i) * φ i := by
    rw [← Complex.normSq_eq_norm_sq, Complex.normSq_eq_conj_mul_self]
  rw [this]; ring

/-! ## One term -/

theorem energy_term (c : OpsVal) (es : List Elem) (hd : GatesDenote c.n c.ops es)
    (hv : ∀ e ∈ es, e.Valid c.n ∧ e.IsUnitary) (t : PTerm) (hn : t.ops.Pairwise (fun a b => a.n ≠ b.n))
    (hb : ∀ o ∈ t.ops, o.n < c.n) (val : ℂ) (rnd : ℕ → ℝ) : ∃ c' d, energyBasis t.ops c = .ok c' ∧
      (nonSamplingSampler c' (t.ops.map (fun o => (o.n : ℤ))) rnd).2 = .ok (d, rnd) ∧
      energySum t.coeff d val = val + t.coeff * ((-1) ^ yCount t.ops *
        expectation c.n (wordOp t.ops) (unitaries phDoc es (fun j => if j = 0 then 1 else 0))) := by
  obtain ⟨eb, hb1, hb2, hb3⟩ := actsAs_basis (-(Real.pi / 2)) t.ops hb
  set ψ := unitaries phDoc es (fun j => if j = 0 then 1 else 0) with hψ
  have hd' : GatesDenote c.n (c.ops ++ basisGates (-(Real.pi / 2)) t.ops) (es ++ eb) := gatesDenote_append hd hb1
  obtain ⟨z, hz, hrun, -⟩ := run_unitary ⟨c.n, c.ops ++ basisGates (-(Real.pi / 2)) t.ops⟩ (es ++ eb) hd' (by
    intro e he
    rcases List.mem_append.1 he with h | h
    · exact hv e h
    · exact hb2 e h) rnd
  have hψ' : unitaries phDoc (es ++ eb) (fun j => if j = 0 then 1 else 0) = basisOp (-(Real.pi / 2)) t.ops ψ := by
    rw [unitaries_append, hb3]
  rw [hψ'] at hrun
  obtain ⟨d, h1, h2, h3, -⟩ := C43_expect (amplitudes c.n (fun i => z * basisOp (-(Real.pi / 2)) t.ops ψ i)) (t.ops.map POp.n)
  refine ⟨_, d, energyBasis_ok t.ops c hb, ?_, ?_⟩
  · simp only [List.map_map, Function.comp_def] at h1
    simp only [nonSamplingSampler, hrun, bind, Except.bind, h1]
  · rw [energySum_eq, expect_weighted (fun k => (-1 : ℂ) ^ k.sum) _ _ d h2 h3]
    have hlen : (amplitudes c.n (fun i => z * basisOp (-(Real.pi / 2)) t.ops ψ i)).length = 2 ^ c.n := by simp [amplitudes]
    rw [hlen, ← inner_basis t.ops hn hb ψ, ← inner_phase c.n z hz]
    congr 2
    refine Finset.sum_congr rfl (fun i hi => ?_)
    have : i < 2 ^ c.n := by simpa using hi
    simp [amplitudes, this]

theorem energyLoop_ok (c : OpsVal) (es : List Elem) (hd : GatesDenote c.n c.ops es)
    (hv : ∀ e ∈ es, e.Valid c.n ∧ e.IsUnitary) (rnd : ℕ → ℝ) : ∀ (ts : List PTerm) (val : ℂ),
    (∀ t ∈ ts, t.ops.Pairwise (fun a b => a.n ≠ b.n)) → (∀ t ∈ ts, ∀ o ∈ t.ops, o.n < c.n) →
    energyLoop nonSamplingSampler c ts val rnd = .ok (val + (ts.map (fun t => t.coeff * ((-1) ^ yCount t.ops *
      expectation c.n (wordOp t.ops) (unitaries phDoc es (fun j => if j = 0 then 1 else 0))))).sum, rnd) := by
  intro ts
  induction ts with
  | nil => intro val _ _; simp [energyLoop]
  | cons t ts ih =>
    intro val hn hb
    obtain ⟨c', d, h1, h2, h3⟩ := energy_term c es hd hv t (hn t (by simp)) (hb t (by simp)) val rnd
    simp only [energyLoop, h1, bind, Except.bind, h2, h3]
    rw [ih _ (fun t ht => hn t (by simp [ht])) (fun t ht => hb t (by simp [ht]))]
    simp only [List.map_cons, List.sum_cons, add_assoc]

theorem expectation_sum (n : ℕ) (l : List Operator) (ψ : Vec) :
    expectation n l.sum ψ = (l.map (fun A => expectation n A ψ)).sum := by
  induction l with
  | nil => simp [expectation]
  | cons A l ih =>
    rw [List.sum_cons, List.map_cons, List.sum_cons, ← ih]
    simp only [expectation, LinearMap.add_apply, Pi.add_apply, mul_add, Finset.sum_add_distrib]

theorem expectation_smul (n : ℕ) (z : ℂ) (A : Operator) (ψ : Vec) :
    expectation n (z • A) ψ = z * expectation n A ψ := by
  simp only [expectation, LinearMap.smul_apply, Pi.smul_apply, smul_eq_mul, Finset.mul_sum]
  exact Finset.sum_congr rfl (fun i _ => by ring)

/-! ## C44 -/

/-- What `get_energy` with the exact sampler computes: the expectation value of the Hamiltonian in which every term is
multiplied by `(-1)^(number of Y)`. Every circuit of unitary gates with valid targets, every Hamiltonian whose terms
mention each qubit at most once, on the qubits of the circuit. -/
theorem C44_energy_signed (H : PExpr) (hn : ∀ t ∈ H.terms, t.ops.Pairwise (fun a b => a.n ≠ b.n)) (c : OpsVal)
    (hb : ∀ t ∈ H.terms, ∀ o ∈ t.ops, o.n < c.n) (es : List Elem) (hd : GatesDenote c.n c.ops es)
    (hv : ∀ e ∈ es, e.Valid c.n ∧ e.IsUnitary) (rnd : ℕ → ℝ) :
    getEnergy H c nonSamplingSampler rnd = .ok ((expectation c.n
      (H.terms.map (fun t => ((-1 : ℂ) ^ yCount t.ops) • termOp t)).sum
      (unitaries phDoc es (fun j => if j = 0 then 1 else 0))).re, rnd) := by
  simp only [getEnergy, energyLoop_ok c es hd hv rnd H.terms 0 hn hb, bind, Except.bind, zero_add]
  rw [expectation_sum, List.map_map]
  have e : ∀ l l' : List ℂ, l = l' → (Except.ok (l.sum.re, rnd) : Except PyErr (ℝ × (ℕ → ℝ))) = .ok (l'.sum.re, rnd) := by
    rintro l _ rfl; rfl
  refine e _ _ (List.map_congr_left (fun t _ => ?_))
  simp only [Function.comp_apply, expectation_smul, termOp]; ring

/-- C44, partial: with the exact sampler `get_energy` is the real part of `⟨ψ|H|ψ⟩`, `ψ` being the state the circuit
prepares, for every Hamiltonian whose terms have an even number of `Y` and mention each qubit at most once. Missing: an
odd number of `Y`, for which the term enters with the wrong sign (`C44_energy_signed`, `C44_refuted`). -/
theorem C44_energy_partial (H : PExpr) (hn : ∀ t ∈ H.terms, t.ops.Pairwise (fun a b => a.n ≠ b.n)) (c : OpsVal)
    (hb : ∀ t ∈ H.terms, ∀ o ∈ t.ops, o.n < c.n) (hy : ∀ t ∈ H.terms, Even (yCount t.ops)) (es : List Elem)
    (hd : GatesDenote c.n c.ops es) (hv : ∀ e ∈ es, e.Valid c.n ∧ e.IsUnitary) (rnd : ℕ → ℝ) :
    getEnergy H c nonSamplingSampler rnd =
      .ok ((expectation c.n (exprOp H) (unitaries phDoc es (fun j => if j = 0 then 1 else 0))).re, rnd) := by
  rw [C44_energy_signed H hn c hb es hd hv rnd, exprOp]
  have e : H.terms.map (fun t => ((-1 : ℂ) ^ yCount t.ops) • termOp t) = H.terms.map termOp :=
    List.map_congr_left (fun t ht => by rw [(hy t ht).neg_one_pow, one_smul])
  rw [e]

/-- The energy of the Bell state for `X[0]*X[1] + 2*Z[0]*Z[1] + Y[0]*Y[1]`. -/
theorem bell_energy (rnd : ℕ → ℝ) : getEnergy ⟨[⟨[⟨.X, 0⟩, ⟨.X, 1⟩], 1⟩, ⟨[⟨.Z, 0⟩, ⟨.Z, 1⟩], 2⟩, ⟨[⟨.Y, 0⟩, ⟨.Y, 1⟩], 1⟩]⟩
    ⟨2, [on1 .h 0, on2 .cx 0 1]⟩ nonSamplingSampler rnd = .ok (2, rnd) := by
  have hd : GatesDenote 2 [on1 .h 0, on2 .cx 0 1] [.one .h 0, .two .cx 0 1] :=
    ⟨_, _, gateDenotes_on1 2 .h 0, ⟨_, _, gateDenotes_on2 2 .cx 0 1 (by norm_num), rfl, rfl⟩, rfl⟩
  rw [C44_energy_partial _ (by simp) _ (by simp) (by simp [yCount]) _ hd (by simp [Elem.Valid, Elem.IsUnitary]) rnd]
  have h2 : ((√2 : ℝ) : ℂ) * ((√2 : ℝ) : ℂ) = 2 := sqrt2_sq
  have hi : (((√2 : ℝ) : ℂ))⁻¹ * ((√2 : ℝ) : ℂ)⁻¹ = 1 / 2 := by rw [← mul_inv, h2]; norm_num
  have e : expectation 2 (exprOp ⟨[⟨[⟨.X, 0⟩, ⟨.X, 1⟩], 1⟩, ⟨[⟨.Z, 0⟩, ⟨.Z, 1⟩], 2⟩, ⟨[⟨.Y, 0⟩, ⟨.Y, 1⟩], 1⟩]⟩)
      (unitaries phDoc [.one .h 0, .two .cx 0 1] (fun j => if j = 0 then 1 else 0)) = 2 := by
    simp [expectation, exprOp, termOp, wordOp, opOp, letterM, unitaries, Elem.unitary, matrix1, op2, ctrl, matAt_apply, app,
      mH, mX, mY, mZ, flipBit, Finset.sum_range_succ, Nat.testBit]
    ring_nf
    rw [Complex.I_sq, sq, hi]; norm_num
  rw [e]; rfl

/-- C44 is false in general: for `H = Y[0]` and the circuit that prepares the eigenstate of `Y` with eigenvalue `1`, the
expectation value is `1` and `get_energy` gives `-1`. -/
theorem C44_refuted : ∃ (H : PExpr) (c : OpsVal) (es : List Elem), H.simplify = H ∧ GatesDenote c.n c.ops es ∧
    (∀ e ∈ es, e.Valid c.n ∧ e.IsUnitary) ∧ (∀ t ∈ H.terms, ∀ o ∈ t.ops, o.n < c.n) ∧
    expectation c.n (exprOp H) (unitaries phDoc es (fun j => if j = 0 then 1 else 0)) = 1 ∧
    ∀ rnd, getEnergy H c nonSamplingSampler rnd = .ok (-1, rnd) := by
  have hd : GatesDenote 1 [on1 (.rx (-(Real.pi / 2))) 0] [.one (.rx (-(Real.pi / 2))) 0] :=
    ⟨_, _, gateDenotes_on1 1 _ 0, rfl, rfl⟩
  have hv : ∀ e ∈ ([.one (.rx (-(Real.pi / 2))) 0] : List Elem), e.Valid 1 ∧ e.IsUnitary := by
    simp [Elem.Valid, Elem.IsUnitary]
  have he : expectation 1 (wordOp [⟨.Y, 0⟩]) (unitaries phDoc [.one (.rx (-(Real.pi / 2))) 0] (fun j => if j = 0 then 1 else 0)) = 1 := by
    have h2 : ((√2 : ℝ) : ℂ) * ((√2 : ℝ) : ℂ) = 2 := sqrt2_sq
    have h3 : Real.cos (-(Real.pi / 2) / 2) = √2 / 2 := by
      rw [show -(Real.pi / 2) / 2 = -(Real.pi / 4) by ring, Real.cos_neg, Real.cos_pi_div_four]
    have h4 : Real.sin (-(Real.pi / 2) / 2) = -(√2 / 2) := by
      rw [show -(Real.pi / 2) / 2 = -(Real.pi / 4) by ring, Real.sin_neg, Real.sin_pi_div_four]
    simp [expectation, wordOp, opOp, letterM, unitaries, Elem.unitary, matrix1, matAt_apply, app, mRX, mY, flipBit,
      Finset.sum_range_succ, Nat.testBit, h3, h4, ← Complex.ofReal_cos, ← Complex.ofReal_sin]
    have hc : conj (2 : ℂ) = 2 := Complex.conj_ofReal 2
    rw [hc]
    linear_combination (-(1 : ℂ) / 2 * ((√2 : ℝ) : ℂ) * ((√2 : ℝ) : ℂ)) * Complex.I_mul_I + (1 / 2 : ℂ) * h2
  have hs : (⟨[⟨[⟨.Y, 0⟩], 1⟩]⟩ : PExpr).simplify = ⟨[⟨[⟨.Y, 0⟩], 1⟩]⟩ := by
    have h1 : (⟨[⟨.Y, 0⟩], 1⟩ : PTerm).simplify = ⟨[⟨.Y, 0⟩], 1⟩ := simplify_of_normal _ (by simp [NormalWord])
    simp [PExpr.simplify, PExpr.simplifyDict, h1, dictAdd, PyDict.get, PyDict.set, sortByRepr, PExpr.fromTermsIter]
  refine ⟨⟨[⟨[⟨.Y, 0⟩], 1⟩]⟩, ⟨1, [on1 (.rx (-(Real.pi / 2))) 0]⟩, _, hs, hd, hv, by simp, ?_, fun rnd => ?_⟩
  · simpa [exprOp, termOp] using he
  · rw [C44_energy_signed _ (by simp) _ (by simp) _ hd hv rnd]
    have : ([⟨[⟨.Y, 0⟩], 1⟩].map (fun t : PTerm => ((-1 : ℂ) ^ yCount t.ops) • termOp t)).sum =
        (-1 : ℂ) • wordOp [⟨.Y, 0⟩] := by simp [yCount, termOp]
    simp only [this, expectation_smul, he]; simp

/-! ### The sparse energy -/

/-- An operator on the first `n` qubits is determined by its matrix. -/
theorem opRows_apply (n : ℕ) (e : PExpr) (h : ∀ t ∈ e.terms, ∀ o ∈ t.ops, o.n < n) (ψ : Vec) (i : ℕ) (hi : i < 2 ^ n) :
    ∑ j ∈ Finset.range (2 ^ n), exprOp e (basis j) i * ψ j = exprOp e ψ i := by
  rw [← exprSimplify_op e]
  have hq := exprSimplify_qubits e n h
  have hw := exprSimplify_normal e
  rw [PExpr.words] at hw
  rw [exprOp]
  generalize e.simplify.terms = ts at hq hw
  induction ts with
  | nil => simp
  | cons t ts ih =>
    have ih := ih (fun t ht => hq t (by simp [ht])) (fun w hw' => hw w (by simp only [List.map_cons, List.mem_cons]; exact Or.inr hw'))
    have hw' : NormalWord t.ops := hw t.ops (by simp)
    have hx : xorBits t.ops < 2 ^ n := xorBits_lt t.ops hw' n (hq t (by simp))
    simp only [List.map_cons, List.sum_cons, LinearMap.add_apply, Pi.add_apply, add_mul, Finset.sum_add_distrib, ih]
    congr 1
    simp only [termOp, LinearMap.smul_apply, Pi.smul_apply, smul_eq_mul, wordOp_apply t.ops hw']
    rw [Finset.sum_eq_single (i ^^^ xorBits t.ops)]
    · simp [basis]; ring
    · intro j _ hj; simp [basis, Ne.symm hj]
    · intro h'; exact absurd (Finset.mem_range.2 (Nat.xor_lt_two_pow hi hx)) h'

theorem energy_zipWith_range {α β : Type} (g : α → β → ℂ) (a : ℕ → α) (b : ℕ → β) (m : ℕ) :
    (List.zipWith g ((List.range m).map a) ((List.range m).map b)).sum = ∑ i ∈ Finset.range m, g (a i) (b i) := by
  rw [List.zipWith_map, List.zipWith_self]
  induction m with
  | zero => simp
  | succ m ih => rw [List.range_succ, List.map_append, List.sum_append, ih, Finset.sum_range_succ]; simp

theorem vdot_matrix (n : ℕ) (e : PExpr) (h : ∀ t ∈ e.terms, ∀ o ∈ t.ops, o.n < n) (f : SparseArg) (z : ℂ) (hz : ‖z‖ = 1)
    (ψ : Vec) : sparseExpectation ⟨f, opRows n (exprOp e)⟩ (amplitudes n (fun i => z * ψ i)) =
      .ok (expectation n (exprOp e) ψ).re := by
  have hlen : (amplitudes n (fun i => z * ψ i)).length = 2 ^ n := by simp [amplitudes]
  have h1 : matDot ⟨f, opRows n (exprOp e)⟩ (amplitudes n (fun i => z * ψ i)) =
      .ok ((List.range (2 ^ n)).map (fun i => z * exprOp e ψ i)) := by
    rw [matDot, if_pos (by intro r hr; obtain ⟨i, -, rfl⟩ := List.mem_map.1 hr; simp [amplitudes])]
    congr 1
    rw [opRows, List.map_map]
    refine List.map_congr_left (fun i hi => ?_)
    rw [Function.comp_apply, amplitudes, energy_zipWith_range, ← opRows_apply n e h ψ i (by simpa using hi), Finset.mul_sum]
    exact Finset.sum_congr rfl (fun j _ => by ring)
  simp only [sparseExpectation, h1, bind, Except.bind, vdot]
  rw [if_pos (by simp [amplitudes]), amplitudes, energy_zipWith_range]
  simp only [expectation]
  congr 2
  refine Finset.sum_congr rfl (fun i _ => ?_)
  have hzz : conj z * z = 1 := by
    rw [← Complex.normSq_eq_conj_mul_self, Complex.normSq_eq_norm_sq, hz]; simp
  rw [map_mul]
  linear_combination (conj (ψ i) * exprOp e ψ i) * hzz

/-- C44: `get_energy_sparse` is the real part of `⟨ψ|H|ψ⟩` if the circuit has exactly the qubits of the Hamiltonian,
whatever the terms; otherwise numpy raises a ValueError. -/
theorem C44_sparse (jv : ℕ → ℂ) (ji : ℕ → ℕ) (H : PExpr) (hz : H.nQubits = 0 ∨ exprOp H ≠ 0) (c : OpsVal) (es : List Elem)
    (hd : GatesDenote c.n c.ops es) (hv : ∀ e ∈ es, e.Valid c.n ∧ e.IsUnitary) (rnd : ℕ → ℝ) : ∃ m,
    makeSparse jv ji H = .ok m ∧
    (c.n = H.nQubits → getEnergySparse m c rnd =
      .ok ((expectation c.n (exprOp H) (unitaries phDoc es (fun j => if j = 0 then 1 else 0))).re, rnd)) ∧
    (c.n ≠ H.nQubits → getEnergySparse m c rnd = .error .valueError) := by
  obtain ⟨z, hz1, -, hrun⟩ := run_unitary c es hd hv rnd
  refine ⟨⟨.csc, opRows H.nQubits (exprOp H)⟩, ?_, ?_, ?_⟩
  · rw [makeSparse, exprToMatrix_default, exprToMatrix_ok jv ji H _ le_rfl hz .csc (by simp)]
  · intro hn
    simp only [getEnergySparse, hrun, bind, Except.bind]
    rw [hn, vdot_matrix _ H (expr_nQubits H) _ z hz1]
  · intro hn
    simp only [getEnergySparse, hrun, bind, Except.bind, sparseExpectation, matDot]
    rw [if_neg]
    intro h
    have h0 := h ((List.range (2 ^ H.nQubits)).map fun j => exprOp H (basis j) 0)
      (List.mem_map.2 ⟨0, by simp, rfl⟩)
    simp only [List.length_map, List.length_range, amplitudes] at h0
    exact hn (Nat.pow_right_injective le_rfl h0).symm

/-- C44, partial: for a simplified Hamiltonian whose terms have an even number of `Y` the energies computed by the two
ways agree and are the expectation value. Missing: an odd number of `Y`, and circuits with more qubits than the
Hamiltonian, for which `get_energy_sparse` raises (`C44_sparse`). -/
theorem C44_agree_partial (jv : ℕ → ℂ) (ji : ℕ → ℕ) (e : PExpr) (hy : ∀ t ∈ e.simplify.terms, Even (yCount t.ops))
    (c : OpsVal) (hn : c.n = e.simplify.nQubits) (es : List Elem)
    (hd : GatesDenote c.n c.ops es) (hv : ∀ e ∈ es, e.Valid c.n ∧ e.IsUnitary) (rnd : ℕ → ℝ) : ∃ m x,
    makeSparse jv ji e.simplify = .ok m ∧ getEnergySparse m c rnd = .ok (x, rnd) ∧
    getEnergy e.simplify c nonSamplingSampler rnd = .ok (x, rnd) ∧
    x = (expectation c.n (exprOp e) (unitaries phDoc es (fun j => if j = 0 then 1 else 0))).re := by
  have hz : e.simplify.nQubits = 0 ∨ exprOp e.simplify ≠ 0 := by
    by_cases h : exprOp e.simplify = 0
    · left
      have h0 : exprOp e = exprOp ⟨[]⟩ := by rw [← exprSimplify_op, h]; simp [exprOp]
      rw [simplify_canonical h0]
      have : (⟨[]⟩ : PExpr).simplify.terms = [] := by
        rw [simplify_terms]; simp [simpWords, PExpr.simplifyDict, sortByRepr]
      simp [PExpr.nQubits, this]
    · exact Or.inr h
  obtain ⟨m, h1, h2, -⟩ := C44_sparse jv ji e.simplify hz c es hd hv rnd
  refine ⟨m, _, h1, h2 hn, ?_, by rw [exprSimplify_op]⟩
  refine C44_energy_partial _ ?_ c ?_ hy es hd hv rnd
  · intro t ht
    have := exprSimplify_normal e t.ops (List.mem_map.2 ⟨t, ht, rfl⟩)
    exact this.imp (fun h => Nat.ne_of_lt h)
  · rw [hn]; exact expr_nQubits _


/-- The Bell state and `X[0]*X[1] + 3*Z[0]*Z[1]`: the hypotheses of the theorems hold. -/
example : ∃ (e : PExpr) (c : OpsVal) (es : List Elem), e.simplify.terms.length = 2 ∧ c.n = e.simplify.nQubits ∧
    (∀ t ∈ e.simplify.terms, Even (yCount t.ops)) ∧ GatesDenote c.n c.ops es ∧ ∀ e ∈ es, e.Valid c.n ∧ e.IsUnitary := by
  have h1 : (⟨[⟨.X, 0⟩, ⟨.X, 1⟩], 1⟩ : PTerm).simplify = ⟨[⟨.X, 0⟩, ⟨.X, 1⟩], 1⟩ := simplify_of_normal _ (by simp [NormalWord])
  have h2 : (⟨[⟨.Z, 0⟩, ⟨.Z, 1⟩], 3⟩ : PTerm).simplify = ⟨[⟨.Z, 0⟩, ⟨.Z, 1⟩], 3⟩ :=
    simplify_of_normal _ (by simp [NormalWord])
  have hp : (⟨[⟨[⟨.X, 0⟩, ⟨.X, 1⟩], 1⟩, ⟨[⟨.Z, 0⟩, ⟨.Z, 1⟩], 3⟩]⟩ : PExpr).simplify.terms.Perm
      [⟨[⟨.X, 0⟩, ⟨.X, 1⟩], 1⟩, ⟨[⟨.Z, 0⟩, ⟨.Z, 1⟩], 3⟩] := by
    rw [simplify_terms, simpWords]
    have hd : (⟨[⟨[⟨.X, 0⟩, ⟨.X, 1⟩], 1⟩, ⟨[⟨.Z, 0⟩, ⟨.Z, 1⟩], 3⟩]⟩ : PExpr).simplifyDict =
        [([⟨.X, 0⟩, ⟨.X, 1⟩], 1), ([⟨.Z, 0⟩, ⟨.Z, 1⟩], 3)] := by
      simp [PExpr.simplifyDict, h1, h2, dictAdd, PyDict.get, PyDict.set]
    rw [hd]
    refine (((sortByRepr_perm _).filter _).map _).trans ?_
    simp [coef, PyDict.get]
  refine ⟨_, ⟨2, [on1 .h 0, on2 .cx 0 1]⟩, [.one .h 0, .two .cx 0 1], hp.length_eq, ?_, ?_, ?_, ?_⟩
  · have rc : RightCommutative (fun (m : ℕ) (t : PTerm) => max m t.nQubits) := ⟨fun a b c => by
      simp only [max_assoc, max_comm b.nQubits]⟩
    rw [PExpr.nQubits, (hp.filter _).foldl_eq]
    simp [PTerm.nQubits]
  · intro t ht
    have := hp.mem_iff.1 ht
    simp at this
    rcases this with rfl | rfl <;> simp [yCount]
  · exact ⟨_, _, gateDenotes_on1 2 .h 0, ⟨_, _, gateDenotes_on2 2 .cx 0 1 (by norm_num), rfl, rfl⟩, rfl⟩
  · simp [Elem.Valid, Elem.IsUnitary]

end

end Blueqat
