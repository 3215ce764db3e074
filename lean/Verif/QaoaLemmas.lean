import Verif.Qaoa
import Verif.Spec.Qaoa
import Verif.Props.PauliCircuit
import Verif.Props.Circuit

/-!
# Lemmas for QAOA circuits
-/

set_option linter.unusedSimpArgs false
set_option linter.unusedVariables false

namespace Blueqat

open Spec

noncomputable section

/-! ## Products of evolutions -/

theorem inOrder_append (l m : List Operator) : inOrder (l ++ m) = inOrder m * inOrder l := by
  induction l with
  | nil => simp [inOrder]
  | cons A l ih => simp only [List.cons_append, inOrder, ih, mul_assoc]

theorem commute_inOrder {P : Operator} (l : List Operator) (h : ∀ A ∈ l, Commute P A) : Commute P (inOrder l) := by
  induction l with
  | nil => exact Commute.one_right P
  | cons A l ih => exact (ih (fun B hB => h B (by simp [hB]))).mul_right (h A (by simp))

theorem commute_expI {P Q : Operator} (h : Commute P Q) (θ : ℝ) : Commute P (expI θ Q) :=
  ((Commute.one_right P).smul_right _).add_right (h.smul_right _)

/-- The product of the evolutions of commuting operators with square 1 is the evolution of their sum. -/
theorem isEvolution_inOrder (l : List (ℝ × Operator)) (hsq : ∀ p ∈ l, p.2 * p.2 = 1)
    (hc : ∀ p ∈ l, ∀ q ∈ l, Commute p.2 q.2) :
    IsEvolution (l.map (fun p => (p.1 : ℂ) • p.2)).sum (fun t => inOrder (l.map (fun p => expI (p.1 * t) p.2))) := by
  induction l with
  | nil =>
    constructor
    · rfl
    · intro ψ k t
      simp only [List.map_nil, List.sum_nil, inOrder, Module.End.one_apply, LinearMap.zero_apply, Pi.zero_apply, mul_zero]
      exact hasDerivAt_const t (ψ k)
  | cons p l ih =>
    obtain ⟨c, P⟩ := p
    have ih := ih (fun q hq => hsq q (by simp [hq])) (fun q hq r hr => hc q (by simp [hq]) r (by simp [hr]))
    set Bop := (l.map (fun p => (p.1 : ℂ) • p.2)).sum with hB
    set F : ℝ → Operator := fun t => inOrder (l.map (fun p => expI (p.1 * t) p.2)) with hF
    have hP : P * P = 1 := hsq (c, P) (by simp)
    have hPF : ∀ t, Commute P (F t) := by
      intro t
      refine commute_inOrder _ (fun A hA => ?_)
      obtain ⟨q, hq, rfl⟩ := List.mem_map.1 hA
      exact commute_expI (hc (c, P) (by simp) q (by simp [hq])) _
    have hPFa : ∀ t χ, P (F t χ) = F t (P χ) := by
      intro t χ
      have := congrArg (fun A : Operator => A χ) (hPF t).eq
      simpa using this
    have hPP : ∀ χ, P (P χ) = χ := by
      intro χ
      have := congrArg (fun A : Operator => A χ) hP
      simpa using this
    constructor
    · show F 0 * expI (c * 0) P = 1
      rw [ih.start]; simp [expI]
    · intro ψ k t
      have hfun : ∀ s, (F s * expI (c * s) P) ψ = (Real.cos (c * s) : ℂ) • F s ψ + (Complex.I * Real.sin (c * s)) • F s (P ψ) := by
        intro s
        simp only [Module.End.mul_apply, expI, LinearMap.add_apply, LinearMap.smul_apply, Module.End.one_apply, map_add, map_smul]
      show HasDerivAt (fun s => (F s * expI (c * s) P) ψ k) (Complex.I * (((c : ℂ) • P + Bop) ((F t * expI (c * t) P) ψ)) k) t
      have e1 : (fun s => (F s * expI (c * s) P) ψ k) =
          fun s => (Real.cos (c * s) : ℂ) * F s ψ k + Complex.I * Real.sin (c * s) * F s (P ψ) k := by
        funext s; rw [hfun]; rfl
      rw [e1, hfun]
      have d1 := ih.deriv ψ k t
      have d2 := ih.deriv (P ψ) k t
      have hl : HasDerivAt (fun s : ℝ => c * s) c t := by simpa using (hasDerivAt_id t).const_mul c
      have dc : HasDerivAt (fun s : ℝ => ((Real.cos (c * s) : ℝ) : ℂ)) (((-Real.sin (c * t) * c : ℝ)) : ℂ) t :=
        HasDerivAt.ofReal_comp hl.cos
      have ds : HasDerivAt (fun s : ℝ => ((Real.sin (c * s) : ℝ) : ℂ)) (((Real.cos (c * t) * c : ℝ)) : ℂ) t :=
        HasDerivAt.ofReal_comp hl.sin
      refine ((dc.mul d1).add ((ds.const_mul Complex.I).mul d2)).congr_deriv ?_
      simp only [LinearMap.add_apply, LinearMap.smul_apply, map_add, map_smul, Pi.add_apply, Pi.smul_apply, smul_eq_mul,
        hPFa, hPP, Complex.ofReal_mul, Complex.ofReal_neg]
      linear_combination (-(Real.sin (c * t) * c * F t ψ k) : ℂ) * Complex.I_sq

theorem isProductEvolution_expI (l : List (ℝ × Operator)) (hsq : ∀ p ∈ l, p.2 * p.2 = 1) :
    IsProductEvolution (l.map (fun p => (p.1 : ℂ) • p.2)) (fun t => inOrder (l.map (fun p => expI (p.1 * t) p.2))) := by
  refine ⟨l.map (fun p t => expI (p.1 * t) p.2), ?_, fun t => by rw [List.map_map]; rfl⟩
  induction l with
  | nil => exact List.Forall₂.nil
  | cons p l ih =>
    exact List.Forall₂.cons (isEvolution_expI p.1 p.2 (hsq p (by simp))) (ih (fun q hq => hsq q (by simp [hq])))

/-! ## Acting up to a phase -/

/-- The gates act as the operator up to a factor of modulus 1. -/
def ActsUpTo (n : ℕ) (gs : List Gate) (A : Operator) : Prop := ∃ z : ℂ, ‖z‖ = 1 ∧ ActsAs n gs (z • A)

theorem ActsUpTo.append {n : ℕ} {gs hs : List Gate} {A D : Operator} (h1 : ActsUpTo n gs A) (h2 : ActsUpTo n hs D) :
    ActsUpTo n (gs ++ hs) (D * A) := by
  obtain ⟨y, hy, a⟩ := h1
  obtain ⟨z, hz, b⟩ := h2
  refine ⟨z * y, by rw [norm_mul, hy, hz, one_mul], ?_⟩
  have := actsAs_append a b
  rwa [smul_mul_smul_comm] at this

theorem ActsUpTo.nil (n : ℕ) : ActsUpTo n [] 1 := ⟨1, by simp, by simpa using actsAs_nil n⟩

theorem ActsUpTo.flatMap {α : Type} {n : ℕ} (l : List α) (f : α → List Gate) (A : α → Operator)
    (h : ∀ a ∈ l, ActsUpTo n (f a) (A a)) : ActsUpTo n (l.flatMap f) (inOrder (l.map A)) := by
  induction l with
  | nil => exact .nil n
  | cons a l ih =>
    simp only [List.flatMap_cons, List.map_cons, inOrder]
    exact (h a (by simp)).append (ih (fun b hb => h b (by simp [hb])))

/-- The gates of one term: the evolution with the sign of its `Y`s, up to a phase if there are no operators at all. -/
theorem evolution_upTo {n : ℕ} (ops : List POp) (c t : ℝ) (hn : NormalWord ops) (hb : ∀ o ∈ ops, o.n < n) :
    ActsUpTo n (evolutionGates ops c t) (expI (c * t) (((-1 : ℂ) ^ yCount ops) • wordOp ops)) := by
  by_cases h0 : ops = []
  · subst h0
    refine ⟨Complex.exp (-(Complex.I * (c * t : ℝ))), ?_, ?_⟩
    · rw [Complex.norm_exp]; simp
    · have : Complex.exp (-(Complex.I * (c * t : ℝ))) • expI (c * t) (((-1 : ℂ) ^ yCount []) • wordOp []) = 1 := by
        have e : expI (c * t) (((-1 : ℂ) ^ yCount []) • wordOp []) = Complex.exp (Complex.I * (c * t : ℝ)) • (1 : Operator) := by
          rw [mul_comm Complex.I, Complex.exp_mul_I, ← Complex.ofReal_cos, ← Complex.ofReal_sin]
          simp only [expI, yCount, List.filter_nil, List.length_nil, pow_zero, one_smul, wordOp_nil]
          rw [add_smul, mul_comm Complex.I]
        rw [e, smul_smul, ← Complex.exp_add]; simp
      rw [this]; exact actsAs_nil n
  · exact ⟨1, by simp, by simpa using evolution_op ops c t (hn.imp (fun h => Nat.ne_of_lt h)) hb h0⟩

theorem sliceAll_denotes (n : ℕ) : TargetsDenote n (.one (.slice none none none))
    ((List.range n).map (fun q : ℕ => (q : ℤ))) := by
  refine ⟨by simp, ?_, ?_⟩
  · intro q
    simp only [SliceSelects, List.mem_map, List.mem_range]
    constructor
    · rintro ⟨k, hk, rfl⟩; simp; omega
    · rintro ⟨h1, h2, -⟩; exact ⟨q.toNat, by omega, by omega⟩
  · simp only [Option.getD_none, zero_lt_one, if_true, List.pairwise_map]
    exact List.pairwise_lt_range.imp (fun h => by exact_mod_cast h)

theorem rx_eq_expI (θ : ℝ) (q : ℕ) : matAt (mRX θ) q = expI (-(1 / 2) * θ) (matAt mX q) := by
  refine LinearMap.ext fun ψ => ?_
  funext i
  rw [expI_apply, matAt_apply, matAt_apply]
  have e : -(1 / 2) * θ = -(θ / 2) := by ring
  rw [e, Real.cos_neg, Real.sin_neg]
  by_cases h : i.testBit q <;> simp [app, mRX, mX, h] <;> ring

theorem actsAs_rxAll (n : ℕ) (θ : ℝ) : ActsUpTo n [onAll (.rx θ)]
    (inOrder ((List.range n).map (fun q => expI (-(1 / 2) * θ) (matAt mX q)))) := by
  refine ⟨1, by simp, ?_⟩
  rw [one_smul]
  refine ⟨(List.range n).map (.one (.rx θ)), ?_, ?_, ?_⟩
  · exact ⟨_, [], ⟨List.range n, sliceAll_denotes n, rfl⟩, rfl, by simp⟩
  · intro e he
    obtain ⟨q, hq, rfl⟩ := List.mem_map.1 he
    exact ⟨by simpa [Elem.Valid] using hq, trivial⟩
  · intro ph
    generalize List.range n = l
    induction l with
    | nil => intro ψ; rfl
    | cons q l ih =>
      intro ψ
      simp only [List.map_cons, inOrder, Module.End.mul_apply]
      rw [← ih, ← rx_eq_expI]
      rfl

/-! ## Sizes -/

/-- Appending the gates works, and makes the circuit have at least `m` qubits. -/
def Grows (gs : List Gate) (m : ℕ) : Prop := ∀ c : OpsVal, c.appendAll gs = .ok ⟨max c.n m, c.ops ++ gs⟩

theorem Grows.nil : Grows [] 0 := fun c => by simp [OpsVal.appendAll]

theorem appendAll_append (gs hs : List Gate) : ∀ c : OpsVal, c.appendAll (gs ++ hs) = (c.appendAll gs).bind (fun c => c.appendAll hs) := by
  induction gs with
  | nil => intro c; rfl
  | cons g gs ih =>
    intro c
    simp only [List.cons_append, OpsVal.appendAll, bind]
    cases c.append g with
    | error e => rfl
    | ok c => exact ih c

theorem Grows.append {gs hs : List Gate} {m k : ℕ} (h1 : Grows gs m) (h2 : Grows hs k) : Grows (gs ++ hs) (max m k) := by
  intro c
  rw [appendAll_append, h1 c]
  show OpsVal.appendAll _ hs = _
  rw [h2]
  simp only [max_assoc, List.append_assoc]

theorem Grows.flatMap {α : Type} (l : List α) (f : α → List Gate) (m : α → ℕ) (h : ∀ a ∈ l, Grows (f a) (m a)) :
    Grows (l.flatMap f) (l.foldr (fun a k => max (m a) k) 0) := by
  induction l with
  | nil => exact .nil
  | cons a l ih => exact (h a (by simp)).append (ih (fun b hb => h b (by simp [hb])))

theorem Grows.onAll (k : G1) : Grows [onAll k] 0 := by
  intro c
  have : c.append (Blueqat.onAll k) = .ok ⟨c.n, c.ops ++ [Blueqat.onAll k]⟩ := by
    simp only [OpsVal.append, Blueqat.onAll, Gate.targets, getMaximumIndex, maximumIdxSingle, Option.getD_none, newQubits]
    congr 2
  simp [OpsVal.appendAll, this, bind, Except.bind]

theorem Grows.evolution (ops : List POp) (c t : ℝ) : Grows (evolutionGates ops c t) (qubitsOf ops) := by
  intro d
  obtain ⟨gs, h1, h2, h3⟩ := lit_evolution ops c t
  have hm : (gs.flatMap Prod.snd).foldr (fun q m => max (q + 1) m) 0 = qubitsOf ops := by
    rw [maxSucc_eq _ (ops.map POp.n)]
    · simp [qubitsOf, List.foldr_map]
    · intro q hq
      obtain ⟨p, hp, hqp⟩ := List.mem_flatMap.1 hq
      exact (h2 p hp).2 q hqp
    · intro q hq
      obtain ⟨o, ho, rfl⟩ := List.mem_map.1 hq
      obtain ⟨p, hp, hqp⟩ := h3 o ho
      exact List.mem_flatMap.2 ⟨p, hp, hqp⟩
  have h4 := appendAll_lit gs (fun p hp => (h2 p hp).1) d
  rw [hm, h1] at h4
  exact h4

theorem foldr_max_map {α : Type} (l : List α) (f : α → List POp) :
    l.foldr (fun a k => max (qubitsOf (f a)) k) 0 = qubitsOfAll (l.map f) := by
  simp [qubitsOfAll, List.foldr_map]

theorem lt_qubitsOf {ops : List POp} {o : POp} (ho : o ∈ ops) : o.n < qubitsOf ops := by
  have := lt_maxSucc (List.mem_map_of_mem (f := POp.n) ho)
  rw [List.foldr_map] at this
  exact this

theorem lt_qubitsOfAll {ws : List (List POp)} {w : List POp} {o : POp} (hw : w ∈ ws) (ho : o ∈ w) : o.n < qubitsOfAll ws := by
  induction ws with
  | nil => simp at hw
  | cons v ws ih =>
    simp only [qubitsOfAll, List.foldr_cons]
    rcases List.mem_cons.1 hw with rfl | hw
    · exact (lt_qubitsOf ho).trans_le (le_max_left _ _)
    · exact (ih hw).trans_le (le_max_right _ _)

/-! ## A list of terms -/

/-- The evolution closures of a list of simplified terms. -/
def closuresOf (ts : List PTerm) : List (ℝ → List Gate) := ts.map (fun t => evolutionGates t.ops t.coeff.re)

/-- The operators they act as. -/
def evoOf (ts : List PTerm) (τ : ℝ) : Operator :=
  inOrder (ts.map (fun t => expI (t.coeff.re * τ) (((-1 : ℂ) ^ yCount t.ops) • wordOp t.ops)))

theorem closures_upTo {n : ℕ} (ts : List PTerm) (τ : ℝ) (hn : ∀ t ∈ ts, NormalWord t.ops)
    (hb : qubitsOfAll (ts.map PTerm.ops) ≤ n) : ActsUpTo n ((closuresOf ts).flatMap (fun f => f τ)) (evoOf ts τ) := by
  rw [closuresOf, List.flatMap_map]
  refine ActsUpTo.flatMap ts _ _ (fun t ht => evolution_upTo _ _ _ (hn t ht) (fun o ho => ?_))
  exact (lt_qubitsOfAll (List.mem_map_of_mem ht) ho).trans_le hb

theorem closures_grow (ts : List PTerm) (τ : ℝ) :
    Grows ((closuresOf ts).flatMap (fun f => f τ)) (qubitsOfAll (ts.map PTerm.ops)) := by
  rw [closuresOf, List.flatMap_map, ← foldr_max_map]
  exact Grows.flatMap ts _ _ (fun t _ => .evolution _ _ _)

theorem signed_sq (t : PTerm) (hn : NormalWord t.ops) :
    ((((-1 : ℂ) ^ yCount t.ops) • wordOp t.ops) * (((-1 : ℂ) ^ yCount t.ops) • wordOp t.ops) : Operator) = 1 := by
  rw [smul_mul_smul_comm, word_sq _ hn, ← mul_pow]; simp

theorem signedOp_eq (t : PTerm) (h : t.coeff.im = 0) :
    signedOp t = ((t.coeff.re : ℝ) : ℂ) • (((-1 : ℂ) ^ yCount t.ops) • wordOp t.ops) := by
  have : t.coeff = ((t.coeff.re : ℝ) : ℂ) := Complex.ext rfl (by simp [h])
  rw [signedOp, termOp, smul_comm]
  conv_lhs => rw [this]

theorem evoOf_product (ts : List PTerm) (hn : ∀ t ∈ ts, NormalWord t.ops) (hr : ∀ t ∈ ts, t.coeff.im = 0) :
    IsProductEvolution (ts.map signedOp) (evoOf ts) := by
  have := isProductEvolution_expI (ts.map (fun t => (t.coeff.re, ((-1 : ℂ) ^ yCount t.ops) • wordOp t.ops))) (by
    simp only [List.mem_map]
    rintro _ ⟨t, ht, rfl⟩
    exact signed_sq t (hn t ht))
  simp only [List.map_map, Function.comp_def] at this
  rw [List.map_congr_left (fun t ht => signedOp_eq t (hr t ht))]
  exact this

theorem evoOf_evolution (ts : List PTerm) (hn : ∀ t ∈ ts, NormalWord t.ops) (hr : ∀ t ∈ ts, t.coeff.im = 0)
    (h0 : ∀ t ∈ ts, t.coeff ≠ 0) (hc : ∀ s ∈ ts, ∀ t ∈ ts, termOp s * termOp t = termOp t * termOp s) :
    IsEvolution (ts.map signedOp).sum (evoOf ts) := by
  have := isEvolution_inOrder (ts.map (fun t => (t.coeff.re, ((-1 : ℂ) ^ yCount t.ops) • wordOp t.ops))) (by
    simp only [List.mem_map]
    rintro _ ⟨t, ht, rfl⟩
    exact signed_sq t (hn t ht)) (by
    simp only [List.mem_map]
    rintro _ ⟨s, hs, rfl⟩ _ ⟨t, ht, rfl⟩
    have h := hc s hs t ht
    simp only [termOp, smul_mul_smul_comm, mul_comm t.coeff] at h
    have h := smul_right_injective Operator (mul_ne_zero (h0 s hs) (h0 t ht)) h
    exact (show Commute (wordOp s.ops) (wordOp t.ops) from h).smul_left _ |>.smul_right _)
  simp only [List.map_map, Function.comp_def] at this
  rw [List.map_congr_left (fun t ht => signedOp_eq t (hr t ht))]
  exact this

theorem evolutionClosures_ok (vs : List PVal) (fs : List (ℝ → List Gate)) (h : evolutionClosures vs = .ok fs) :
    ∃ ts : List PTerm, vs = ts.map .term ∧ fs = closuresOf (ts.map PTerm.simplify) ∧ ∀ t ∈ ts, t.simplify.coeff.im = 0 := by
  induction vs generalizing fs with
  | nil =>
    simp only [evolutionClosures, Except.ok.injEq] at h
    exact ⟨[], rfl, h.symm, by simp⟩
  | cons v vs ih =>
    simp only [evolutionClosures, bind, Except.bind] at h
    cases hv : v.evolutionClosure with
    | error e => rw [hv] at h; simp at h
    | ok f =>
      rw [hv] at h; simp only at h
      cases hvs : evolutionClosures vs with
      | error e => rw [hvs] at h; simp at h
      | ok gs =>
        rw [hvs] at h; simp only [Except.ok.injEq] at h
        obtain ⟨ts, rfl, rfl, h3⟩ := ih gs hvs
        cases v with
        | num x => simp [PVal.evolutionClosure] at hv
        | pauli p => simp [PVal.evolutionClosure] at hv
        | expr e => simp [PVal.evolutionClosure] at hv
        | term t =>
          simp only [PVal.evolutionClosure, PTerm.evolutionClosure] at hv
          split_ifs at hv with hi
          simp only [Except.ok.injEq] at hv
          refine ⟨t :: ts, rfl, by rw [← h, ← hv]; rfl, ?_⟩
          intro s hs
          rcases List.mem_cons.1 hs with rfl | hs
          · simpa using hi
          · exact h3 s hs

/-! ## Statements -/

variable {V M C B A R : Type} (kit : Kit C B A R) (isAttr : String → Bool)

theorem statements_ok (gs : List Gate) : ∀ (w : World V M C B) (i : ℕ), w.WF → i < w.nCircs → ∀ o' : OpsVal,
    OpsVal.appendAll ⟨(view w i).n, (view w i).ops⟩ gs = .ok o' →
    (World.statements kit isAttr i gs w).2 = .ok () ∧ Frame w (World.statements kit isAttr i gs w).1 (some i) ∧
    view (World.statements kit isAttr i gs w).1 i = ⟨o'.ops, o'.n, (view w i).dflt, (view w i).bes⟩ := by
  induction gs with
  | nil =>
    intro w i hw hi o' h
    simp only [OpsVal.appendAll, Except.ok.injEq] at h
    subst h
    exact ⟨rfl, .refl hw _, rfl⟩
  | cons g gs ih =>
    intro w i hw hi o' h
    simp only [OpsVal.appendAll, bind, Except.bind, OpsVal.append] at h
    have hf := frame_step kit isAttr hw (.append i g)
    simp only [World.statements]
    cases hv : getMaximumIndex g.targets with
    | error e => rw [hv] at h; simp at h
    | ok v =>
      rw [hv] at h; simp only at h
      have hs : (w.step kit isAttr (.append i g)).2 = .ok (.circuit i) := by
        simp only [World.step, World.onCirc, hi, if_true, hv]
      have hview : view (w.step kit isAttr (.append i g)).1 i =
          ⟨(view w i).ops ++ [g], newQubits v (view w i).n, (view w i).dflt, (view w i).bes⟩ := by
        simp only [World.step, World.onCirc, hi, if_true, hv]
        simp [view]
      generalize w.step kit isAttr (.append i g) = r at hf hs hview ⊢
      obtain ⟨w1, x⟩ := r
      simp only at hf hs hview ⊢
      subst hs
      simp only
      have := ih w1 i hf.wf (hi.trans_le hf.le) o' (by rw [hview]; exact h)
      refine ⟨this.1, hf.trans this.2.1, ?_⟩
      rw [this.2.2, hview]

end

end Blueqat
