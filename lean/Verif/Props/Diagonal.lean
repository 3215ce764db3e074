import Verif.DiagLemmas
import Verif.Props.VqeResult
import Verif.Props.WqPauli
import Verif.Props.PauliIdentity

/-!
# Property C85: QAOA minimizes cost functions
-/

set_option linter.unusedSimpArgs false
set_option linter.unusedVariables false

namespace Blueqat

open Spec

noncomputable section

variable {V M C B A R : Type} (kit : Kit C B A R) (isAttr : String → Bool)

/-- C85. However a Pauli expression for a real cost function of the bits was computed, `simplify()` writes it with `Z` only
and with real coefficients. -/
theorem C85_words (ham : PVal) (d : ℕ → ℝ) (hd : valOp ham = costOp d) :
    ∀ t ∈ ham.toExpr.simplify.terms, (∀ o ∈ t.ops, o.p = .Z) ∧ t.coeff.im = 0 := by
  have he : exprOp ham.toExpr = costOp d := by rw [toExpr_op, hd]
  exact fun t ht => ⟨diag_letters _ _ he t ht, diag_real _ d he t ht⟩

theorem closures_real (ts : List PTerm) (hn : ∀ t ∈ ts, NormalWord t.ops) (hr : ∀ t ∈ ts, t.coeff.im = 0) :
    ∃ evos, evolutionClosures (ts.map .term) = .ok evos := by
  induction ts with
  | nil => exact ⟨[], rfl⟩
  | cons t ts ih =>
    obtain ⟨evos, h⟩ := ih (fun s hs => hn s (by simp [hs])) (fun s hs => hr s (by simp [hs]))
    simp only [List.map_cons, evolutionClosures, PVal.evolutionClosure, PTerm.evolutionClosure,
      simplify_of_normal t (hn t (by simp)), hr t (by simp), h]
    rw [if_neg (by simp)]
    exact ⟨_, rfl⟩

/-- C85. `QaoaAnsatz` accepts every Term or Expr that is a real cost function: the constructor raises only if making the
circuit `Circuit(n).h[:]` does or running it does. -/
theorem C85_accepted (w : World V M C B) (ham : PVal) (d : ℕ → ℝ) (hd : valOp ham = costOp d)
    (hk : (∃ t, ham = .term t) ∨ ∃ e, ham = .expr e) (step : ℕ) (a : A) (err : PyErr)
    (h : (QaoaAnsatz.new kit isAttr ham step none none a w).2 = .error err) :
    (QaoaAnsatz.chooseInit kit isAttr ham.toExpr.simplify.nQubits none none w).2 = .error err ∨
    ∃ i n, (QaoaAnsatz.chooseInit kit isAttr ham.toExpr.simplify.nQubits none none w).2 = .ok (i, n) ∧
      ((QaoaAnsatz.chooseInit kit isAttr ham.toExpr.simplify.nQubits none none w).1.step kit isAttr
        (.makeCache i none a)).2 = .error err := by
  have he : exprOp ham.toExpr = costOp d := by rw [toExpr_op, hd]
  have h0 : ham.hasMaxN = true := by rcases hk with ⟨t, rfl⟩ | ⟨e, rfl⟩ <;> rfl
  have h1 := diag_accepted _ _ he
  obtain ⟨evos, h2⟩ := closures_real ham.toExpr.simplify.terms
    (fun t ht => exprSimplify_normal _ _ (List.mem_map_of_mem ht)) (fun t ht => diag_real _ d he t ht)
  simp only [QaoaAnsatz.new, h0, h1, Bool.true_eq_false, if_false] at h
  cases hc : QaoaAnsatz.chooseInit kit isAttr ham.toExpr.simplify.nQubits none none w with
  | mk w1 x =>
    rw [hc] at h
    cases x with
    | error e => left; simpa using h
    | ok p =>
      obtain ⟨i, n⟩ := p
      right
      refine ⟨i, n, rfl, ?_⟩
      simp only at h ⊢
      cases hm : w1.step kit isAttr (.makeCache i none a) with
      | mk w2 y =>
        rw [hm] at h
        cases y with
        | error e => simpa using h
        | ok y => simp [h2, evolutionClosures] at h

theorem mixer_unique (n : ℕ) (U : ℝ → Operator) (hU : IsProductEvolution (xMixer n) U) (t : ℝ) : U t = rxLayer n t := by
  obtain ⟨Us, h1, h2⟩ := hU
  rw [h2, rxLayer]
  congr 1
  have : ∀ (l : List ℕ) (Us : List (ℝ → Operator)),
      List.Forall₂ IsEvolution (l.map (fun q => (-(1 / 2) : ℂ) • matAt mX q)) Us →
      Us.map (fun V => V t) = l.map (fun q => expI (-(t / 2)) (matAt mX q)) := by
    intro l
    induction l with
    | nil => intro Us h; cases h; rfl
    | cons q l ih =>
      intro Us h
      cases h with
      | cons hV hr =>
        rw [List.map_cons, List.map_cons, ih _ hr]
        have e : wordOp [⟨.X, q⟩] = matAt mX q := wordOp_singleton _
        have := isEvolution_unique (-(1 / 2)) [⟨.X, q⟩] (by simp [NormalWord]) (word_sq _ (by simp [NormalWord])) _
          (by rw [e]; push_cast; exact hV) t
        rw [this, e]
        congr 2; ring
  exact this _ Us h1

theorem qaoaOp_congr {c c' m m' : ℝ → Operator} (h1 : ∀ t, c t = c' t) (h2 : ∀ t, m t = m' t) (l : List (ℝ × ℝ)) :
    qaoaOp c m l = qaoaOp c' m' l := by
  rw [show c = c' from funext h1, show m = m' from funext h2]

theorem cost_prepares (b : B) (reg : Registry V M C) (h : List (Cmd V M C A)) (ham : PVal) (d : ℕ → ℝ)
    (hd : valOp ham = costOp d) (step : ℕ) (a : A) (q : QaoaAnsatz)
    (hq : (QaoaAnsatz.new kit isAttr ham step none none a ((World.start b reg).exec kit isAttr h)).2 = .ok q) :
    q.hamiltonian = ham.toExpr.simplify ∧
    Prepares (q.toAnsatz kit isAttr (QaoaAnsatz.new kit isAttr ham step none none a ((World.start b reg).exec kit isAttr h)).1)
      q.hamiltonian.nQubits (qaoaState q.hamiltonian.nQubits step d) := by
  have he : exprOp ham.toExpr = costOp d := by rw [toExpr_op, hd]
  obtain ⟨ms, hn⟩ := new_ok kit isAttr (WF_exec kit isAttr (WF_start b reg) h) (by simp) hq
  have hy : ∀ t ∈ q.hamiltonian.terms, Even (yCount t.ops) := by
    intro t ht
    rw [hn.hamEq] at ht
    have hz := diag_letters _ _ he t ht
    have : yCount t.ops = 0 := by
      rw [yCount, List.length_eq_zero_iff, List.filter_eq_nil_iff]
      intro o ho
      simp [hz o ho]
    rw [this]; exact Even.zero
  obtain ⟨ψ, hp, hψ⟩ := qaoa_prepares kit isAttr b reg h [] ham step a q hq hy
  refine ⟨hn.hamEq, ?_⟩
  have : ψ = qaoaState q.hamiltonian.nQubits step d := by
    funext p
    obtain ⟨cost, mix, e1, -, e2, e3⟩ := hψ p
    rw [e3, qaoaState, qaoaOp_congr (fun t => productEvolution_cost _ d he cost (by rw [← hn.hamEq]; exact e1) t)
      (mixer_unique _ mix e2)]
  rw [← this]
  exact hp

theorem answer_congr {E F : List ℝ → ℝ} (h : ∀ p, E p = F p) (m : Minimizer) : answer E m = answer F m := by
  rw [show E = F from funext h]

theorem mostCommon_exact (s : Option Sampler) (hs : s = none ∨ s = some nonSamplingSampler) (c : OpsVal) (es : List Elem)
    (hd : GatesDenote c.n c.ops es) (hv : ∀ e ∈ es, e.Valid c.n ∧ e.IsUnitary) (ψ : Vec) (z : ℂ) (hz : ‖z‖ = 1)
    (hψ : unitaries phDoc es zeroState = z • ψ) (m : ℕ) (rnd : ℕ → ℝ) :
    ∃ r ks, (⟨s, c, none⟩ : VqeResult).mostCommon m rnd =
      (r, .ok (ks.map (fun k => (bitsAt (List.range c.n) k, ‖ψ k‖ ^ 2)), rnd)) ∧ MostLikely c.n ψ m ks := by
  obtain ⟨probs, h1, h2, h3, h4⟩ := C47_exact ⟨none, c, none⟩ rfl es hd hv none (.inl rfl) true rnd
  have hamp : ∀ i, unitaries phDoc es (fun j => if j = 0 then 1 else 0) i = z * ψ i := fun i => congrFun hψ i
  have h4' : ∀ i < 2 ^ c.n, probs.get (bitsAt (List.range c.n) i) = if ψ i = 0 then none else some (‖ψ i‖ ^ 2) := by
    intro i hi
    have := h4 i hi
    simp only [hamp, mul_eq_zero, norm_mul, hz, one_mul, (norm_ne_zero_iff.1 (by rw [hz]; norm_num) : z ≠ 0), false_or] at this
    exact this
  have hpr : ∃ r, (⟨s, c, none⟩ : VqeResult).getProbs none none true rnd = (r, .ok (probs, rnd)) := by
    rcases hs with rfl | rfl
    · exact ⟨_, h1⟩
    · have : (⟨some nonSamplingSampler, c, none⟩ : VqeResult).measureProbs none rnd =
          (⟨none, c, none⟩ : VqeResult).measureProbs none rnd := rfl
      simp only [VqeResult.getProbs, this] at h1 ⊢
      cases hm : (⟨none, c, none⟩ : VqeResult).measureProbs none rnd with
      | mk c' x =>
        rw [hm] at h1
        cases x with
        | error e => simp at h1
        | ok y =>
          obtain ⟨y1, y2⟩ := y
          simp only [if_true, Prod.mk.injEq, Except.ok.injEq] at h1 ⊢
          exact ⟨_, rfl, h1.2.1, h1.2.2⟩
  obtain ⟨r, hpr⟩ := hpr
  obtain ⟨out, left, e1, e2, e3, e4, e5, -⟩ := C47_most_common _ r m rnd rnd probs hpr
  have hmem : ∀ x ∈ probs, ∃ k, (k < 2 ^ c.n ∧ ψ k ≠ 0) ∧ x = (bitsAt (List.range c.n) k, ‖ψ k‖ ^ 2) := by
    rintro ⟨bits, p⟩ hb
    obtain ⟨k, hk, hbk⟩ := h3 _ hb
    simp only at hbk hk
    subst hbk
    have hg := PyDict.get_of_mem h2 hb
    rw [h4' k hk] at hg
    split_ifs at hg with h0
    simp only [Option.some.injEq] at hg
    subst hg
    exact ⟨k, ⟨hk, h0⟩, rfl⟩
  have hks : ∀ l : List (List ℕ × ℝ), (∀ x ∈ l, x ∈ probs) → ∃ ks : List ℕ,
      l = ks.map (fun k => (bitsAt (List.range c.n) k, ‖ψ k‖ ^ 2)) ∧ ∀ k ∈ ks, k < 2 ^ c.n ∧ ψ k ≠ 0 := by
    intro l
    induction l with
    | nil => intro _; exact ⟨[], rfl, by simp⟩
    | cons x l ih =>
      intro hl
      obtain ⟨k, hk, rfl⟩ := hmem x (hl x (by simp))
      obtain ⟨ks, rfl, hks⟩ := ih (fun y hy => hl y (by simp [hy]))
      refine ⟨k :: ks, rfl, ?_⟩
      simp only [List.mem_cons, forall_eq_or_imp]
      exact ⟨hk, hks⟩
  obtain ⟨ks, rfl, hk⟩ := hks out (fun x hx => e2.subset (by simp [hx]))
  have hin : ∀ j < 2 ^ c.n, ψ j ≠ 0 → j ∉ ks → (bitsAt (List.range c.n) j, ‖ψ j‖ ^ 2) ∈ left := by
    intro j hj hj0 hjk
    have hmj : (bitsAt (List.range c.n) j, ‖ψ j‖ ^ 2) ∈ probs := PyDict.get_mem (by rw [h4' j hj, if_neg hj0])
    rcases List.mem_append.1 (e2.symm.subset hmj) with hm | hm
    · obtain ⟨k, hkk, hke⟩ := List.mem_map.1 hm
      simp only [Prod.mk.injEq] at hke
      exact absurd (bitsAt_range_inj (hk k hkk).1 hj hke.1 ▸ hkk) hjk
    · exact hm
  have hlen := e2.length_eq
  simp only [List.length_append, List.length_map] at hlen e3
  rw [if_neg (by omega)] at e3
  refine ⟨r, ks, e1, ?_, hk, ?_, ?_, ?_, ?_⟩
  · have hn : ((ks.map (fun k => (bitsAt (List.range c.n) k, ‖ψ k‖ ^ 2)) ++ left).map Prod.fst).Nodup :=
      ((e2.map Prod.fst).nodup_iff).2 h2
    rw [List.map_append, List.map_map] at hn
    exact List.Nodup.of_map _ (List.Nodup.of_append_left hn)
  · rw [List.pairwise_map] at e4; exact e4
  · intro k hkk j hj hjk
    by_cases hj0 : ψ j = 0
    · rw [hj0]; simp
    · exact e5 _ (List.mem_map.2 ⟨k, hkk, rfl⟩) _ (hin j hj hj0 hjk)
  · rw [e3]; simp
  · intro hl j hj hj0
    by_contra hjk
    have h0 := hin j hj hj0 hjk
    have : 0 < left.length := List.length_pos_of_mem h0
    simp only [Int.toNat_natCast] at e3
    omega

/-- The single most likely outcome. -/
theorem mostLikely_one {n : ℕ} {ψ : Vec} {ks : List ℕ} (h : MostLikely n ψ 1 ks) (hn : normSqN n ψ = 1) :
    ∃ k, ks = [k] ∧ k < 2 ^ n ∧ ψ k ≠ 0 ∧ ∀ j < 2 ^ n, ‖ψ j‖ ^ 2 ≤ ‖ψ k‖ ^ 2 := by
  have hne : ∃ i < 2 ^ n, ψ i ≠ 0 := by
    by_contra hcon
    push_neg at hcon
    rw [normSqN, Finset.sum_eq_zero (fun i hi => by rw [hcon i (Finset.mem_range.1 hi)]; simp)] at hn
    norm_num at hn
  obtain ⟨i, hi, hi0⟩ := hne
  have hl : ks.length = 1 := by
    by_contra hl
    have h1 := h.length_le
    have h2 := h.all (by omega) i hi hi0
    have := List.length_pos_of_mem h2
    omega
  obtain ⟨k, rfl⟩ := List.length_eq_one_iff.1 hl
  refine ⟨k, rfl, (h.possible k (by simp)).1, (h.possible k (by simp)).2, fun j hj => ?_⟩
  by_cases hjk : j = k
  · rw [hjk]
  · exact h.most k (by simp) j hj (by simp [hjk])

/-- **C85.** `Vqe(QaoaAnsatz(H, step), minimizer).run()` for a real cost function `d`, without a sampler or with the exact
one, minimizes over the `2 * step` parameters the mean of `d` over the outcomes of measuring the QAOA state, and nothing
else. The result has the parameters the minimizer returned; `most_common(m)` gives the `m` most likely outcomes in
their QAOA state, with this probability, which is not 0. No condition on the coefficients is left. -/
theorem C85_run (jv : ℕ → ℂ) (ji : ℕ → ℕ) (b : B) (reg : Registry V M C) (h : List (Cmd V M C A)) (ham : PVal) (d : ℕ → ℝ)
    (step : ℕ) (a : A) (q : QaoaAnsatz) (minimizer : ℕ → Minimizer) (sampler : Option Sampler) (verbose : Bool) (rnd : ℕ → ℝ) :
    let r := QaoaAnsatz.new kit isAttr ham step none none a ((World.start b reg).exec kit isAttr h)
    let n := ham.toExpr.simplify.nQubits
    let E := fun p => meanCost n d (qaoaState n step d p)
    valOp ham = costOp d → r.2 = .ok q → HasDim (2 * step) (minimizer (2 * step)) →
    sampler = none ∨ sampler = some nonSamplingSampler →
    ∃ out, vqeRun jv ji (q.toAnsatz kit isAttr r.1) minimizer sampler verbose rnd = .ok (out, rnd) ∧
      out.params = answer E (minimizer (2 * step)) ∧
      (out.printed = if verbose then trace E (minimizer (2 * step)) else []) ∧
      ∀ (m : ℕ) rnd', ∃ r' ks, out.result.mostCommon m rnd' =
          (r', .ok (ks.map (fun k => (bitsAt (List.range n) k, ‖qaoaState n step d out.params k‖ ^ 2)), rnd')) ∧
        MostLikely n (qaoaState n step d out.params) m ks := by
  intro r n E hd hq hm hs
  have he : exprOp ham.toExpr = costOp d := by rw [toExpr_op, hd]
  obtain ⟨hham, hp⟩ := cost_prepares kit isAttr b reg h ham d hd step a q hq
  obtain ⟨ms, hn⟩ := new_ok kit isAttr (WF_exec kit isAttr (WF_start b reg) h) (by simp) hq
  have hdim : (q.toAnsatz kit isAttr r.1).nParams = 2 * step := hn.params
  have hamEq : (q.toAnsatz kit isAttr r.1).hamiltonian = ham.toExpr.simplify := hham
  have hqn : q.hamiltonian.nQubits = n := by rw [hham]
  rw [hqn] at hp
  have hE : ∀ p, (expectation n (exprOp (q.toAnsatz kit isAttr r.1).hamiltonian) (qaoaState n step d p)).re = E p := by
    intro p
    rw [hamEq, exprSimplify_op, he, expectation_cost]
  have hrun : ∃ c an, (q.toAnsatz kit isAttr r.1).getCircuit (answer E (minimizer (2 * step))) = .ok c ∧
      vqeRun jv ji (q.toAnsatz kit isAttr r.1) minimizer sampler verbose rnd =
        .ok (⟨an, answer E (minimizer (2 * step)), ⟨sampler, c, none⟩,
          if verbose then trace E (minimizer (2 * step)) else []⟩, rnd) := by
    rcases hs with rfl | rfl
    · obtain ⟨c, m, k1, -, k3⟩ := C70_run_sparse jv ji (q.toAnsatz kit isAttr r.1) (qaoaState n step d) (by rw [hamEq]; exact hp)
        (by rw [hamEq]; exact simplify_nonzero _) (by simp [QaoaAnsatz.toAnsatz]) minimizer (by rw [hdim]; exact hm) verbose rnd
      have e1 : (q.toAnsatz kit isAttr r.1).hamiltonian.nQubits = n := by rw [hamEq]
      rw [e1, hdim] at k1 k3
      simp only [hE] at k1 k3
      exact ⟨c, _, k1, k3⟩
    · obtain ⟨c, k1, k3⟩ := C70_run_partial jv ji (q.toAnsatz kit isAttr r.1) n (qaoaState n step d) hp
        (by
          rw [hamEq]
          intro t ht
          exact (exprSimplify_normal _ _ (List.mem_map_of_mem ht)).imp (fun h => ne_of_lt h))
        (by rw [hamEq]; exact expr_nQubits _)
        (by
          rw [hamEq]
          intro t ht
          have hz := diag_letters _ _ he t ht
          have : yCount t.ops = 0 := by
            rw [yCount, List.length_eq_zero_iff, List.filter_eq_nil_iff]
            intro o ho
            simp [hz o ho]
          rw [this]; exact Even.zero) minimizer (by rw [hdim]; exact hm) verbose rnd
      rw [hdim] at k1 k3
      simp only [hE] at k1 k3
      exact ⟨c, _, k1, k3⟩
  obtain ⟨c, an, k1, k3⟩ := hrun
  refine ⟨_, k3, rfl, rfl, fun m rnd' => ?_⟩
  obtain ⟨gs, es, g1, g2, g3, z, hz, g4⟩ := hp (answer E (minimizer (2 * step))) (by rw [hdim]; exact answer_dim _ _ _ hm)
  rw [k1] at g1
  cases g1
  exact mostCommon_exact sampler hs ⟨n, gs⟩ es g2 g3 _ z hz g4 m rnd'

/-- C85. No mean that the minimizer is told is below the least cost of a basis state, and a state has the least cost as its
mean only if it gives, with certainty, an outcome of least cost. -/
theorem C85_bound (n : ℕ) (d : ℕ → ℝ) (E₀ : ℝ) (hE : ∀ k < 2 ^ n, E₀ ≤ d k) (ψ : Vec) (hψ : normSqN n ψ = 1) :
    E₀ ≤ meanCost n d ψ ∧ (meanCost n d ψ = E₀ ↔ ∀ k < 2 ^ n, ψ k ≠ 0 → d k = E₀) := by
  have e : meanCost n d ψ - E₀ = ∑ k ∈ Finset.range (2 ^ n), ‖ψ k‖ ^ 2 * (d k - E₀) := by
    simp only [mul_sub, Finset.sum_sub_distrib, ← Finset.sum_mul]
    rw [show ∑ k ∈ Finset.range (2 ^ n), ‖ψ k‖ ^ 2 = 1 from hψ, one_mul, meanCost]
  have hnn : ∀ k ∈ Finset.range (2 ^ n), 0 ≤ ‖ψ k‖ ^ 2 * (d k - E₀) := fun k hk =>
    mul_nonneg (by positivity) (sub_nonneg.2 (hE k (Finset.mem_range.1 hk)))
  refine ⟨by have := Finset.sum_nonneg hnn; linarith, ?_⟩
  rw [← sub_eq_zero, e, Finset.sum_eq_zero_iff_of_nonneg hnn]
  constructor
  · intro h k hk h0
    have := h k (Finset.mem_range.2 hk)
    rcases mul_eq_zero.1 this with h1 | h1
    · exact absurd (by simpa using h1) h0
    · linarith
  · intro h k hk
    by_cases h0 : ψ k = 0
    · simp [h0]
    · rw [h k (Finset.mem_range.1 hk) h0]; ring

theorem qaoaState_norm (b : B) (reg : Registry V M C) (h : List (Cmd V M C A)) (ham : PVal) (d : ℕ → ℝ)
    (hd : valOp ham = costOp d) (step : ℕ) (a : A) (q : QaoaAnsatz)
    (hq : (QaoaAnsatz.new kit isAttr ham step none none a ((World.start b reg).exec kit isAttr h)).2 = .ok q)
    (p : List ℝ) (hp : p.length = 2 * step) :
    normSqN ham.toExpr.simplify.nQubits (qaoaState ham.toExpr.simplify.nQubits step d p) = 1 := by
  obtain ⟨hham, hpr⟩ := cost_prepares kit isAttr b reg h ham d hd step a q hq
  obtain ⟨ms, hn⟩ := new_ok kit isAttr (WF_exec kit isAttr (WF_start b reg) h) (by simp) hq
  rw [hham] at hpr
  exact prepares_norm hpr p (by show p.length = q.nParams; rw [hn.params, hp])

theorem cost_depends (ham : PVal) (d : ℕ → ℝ) (hd : valOp ham = costOp d) (j k : ℕ)
    (h : ∀ i < ham.toExpr.simplify.nQubits, j.testBit i = k.testBit i) : d j = d k :=
  cost_high ham.toExpr d (by rw [toExpr_op, hd]) j k h

/-- **C85.** The number of qubits of the simplified Hamiltonian, the ones that are run and measured, is the least `n` such that
the cost of a basis state depends only on its first `n` bits. -/
theorem C85_qubits (ham : PVal) (d : ℕ → ℝ) (hd : valOp ham = costOp d) (n : ℕ) : ham.toExpr.simplify.nQubits ≤ n ↔
    ∀ j k : ℕ, (∀ i < n, j.testBit i = k.testBit i) → d j = d k := by
  constructor
  · intro hn j k h
    exact cost_depends ham d hd j k fun i hi => h i (by omega)
  · intro h
    rw [expr_nQubits_le]
    intro t ht o ho
    by_contra hc
    refine cost_low ham.toExpr d (by rw [toExpr_op, hd]) o.n (fun k => h _ _ fun i hi => ?_) t ht o ho rfl
    exact testBit_flipBit_ne (by omega) k

/-- The operator of `wq.pauli` is a cost function. -/
theorem C85_wq (q : Rows) (hq : ∀ r ∈ q, r.length = q.length) : ∃ v, wqPauli q = .ok v ∧
    valOp v = costOp (fun k => quboEnergy q.length (Spec.entryOf q) (fun i => if k.testBit i then 1 else 0)) := by
  obtain ⟨v, h1, h2⟩ := C42_pauli q hq
  exact ⟨v, h1, LinearMap.ext fun ψ => funext fun k => h2 ψ k⟩

/-! ## Examples -/

/-- Every cost function is accepted by `QaoaAnsatz` in a world with a working backend. -/
theorem diag_demo (ham : PVal) (d : ℕ → ℝ) (hd : valOp ham = costOp d) (hk : (∃ t, ham = .term t) ∨ ∃ e, ham = .expr e)
    (step : ℕ) : ∃ q, (QaoaAnsatz.new demoKit (fun _ => false) ham step none none () demoStart).2 = .ok q := by
  cases hx : (QaoaAnsatz.new demoKit (fun _ => false) ham step none none () demoStart).2 with
  | ok q => exact ⟨q, rfl⟩
  | error err =>
    exfalso
    rcases C85_accepted demoKit (fun _ => false) demoStart ham d hd hk step () err hx with h | ⟨i, n, h1, h2⟩
    · simp [QaoaAnsatz.chooseInit, World.step,
        World.onCirc, World.alloc, demoStart, World.start, onAll, Gate.targets, getMaximumIndex, maximumIdxSingle,
        World.getBackend, World.dfltName, demoReg, demoKit, PyDict.get, PyDict.set, bind, Except.bind, Except.map,
        Function.update] at h
    · simp [QaoaAnsatz.chooseInit, World.step,
        World.onCirc, World.alloc, demoStart, World.start, onAll, Gate.targets, getMaximumIndex, maximumIdxSingle,
        World.getBackend, World.dfltName, demoReg, demoKit, PyDict.get, PyDict.set, bind, Except.bind, Except.map,
        Function.update] at h1 h2
      obtain ⟨rfl, rfl⟩ := h1
      simp [PyDict.get, PyDict.set] at h2

/-- The matrix `[[1, 2], [3, 4]]` of a QUBO, one step. -/
example (jv : ℕ → ℂ) (ji : ℕ → ℕ) (rnd : ℕ → ℝ) : ∃ v q out, wqPauli [[1, 2], [3, 4]] = .ok v ∧
    (QaoaAnsatz.new demoKit (fun _ => false) v 1 none none () demoStart).2 = .ok q ∧
    vqeRun jv ji (q.toAnsatz demoKit (fun _ => false) (QaoaAnsatz.new demoKit (fun _ => false) v 1 none none () demoStart).1)
      (fun _ => .ask [0, 0] fun e => .done [e, 1]) none true rnd = .ok (out, rnd) ∧
    out.params.length = 2 ∧ out.printed.length = 1 := by
  obtain ⟨v, h1, h2⟩ := C85_wq [[1, 2], [3, 4]] (by simp)
  have hk : (∃ t, v = .term t) ∨ ∃ e, v = .expr e := by
    right
    simp [wqPauli, Rows.entry, bind, Except.bind, pure, Except.pure, List.range_succ, List.range'] at h1
    cases h1
    exact ⟨_, rfl⟩
  obtain ⟨q, hq⟩ := diag_demo v _ h2 hk 1
  obtain ⟨out, e1, e2, e3, -⟩ := C85_run demoKit (fun _ => false) jv ji 0 demoReg [] v _ 1 () q
    (fun _ => .ask [0, 0] fun e => .done [e, 1]) none true rnd h2 hq ⟨rfl, fun _ => rfl⟩ (.inl rfl)
  exact ⟨v, q, out, h1, hq, e1, by rw [e2]; rfl, by rw [e3]; rfl⟩

end

end Blueqat
