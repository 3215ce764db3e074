import Verif.SqaLaw
import Verif.Props.Chain

/-!
# Property C107: the distribution of the results of simulated quantum annealing
-/

set_option linter.unusedSimpArgs false
set_option linter.unusedVariables false

namespace Blueqat

open Spec MeasureTheory

noncomputable section

/-- The runs of `sqa` that return these spins (`true`: 1, `false`: -1). -/
def sqaReturns (o : Opt) (fuel : ℕ) (d : Fin o.tro × Fin o.qubo.length → Bool) : Set Draws :=
  {ω | ∃ q es, o.sqa ⟨ω.1, ω.2.1, ω.2.2⟩ fuel = .ok (some (q, es)) ∧
    ∀ (p : Fin o.tro) (i : Fin o.qubo.length), (q p).ent i = if d (p, i) then 1 else -1}

variable (o : Opt) [NeZero o.qubo.length] [NeZero o.tro]

/-- C107. `sqa` returns the spins `d` with the probability that, for each field of the schedule, `ite` Metropolis steps at the
temperature `Tf` for the energy of the ring with coupling `-κ` lead from uniformly random slices to `d`. Drawing numbers below
`tro * N` makes both their remainders modulo `N` (the site) and modulo `tro` (the slice) uniform. -/
theorem C107_run (hq : ∀ row ∈ o.qubo, o.qubo.length ≤ row.length) (ht : 2 ≤ o.tro) (hT : 0 < o.Tf) (gs : List ℝ)
    (hgs : Schedule o.R o.Gf o.Gs gs) (hpos : ∀ G ∈ gs, 0 < G) (fuel : ℕ) (hf : gs.length ≤ fuel)
    (d : Fin o.tro × Fin o.qubo.length → Bool) :
    MeasurableSet (sqaReturns o fuel d) ∧
    (draws (o.tro * o.qubo.length)).real (sqaReturns o fuel d) =
      annealProb (fun G => metropolisMatrix
        (ringAt o.tro o.qubo.length (quboAt o.qubo.length (entryOf o.qubo)) (-ringCoupling o.Tf o.tro G)) o.Tf) o.ite gs d := by
  obtain ⟨J, ep, hp, h2, hE⟩ := opt_prepared o hq
  let S : Set (ℕ → NpInts) := {Q | ∀ (p : Fin o.tro) (i : Fin o.qubo.length), (Q p).ent i = if d (p, i) then 1 else -1}
  have hS : ∀ Q, RingSpins o.qubo.length Q → (Q ∈ S ↔ cring o.tro o.qubo.length Q = d) := by
    intro Q hQ
    constructor
    · intro h
      funext ⟨p, i⟩
      have := h p i
      simp only [cring, this]
      cases d (p, i) <;> simp
    · rintro rfl p i
      rcases (hQ p).2 i (by rw [(hQ p).1]; exact i.2) with h | h <;> simp [cring, h]
  have hB : RingEvents o.tro o.qubo.length (fun Q => {_ω | Q ∈ S}) (Pi.single d 1) := by
    intro Q hQ
    beta_reduce
    by_cases h : cring o.tro o.qubo.length Q = d
    · have e : {_ω : Draws | Q ∈ S} = Set.univ := by ext; simp [(hS Q hQ).2 h]
      rw [e, h]
      simp
    · have e : {_ω : Draws | Q ∈ S} = ∅ := by ext; simp [mt (hS Q hQ).1 h]
      rw [e]
      simp [Pi.single_apply, h]
  have hloop := ring_loop_law ht J h2 ep _ hE o.Tf hT o.R o.Gf o.ite S _ hB hgs fuel hf
  have hsame : ∀ Q Q', (∀ p, (Q p).dim = o.qubo.length) → SameRing o.tro Q Q' → (Q ∈ S ↔ Q' ∈ S) := by
    intro Q Q' hd h
    refine forall_congr' fun p => forall_congr' fun i => ?_
    rw [(h p p.2).2 i (by rw [hd]; exact i.2)]
  have hstart := ring_start_law _ (fun Q Q' hd h => by
    ext ω
    exact same_ring_loop (reJ J) h2 ep o.Tf o.Gf o.R o.ite S hsame fuel o.Gs Q Q' (toRand ω) hd h) _ hloop
  have hmv : ∑ c, (annealMatrix (ringM o.tro o.qubo.length (quboAt o.qubo.length (entryOf o.qubo)) o.Tf) o.ite gs).mulVec (Pi.single d 1) c =
      ∑ c, annealMatrix (ringM o.tro o.qubo.length (quboAt o.qubo.length (entryOf o.qubo)) o.Tf) o.ite gs c d := by
    refine Finset.sum_congr rfl fun c _ => ?_
    rw [Matrix.mulVec_single]
    simp
  have e : sqaReturns o fuel d = {ω | ofRand (sqaInit o.tro o.qubo.length (toRand ω)).2 ∈
      (fun Q => {ω | ringEv (reJ J) ep o.Tf o.Gf o.R o.tro o.ite fuel o.Gs Q (toRand ω) [] S}) (sqaInit o.tro o.qubo.length (toRand ω)).1} := by
    ext ω
    rw [sqaReturns, Set.mem_setOf_eq, show (⟨ω.1, ω.2.1, ω.2.2⟩ : Rand) = toRand ω from rfl]
    have hrows : (reJ J).rows = o.qubo.length := h2
    simp only [Set.mem_setOf_eq, Opt.sqa, hp, bind, Except.bind, pure, Except.pure, hrows]
    rw [if_neg (by rintro ⟨h | h, -⟩ <;> [exact NeZero.ne o.qubo.length h; exact NeZero.ne o.tro h])]
    have hes : ringEv (reJ J) ep o.Tf o.Gf o.R o.tro o.ite fuel o.Gs (sqaInit o.tro o.qubo.length (toRand ω)).1
        (toRand (ofRand (sqaInit o.tro o.qubo.length (toRand ω)).2)) [] S ↔
      ringEv (reJ J) ep o.Tf o.Gf o.R o.tro o.ite fuel o.Gs (sqaInit o.tro o.qubo.length (toRand ω)).1 (sqaInit o.tro o.qubo.length (toRand ω)).2
        (o.E ++ [eiSqa (sqaInit o.tro o.qubo.length (toRand ω)).1 (reJ J) o.Tf o.tro o.Gs + ep]) S :=
      ⟨fun h => ringEv_es _ _ _ _ _ _ _ _ _ _ _ _ _ _ h, fun h => ringEv_es _ _ _ _ _ _ _ _ _ _ _ _ _ _ h⟩
    rw [hes, ringEv]
    simp only [Except.ok.injEq]
    rfl
  rw [e]
  refine ⟨hstart.1, ?_⟩
  rw [hstart.2, hmv, annealProb, Fintype.card_prod, Fintype.card_fin, Fintype.card_fin]

/-! ## The energy of the ring -/

section
variable {P n : ℕ} [NeZero P] (H : (Fin n → Bool) → ℝ)

/-- Bits that agree with the next slice minus bits that differ. -/
def agree (c : Fin P × Fin n → Bool) : ℝ := ∑ p : Fin P, ∑ i : Fin n, if c (p, i) = c (p + 1, i) then 1 else -1

theorem agree_le (c : Fin P × Fin n → Bool) : agree c ≤ P * n := by
  have : ∀ (p : Fin P) (i : Fin n), (if c (p, i) = c (p + 1, i) then (1 : ℝ) else -1) ≤ 1 := by
    intro p i; split_ifs <;> norm_num
  calc agree c ≤ ∑ p : Fin P, ∑ i : Fin n, (1 : ℝ) := Finset.sum_le_sum fun p _ => Finset.sum_le_sum fun i _ => this p i
    _ = P * n := by simp

theorem agree_eq_iff (c : Fin P × Fin n → Bool) : agree c = P * n ↔ ∃ a : Fin n → Bool, ∀ p i, c (p, i) = a i := by
  constructor
  · intro h
    have hle : ∀ (p : Fin P) (i : Fin n), (if c (p, i) = c (p + 1, i) then (1 : ℝ) else -1) ≤ 1 := by
      intro p i; split_ifs <;> norm_num
    have h1 : ∑ p : Fin P, ∑ i : Fin n, (if c (p, i) = c (p + 1, i) then (1 : ℝ) else -1) = ∑ p : Fin P, ∑ i : Fin n, (1 : ℝ) := by
      rw [show (∑ p : Fin P, ∑ i : Fin n, (1 : ℝ)) = P * n by simp]
      exact h
    have h2 := (Finset.sum_eq_sum_iff_of_le fun p _ => Finset.sum_le_sum fun i _ => hle p i).1 h1
    have h3 : ∀ (p : Fin P) (i : Fin n), c (p, i) = c (p + 1, i) := by
      intro p i
      have := (Finset.sum_eq_sum_iff_of_le fun i _ => hle p i).1 (h2 p (Finset.mem_univ _)) i (Finset.mem_univ _)
      by_contra hne
      rw [if_neg hne] at this
      norm_num at this
    refine ⟨fun i => c (0, i), fun p i => ?_⟩
    have h4 : ∀ (k : ℕ) (hk : k < P), c (⟨k, hk⟩, i) = c (0, i) := by
      intro k
      induction k with
      | zero => intro hk; congr 1
      | succ k ih =>
        intro hk
        have h5 := h3 ⟨k, by omega⟩ i
        rw [ih (by omega)] at h5
        have h6 : (⟨k, by omega⟩ + 1 : Fin P) = ⟨k + 1, hk⟩ := by
          refine Fin.ext ?_
          rw [Fin.val_add, Fin.val_one', Nat.add_mod_mod]
          exact Nat.mod_eq_of_lt hk
        rw [h6] at h5
        exact h5.symm
    exact h4 p p.2
  · rintro ⟨a, ha⟩
    simp [agree, ha]

theorem ringAt_same (κ : ℝ) (c : Fin P × Fin n → Bool) (a : Fin n → Bool) (h : ∀ p i, c (p, i) = a i) :
    ringAt P n H κ c = H a + κ * (P * n) := by
  have hP : (P : ℝ) ≠ 0 := by exact_mod_cast NeZero.ne P
  have h1 := (agree_eq_iff c).2 ⟨a, h⟩
  rw [agree] at h1
  rw [ringAt, h1]
  simp only [h, Finset.sum_const, Finset.card_univ, Fintype.card_fin, nsmul_eq_mul]
  rw [mul_div_cancel_left₀ _ hP]

/-- With two slices or more and a coupling that is not 0 the energy of the ring is not constant. -/
theorem ringAt_not_constant (hP : 2 ≤ P) (hn : 0 < n) (κ : ℝ) (hκ : κ ≠ 0) : ∃ c d, ringAt P n H κ c ≠ ringAt P n H κ d := by
  by_contra hne
  push Not at hne
  have hH : ∀ a b, H a = H b := by
    intro a b
    have := hne (fun x => a x.2) (fun x => b x.2)
    rw [ringAt_same H κ _ a fun _ _ => rfl, ringAt_same H κ _ b fun _ _ => rfl] at this
    linarith
  let c : Fin P × Fin n → Bool := fun x => decide (x.1 = 0)
  have h1 := hne c (fun x => false)
  rw [ringAt_same H κ (fun _ => false) (fun _ => false) fun _ _ => rfl, ringAt] at h1
  have hP' : (P : ℝ) ≠ 0 := by exact_mod_cast NeZero.ne P
  rw [Finset.sum_congr rfl fun p _ => hH (fun i => c (p, i)) fun _ => false] at h1
  simp only [Finset.sum_const, Finset.card_univ, Fintype.card_fin, nsmul_eq_mul] at h1
  rw [mul_div_cancel_left₀ _ hP', add_right_inj] at h1
  have h2 : agree c = P * n := mul_left_cancel₀ hκ h1
  obtain ⟨a, ha⟩ := (agree_eq_iff c).1 h2
  have h3 := (ha 0 ⟨0, hn⟩).trans (ha ⟨1, by omega⟩ ⟨0, hn⟩).symm
  have h4 : (⟨1, by omega⟩ : Fin P) ≠ 0 := by
    intro h
    have := congrArg Fin.val h
    simp at this
  simp [c, h4] at h3

/-- With a strong coupling the slices agree, and their common bits follow the Boltzmann distribution of one slice. -/
theorem ring_boltzmann_tendsto (T : ℝ) (hT : 0 < T) (d : Fin P × Fin n → Bool) :
    Filter.Tendsto (fun κ => boltzmann (ringAt P n H (-κ)) T d) Filter.atTop
      (nhds (open Classical in if ∀ p i, d (p, i) = d (0, i) then boltzmann H T (fun i => d (0, i)) else 0)) := by
  classical
  let w : ℝ → (Fin P × Fin n → Bool) → ℝ := fun κ c =>
    Real.exp (-((∑ p : Fin P, H fun i => c (p, i)) / P) / T) * Real.exp (-(κ * ((P * n - agree c) / T)))
  let l : (Fin P × Fin n → Bool) → ℝ := fun c => if ∀ p i, c (p, i) = c (0, i) then Real.exp (-H (fun i => c (0, i)) / T) else 0
  have hP : (P : ℝ) ≠ 0 := by exact_mod_cast NeZero.ne P
  have hw : ∀ κ c, Real.exp (-ringAt P n H (-κ) c / T) = Real.exp (κ * (P * n) / T) * w κ c := by
    intro κ c
    simp only [w]
    rw [← Real.exp_add, ← Real.exp_add, ringAt]
    congr 1
    rw [agree]
    ring
  have hb : ∀ κ, boltzmann (ringAt P n H (-κ)) T d = w κ d / ∑ c, w κ c := by
    intro κ
    simp only [boltzmann, hw, ← Finset.mul_sum]
    exact mul_div_mul_left _ _ (Real.exp_ne_zero _)
  have hl : ∀ c, Filter.Tendsto (fun κ => w κ c) Filter.atTop (nhds (l c)) := by
    intro c
    by_cases h : ∀ p i, c (p, i) = c (0, i)
    · have h1 : agree c = P * n := (agree_eq_iff c).2 ⟨_, h⟩
      have h2 : ∀ κ, w κ c = l c := by
        intro κ
        simp only [w, l, h1, sub_self, zero_div, mul_zero, neg_zero, Real.exp_zero, mul_one, if_pos h]
        congr 2
        rw [Finset.sum_congr rfl fun p _ => by rw [show (fun i => c (p, i)) = fun i => c (0, i) from funext (h p)]]
        simp only [Finset.sum_const, Finset.card_univ, Fintype.card_fin, nsmul_eq_mul]
        rw [mul_div_cancel_left₀ _ hP]
      simp only [h2]
      exact tendsto_const_nhds
    · have h1 : agree c ≠ P * n := by
        intro h2
        obtain ⟨a, ha⟩ := (agree_eq_iff c).1 h2
        exact h fun p i => (ha p i).trans (ha 0 i).symm
      have h2 : 0 < (P * n - agree c) / T := div_pos (sub_pos.2 (lt_of_le_of_ne (agree_le c) h1)) hT
      simp only [w, l, if_neg h]
      rw [show (0 : ℝ) = Real.exp (-((∑ p : Fin P, H fun i => c (p, i)) / P) / T) * 0 by ring]
      refine Filter.Tendsto.const_mul _ ?_
      exact Real.tendsto_exp_neg_atTop_nhds_zero.comp (Filter.Tendsto.atTop_mul_const h2 Filter.tendsto_id)
  have hsum : ∑ c, l c = ∑ a : Fin n → Bool, Real.exp (-H a / T) := by
    simp only [l]
    rw [← Finset.sum_filter]
    refine Finset.sum_bij' (fun c _ => fun i => c (0, i)) (fun a _ => fun x => a x.2) ?_ ?_ ?_ ?_ ?_
    · intro c _; simp
    · intro a _; simp
    · intro c hc
      funext ⟨p, i⟩
      exact ((Finset.mem_filter.1 hc).2 p i).symm
    · intro a _; rfl
    · intro c _; rfl
  have hpos : 0 < ∑ a : Fin n → Bool, Real.exp (-H a / T) := Finset.sum_pos (fun a _ => Real.exp_pos _) ⟨fun _ => true, Finset.mem_univ _⟩
  have := (hl d).div (tendsto_finset_sum Finset.univ fun c _ => hl c) (by rw [hsum]; exact hpos.ne')
  simp only [hb]
  refine this.congr' ?_ |>.trans ?_
  · exact Filter.Eventually.of_forall fun κ => rfl
  · rw [hsum]
    simp only [l]
    split_ifs with h
    · rfl
    · rw [zero_div]

end

/-- The coupling grows without bound as the field goes to 0. -/
theorem ringCoupling_tendsto (T : ℝ) (hT : 0 < T) (P : ℕ) (hP : 0 < P) :
    Filter.Tendsto (ringCoupling T P) (nhdsWithin 0 (Set.Ioi 0)) Filter.atTop := by
  have hP' : (0 : ℝ) < P := by exact_mod_cast hP
  have h1 : Filter.Tendsto (fun G : ℝ => Real.tanh (G / T / P)) (nhdsWithin 0 (Set.Ioi 0)) (nhdsWithin 0 (Set.Ioi 0)) := by
    rw [tendsto_nhdsWithin_iff]
    constructor
    · have hc : Continuous fun G : ℝ => Real.tanh (G / T / P) := by
        simp only [Real.tanh_eq_sinh_div_cosh]
        exact (Real.continuous_sinh.comp (by fun_prop)).div (Real.continuous_cosh.comp (by fun_prop)) fun G => (Real.cosh_pos _).ne'
      have := hc.tendsto 0
      simp only [zero_div, Real.tanh_zero] at this
      exact this.mono_left nhdsWithin_le_nhds
    · filter_upwards [self_mem_nhdsWithin] with G hG
      have h0 : 0 < G / T / P := div_pos (div_pos hG hT) hP'
      rw [Set.mem_Ioi, Real.tanh_eq_sinh_div_cosh]
      exact div_pos (Real.sinh_pos_iff.2 h0) (Real.cosh_pos _)
  have h2 : Filter.Tendsto (fun G : ℝ => 1 / Real.tanh (G / T / P)) (nhdsWithin 0 (Set.Ioi 0)) Filter.atTop := by
    simp only [one_div]
    exact tendsto_inv_nhdsGT_zero.comp h1
  have h3 := Real.tendsto_log_atTop.comp h2
  exact Filter.Tendsto.const_mul_atTop (by positivity) h3

/-! ## Limits -/

/-- C107. With more and more steps per field the distribution of the returned spins tends to the Boltzmann distribution, at
temperature `Tf`, of the energy of the ring at the last field. -/
theorem C107_limit (hq : ∀ row ∈ o.qubo, o.qubo.length ≤ row.length) (ht : 2 ≤ o.tro) (hT : 0 < o.Tf) (gs : List ℝ) (G : ℝ)
    (hgs : Schedule o.R o.Gf o.Gs (gs ++ [G])) (hpos : ∀ g ∈ gs ++ [G], 0 < g) (fuel : ℕ) (hf : gs.length < fuel)
    (d : Fin o.tro × Fin o.qubo.length → Bool) :
    Filter.Tendsto (fun k => (draws (o.tro * o.qubo.length)).real (sqaReturns { o with ite := k } fuel d)) Filter.atTop
      (nhds (boltzmann (ringAt o.tro o.qubo.length (quboAt o.qubo.length (entryOf o.qubo)) (-ringCoupling o.Tf o.tro G))
        o.Tf d)) := by
  rw [Metric.tendsto_atTop]
  intro ε hε
  have hn0 : 0 < o.qubo.length := Nat.pos_of_ne_zero (NeZero.ne o.qubo.length)
  have hn : 0 < Fintype.card (Fin o.tro × Fin o.qubo.length) := by
    rw [Fintype.card_prod, Fintype.card_fin, Fintype.card_fin]
    exact Nat.mul_pos (by omega) hn0
  have hne := ringAt_not_constant (P := o.tro) (quboAt o.qubo.length (entryOf o.qubo)) ht hn0 (-ringCoupling o.Tf o.tro G)
    (neg_ne_zero.2 (ringCoupling_pos o.Tf o.tro G hT (by omega) (hpos G (by simp))).ne')
  obtain ⟨k0, hk0⟩ := start_tendsto (ringAt o.tro o.qubo.length (quboAt o.qubo.length (entryOf o.qubo)) (-ringCoupling o.Tf o.tro G))
    (fun g => metropolisMatrix (ringAt o.tro o.qubo.length (quboAt o.qubo.length (entryOf o.qubo)) (-ringCoupling o.Tf o.tro g)) o.Tf)
    (fun g => metropolis_stoch _ _ hn) hn o.Tf hT G rfl (.inl hne) gs d (ε / 2) (half_pos hε)
  refine ⟨k0, fun k hk => ?_⟩
  have := (C107_run { o with ite := k } hq ht hT (gs ++ [G]) hgs hpos fuel (by simp; omega) d).2
  rw [this, Real.dist_eq]
  exact (hk0 k hk).trans_lt (half_lt_self hε)

/-- C107. As the final field goes to 0 and the number of steps per field grows, all slices that `sqa` returns agree, and their
common bits follow the Boltzmann distribution of the energy of the QUBO at temperature `Tf`. -/
theorem C107_classical (hq : ∀ row ∈ o.qubo, o.qubo.length ≤ row.length) (ht : 2 ≤ o.tro) (hT : 0 < o.Tf) (hR : 0 < o.R)
    (hR1 : o.R < 1) (hGs : 0 < o.Gs) (ε : ℝ) (hε : 0 < ε) :
    ∃ g0 > 0, ∀ Gf, 0 < Gf → Gf < g0 → ∃ fuel0, ∀ fuel ≥ fuel0, ∃ k0, ∀ k ≥ k0, ∀ d : Fin o.tro × Fin o.qubo.length → Bool,
      |(draws (o.tro * o.qubo.length)).real (sqaReturns { o with Gf := Gf, ite := k } fuel d) -
        (open Classical in if ∀ p i, d (p, i) = d (0, i) then
          boltzmann (quboAt o.qubo.length (entryOf o.qubo)) o.Tf (fun i => d (0, i)) else 0)| ≤ ε := by
  classical
  generalize hH : quboAt o.qubo.length (entryOf o.qubo) = H
  have hlim := fun d : Fin o.tro × Fin o.qubo.length → Bool =>
    (ring_boltzmann_tendsto H o.Tf hT d).comp (ringCoupling_tendsto o.Tf hT o.tro (by omega))
  have hev : ∀ᶠ G in nhdsWithin (0 : ℝ) (Set.Ioi 0), ∀ d : Fin o.tro × Fin o.qubo.length → Bool,
      |boltzmann (ringAt o.tro o.qubo.length H (-ringCoupling o.Tf o.tro G)) o.Tf d -
        (if ∀ p i, d (p, i) = d (0, i) then boltzmann H o.Tf (fun i => d (0, i)) else 0)| < ε / 2 := by
    rw [Filter.eventually_all]
    intro d
    exact (Metric.tendsto_nhds.1 (hlim d)) (ε / 2) (half_pos hε)
  rw [eventually_nhdsWithin_iff, Metric.eventually_nhds_iff] at hev
  obtain ⟨δ, hδ, hev⟩ := hev
  refine ⟨min (δ * o.R) o.Gs, lt_min (mul_pos hδ hR) hGs, fun Gf h0 hg => ?_⟩
  obtain ⟨gs, G, hs1, hs2, hs3⟩ := schedule_exists o.R Gf hR hR1 h0 o.Gs (hg.trans_le (min_le_right _ _))
  have hGpos : 0 < G := h0.trans (hs2 G (by simp))
  have hGδ : G < δ := by
    have : G * o.R < δ * o.R := hs3.trans_lt (hg.trans_le (min_le_left _ _))
    exact lt_of_mul_lt_mul_right this hR.le
  have hb := hev (by rw [Real.dist_eq, sub_zero, abs_of_pos hGpos]; exact hGδ) hGpos
  refine ⟨gs.length + 1, fun fuel hf => ?_⟩
  have hpos : ∀ g ∈ gs ++ [G], 0 < g := fun g hg => h0.trans (hs2 g hg)
  have hl : ∀ᶠ k in Filter.atTop, ∀ d : Fin o.tro × Fin o.qubo.length → Bool,
      |(draws (o.tro * o.qubo.length)).real (sqaReturns { o with Gf := Gf, ite := k } fuel d) -
        boltzmann (ringAt o.tro o.qubo.length H (-ringCoupling o.Tf o.tro G)) o.Tf d| < ε / 2 := by
    rw [Filter.eventually_all]
    intro d
    have := C107_limit { o with Gf := Gf } hq ht hT gs G hs1 hpos fuel (by omega) d
    rw [← hH]
    exact (Metric.tendsto_nhds.1 this) (ε / 2) (half_pos hε)
  obtain ⟨k0, hk0⟩ := Filter.eventually_atTop.1 hl
  refine ⟨k0, fun k hk d => ?_⟩
  have h1 := hk0 k hk d
  have h2 := hb d
  have h3 := abs_sub_le ((draws (o.tro * o.qubo.length)).real (sqaReturns { o with Gf := Gf, ite := k } fuel d))
    (boltzmann (ringAt o.tro o.qubo.length H (-ringCoupling o.Tf o.tro G)) o.Tf d)
    (if ∀ p i, d (p, i) = d (0, i) then boltzmann H o.Tf (fun i => d (0, i)) else 0)
  linarith

/-! ## Examples -/

instance : NeZero (({ qubo := [[1, -3], [0, 1]] } : Opt).tro) := ⟨by simp⟩

/-- One field: two slices of two bits, from random spins by 7 steps. -/
example (d : Fin 2 × Fin 2 → Bool) (fuel : ℕ) (h : 1 ≤ fuel) :
    (draws (2 * 2)).real (sqaReturns { qubo := [[1, -3], [0, 1]], tro := 2, Gs := 10, Gf := 9.9, ite := 7 } fuel d) =
      annealProb (fun G => metropolisMatrix (ringAt 2 2 (quboAt 2 (entryOf [[1, -3], [0, 1]])) (-ringCoupling 0.02 2 G)) 0.02) 7
        [10] d := by
  haveI : NeZero (({ qubo := [[1, -3], [0, 1]], tro := 2, Gs := 10, Gf := 9.9, ite := 7 } : Opt).qubo.length) := ⟨by simp⟩
  haveI : NeZero (({ qubo := [[1, -3], [0, 1]], tro := 2, Gs := 10, Gf := 9.9, ite := 7 } : Opt).tro) := ⟨by simp⟩
  exact (C107_run ({ qubo := [[1, -3], [0, 1]], tro := 2, Gs := 10, Gf := 9.9, ite := 7 } : Opt) (by simp) (by norm_num)
    (by norm_num) [10] (.step (by norm_num) (.stop (by norm_num))) (by norm_num) fuel h d).2

/-- The default options. -/
example (ε : ℝ) (hε : 0 < ε) : ∃ g0 > 0, ∀ Gf, 0 < Gf → Gf < g0 → ∃ fuel0, ∀ fuel ≥ fuel0, ∃ k0, ∀ k ≥ k0,
    (draws (8 * 2)).real (sqaReturns { qubo := [[1, -3], [0, 1]], Gf := Gf, ite := k } fuel fun x => decide (x.1 = 0)) ≤ ε := by
  obtain ⟨g0, h0, h⟩ := C107_classical ({ qubo := [[1, -3], [0, 1]] } : Opt) (by simp) (by norm_num) (by norm_num) (by norm_num)
    (by norm_num) (by norm_num) ε hε
  refine ⟨g0, h0, fun Gf h1 h2 => ?_⟩
  obtain ⟨f, hf⟩ := h Gf h1 h2
  refine ⟨f, fun fuel hfu => ?_⟩
  obtain ⟨k0, hk⟩ := hf fuel hfu
  refine ⟨k0, fun k hk' => ?_⟩
  have := hk k hk' fun x => decide (x.1 = 0)
  rw [if_neg (by
    intro h
    have := h ⟨1, by norm_num⟩ ⟨0, by norm_num⟩
    revert this
    decide), sub_zero] at this
  exact (le_abs_self _).trans this

end

end Blueqat
