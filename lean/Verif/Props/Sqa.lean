import Verif.Props.Anneal
import Mathlib.Algebra.BigOperators.Field
import Mathlib.Analysis.SpecialFunctions.Trigonometric.DerivHyp

/-!
# Property C50: quantum annealing
-/

set_option linter.unusedSimpArgs false
set_option linter.unusedVariables false

namespace Blueqat

open Spec Finset

noncomputable section

theorem eiSqa_eq (q : ℕ → NpInts) (n : ℕ) (hd : ∀ p, (q p).dim = n) (J : NpMat) (T : ℝ) (P : ℕ) (G : ℝ) :
    eiSqa q J T P G = (∑ p ∈ range P, isingEnergy n J.ent (fun i => ((q p).ent i : ℝ))) / P +
      ringCoupling T P G * ringSum P n (fun p i => ((q p).ent i : ℝ)) := by
  rw [eiSqa]
  have e : ∀ (l : List ℕ) (s : ℝ), l.foldl (fun e p => e + ei (q p) J / P + T / 2 * Real.log (1 / Real.tanh (G / T / P)) *
      ((List.range (q p).dim).map (fun x => ((q p).ent x : ℝ) * (q ((p + 1 + P) % P)).ent x)).sum) s =
      s + (l.map (fun p => isingEnergy n J.ent (fun i => ((q p).ent i : ℝ)) / P + ringCoupling T P G *
        ∑ x ∈ range n, ((q p).ent x : ℝ) * (q ((p + 1) % P)).ent x)).sum := by
    intro l
    induction l with
    | nil => simp
    | cons a l ih =>
      intro s
      rw [List.foldl_cons, ih, List.map_cons, List.sum_cons, ei_eq, hd, list_range_sum, Nat.add_mod_right, ringCoupling]
      ring
  rw [e, zero_add, list_range_sum, Finset.sum_add_distrib, ringSum, Finset.mul_sum, Finset.sum_div]

theorem ring_next (P y : ℕ) (hP : 2 ≤ P) (hy : y < P) : (y + 1) % P ≠ y ∧ (P + y - 1) % P ≠ y ∧ (P + y - 1) % P < P ∧
    ((P + y - 1) % P + 1) % P = y ∧ ∀ p < P, (p + 1) % P = y → p = (P + y - 1) % P := by
  have h1 : ∀ p < P, (p + 1) % P = if p + 1 = P then 0 else p + 1 := by
    intro p hp
    by_cases h : p + 1 = P
    · rw [if_pos h, h, Nat.mod_self]
    · rw [if_neg h, Nat.mod_eq_of_lt (by omega)]
  have h2 : (P + y - 1) % P = if y = 0 then P - 1 else y - 1 := by
    by_cases h : y = 0
    · rw [if_pos h, h, Nat.mod_eq_of_lt (by omega)]; omega
    · rw [if_neg h, show P + y - 1 = P + (y - 1) by omega, Nat.add_mod_left, Nat.mod_eq_of_lt (by omega)]
  have h3 : (P + y - 1) % P < P := Nat.mod_lt _ (by omega)
  refine ⟨?_, ?_, h3, ?_, ?_⟩
  · rw [h1 y hy]; split_ifs <;> omega
  · rw [h2]; split_ifs <;> omega
  · rw [h1 _ h3, h2]; split_ifs <;> omega
  · intro p hp h
    rw [h1 p hp] at h
    rw [h2]
    split_ifs at h ⊢ <;> omega

/-- The change of the sum of neighbouring products when one entry changes sign. -/
theorem ringSum_flip (P n : ℕ) (hP : 2 ≤ P) (s : ℕ → ℕ → ℝ) (y x : ℕ) (hy : y < P) (hx : x < n) :
    ringSum P n (fun p i => if p = y ∧ i = x then -(s p i) else s p i) - ringSum P n s =
      -2 * (s y x * (s ((P + y - 1) % P) x + s ((y + 1) % P) x)) := by
  obtain ⟨h1, h2, h3, h4, h5⟩ := ring_next P y hP hy
  rw [ringSum, ringSum, ← Finset.sum_sub_distrib]
  have e : ∀ p ∈ range P, (∑ i ∈ range n, (if p = y ∧ i = x then -(s p i) else s p i) *
      (if (p + 1) % P = y ∧ i = x then -(s ((p + 1) % P) i) else s ((p + 1) % P) i)) -
      ∑ i ∈ range n, s p i * s ((p + 1) % P) i =
      (if p = y then -(s p x) else s p x) * (if (p + 1) % P = y then -(s ((p + 1) % P) x) else s ((p + 1) % P) x) -
        s p x * s ((p + 1) % P) x := by
    intro p _
    rw [← Finset.sum_sub_distrib, Finset.sum_eq_single x]
    · simp
    · intro i _ hi; simp [hi]
    · intro hh; exact absurd (by simpa using hx) hh
  rw [Finset.sum_congr rfl e, Finset.sum_eq_add y ((P + y - 1) % P) (Ne.symm h2)]
  · rw [if_pos rfl, if_neg h1, if_neg h2, h4, if_pos rfl]; ring
  · intro p hp hpp
    rw [if_neg hpp.1, if_neg]
    · ring
    · intro h; exact hpp.2 (h5 p (by simpa using hp) h)
  · intro hh; exact absurd (by simpa using hy) hh
  · intro hh; exact absurd (by simpa using h3) hh

theorem sqaDelta_eq (J : NpMat) (T : ℝ) (P : ℕ) (G : ℝ) (q : ℕ → NpInts) (x y : ℕ) (hx : x < (q y).dim) :
    sqaDelta (reJ J) T P G q x y = saDelta (reJ J) (q y) x / P +
      2 * ringCoupling T P G * (((q y).ent x : ℝ) * ((q ((P + y - 1) % P)).ent x + (q ((y + 1) % P)).ent x)) := by
  rw [sqaDelta]
  have e : ∀ (l : List ℕ) (s : ℝ), l.foldl (fun dE j =>
      if j = x then dE + -2 * ((q y).ent x : ℝ) * (reJ J).ent x x / P
      else dE + -2 * ((q y).ent j : ℝ) * (q y).ent x * (reJ J).ent j x / P) s =
      s + -2 * (l.map (fun j => ((q y).ent j : ℝ) * (if j = x then 1 else ((q y).ent x : ℝ)) * (reJ J).ent j x)).sum / P := by
    intro l
    induction l with
    | nil => simp
    | cons a l ih =>
      intro s
      rw [List.foldl_cons, ih, List.map_cons, List.sum_cons]
      by_cases h : a = x
      · subst h; simp; ring
      · simp [h]; ring
  rw [e, saDelta, ringCoupling]; ring

/-- The energy recorded by `sqa` has coupling `+κ`, with `κ = (T/2) log coth(G/(T P))`. -/
theorem C50_recorded (q : ℕ → NpInts) (n : ℕ) (hd : ∀ p, (q p).dim = n) (J : NpMat) (T : ℝ) (P : ℕ) (G : ℝ) :
    eiSqa q (reJ J) T P G = (∑ p ∈ range P, isingEnergy n J.ent (fun i => ((q p).ent i : ℝ))) / P +
      ringCoupling T P G * ringSum P n (fun p i => ((q p).ent i : ℝ)) := by
  rw [eiSqa_eq q n hd]
  congr 2
  refine Finset.sum_congr rfl (fun p _ => ?_)
  rw [isingEnergy, isingEnergy]
  congr 1
  · refine Finset.sum_congr rfl (fun i _ => ?_)
    simp [reJ, NpMat.add, NpMat.triu, NpMat.transpose]
  · refine Finset.sum_congr rfl (fun i _ => Finset.sum_congr rfl (fun j _ => ?_))
    by_cases h : i < j
    · have h1 : ¬ j < i := by omega
      simp [reJ, NpMat.add, NpMat.triu, NpMat.transpose, h, h.le, h1]
    · simp [h]

/-- C50, partial: the change `dE` is the change of the energy with coupling `-κ` (two slices or more). Missing: the energy
which `sqa` records has coupling `+κ` (`C50_recorded`), so `dE` is not its change (`C50_refuted`, `C50_gap`). -/
theorem C50_delta_partial (J : NpMat) (T : ℝ) (P : ℕ) (G : ℝ) (q : ℕ → NpInts) (n : ℕ) (hd : ∀ p, (q p).dim = n)
    (hP : 2 ≤ P) (x y : ℕ) (hx : x < n) (hy : y < P) :
    sqaDelta (reJ J) T P G q x y =
      ((∑ p ∈ range P, isingEnergy n J.ent (fun i => (((if p = y then (q p).flip x else q p).ent i : ℤ) : ℝ))) / P -
        ringCoupling T P G * ringSum P n (fun p i => (((if p = y then (q p).flip x else q p).ent i : ℤ) : ℝ))) -
      ((∑ p ∈ range P, isingEnergy n J.ent (fun i => ((q p).ent i : ℝ))) / P -
        ringCoupling T P G * ringSum P n (fun p i => ((q p).ent i : ℝ))) := by
  have hf : (fun p i => (((if p = y then (q p).flip x else q p).ent i : ℤ) : ℝ)) =
      fun p i => if p = y ∧ i = x then -((q p).ent i : ℝ) else ((q p).ent i : ℝ) := by
    funext p i
    by_cases h1 : p = y <;> by_cases h2 : i = x <;> simp [h1, h2, NpInts.flip]
  have hr := ringSum_flip P n hP (fun p i => ((q p).ent i : ℝ)) y x hy hx
  have hs : (∑ p ∈ range P, isingEnergy n J.ent (fun i => (((if p = y then (q p).flip x else q p).ent i : ℤ) : ℝ))) -
      (∑ p ∈ range P, isingEnergy n J.ent (fun i => ((q p).ent i : ℝ))) = saDelta (reJ J) (q y) x := by
    rw [C49_delta J (q y) x (by rw [hd]; exact hx), ← Finset.sum_sub_distrib, Finset.sum_eq_single y]
    · simp [hd]
    · intro p _ hp; simp [hp]
    · intro hh; exact absurd (by simpa using hy) hh
  rw [sqaDelta_eq J T P G q x y (by rw [hd]; exact hx), hf, ← hs]
  beta_reduce at hr
  linear_combination (ringCoupling T P G) * hr

/-- C50. The difference between `dE` and the change of the recorded energy. -/
theorem C50_gap (J : NpMat) (T : ℝ) (P : ℕ) (G : ℝ) (q : ℕ → NpInts) (n : ℕ) (hd : ∀ p, (q p).dim = n)
    (hP : 2 ≤ P) (x y : ℕ) (hx : x < n) (hy : y < P) :
    sqaDelta (reJ J) T P G q x y -
      (eiSqa (fun p => if p = y then (q p).flip x else q p) (reJ J) T P G - eiSqa q (reJ J) T P G) =
    4 * ringCoupling T P G * (((q y).ent x : ℝ) * ((q ((P + y - 1) % P)).ent x + (q ((y + 1) % P)).ent x)) := by
  have hf : (fun p i => (((if p = y then (q p).flip x else q p).ent i : ℤ) : ℝ)) =
      fun p i => if p = y ∧ i = x then -((q p).ent i : ℝ) else ((q p).ent i : ℝ) := by
    funext p i
    by_cases h1 : p = y <;> by_cases h2 : i = x <;> simp [h1, h2, NpInts.flip]
  have hr := ringSum_flip P n hP (fun p i => ((q p).ent i : ℝ)) y x hy hx
  rw [C50_delta_partial J T P G q n hd hP x y hx hy, C50_recorded q n hd,
    C50_recorded (fun p => if p = y then (q p).flip x else q p) n (by intro p; split_ifs <;> simp [NpInts.flip, hd])]
  beta_reduce at hr ⊢
  rw [hf]
  linear_combination (-2 * ringCoupling T P G) * hr

theorem ringCoupling_pos (T : ℝ) (P : ℕ) (G : ℝ) (hT : 0 < T) (hP : 0 < P) (hG : 0 < G) : 0 < ringCoupling T P G := by
  have h0 : 0 < G / T / P := div_pos (div_pos hG hT) (by exact_mod_cast hP)
  have h1 : 0 < Real.tanh (G / T / P) := by
    rw [Real.tanh_eq_sinh_div_cosh]
    exact div_pos (Real.sinh_pos_iff.2 h0) (Real.cosh_pos _)
  have h2 : Real.tanh (G / T / P) < 1 := by
    rw [Real.tanh_eq_sinh_div_cosh, div_lt_one (Real.cosh_pos _)]
    exact Real.sinh_lt_cosh _
  rw [ringCoupling]
  refine mul_pos (by linarith) (Real.log_pos ?_)
  rw [lt_div_iff₀ h1]; linarith

/-- C50 is false of the code: for every positive temperature and field and two or more slices there is a state (all spins up)
where `dE` differs from the change of the recorded energy, whatever the couplings. -/
theorem C50_refuted (J : NpMat) (T : ℝ) (P : ℕ) (G : ℝ) (n : ℕ) (hT : 0 < T) (hP : 2 ≤ P) (hG : 0 < G)
    (x y : ℕ) (hx : x < n) (hy : y < P) :
    ∃ q : ℕ → NpInts, (∀ p, (q p).dim = n ∧ IsSpins (q p)) ∧
      sqaDelta (reJ J) T P G q x y ≠
        eiSqa (fun p => if p = y then (q p).flip x else q p) (reJ J) T P G - eiSqa q (reJ J) T P G := by
  refine ⟨fun _ => ⟨n, fun _ => 1⟩, fun p => ⟨rfl, fun i _ => .inl rfl⟩, ?_⟩
  intro h
  have := C50_gap J T P G (fun _ => ⟨n, fun _ => 1⟩) n (fun _ => rfl) hP x y hx hy
  rw [h, sub_self] at this
  have hc := ringCoupling_pos T P G hT (by omega) hG
  norm_num at this
  exact hc.ne' this

/-! ## The run -/

/-- The assignments of the slices. -/
def confs (q : ℕ → NpInts) : ℕ → ℕ → Bool := fun p => conf (q p)

theorem ring_spins (P n : ℕ) (hP : 0 < P) (q : ℕ → NpInts) (hd : ∀ p, (q p).dim = n) (hs : ∀ p, IsSpins (q p)) :
    ringSum P n (fun p i => ((q p).ent i : ℝ)) = ringSum P n (fun p => spinsOf (confs q p)) := by
  have e : ∀ p i, i < n → ((q p).ent i : ℝ) = spinsOf (confs q p) i := by
    intro p i hi
    rcases hs p i (by rw [hd]; exact hi) with h | h <;> simp [spinsOf, confs, conf, h]
  rw [ringSum, ringSum]
  refine Finset.sum_congr rfl (fun p _ => Finset.sum_congr rfl (fun i hi => ?_))
  rw [e _ _ (by simpa using hi), e _ _ (by simpa using hi)]

theorem ring_energy (P n : ℕ) (hP : 0 < P) (J : NpMat) (ep : ℝ) (H : (ℕ → Bool) → ℝ)
    (hH : ∀ q : NpInts, q.dim = n → IsSpins q → isingEnergy n J.ent (fun i => (q.ent i : ℝ)) + ep = H (conf q))
    (κ : ℝ) (q : ℕ → NpInts) (hd : ∀ p, (q p).dim = n) (hs : ∀ p, IsSpins (q p)) :
    (∑ p ∈ range P, isingEnergy n J.ent (fun i => ((q p).ent i : ℝ))) / P +
      κ * ringSum P n (fun p i => ((q p).ent i : ℝ)) + ep = ringEnergy P n H κ (confs q) := by
  rw [ringEnergy, ring_spins P n hP q hd hs]
  have e : ∑ p ∈ range P, H (confs q p) = (∑ p ∈ range P, isingEnergy n J.ent (fun i => ((q p).ent i : ℝ))) + P * ep := by
    have e' : ∀ p ∈ range P, H (confs q p) = isingEnergy n J.ent (fun i => ((q p).ent i : ℝ)) + ep :=
      fun p _ => (hH (q p) (hd p) (hs p)).symm
    rw [Finset.sum_congr rfl e', Finset.sum_add_distrib]
    simp
  have hP' : (P : ℝ) ≠ 0 := by exact_mod_cast hP.ne'
  rw [e, add_div, mul_div_cancel_left₀ _ hP']; ring

theorem confs_flip (q : ℕ → NpInts) (x y n : ℕ) (hd : ∀ p, (q p).dim = n) (hx : x < n) (hs : ∀ p, IsSpins (q p)) :
    confs (fun p => if p = y then (q p).flip x else q p) = flipSlice (confs q) y x := by
  funext p
  by_cases h : p = y
  · simp only [confs, flipSlice, if_pos h]
    exact conf_flip _ _ (by rw [hd]; exact hx) (hs p)
  · simp only [confs, flipSlice, if_neg h]

open Classical in
theorem sqaStep_metropolis (J : NpMat) (ep : ℝ) (H : (ℕ → Bool) → ℝ) (P : ℕ) (hP : 2 ≤ P)
    (hJ : 0 < J.rows)
    (hH : ∀ q : NpInts, q.dim = J.rows → IsSpins q →
      isingEnergy J.rows J.ent (fun i => (q.ent i : ℝ)) + ep = H (conf q))
    (T G : ℝ) (q : ℕ → NpInts) (r : Rand) (hd : ∀ p, (q p).dim = J.rows) (hs : ∀ p, IsSpins (q p)) :
    (∀ p, ((sqaStep (reJ J) T P G (q, r)).1 p).dim = J.rows) ∧ (∀ p, IsSpins ((sqaStep (reJ J) T P G (q, r)).1 p)) ∧
    ∃ y x u, y < P ∧ x < J.rows ∧ Metropolis (ringEnergy P J.rows H (-ringCoupling T P G)) T u (confs q)
      (flipSlice (confs q) y x) (confs (sqaStep (reJ J) T P G (q, r)).1) := by
  set x := r.ints 0 % J.rows with hxd
  set y := r.ints 1 % P with hyd
  have hx : x < J.rows := Nat.mod_lt _ hJ
  have hy : y < P := Nat.mod_lt _ (by omega)
  have hd' : ∀ p, ((fun p => if p = y then (q p).flip x else q p) p).dim = J.rows := by
    intro p; dsimp only; split_ifs <;> simp [NpInts.flip, hd]
  have hs' : ∀ p, IsSpins ((fun p => if p = y then (q p).flip x else q p) p) := by
    intro p; dsimp only; split_ifs
    · exact isSpins_flip _ _ (hs p)
    · exact hs p
  have e : sqaDelta (reJ J) T P G q x y = ringEnergy P J.rows H (-ringCoupling T P G) (flipSlice (confs q) y x) -
      ringEnergy P J.rows H (-ringCoupling T P G) (confs q) := by
    rw [C50_delta_partial J T P G q J.rows hd hP x y hx hy, ← confs_flip q x y J.rows hd hx hs,
      ← ring_energy P J.rows (by omega) J ep H hH _ q hd hs, ← ring_energy P J.rows (by omega) J ep H hH _ _ hd' hs']
    ring
  have e2 : (sqaStep (reJ J) T P G (q, r)).1 = if (ringEnergy P J.rows H (-ringCoupling T P G) (flipSlice (confs q) y x) <
      ringEnergy P J.rows H (-ringCoupling T P G) (confs q) ∨ r.reals 0 < Real.exp (-(ringEnergy P J.rows H
        (-ringCoupling T P G) (flipSlice (confs q) y x) - ringEnergy P J.rows H (-ringCoupling T P G) (confs q)) / T)) then
      fun p => if p = y then (q p).flip x else q p else q := by
    have : (sqaStep (reJ J) T P G (q, r)).1 = if (accept (sqaDelta (reJ J) T P G q x y) T r).1 then
      fun p => if p = y then (q p).flip x else q p else q := rfl
    rw [this]
    simp only [accept, e, sub_neg, Rand.real, gt_iff_lt]
  rw [e2]
  by_cases h : (ringEnergy P J.rows H (-ringCoupling T P G) (flipSlice (confs q) y x) <
      ringEnergy P J.rows H (-ringCoupling T P G) (confs q) ∨ r.reals 0 < Real.exp (-(ringEnergy P J.rows H
        (-ringCoupling T P G) (flipSlice (confs q) y x) - ringEnergy P J.rows H (-ringCoupling T P G) (confs q)) / T))
  · rw [if_pos h]
    exact ⟨hd', hs', y, x, r.reals 0, hy, hx, .inl ⟨h, confs_flip q x y J.rows hd hx hs⟩⟩
  · rw [if_neg h]
    exact ⟨hd, hs, y, x, r.reals 0, hy, hx, .inr ⟨h, rfl⟩⟩

theorem sqaSweep_ok (J : NpMat) (ep : ℝ) (H : (ℕ → Bool) → ℝ) (P : ℕ) (hP : 2 ≤ P) (hJ : 0 < J.rows)
    (hH : ∀ q : NpInts, q.dim = J.rows → IsSpins q →
      isingEnergy J.rows J.ent (fun i => (q.ent i : ℝ)) + ep = H (conf q)) (T G : ℝ) :
    ∀ (k : ℕ) (s : (ℕ → NpInts) × Rand), (∀ p, (s.1 p).dim = J.rows) → (∀ p, IsSpins (s.1 p)) →
      (∀ p, ((sqaSweep (reJ J) T P G k s).1 p).dim = J.rows) ∧ (∀ p, IsSpins ((sqaSweep (reJ J) T P G k s).1 p)) ∧
      RingSweep (ringEnergy P J.rows H (-ringCoupling T P G)) T P J.rows k (confs s.1)
        (confs (sqaSweep (reJ J) T P G k s).1)
  | 0, s, hd, hs => ⟨hd, hs, .nil _⟩
  | k + 1, s, hd, hs => by
    obtain ⟨h1, h2, y, x, u, hy, hx, h3⟩ := sqaStep_metropolis J ep H P hP hJ hH T G s.1 s.2 hd hs
    obtain ⟨h4, h5, h6⟩ := sqaSweep_ok J ep H P hP hJ hH T G k (sqaStep (reJ J) T P G s) h1 h2
    exact ⟨h4, h5, .step y x u hy hx h3 h6⟩

theorem sqaLoop_ok (J : NpMat) (ep : ℝ) (H : (ℕ → Bool) → ℝ) (P : ℕ) (hP : 2 ≤ P) (hJ : 0 < J.rows)
    (hH : ∀ q : NpInts, q.dim = J.rows → IsSpins q →
      isingEnergy J.rows J.ent (fun i => (q.ent i : ℝ)) + ep = H (conf q)) (T Gf R : ℝ) (ite : ℕ) :
    ∀ (fuel : ℕ) (G : ℝ) (s : (ℕ → NpInts) × Rand) (es : List ℝ) (res : (ℕ → NpInts) × List ℝ),
      (∀ p, (s.1 p).dim = J.rows) → (∀ p, IsSpins (s.1 p)) →
      sqaLoop (reJ J) ep T Gf R P ite fuel G s es = some res →
      (∀ p, (res.1 p).dim = J.rows) ∧ (∀ p, IsSpins (res.1 p)) ∧ ∃ es', res.2 = es ++ es' ∧
        RingAnneal (fun G => ringEnergy P J.rows H (-ringCoupling T P G)) (fun G => ringEnergy P J.rows H (ringCoupling T P G))
          T P J.rows ite R Gf G (confs s.1) es' (confs res.1) := by
  intro fuel
  induction fuel with
  | zero =>
    intro G s es res hd hs h
    rw [sqaLoop] at h
    by_cases hG : G > Gf
    · simp [hG] at h
    · rw [if_neg hG] at h
      cases h
      exact ⟨hd, hs, [], by simp, .stop hG⟩
  | succ fuel ih =>
    intro G s es res hd hs h
    rw [sqaLoop] at h
    by_cases hG : G > Gf
    · rw [if_pos hG] at h
      simp only at h
      obtain ⟨h1, h2, h3⟩ := sqaSweep_ok J ep H P hP hJ hH T G ite s hd hs
      obtain ⟨h4, h5, es', h6, h7⟩ := ih _ _ _ _ h1 h2 h
      refine ⟨h4, h5, _ :: es', ?_, .sweep hG h3 h7⟩
      rw [h6, List.append_assoc, List.singleton_append, C50_recorded _ _ h1,
        ring_energy P J.rows (by omega) J ep H hH _ _ h1 h2]
    · rw [if_neg hG] at h
      cases h
      exact ⟨hd, hs, [], by simp, .stop hG⟩

/-- C50, partial: `sqa` is quantum annealing on the energy of the QUBO with coupling `-κ`; what it appends to `E` are the
energies with coupling `+κ`. Missing: the energies recorded are not the ones that decide the moves. -/
theorem C50_run_partial (o : Opt) (hne : o.qubo ≠ []) (hq : ∀ row ∈ o.qubo, o.qubo.length ≤ row.length) (ht : 2 ≤ o.tro)
    (r : Rand) (fuel : ℕ) (q : ℕ → NpInts) (es : List ℝ) (h : o.sqa r fuel = .ok (some (q, es))) :
    (∀ p, (q p).dim = o.qubo.length ∧ IsSpins (q p)) ∧ ∃ c es',
      es = o.E ++ ringEnergy o.tro o.qubo.length (fun c => upperEnergy o.qubo.length (entryOf o.qubo) (bitVals c))
        (ringCoupling o.Tf o.tro o.Gs) c :: es' ∧
      RingAnneal
        (fun G => ringEnergy o.tro o.qubo.length (fun c => upperEnergy o.qubo.length (entryOf o.qubo) (bitVals c))
          (-ringCoupling o.Tf o.tro G))
        (fun G => ringEnergy o.tro o.qubo.length (fun c => upperEnergy o.qubo.length (entryOf o.qubo) (bitVals c))
          (ringCoupling o.Tf o.tro G))
        o.Tf o.tro o.qubo.length o.ite o.R o.Gf o.Gs c es' (confs q) := by
  obtain ⟨J, ep, h1, h2, h3, h4⟩ := C48_qi o.qubo hq
  have hp : o.prepare = .ok { o with J := J, ep := ep } := by
    simp only [Opt.prepare, if_neg hne, h1, bind, Except.bind, pure, Except.pure]
  have hJ : 0 < J.rows := by rw [h2]; exact List.length_pos_iff.2 hne
  have hH : ∀ q : NpInts, q.dim = J.rows → IsSpins q → isingEnergy J.rows J.ent (fun i => (q.ent i : ℝ)) + ep =
      (fun c => upperEnergy o.qubo.length (entryOf o.qubo) (bitVals c)) (conf q) := by
    intro q hd hs
    have := h4 q (hd.trans h2) hs
    rw [ei_eq] at this
    beta_reduce
    rw [← hd, this]
    congr 1
    funext i
    simp [bitVals, conf]
  have hrows : (reJ J).rows = J.rows := rfl
  simp only [Opt.sqa, hp, bind, Except.bind, pure, Except.pure] at h
  rw [if_neg (by rintro ⟨h | h, -⟩ <;> [exact hJ.ne' h; omega])] at h
  simp only [Except.ok.injEq] at h
  have hd0 : ∀ p, ((sqaInit o.tro (reJ J).rows r).1 p).dim = J.rows := fun _ => rfl
  have hs0 : ∀ p, IsSpins ((sqaInit o.tro (reJ J).rows r).1 p) := by
    intro p i _
    simp only [sqaInit]
    split_ifs <;> simp
  obtain ⟨h5, h6, es', h7, h8⟩ := sqaLoop_ok J ep (fun c => upperEnergy o.qubo.length (entryOf o.qubo) (bitVals c)) o.tro ht hJ hH o.Tf o.Gf o.R o.ite fuel o.Gs _ _ _ hd0 hs0 h
  rw [h2] at h8
  refine ⟨fun p => ⟨(h5 p).trans h2, h6 p⟩, _, es', ?_, h8⟩
  have h7' : es = _ := h7
  rw [h7', List.append_assoc, List.singleton_append, C50_recorded _ _ hd0,
    ring_energy o.tro J.rows (by omega) J ep (fun c => upperEnergy o.qubo.length (entryOf o.qubo) (bitVals c)) hH _ _ hd0 hs0, h2]

theorem sqaLoop_ends (J : NpMat) (ep T Gf R : ℝ) (P ite : ℕ) :
    ∀ (fuel : ℕ) (G : ℝ) (s : (ℕ → NpInts) × Rand) (es : List ℝ), G * R ^ fuel ≤ Gf →
      ∃ res, sqaLoop J ep T Gf R P ite fuel G s es = some res
  | 0, G, s, es, h => by
    rw [sqaLoop, if_neg (by simpa using h)]
    exact ⟨_, rfl⟩
  | fuel + 1, G, s, es, h => by
    rw [sqaLoop]
    by_cases hG : G > Gf
    · rw [if_pos hG]
      exact sqaLoop_ends J ep T Gf R P ite fuel _ _ _ (by rw [mul_assoc, ← pow_succ']; exact h)
    · rw [if_neg hG]
      exact ⟨_, rfl⟩

/-- C50. `sqa` ends: with `0 ≤ R < 1` and a positive final field, some number of sweeps suffices. -/
theorem C50_terminates (o : Opt) (hne : o.qubo ≠ []) (hq : ∀ row ∈ o.qubo, o.qubo.length ≤ row.length) (ht : 1 ≤ o.tro)
    (hR : 0 ≤ o.R) (hR1 : o.R < 1) (hG : 0 < o.Gf) :
    ∃ N, ∀ fuel ≥ N, ∀ r, ∃ q es, o.sqa r fuel = .ok (some (q, es)) := by
  obtain ⟨J, ep, h1, h2, h3, h4⟩ := C48_qi o.qubo hq
  have hp : o.prepare = .ok { o with J := J, ep := ep } := by
    simp only [Opt.prepare, if_neg hne, h1, bind, Except.bind, pure, Except.pure]
  have hJ : 0 < J.rows := by rw [h2]; exact List.length_pos_iff.2 hne
  obtain ⟨N, hN⟩ : ∃ N, ∀ fuel ≥ N, o.Gs * o.R ^ fuel ≤ o.Gf := by
    by_cases hT : o.Gs ≤ 0
    · exact ⟨0, fun fuel _ => (mul_nonpos_of_nonpos_of_nonneg hT (pow_nonneg hR _)).trans hG.le⟩
    · push Not at hT
      obtain ⟨N, hN⟩ := exists_pow_lt_of_lt_one (div_pos hG hT) hR1
      refine ⟨N, fun fuel hf => ?_⟩
      have := (pow_le_pow_of_le_one hR hR1.le hf).trans hN.le
      rw [le_div_iff₀ hT] at this
      linarith
  refine ⟨N, fun fuel hf r => ?_⟩
  simp only [Opt.sqa, hp, bind, Except.bind, pure, Except.pure]
  rw [if_neg (by rintro ⟨h | h, -⟩ <;> [exact hJ.ne' h; omega])]
  obtain ⟨⟨q, es⟩, h⟩ := sqaLoop_ends (reJ J) ep o.Tf o.Gf o.R o.tro o.ite fuel o.Gs (sqaInit o.tro (reJ J).rows r)
    (o.E ++ [eiSqa (sqaInit o.tro (reJ J).rows r).1 (reJ J) o.Tf o.tro o.Gs + ep]) (hN fuel hf)
  exact ⟨q, es, by rw [h]⟩

/-- The default parameters: every run of `sqa` on a QUBO with two variables ends, with at least one energy recorded. -/
example (r : Rand) : ∃ fuel q es, ({ qubo := [[1, -3], [0, 1]] } : Opt).sqa r fuel = .ok (some (q, es)) ∧ es ≠ [] := by
  obtain ⟨N, hN⟩ := C50_terminates { qubo := [[1, -3], [0, 1]] } (by simp) (by simp) (by norm_num) (by norm_num)
    (by norm_num) (by norm_num)
  obtain ⟨q, es, h⟩ := hN N le_rfl r
  obtain ⟨-, c, es', h1, -⟩ := C50_run_partial _ (by simp) (by simp) (by norm_num) r N q es h
  exact ⟨N, q, es, h, by rw [h1]; simp⟩

end

end Blueqat
