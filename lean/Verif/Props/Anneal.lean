import Verif.Props.Ising
import Verif.Spec.Anneal
import Mathlib.Analysis.SpecificLimits.Basic

/-!
# Property C49: simulated annealing
-/

set_option linter.unusedSimpArgs false
set_option linter.unusedVariables false

namespace Blueqat

open Spec Finset

noncomputable section

/-- Splitting a sum over pairs `i < j` at `x`. -/
theorem pairs_at (n x : ℕ) (hx : x < n) (f : ℕ → ℕ → ℝ) (h : ∀ i j, i ≠ x → j ≠ x → f i j = 0) :
    (∑ i ∈ range n, ∑ j ∈ range n, if i < j then f i j else 0) =
      ∑ j ∈ range n, if j = x then 0 else if j < x then f j x else f x j := by
  have e : ∀ i ∈ range n, (∑ j ∈ range n, if i < j then f i j else 0) =
      (if i < x then f i x else 0) + if i = x then (∑ j ∈ range n, if x < j then f x j else 0) else 0 := by
    intro i hi
    by_cases hix : i = x
    · subst hix; simp
    · rw [if_neg hix, add_zero, Finset.sum_eq_single x]
      · intro j _ hj
        rw [h i j hix hj]; simp
      · intro hh; exact absurd (by simpa using hx) hh
  rw [Finset.sum_congr rfl e, Finset.sum_add_distrib, Finset.sum_ite_eq' (range n) x, if_pos (by simpa using hx),
    ← Finset.sum_add_distrib]
  refine Finset.sum_congr rfl (fun j _ => ?_)
  rcases lt_trichotomy j x with h | h | h
  · simp [h, h.ne, not_lt.2 h.le]
  · subst h; simp
  · simp [h, h.ne', not_lt.2 h.le]

/-- C49. The change `dE` used for acceptance is the change of the energy when spin `x` is flipped. -/
theorem C49_delta (J : NpMat) (q : NpInts) (x : ℕ) (hx : x < q.dim) :
    saDelta (reJ J) q x = isingEnergy q.dim J.ent (fun i => ((q.flip x).ent i : ℝ)) -
      isingEnergy q.dim J.ent (fun i => (q.ent i : ℝ)) := by
  have hxr : x ∈ range q.dim := by simpa using hx
  have hf : ∀ i, (((q.flip x).ent i : ℤ) : ℝ) = if i = x then -(q.ent i : ℝ) else q.ent i := by
    intro i
    by_cases h : i = x <;> simp [NpInts.flip, h]
  simp only [isingEnergy, hf]
  rw [add_sub_add_comm, ← Finset.sum_sub_distrib, ← Finset.sum_sub_distrib]
  have e1 : (∑ i ∈ range q.dim, (J.ent i i * (if i = x then -(q.ent i : ℝ) else q.ent i) - J.ent i i * (q.ent i : ℝ))) =
      -2 * (J.ent x x * q.ent x) := by
    rw [Finset.sum_eq_single x]
    · simp; ring
    · intro i _ hi; simp [hi]
    · intro hh; exact absurd hxr hh
  have e2 : (∑ i ∈ range q.dim, ((∑ j ∈ range q.dim, if i < j then J.ent i j *
        (if i = x then -(q.ent i : ℝ) else q.ent i) * (if j = x then -(q.ent j : ℝ) else q.ent j) else 0) -
      ∑ j ∈ range q.dim, if i < j then J.ent i j * (q.ent i : ℝ) * q.ent j else 0)) =
      ∑ j ∈ range q.dim, if j = x then 0 else if j < x then -2 * (J.ent j x * q.ent j * q.ent x) else
        -2 * (J.ent x j * q.ent x * q.ent j) := by
    have e3 : ∀ i ∈ range q.dim, ((∑ j ∈ range q.dim, if i < j then J.ent i j *
        (if i = x then -(q.ent i : ℝ) else q.ent i) * (if j = x then -(q.ent j : ℝ) else q.ent j) else 0) -
      ∑ j ∈ range q.dim, if i < j then J.ent i j * (q.ent i : ℝ) * q.ent j else 0) =
      ∑ j ∈ range q.dim, if i < j then (J.ent i j *
        (if i = x then -(q.ent i : ℝ) else q.ent i) * (if j = x then -(q.ent j : ℝ) else q.ent j) -
        J.ent i j * (q.ent i : ℝ) * q.ent j) else 0 := by
      intro i _
      rw [← Finset.sum_sub_distrib]
      refine Finset.sum_congr rfl (fun j _ => ?_)
      split_ifs <;> simp
    rw [Finset.sum_congr rfl e3, pairs_at q.dim x hx]
    · refine Finset.sum_congr rfl (fun j _ => ?_)
      by_cases h : j = x
      · simp [h]
      · by_cases h' : j < x
        · simp [h, h']; ring
        · simp [h, h']; ring
    · intro i j hi hj; simp [hi, hj]
  rw [e1, e2, saDelta, list_range_sum]
  rw [← Finset.add_sum_erase _ _ hxr, ← Finset.add_sum_erase _ (fun j => if j = x then (0 : ℝ) else _) hxr]
  simp only [if_true, zero_add, mul_add, Finset.mul_sum]
  congr 1
  · simp [reJ, NpMat.add, NpMat.triu, NpMat.transpose]; ring
  · refine Finset.sum_congr rfl (fun j hj => ?_)
    have hjx : j ≠ x := (Finset.mem_erase.1 hj).1
    rcases lt_or_gt_of_ne hjx with h | h
    · have h1 : ¬ x < j := by omega
      simp [reJ, NpMat.add, NpMat.triu, NpMat.transpose, hjx, h, h.le, h1]; ring
    · have h1 : ¬ j ≤ x := by omega
      have h2 : ¬ j < x := by omega
      simp [reJ, NpMat.add, NpMat.triu, NpMat.transpose, hjx, h1, h2, Nat.succ_le_iff, h]; ring

/-- Every spin is 1 or -1. -/
def IsSpins (q : NpInts) : Prop := ∀ i < q.dim, q.ent i = 1 ∨ q.ent i = -1

/-- The assignment of a row of spins. -/
def conf (q : NpInts) : ℕ → Bool := fun i => decide (q.ent i = 1)

theorem conf_flip (q : NpInts) (x : ℕ) (hx : x < q.dim) (h : IsSpins q) : conf (q.flip x) = flipAt (conf q) x := by
  funext i
  by_cases hi : i = x
  · subst hi
    rcases h i hx with h | h <;> simp [conf, flipAt, NpInts.flip, h]
  · simp [conf, flipAt, NpInts.flip, hi]

theorem isSpins_flip (q : NpInts) (x : ℕ) (h : IsSpins q) : IsSpins (q.flip x) := by
  intro i hi
  have := h i hi
  by_cases hx : i = x
  · simp only [NpInts.flip, hx, if_true]
    rw [hx] at this
    omega
  · simpa [NpInts.flip, hx] using this

theorem saStep_metropolis (J : NpMat) (ep : ℝ) (H : (ℕ → Bool) → ℝ) (n : ℕ)
    (hH : ∀ q : NpInts, q.dim = n → IsSpins q → isingEnergy n J.ent (fun i => (q.ent i : ℝ)) + ep = H (conf q))
    (T : ℝ) (q : NpInts) (r : Rand) (x : ℕ) (hd : q.dim = n) (hs : IsSpins q) (hx : x < n) :
    (saStep (reJ J) T (q, r) x).1.dim = n ∧ IsSpins (saStep (reJ J) T (q, r) x).1 ∧
    Metropolis H T (r.reals 0) (conf q) (flipAt (conf q) x) (conf (saStep (reJ J) T (q, r) x).1) := by
  have hx' : x < q.dim := by omega
  have e : saDelta (reJ J) q x = H (flipAt (conf q) x) - H (conf q) := by
    rw [C49_delta J q x hx', ← conf_flip q x hx' hs, ← hH q hd hs, ← hH (q.flip x) hd (isSpins_flip q x hs), hd]
    ring
  have e2 : (saStep (reJ J) T (q, r) x).1 = if (H (flipAt (conf q) x) < H (conf q) ∨
      r.reals 0 < Real.exp (-(H (flipAt (conf q) x) - H (conf q)) / T)) then q.flip x else q := by
    simp only [saStep, accept, e, sub_neg, Rand.real, gt_iff_lt]
  rw [e2]
  by_cases h : (H (flipAt (conf q) x) < H (conf q) ∨
      r.reals 0 < Real.exp (-(H (flipAt (conf q) x) - H (conf q)) / T))
  · rw [if_pos h]
    exact ⟨hd, isSpins_flip q x hs, .inl ⟨h, conf_flip q x hx' hs⟩⟩
  · rw [if_neg h]
    exact ⟨hd, hs, .inr ⟨h, rfl⟩⟩

theorem fold_sweep (J : NpMat) (ep : ℝ) (H : (ℕ → Bool) → ℝ) (n : ℕ)
    (hH : ∀ q : NpInts, q.dim = n → IsSpins q → isingEnergy n J.ent (fun i => (q.ent i : ℝ)) + ep = H (conf q)) (T : ℝ) :
    ∀ (xs : List ℕ) (q : NpInts) (r : Rand), (∀ x ∈ xs, x < n) → q.dim = n → IsSpins q →
      (xs.foldl (saStep (reJ J) T) (q, r)).1.dim = n ∧ IsSpins (xs.foldl (saStep (reJ J) T) (q, r)).1 ∧
      Sweep H T n xs.length (conf q) (conf (xs.foldl (saStep (reJ J) T) (q, r)).1)
  | [], q, r, _, hd, hs => ⟨hd, hs, .nil _⟩
  | x :: xs, q, r, hx, hd, hs => by
    obtain ⟨h1, h2, h3⟩ := saStep_metropolis J ep H n hH T q r x hd hs (hx x (by simp))
    obtain ⟨h4, h5, h6⟩ := fold_sweep J ep H n hH T xs (saStep (reJ J) T (q, r) x).1 (saStep (reJ J) T (q, r) x).2
      (fun y hy => hx y (by simp [hy])) h1 h2
    exact ⟨h4, h5, .step x _ (hx x (by simp)) h3 h6⟩

theorem saLoop_anneal (J : NpMat) (ep : ℝ) (H : (ℕ → Bool) → ℝ) (n : ℕ)
    (hH : ∀ q : NpInts, q.dim = n → IsSpins q → isingEnergy n J.ent (fun i => (q.ent i : ℝ)) + ep = H (conf q))
    (R target : ℝ) (ite : ℕ) :
    ∀ (fuel : ℕ) (T : ℝ) (q : NpInts) (r : Rand) (es : List ℝ) (res : NpInts × Rand × List ℝ),
      (n = 0 → ite = 0 ∨ ¬ T > target) → q.dim = n → IsSpins q →
      saLoop (reJ J) J ep R target ite fuel T q r es = some res →
      res.1.dim = n ∧ ∃ es', res.2.2 = es ++ es' ∧ Anneal H n ite R target T (conf q) es' (conf res.1) := by
  intro fuel
  induction fuel with
  | zero =>
    intro T q r es res h0 hd hs h
    rw [saLoop] at h
    by_cases hT : T > target
    · simp [hT] at h
    · rw [if_neg hT] at h
      cases h
      exact ⟨hd, [], by simp, .stop hT⟩
  | succ fuel ih =>
    intro T q r es res h0 hd hs h
    rw [saLoop] at h
    by_cases hT : T > target
    · rw [if_pos hT] at h
      simp only at h
      have hxs : ∀ x ∈ (r.sites q.dim ite).1, x < n := by
        intro x hx
        simp only [Rand.sites, List.mem_map, List.mem_range] at hx
        obtain ⟨i, hi, rfl⟩ := hx
        rw [hd]
        refine Nat.mod_lt _ (Nat.pos_of_ne_zero ?_)
        rintro rfl
        rcases h0 rfl with h | h
        · omega
        · exact h hT
      have hlen : (r.sites q.dim ite).1.length = ite := by simp [Rand.sites]
      obtain ⟨h1, h2, h3⟩ := fold_sweep J ep H n hH T _ q (r.sites q.dim ite).2 hxs hd hs
      rw [hlen] at h3
      obtain ⟨h4, es', h5, h6⟩ := ih _ _ _ _ _ (fun hn => .inl ((h0 hn).resolve_right (by simpa using hT))) h1 h2 h
      refine ⟨h4, _ :: es', ?_, .sweep hT h3 h6⟩
      rw [h5, List.append_assoc, List.singleton_append, ei_eq, h1, hH _ h1 h2]
    · rw [if_neg hT] at h
      cases h
      exact ⟨hd, [], by simp, .stop hT⟩

theorem anneal_isSpins_bits (q : NpInts) (hs : IsSpins q) :
    toBits q = (List.range q.dim).map (fun i => if conf q i then 1 else 0) := by
  rw [toBits]
  refine List.map_congr_left (fun i hi => ?_)
  rcases hs i (by simpa using hi) with h | h <;> simp [conf, h]

theorem saLoop_spins (J JU : NpMat) (ep R target : ℝ) (ite : ℕ) :
    ∀ (fuel : ℕ) (T : ℝ) (q : NpInts) (r : Rand) (es : List ℝ) (res : NpInts × Rand × List ℝ), IsSpins q →
      saLoop J JU ep R target ite fuel T q r es = some res → IsSpins res.1 := by
  have hstep : ∀ (T : ℝ) (xs : List ℕ) (s : NpInts × Rand), IsSpins s.1 → IsSpins (xs.foldl (saStep J T) s).1 := by
    intro T xs
    induction xs with
    | nil => intro s h; exact h
    | cons x xs ih =>
      intro s h
      refine ih _ ?_
      simp only [saStep]
      split_ifs
      · exact isSpins_flip _ _ h
      · exact h
  intro fuel
  induction fuel with
  | zero =>
    intro T q r es res hs h
    rw [saLoop] at h
    by_cases hT : T > target
    · simp [hT] at h
    · rw [if_neg hT] at h
      cases h
      exact hs
  | succ fuel ih =>
    intro T q r es res hs h
    rw [saLoop] at h
    by_cases hT : T > target
    · rw [if_pos hT] at h
      exact ih _ _ _ _ _ (hstep _ _ _ hs) h
    · rw [if_neg hT] at h
      cases h
      exact hs

theorem saShots_ok (o : Opt) (H : (ℕ → Bool) → ℝ) (R target : ℝ) (ite fuel : ℕ)
    (hH : ∀ q : NpInts, q.dim = o.J.rows → IsSpins q →
      isingEnergy o.J.rows o.J.ent (fun i => (q.ent i : ℝ)) + o.ep = H (conf q))
    (h0 : o.J.rows = 0 → ite = 0 ∨ ¬ o.Ts > target) :
    ∀ (shots : ℕ) (r : Rand) (E : List (List ℝ)) (qq : List (List ℤ)) (res : List (List ℝ) × List (List ℤ) × Rand),
      saShots o (reJ o.J) R target ite fuel shots r E qq = some res →
      ∃ E' qq', res.1 = E ++ E' ∧ res.2.1 = qq ++ qq' ∧ E'.length = shots ∧
        List.Forall₂ (Shot H o.J.rows ite R target o.Ts) qq' E'
  | 0, r, E, qq, res, h => by
    rw [saShots] at h
    cases h
    exact ⟨[], [], by simp, by simp, rfl, .nil⟩
  | shots + 1, r, E, qq, res, h => by
    rw [saShots] at h
    have hd : (r.spins (reJ o.J).rows).1.dim = o.J.rows := rfl
    have hs : IsSpins (r.spins (reJ o.J).rows).1 := by
      intro i _
      simp only [Rand.spins]
      split_ifs <;> simp
    match hl : saLoop (reJ o.J) o.J o.ep R target ite fuel o.Ts (r.spins (reJ o.J).rows).1 (r.spins (reJ o.J).rows).2
        [ei (r.spins (reJ o.J).rows).1 o.J + o.ep] with
    | none => simp only [hl] at h; cases h
    | some (q', r', es) =>
      simp only [hl] at h
      obtain ⟨h1, es', h2, h3⟩ := saLoop_anneal o.J o.ep H _ hH R target ite fuel _ _ _ _ _ h0 hd hs hl
      have hs' := saLoop_spins _ _ _ _ _ _ _ _ _ _ _ _ hs hl
      obtain ⟨E', qq', h4, h5, h6, h7⟩ := saShots_ok o H R target ite fuel hH h0 shots r' _ _ res h
      refine ⟨es :: E', toBits q' :: qq', by rw [h4]; simp, by rw [h5]; simp, by simp [h6], .cons ?_ h7⟩
      refine ⟨_, _, es', h3, ?_, ?_⟩
      · have h2' : es = _ := h2
        rw [h2', List.singleton_append, ei_eq, hd, hH _ hd hs]
      · rw [anneal_isSpins_bits q' hs']
        have h1' : q'.dim = o.J.rows := h1
        rw [h1']

/-- The results of `run` in terms of shots. -/
def RunOk (P : List ℤ → List ℝ → Prop) (shots : ℕ) : SAResult × ELog → Prop
  | (.single bits, .flat es) => shots = 1 ∧ P bits es
  | (.many bs, .nested ess) => shots ≠ 1 ∧ bs.length = shots ∧ List.Forall₂ P bs ess
  | _ => False

theorem run_ok (o o' : Opt) (hp : o.prepare = .ok o') (H : (ℕ → Bool) → ℝ)
    (hH : ∀ q : NpInts, q.dim = o'.J.rows → IsSpins q →
      isingEnergy o'.J.rows o'.J.ent (fun i => (q.ent i : ℝ)) + o'.ep = H (conf q))
    (shots : ℕ) (fast : Bool) (target : ℝ) (r : Rand) (fuel : ℕ) (res : SAResult × ELog)
    (h : o.run shots fast target r fuel = .ok (some res)) :
    RunOk (Shot H o'.J.rows (if fast then 100 else o'.ite) (if fast then 0.75 else o'.R) target o'.Ts) shots res := by
  simp only [Opt.run, hp, bind, Except.bind] at h
  generalize (if fast = true then 100 else o'.ite) = ite at h ⊢
  generalize (if fast = true then (0.75 : ℝ) else o'.R) = R at h ⊢
  have hrows : (reJ o'.J).rows = o'.J.rows := rfl
  by_cases hv : (reJ o'.J).rows = 0 ∧ shots ≠ 0 ∧ ite ≠ 0 ∧ o'.Ts > target
  · rw [if_pos hv] at h; cases h
  rw [if_neg hv] at h
  by_cases hs0 : shots = 0
  · subst hs0
    simp only [saShots, pure, Except.pure, if_neg (by omega : ¬ (0 = 1)), Except.ok.injEq, Option.some.injEq] at h
    subst h
    exact ⟨by omega, rfl, .nil⟩
  have h0 : o'.J.rows = 0 → ite = 0 ∨ ¬ o'.Ts > target := by
    intro h1; by_contra h2; push Not at h2
    exact hv ⟨h1, hs0, h2.1, h2.2⟩
  match hl : saShots o' (reJ o'.J) R target ite fuel shots r [] [] with
  | none => rw [hl] at h; cases h
  | some (E, qq, r') =>
    rw [hl] at h
    simp only at h
    obtain ⟨E', qq', h1, h2, h3, h4⟩ := saShots_ok o' H R target ite fuel hH h0 shots r [] [] _ hl
    have h1' : E = E' := h1
    have h2' : qq = qq' := h2
    subst h1' h2'
    by_cases hs1 : shots = 1
    · rw [if_pos hs1] at h
      cases h4 with
      | nil => cases h
      | cons a b =>
        simp only [pure, Except.pure, Except.ok.injEq, Option.some.injEq] at h
        subst h
        exact ⟨hs1, a⟩
    · rw [if_neg hs1] at h
      simp only [pure, Except.pure, Except.ok.injEq, Option.some.injEq] at h
      subst h
      exact ⟨hs1, by rw [← h3]; exact h4.length_eq, h4⟩

theorem anneal_last (H : (ℕ → Bool) → ℝ) (n ite : ℕ) (R target : ℝ) (T : ℝ) (c d : ℕ → Bool) (es : List ℝ)
    (h : Anneal H n ite R target T c es d) : (H c :: es).getLast? = some (H d) := by
  induction h with
  | stop h => simp
  | sweep h s t ih =>
    rw [List.getLast?_cons_cons]; exact ih

/-- C49. For a run with a QUBO: every returned list is the bits of the last assignment of an annealing run on the energy of
the QUBO (`Shot`), and `E` has the energies of the first assignment and after every sweep. -/
theorem C49_run (o : Opt) (hne : o.qubo ≠ []) (hq : ∀ row ∈ o.qubo, o.qubo.length ≤ row.length)
    (shots : ℕ) (fast : Bool) (target : ℝ) (r : Rand) (fuel : ℕ) (res : SAResult × ELog)
    (h : o.run shots fast target r fuel = .ok (some res)) :
    RunOk (Shot (fun c => upperEnergy o.qubo.length (entryOf o.qubo) (bitVals c)) o.qubo.length
      (if fast then 100 else o.ite) (if fast then 0.75 else o.R) target o.Ts) shots res := by
  obtain ⟨J, ep, h1, h2, h3, h4⟩ := C48_qi o.qubo hq
  have hp : o.prepare = .ok { o with J := J, ep := ep } := by
    simp only [Opt.prepare, if_neg hne, h1, bind, Except.bind, pure, Except.pure]
  have := run_ok o _ hp (fun c => upperEnergy o.qubo.length (entryOf o.qubo) (bitVals c)) ?_ shots fast target r fuel res h
  · simpa only [h2] using this
  · intro q hd hs
    have hd' : q.dim = J.rows := hd
    have := h4 q (hd'.trans h2) hs
    rw [ei_eq] at this
    simp only
    rw [← hd', this]
    congr 1
    funext i
    simp [bitVals, conf]

/-- C49. For a run with couplings `J` and no QUBO, likewise with the Ising energy. -/
theorem C49_run_ising (o : Opt) (hne : o.qubo = [])
    (shots : ℕ) (fast : Bool) (target : ℝ) (r : Rand) (fuel : ℕ) (res : SAResult × ELog)
    (h : o.run shots fast target r fuel = .ok (some res)) :
    RunOk (Shot (fun c => isingEnergy o.J.rows o.J.ent (spinsOf c) + o.ep) o.J.rows
      (if fast then 100 else o.ite) (if fast then 0.75 else o.R) target o.Ts) shots res := by
  have hp : o.prepare = .ok o := by simp only [Opt.prepare, if_pos hne]
  refine run_ok o o hp _ ?_ shots fast target r fuel res h
  intro q hd hs
  beta_reduce
  congr 1
  have e : ∀ i ∈ range o.J.rows, (q.ent i : ℝ) = spinsOf (conf q) i := by
    intro i hi
    rcases hs i (by rw [hd]; simpa using hi) with h | h <;> simp [spinsOf, conf, h]
  rw [isingEnergy, isingEnergy]
  congr 1
  · exact Finset.sum_congr rfl (fun i hi => by rw [e i hi])
  · exact Finset.sum_congr rfl (fun i hi => Finset.sum_congr rfl (fun j hj => by rw [e i hi, e j hj]))

/-- C49. One shot: the returned bits are 0 or 1, one per variable, and the last recorded energy is the energy of the QUBO at
the returned bits. -/
theorem C49_returned (o : Opt) (hne : o.qubo ≠ []) (hq : ∀ row ∈ o.qubo, o.qubo.length ≤ row.length)
    (fast : Bool) (target : ℝ) (r : Rand) (fuel : ℕ) (bits : List ℤ) (es : List ℝ)
    (h : o.run 1 fast target r fuel = .ok (some (.single bits, .flat es))) :
    bits.length = o.qubo.length ∧ (∀ b ∈ bits, b = 0 ∨ b = 1) ∧
    es.getLast? = some (upperEnergy o.qubo.length (entryOf o.qubo) (fun i => (bits.getD i 0 : ℤ))) := by
  obtain ⟨-, c, d, es', h1, h2, h3⟩ := C49_run o hne hq 1 fast target r fuel _ h
  refine ⟨by rw [h3]; simp, ?_, ?_⟩
  · intro b hb
    rw [h3, List.mem_map] at hb
    obtain ⟨i, _, rfl⟩ := hb
    split_ifs <;> simp
  · rw [h2, anneal_last _ _ _ _ _ _ _ _ _ h1]
    congr 1
    rw [upperEnergy, upperEnergy]
    have e : ∀ i ∈ range o.qubo.length, bitVals d i = ((bits.getD i 0 : ℤ) : ℝ) := by
      intro i hi
      have hi' : i < o.qubo.length := by simpa using hi
      rw [h3]
      simp only [bitVals, List.getD_eq_getElem?_getD, List.getElem?_map, List.getElem?_range hi', Option.map_some,
        Option.getD_some]
      split_ifs <;> simp
    exact Finset.sum_congr rfl (fun i hi => Finset.sum_congr rfl (fun j hj => by rw [e i hi, e j hj]))

theorem saLoop_ends (J JU : NpMat) (ep R target : ℝ) (ite : ℕ) :
    ∀ (fuel : ℕ) (T : ℝ) (q : NpInts) (r : Rand) (es : List ℝ), T * R ^ fuel ≤ target →
      ∃ res, saLoop J JU ep R target ite fuel T q r es = some res
  | 0, T, q, r, es, h => by
    rw [saLoop, if_neg (by simpa using h)]
    exact ⟨_, rfl⟩
  | fuel + 1, T, q, r, es, h => by
    rw [saLoop]
    by_cases hT : T > target
    · rw [if_pos hT]
      exact saLoop_ends J JU ep R target ite fuel _ _ _ _ (by rw [mul_assoc, ← pow_succ']; exact h)
    · rw [if_neg hT]
      exact ⟨_, rfl⟩

theorem saShots_ends (o : Opt) (J : NpMat) (R target : ℝ) (ite fuel : ℕ) (h : o.Ts * R ^ fuel ≤ target) :
    ∀ (shots : ℕ) (r : Rand) (E : List (List ℝ)) (qq : List (List ℤ)),
      ∃ E' qq' r', saShots o J R target ite fuel shots r E qq = some (E', qq', r') ∧
        E'.length = E.length + shots ∧ qq'.length = qq.length + shots
  | 0, r, E, qq => ⟨_, _, _, rfl, rfl, rfl⟩
  | shots + 1, r, E, qq => by
    rw [saShots]
    obtain ⟨⟨q', r', es'⟩, h1⟩ := saLoop_ends J o.J o.ep R target ite fuel o.Ts (r.spins J.rows).1 (r.spins J.rows).2
      [ei (r.spins J.rows).1 o.J + o.ep] h
    simp only [h1]
    obtain ⟨a, b, c, h2, h3, h4⟩ := saShots_ends o J R target ite fuel h shots r' (E ++ [es']) (qq ++ [toBits q'])
    exact ⟨a, b, c, h2, by rw [h3]; simp; omega, by rw [h4]; simp; omega⟩

/-- C49. A run ends: with `0 ≤ R < 1` and a positive target, some number of sweeps suffices. -/
theorem C49_terminates (o : Opt) (hne : o.qubo ≠ []) (hq : ∀ row ∈ o.qubo, o.qubo.length ≤ row.length)
    (hR : 0 ≤ o.R) (hR1 : o.R < 1) (shots : ℕ) (fast : Bool) (target : ℝ) (ht : 0 < target) :
    ∃ N, ∀ fuel ≥ N, ∀ r, ∃ res, o.run shots fast target r fuel = .ok (some res) := by
  obtain ⟨J, ep, h1, h2, h3, h4⟩ := C48_qi o.qubo hq
  have hp : o.prepare = .ok { o with J := J, ep := ep } := by
    simp only [Opt.prepare, if_neg hne, h1, bind, Except.bind, pure, Except.pure]
  have hR' : 0 ≤ (if fast = true then (0.75 : ℝ) else o.R) ∧ (if fast = true then (0.75 : ℝ) else o.R) < 1 := by
    split_ifs
    · norm_num
    · exact ⟨hR, hR1⟩
  have hrows : (reJ J).rows ≠ 0 := by
    show J.rows ≠ 0
    rw [h2]; simpa using hne
  obtain ⟨N, hN⟩ : ∃ N, ∀ fuel ≥ N, o.Ts * (if fast = true then (0.75 : ℝ) else o.R) ^ fuel ≤ target := by
    by_cases hT : o.Ts ≤ 0
    · exact ⟨0, fun fuel _ => (mul_nonpos_of_nonpos_of_nonneg hT (pow_nonneg hR'.1 _)).trans ht.le⟩
    · push Not at hT
      obtain ⟨N, hN⟩ := exists_pow_lt_of_lt_one (div_pos ht hT) hR'.2
      refine ⟨N, fun fuel hf => ?_⟩
      have := (pow_le_pow_of_le_one hR'.1 hR'.2.le hf).trans hN.le
      rw [le_div_iff₀ hT] at this
      linarith
  refine ⟨N, fun fuel hf r => ?_⟩
  simp only [Opt.run, hp, bind, Except.bind]
  have hfuel := hN fuel hf
  generalize (if fast = true then 100 else o.ite) = ite at *
  generalize (if fast = true then (0.75 : ℝ) else o.R) = R at *
  rw [if_neg (by simp [hrows])]
  obtain ⟨E, qq, r', h5, h6, h7⟩ := saShots_ends { o with J := J, ep := ep } (reJ J) R target ite fuel hfuel shots r [] []
  rw [h5]
  simp only
  by_cases hs : shots = 1
  · rw [if_pos hs]
    subst hs
    match E, qq, h6, h7 with
    | e :: E, q :: qq, _, _ => exact ⟨_, rfl⟩
  · rw [if_neg hs]
    exact ⟨_, rfl⟩

theorem saLoop_diverges (J JU : NpMat) (ep R target : ℝ) (ite : ℕ) (hR : 1 ≤ R) :
    ∀ (fuel : ℕ) (T : ℝ) (q : NpInts) (r : Rand) (es : List ℝ), 0 ≤ T → T > target →
      saLoop J JU ep R target ite fuel T q r es = none
  | 0, T, q, r, es, h0, h => by rw [saLoop, if_pos h]
  | fuel + 1, T, q, r, es, h0, h => by
    rw [saLoop, if_pos h]
    exact saLoop_diverges J JU ep R target ite hR fuel _ _ _ _ (mul_nonneg h0 (zero_le_one.trans hR))
      (lt_of_lt_of_le h (le_mul_of_one_le_right h0 hR))

/-- C49. Without cooling (`R ≥ 1`) a run that starts above the target never ends. -/
theorem C49_diverges (o : Opt) (hne : o.qubo ≠ []) (hq : ∀ row ∈ o.qubo, o.qubo.length ≤ row.length)
    (hR : 1 ≤ o.R) (shots : ℕ) (hs : shots ≠ 0) (target : ℝ) (h0 : 0 ≤ o.Ts) (ht : o.Ts > target) (r : Rand) (fuel : ℕ) :
    o.run shots false target r fuel = .ok none := by
  obtain ⟨J, ep, h1, h2, h3, h4⟩ := C48_qi o.qubo hq
  have hp : o.prepare = .ok { o with J := J, ep := ep } := by
    simp only [Opt.prepare, if_neg hne, h1, bind, Except.bind, pure, Except.pure]
  have hrows : (reJ J).rows ≠ 0 := by
    show J.rows ≠ 0
    rw [h2]; simpa using hne
  simp only [Opt.run, hp, bind, Except.bind, Bool.false_eq_true, if_false]
  rw [if_neg (by simp [hrows])]
  obtain ⟨k, rfl⟩ := Nat.exists_eq_succ_of_ne_zero hs
  rw [saShots, saLoop_diverges _ _ _ _ _ _ hR _ _ _ _ _ h0 ht]
  rfl

/-- C49. Without spins the first sweep raises ValueError. -/
theorem C49_no_spins (o : Opt) (hne : o.qubo = []) (hJ : o.J.rows = 0) (hi : o.ite ≠ 0) (shots : ℕ) (hs : shots ≠ 0)
    (target : ℝ) (ht : o.Ts > target) (r : Rand) (fuel : ℕ) : o.run shots false target r fuel = .error .valueError := by
  have hp : o.prepare = .ok o := by simp only [Opt.prepare, if_pos hne]
  simp only [Opt.run, hp, bind, Except.bind, Bool.false_eq_true, if_false]
  exact if_pos ⟨hJ, hs, hi, ht⟩

/-- The default parameters with a QUBO on two variables: every run ends, and its last energy is that of the bits. -/
example (r : Rand) : ∃ fuel bits es, ({ qubo := [[1, -3], [0, 1]] } : Opt).run 1 false 0.02 r fuel =
      .ok (some (.single bits, .flat es)) ∧
    es.getLast? = some (upperEnergy 2 (entryOf [[1, -3], [0, 1]]) (fun i => (bits.getD i 0 : ℤ))) := by
  obtain ⟨N, hN⟩ := C49_terminates { qubo := [[1, -3], [0, 1]] } (by simp) (by simp) (by norm_num) (by norm_num) 1 false
    0.02 (by norm_num)
  obtain ⟨res, hres⟩ := hN N le_rfl r
  have hok := C49_run { qubo := [[1, -3], [0, 1]] } (by simp) (by simp) 1 false 0.02 r N res hres
  match res, hres, hok with
  | (.single bits, .flat es), hres, _ =>
    exact ⟨N, bits, es, hres, (C49_returned _ (by simp) (by simp) _ _ _ _ _ _ hres).2.2⟩
  | (.many _, .nested _), _, hok => exact absurd rfl hok.1

end

end Blueqat
