import Verif.AnnealLaw
import Verif.Props.Sqa

/-!
# Lemmas: the law of a run of simulated quantum annealing with independent random numbers
-/

set_option linter.unusedSimpArgs false
set_option linter.unusedVariables false

namespace Blueqat

open Spec MeasureTheory

noncomputable section

theorem accept_law (N : ℕ) [NeZero N] (Δ T : ℝ) (hT : 0 < T) {B C : Set Draws} (hB : MeasurableSet B) (hC : MeasurableSet C) :
    MeasurableSet {ω | ((accept Δ T (toRand ω)).1 → ofRand (accept Δ T (toRand ω)).2 ∈ B) ∧
      (¬ (accept Δ T (toRand ω)).1 → ofRand (accept Δ T (toRand ω)).2 ∈ C)} ∧
    (draws N).real {ω | ((accept Δ T (toRand ω)).1 → ofRand (accept Δ T (toRand ω)).2 ∈ B) ∧
      (¬ (accept Δ T (toRand ω)).1 → ofRand (accept Δ T (toRand ω)).2 ∈ C)} =
      min 1 (Real.exp (-Δ / T)) * (draws N).real B + (1 - min 1 (Real.exp (-Δ / T))) * (draws N).real C := by
  by_cases hΔ : Δ < 0
  · have h1 : min 1 (Real.exp (-Δ / T)) = 1 := min_eq_left (by
      rw [← Real.exp_zero, Real.exp_le_exp]
      exact div_nonneg (by linarith) hT.le)
    have h2 : {ω | ((accept Δ T (toRand ω)).1 → ofRand (accept Δ T (toRand ω)).2 ∈ B) ∧
        (¬ (accept Δ T (toRand ω)).1 → ofRand (accept Δ T (toRand ω)).2 ∈ C)} = B := by
      ext ω
      simp only [accept, hΔ, true_or, if_true, Set.mem_setOf_eq, not_true_eq_false, false_implies, and_true, true_implies]
      rfl
    rw [h1, h2]
    exact ⟨hB, by ring⟩
  · have h1 : min 1 (Real.exp (-Δ / T)) = Real.exp (-Δ / T) := min_eq_right (by
      rw [← Real.exp_zero, Real.exp_le_exp]
      exact div_nonpos_of_nonpos_of_nonneg (by linarith) hT.le)
    have h2 : {ω | ((accept Δ T (toRand ω)).1 → ofRand (accept Δ T (toRand ω)).2 ∈ B) ∧
        (¬ (accept Δ T (toRand ω)).1 → ofRand (accept Δ T (toRand ω)).2 ∈ C)} =
        {ω : Draws | if ω.2.2 0 < Real.exp (-Δ / T) then dropReal ω ∈ B else dropReal ω ∈ C} := by
      ext ω
      have e : ofRand (toRand ω).real.2 = dropReal ω := rfl
      have e' : (toRand ω).real.1 = ω.2.2 0 := rfl
      have ha : (accept Δ T (toRand ω)).1 ↔ ω.2.2 0 < Real.exp (-Δ / T) := by simp [accept, hΔ, e']
      have hr : ofRand (accept Δ T (toRand ω)).2 = dropReal ω := by simp [accept, hΔ, e]
      rw [Set.mem_setOf_eq, Set.mem_setOf_eq, ha, hr]
      by_cases h : ω.2.2 0 < Real.exp (-Δ / T)
      · simp only [h, if_true, true_implies, not_true_eq_false, false_implies, and_true]
      · simp only [h, if_false, false_implies, not_false_eq_true, true_implies, true_and]
    rw [h1, h2]
    exact real_event N (Real.exp_pos _).le (h1 ▸ min_le_left _ _) hB hC

theorem sum_range_mod (n : ℕ) (f : ℕ → ℝ) : ∀ P : ℕ, ∑ x ∈ Finset.range (P * n), f (x % n) = P * ∑ x ∈ Finset.range n, f x
  | 0 => by simp
  | P + 1 => by
    rw [Nat.succ_mul, Finset.sum_range_add, sum_range_mod n f P]
    have : ∑ x ∈ Finset.range n, f ((P * n + x) % n) = ∑ x ∈ Finset.range n, f x := by
      refine Finset.sum_congr rfl fun x hx => ?_
      rw [Nat.add_comm, Nat.add_mul_mod_self_right, Nat.mod_eq_of_lt (Finset.mem_range.1 hx)]
    rw [this]
    push_cast
    ring

/-- The assignment of `P` rows of `n` spins. -/
def cring (P n : ℕ) (Q : ℕ → NpInts) : Fin P × Fin n → Bool := fun x => decide ((Q x.1).ent x.2 = 1)

/-- The rows with spin `x` of row `y` inverted. -/
def flipRing (Q : ℕ → NpInts) (y x : ℕ) : ℕ → NpInts := fun p => if p = y then (Q p).flip x else Q p

/-- All rows have `n` entries, 1 or -1. -/
def RingSpins (n : ℕ) (Q : ℕ → NpInts) : Prop := ∀ p, (Q p).dim = n ∧ IsSpins (Q p)

theorem ringSpins_flip {n : ℕ} {Q : ℕ → NpInts} (h : RingSpins n Q) (y x : ℕ) : RingSpins n (flipRing Q y x) := by
  intro p
  simp only [flipRing]
  split_ifs
  · exact ⟨(h p).1, isSpins_flip _ _ (h p).2⟩
  · exact h p

theorem cring_flip {P n : ℕ} {Q : ℕ → NpInts} (h : RingSpins n Q) (y : Fin P) (x : Fin n) :
    cring P n (flipRing Q y x) = flipOne (cring P n Q) (y, x) := by
  funext ⟨p, i⟩
  by_cases hp : p = y
  · subst hp
    by_cases hi : i = x
    · subst hi
      rcases (h p).2 i (by rw [(h p).1]; exact i.2) with h' | h' <;> simp [cring, flipRing, flipOne, NpInts.flip, h']
    · have : (i : ℕ) ≠ x := fun h => hi (Fin.ext h)
      simp [cring, flipRing, flipOne, NpInts.flip, hi, this]
  · have : (p : ℕ) ≠ y := fun h => hp (Fin.ext h)
    simp [cring, flipRing, flipOne, hp, this]

section
variable {P n : ℕ} [NeZero P] [NeZero n]

theorem ringAt_eq (J : NpMat) (ep : ℝ) (H : (Fin n → Bool) → ℝ)
    (hE : ∀ q : NpInts, q.dim = n → IsSpins q → isingEnergy n J.ent (fun i => (q.ent i : ℝ)) + ep = H (cfin n q))
    (κ : ℝ) (Q : ℕ → NpInts) (h : RingSpins n Q) :
    (∑ p ∈ Finset.range P, isingEnergy n J.ent (fun i => ((Q p).ent i : ℝ))) / P +
      κ * ringSum P n (fun p i => ((Q p).ent i : ℝ)) + ep = ringAt P n H κ (cring P n Q) := by
  have hP' : (P : ℝ) ≠ 0 := by exact_mod_cast NeZero.ne P
  have e1 : ∑ p : Fin P, H (fun i => cring P n Q (p, i)) =
      (∑ p ∈ Finset.range P, isingEnergy n J.ent (fun i => ((Q p).ent i : ℝ))) + P * ep := by
    have e : ∀ p : Fin P, H (fun i => cring P n Q (p, i)) = isingEnergy n J.ent (fun i => ((Q p).ent i : ℝ)) + ep :=
      fun p => (hE (Q p) (h p).1 (h p).2).symm
    rw [Finset.sum_congr rfl fun p _ => e p, Finset.sum_add_distrib, Finset.sum_range]
    simp
  have e2 : ringSum P n (fun p i => ((Q p).ent i : ℝ)) =
      ∑ p : Fin P, ∑ i : Fin n, if cring P n Q (p, i) = cring P n Q (p + 1, i) then (1 : ℝ) else -1 := by
    rw [ringSum, Finset.sum_range]
    refine Finset.sum_congr rfl fun p _ => ?_
    rw [Finset.sum_range]
    refine Finset.sum_congr rfl fun i _ => ?_
    have hv : ((p : ℕ) + 1) % P = ((p + 1 : Fin P) : ℕ) := by
      rw [Fin.val_add, Fin.val_one', Nat.add_mod_mod]
    rw [hv]
    rcases (h p).2 i (by rw [(h p).1]; exact i.2) with h1 | h1 <;>
      rcases (h (p + 1 : Fin P)).2 i (by rw [(h _).1]; exact i.2) with h2 | h2 <;> simp [cring, h1, h2]
  rw [ringAt, e1, e2, add_div, mul_div_cancel_left₀ _ hP']
  ring

/-- Events that depend on the rows: measurable, with a probability that depends on the assignment only. -/
def RingEvents (P n : ℕ) [NeZero P] [NeZero n] (B : (ℕ → NpInts) → Set Draws) (m : (Fin P × Fin n → Bool) → ℝ) : Prop :=
  ∀ Q, RingSpins n Q → MeasurableSet (B Q) ∧ (draws (P * n)).real (B Q) = m (cring P n Q)

/-- The transition probabilities of a step of `sqa` at field `G`. -/
abbrev ringM (P n : ℕ) [NeZero P] (H : (Fin n → Bool) → ℝ) (T G : ℝ) : Matrix (Fin P × Fin n → Bool) (Fin P × Fin n → Bool) ℝ :=
  metropolisMatrix (ringAt P n H (-ringCoupling T P G)) T

theorem ring_step_law (hP : 2 ≤ P) (J : NpMat) (hJ : J.rows = n) (ep : ℝ) (H : (Fin n → Bool) → ℝ)
    (hE : ∀ q : NpInts, q.dim = n → IsSpins q → isingEnergy n J.ent (fun i => (q.ent i : ℝ)) + ep = H (cfin n q))
    (T : ℝ) (hT : 0 < T) (G : ℝ) (B : (ℕ → NpInts) → Set Draws) (m : (Fin P × Fin n → Bool) → ℝ) (hB : RingEvents P n B m) :
    RingEvents P n (fun Q => {ω | ofRand (sqaStep (reJ J) T P G (Q, toRand ω)).2 ∈ B (sqaStep (reJ J) T P G (Q, toRand ω)).1})
      ((ringM P n H T G).mulVec m) := by
  intro Q hQ
  have hn : 0 < n := Nat.pos_of_ne_zero (NeZero.ne n)
  have hP0 : 0 < P := by omega
  set E := ringAt P n H (-ringCoupling T P G) with hEd
  let D : ℕ → ℕ → Set Draws := fun x y => {ω |
    ((accept (sqaDelta (reJ J) T P G Q x y) T (toRand ω)).1 →
      ofRand (accept (sqaDelta (reJ J) T P G Q x y) T (toRand ω)).2 ∈ B (flipRing Q y x)) ∧
    (¬ (accept (sqaDelta (reJ J) T P G Q x y) T (toRand ω)).1 →
      ofRand (accept (sqaDelta (reJ J) T P G Q x y) T (toRand ω)).2 ∈ B Q)}
  have hD : ∀ x y, MeasurableSet (D x y) := fun x y =>
    (accept_law (P * n) _ T hT (hB _ (ringSpins_flip hQ y x)).1 (hB Q hQ).1).1
  have hDr : ∀ (x : Fin n) (y : Fin P), (draws (P * n)).real (D x y) =
      acceptProb E T (cring P n Q) (flipOne (cring P n Q) (y, x)) * m (flipOne (cring P n Q) (y, x)) +
        (1 - acceptProb E T (cring P n Q) (flipOne (cring P n Q) (y, x))) * m (cring P n Q) := by
    intro x y
    have h1 := (accept_law (P * n) (sqaDelta (reJ J) T P G Q x y) T hT (hB _ (ringSpins_flip hQ y x)).1 (hB Q hQ).1).2
    have e : sqaDelta (reJ J) T P G Q x y = E (flipOne (cring P n Q) (y, x)) - E (cring P n Q) := by
      rw [C50_delta_partial J T P G Q n (fun p => (hQ p).1) hP x y x.2 y.2, hEd, ← cring_flip hQ, ← ringAt_eq J ep H hE _ _ hQ,
        ← ringAt_eq J ep H hE _ _ (ringSpins_flip hQ y x)]
      simp only [flipRing]
      ring
    rw [(hB Q hQ).2, (hB _ (ringSpins_flip hQ y x)).2, cring_flip hQ, e] at h1
    rw [acceptProb, ← h1, ← e]
  have hset : {ω | ofRand (sqaStep (reJ J) T P G (Q, toRand ω)).2 ∈ B (sqaStep (reJ J) T P G (Q, toRand ω)).1} =
      {ω : Draws | dropInt ω ∈ (fun a => {ω : Draws | dropInt ω ∈ (fun b => D (a % n) (b % P)) (ω.2.1 0)}) (ω.2.1 0)} := by
    ext ω
    have h1 : (sqaStep (reJ J) T P G (Q, toRand ω)).2 =
        (accept (sqaDelta (reJ J) T P G Q (ω.2.1 0 % J.rows) (ω.2.1 1 % P)) T (toRand (dropInt (dropInt ω)))).2 := rfl
    have h2 : (sqaStep (reJ J) T P G (Q, toRand ω)).1 = open Classical in
        if (accept (sqaDelta (reJ J) T P G Q (ω.2.1 0 % J.rows) (ω.2.1 1 % P)) T (toRand (dropInt (dropInt ω)))).1 then
          flipRing Q (ω.2.1 1 % P) (ω.2.1 0 % J.rows) else Q := rfl
    have h3 : ((dropInt ω).2.1 0) = ω.2.1 1 := rfl
    rw [hJ] at h1 h2
    simp only [Set.mem_setOf_eq, D, h1, h2, h3]
    by_cases ha : (accept (sqaDelta (reJ J) T P G Q (ω.2.1 0 % n) (ω.2.1 1 % P)) T (toRand (dropInt (dropInt ω)))).1
    · rw [if_pos ha]; simp [ha]
    · rw [if_neg ha]; simp [ha]
  have hin := fun a : ℕ => int_event (P * n) (B := fun b => D (a % n) (b % P)) fun b => hD _ _
  have hout := int_event (P * n) (B := fun a => {ω : Draws | dropInt ω ∈ (fun b => D (a % n) (b % P)) (ω.2.1 0)})
    fun a => (hin a).1
  beta_reduce
  rw [hset]
  refine ⟨hout.1, ?_⟩
  rw [hout.2]
  simp only [(hin _).2]
  have hsum : ∑ a ∈ Finset.range (P * n), (1 / ((P * n : ℕ) : ℝ)) *
      ∑ b ∈ Finset.range (P * n), (1 / ((P * n : ℕ) : ℝ)) * (draws (P * n)).real (D (a % n) (b % P)) =
      ∑ z : Fin P × Fin n, (1 / ((P * n : ℕ) : ℝ)) * (draws (P * n)).real (D z.2 z.1) := by
    have h1 : ∀ a, ∑ b ∈ Finset.range (P * n), (1 / ((P * n : ℕ) : ℝ)) * (draws (P * n)).real (D a (b % P)) =
        (1 / ((P * n : ℕ) : ℝ)) * (n * ∑ y : Fin P, (draws (P * n)).real (D a y)) := by
      intro a
      have h := sum_range_mod P (fun y => (draws (P * n)).real (D a y)) n
      rw [Finset.range_eq_Ico, Nat.mul_comm n P, ← Finset.range_eq_Ico, Finset.sum_range (n := P)] at h
      rw [← Finset.mul_sum, h]
    simp only [h1]
    rw [sum_range_mod n (fun a => (1 / ((P * n : ℕ) : ℝ)) * ((1 / ((P * n : ℕ) : ℝ)) *
      (n * ∑ y : Fin P, (draws (P * n)).real (D a y)))) P, Finset.sum_range, Fintype.sum_prod_type, Finset.sum_comm]
    simp only [← Finset.mul_sum]
    have hnn : (n : ℝ) ≠ 0 := by exact_mod_cast hn.ne'
    have hPP : (P : ℝ) ≠ 0 := by exact_mod_cast hP0.ne'
    push_cast
    field_simp
  rw [hsum]
  simp only [hDr]
  simp only [ringM, ← hEd, Matrix.mulVec, dotProduct, metropolisMatrix, Finset.sum_mul, Fintype.card_prod, Fintype.card_fin]
  rw [Finset.sum_comm]
  refine Finset.sum_congr rfl fun z _ => ?_
  simp only [mul_assoc, add_mul, ite_mul, zero_mul, ← Finset.mul_sum, Finset.sum_add_distrib, Finset.sum_ite_eq', Finset.mem_univ,
    if_true]

theorem ring_sweep_law (hP : 2 ≤ P) (J : NpMat) (hJ : J.rows = n) (ep : ℝ) (H : (Fin n → Bool) → ℝ)
    (hE : ∀ q : NpInts, q.dim = n → IsSpins q → isingEnergy n J.ent (fun i => (q.ent i : ℝ)) + ep = H (cfin n q))
    (T : ℝ) (hT : 0 < T) (G : ℝ) (B : (ℕ → NpInts) → Set Draws) (m : (Fin P × Fin n → Bool) → ℝ) (hB : RingEvents P n B m)
    (k : ℕ) :
    RingEvents P n (fun Q => {ω | ofRand (sqaSweep (reJ J) T P G k (Q, toRand ω)).2 ∈
      B (sqaSweep (reJ J) T P G k (Q, toRand ω)).1}) ((ringM P n H T G ^ k).mulVec m) := by
  induction k with
  | zero => rw [pow_zero, Matrix.one_mulVec]; exact hB
  | succ k ih =>
    rw [pow_succ', ← Matrix.mulVec_mulVec]
    exact ring_step_law hP J hJ ep H hE T hT G _ _ ih

/-- The run from these rows ends with rows in `S`. -/
def ringEv (J : NpMat) (ep T Gf R : ℝ) (P ite fuel : ℕ) (G : ℝ) (Q : ℕ → NpInts) (r : Rand) (es : List ℝ)
    (S : Set (ℕ → NpInts)) : Prop :=
  ∃ Q' es', sqaLoop J ep T Gf R P ite fuel G (Q, r) es = some (Q', es') ∧ Q' ∈ S

theorem ringEv_es (J : NpMat) (ep T Gf R : ℝ) (P ite : ℕ) (S : Set (ℕ → NpInts)) : ∀ (fuel : ℕ) (G : ℝ) (Q : ℕ → NpInts)
    (r : Rand) (es es2 : List ℝ), ringEv J ep T Gf R P ite fuel G Q r es S → ringEv J ep T Gf R P ite fuel G Q r es2 S := by
  intro fuel
  induction fuel with
  | zero =>
    rintro G Q r es es2 ⟨Q', es', h, hS⟩
    rw [sqaLoop] at h
    by_cases hG : G > Gf
    · simp [hG] at h
    · rw [if_neg hG] at h
      cases h
      exact ⟨_, es2, by rw [sqaLoop, if_neg hG], hS⟩
  | succ fuel ih =>
    rintro G Q r es es2 ⟨Q', es', h, hS⟩
    rw [sqaLoop] at h
    by_cases hG : G > Gf
    · rw [if_pos hG] at h
      rw [ringEv, sqaLoop, if_pos hG]
      exact ih _ _ _ _ _ ⟨Q', es', h, hS⟩
    · rw [if_neg hG] at h
      cases h
      exact ⟨_, es2, by rw [sqaLoop, if_neg hG], hS⟩

theorem ringEv_step (J : NpMat) (ep T Gf R : ℝ) (P ite : ℕ) (S : Set (ℕ → NpInts)) (fuel : ℕ) (G : ℝ) (hG : G > Gf)
    (Q : ℕ → NpInts) (r : Rand) : ringEv J ep T Gf R P ite (fuel + 1) G Q r [] S ↔
      ringEv J ep T Gf R P ite fuel (G * R) (sqaSweep J T P G ite (Q, r)).1 (sqaSweep J T P G ite (Q, r)).2 [] S := by
  rw [ringEv, sqaLoop, if_pos hG]
  exact ⟨fun h => ringEv_es J ep T Gf R P ite S _ _ _ _ _ _ h, fun h => ringEv_es J ep T Gf R P ite S _ _ _ _ _ _ h⟩

theorem ringEv_stop (J : NpMat) (ep T Gf R : ℝ) (P ite : ℕ) (S : Set (ℕ → NpInts)) (fuel : ℕ) (G : ℝ) (hG : ¬ G > Gf)
    (Q : ℕ → NpInts) (r : Rand) (es : List ℝ) : ringEv J ep T Gf R P ite fuel G Q r es S ↔ Q ∈ S := by
  have e : sqaLoop J ep T Gf R P ite fuel G (Q, r) es = some (Q, es) := by
    cases fuel <;> rw [sqaLoop, if_neg hG]
  rw [ringEv, e]
  constructor
  · rintro ⟨Q', es', h, hS⟩
    cases h
    exact hS
  · exact fun h => ⟨_, _, rfl, h⟩

theorem ring_loop_law (hP : 2 ≤ P) (J : NpMat) (hJ : J.rows = n) (ep : ℝ) (H : (Fin n → Bool) → ℝ)
    (hE : ∀ q : NpInts, q.dim = n → IsSpins q → isingEnergy n J.ent (fun i => (q.ent i : ℝ)) + ep = H (cfin n q))
    (T : ℝ) (hT : 0 < T) (R Gf : ℝ) (ite : ℕ) (S : Set (ℕ → NpInts)) (m : (Fin P × Fin n → Bool) → ℝ)
    (hB : RingEvents P n (fun Q => {_ω | Q ∈ S}) m)
    {G : ℝ} {gs : List ℝ} (h : Schedule R Gf G gs) : ∀ fuel, gs.length ≤ fuel →
    RingEvents P n (fun Q => {ω | ringEv (reJ J) ep T Gf R P ite fuel G Q (toRand ω) [] S})
      ((annealMatrix (ringM P n H T) ite gs).mulVec m) := by
  induction h with
  | @stop G hG =>
    intro fuel _
    simp only [ringEv_stop _ _ _ _ _ _ _ _ _ _ hG, annealMatrix, Matrix.one_mulVec]
    exact hB
  | @step G gs hG _ ih =>
    intro fuel hf
    obtain ⟨fuel, rfl⟩ : ∃ f, fuel = f + 1 := ⟨fuel - 1, by simp only [List.length_cons] at hf; omega⟩
    have h1 := ih fuel (by simpa using hf)
    have h2 := ring_sweep_law hP J hJ ep H hE T hT G _ _ h1 ite
    rw [annealMatrix, ← Matrix.mulVec_mulVec]
    simp only [ringEv_step _ _ _ _ _ _ _ _ _ _ hG]
    exact h2

/-! ## The random start -/

/-- The first `P` rows have the same entries. -/
def SameRing (P : ℕ) (Q Q' : ℕ → NpInts) : Prop := ∀ p < P, SameRow (Q p) (Q' p)

theorem same_ring_delta {Q Q' : ℕ → NpInts} (h : SameRing P Q Q') (hd : ∀ p, (Q p).dim = n) (J : NpMat) (T G : ℝ) (x y : ℕ)
    (hx : x < n) (hy : y < P) : sqaDelta J T P G Q x y = sqaDelta J T P G Q' x y := by
  have hy1 : (P + y - 1) % P < P := Nat.mod_lt _ (by omega)
  have hy2 : (y + 1) % P < P := Nat.mod_lt _ (by omega)
  have ex : ∀ p < P, (Q p).ent x = (Q' p).ent x := fun p hp => (h p hp).2 x (by rw [hd]; exact hx)
  simp only [sqaDelta, ← (h y hy).1, ← ex _ hy, ← ex _ hy1, ← ex _ hy2]
  congr 1
  have : ∀ (l : List ℕ) (s : ℝ), (∀ j ∈ l, j < n) → l.foldl (fun dE j =>
      if j = x then dE + -2 * ((Q y).ent x : ℝ) * J.ent x x / P
      else dE + -2 * ((Q y).ent j : ℝ) * (Q y).ent x * J.ent j x / P) s = l.foldl (fun dE j =>
      if j = x then dE + -2 * ((Q y).ent x : ℝ) * J.ent x x / P
      else dE + -2 * ((Q' y).ent j : ℝ) * (Q y).ent x * J.ent j x / P) s := by
    intro l
    induction l with
    | nil => intro s _; rfl
    | cons a l ih =>
      intro s hl
      rw [List.foldl_cons, List.foldl_cons, (h y hy).2 a (by rw [hd]; exact hl a (by simp))]
      exact ih _ fun j hj => hl j (by simp [hj])
  exact this _ _ fun j hj => by rw [hd] at hj; exact List.mem_range.1 hj

theorem same_ring_step {Q Q' : ℕ → NpInts} (h : SameRing P Q Q') (hd : ∀ p, (Q p).dim = n) (J : NpMat) (hJ : J.rows = n)
    (T G : ℝ) (r : Rand) :
    SameRing P (sqaStep J T P G (Q, r)).1 (sqaStep J T P G (Q', r)).1 ∧
      (sqaStep J T P G (Q, r)).2 = (sqaStep J T P G (Q', r)).2 ∧ ∀ p, ((sqaStep J T P G (Q, r)).1 p).dim = n := by
  have hx : r.ints 0 % J.rows < n := by rw [hJ]; exact Nat.mod_lt _ (Nat.pos_of_ne_zero (NeZero.ne n))
  have hy : r.ints 1 % P < P := Nat.mod_lt _ (Nat.pos_of_ne_zero (NeZero.ne P))
  have hΔ := same_ring_delta h hd J T G _ _ hx hy
  have h1 : ∀ Q, (sqaStep J T P G (Q, r)).2 =
      (accept (sqaDelta J T P G Q (r.ints 0 % J.rows) (r.ints 1 % P)) T ((r.sites J.rows 1).2.sites P 1).2).2 := fun _ => rfl
  have h2 : ∀ Q, (sqaStep J T P G (Q, r)).1 = open Classical in
      if (accept (sqaDelta J T P G Q (r.ints 0 % J.rows) (r.ints 1 % P)) T ((r.sites J.rows 1).2.sites P 1).2).1 then
        flipRing Q (r.ints 1 % P) (r.ints 0 % J.rows) else Q := fun _ => rfl
  rw [h1, h1, h2, h2, ← hΔ]
  refine ⟨?_, rfl, ?_⟩
  · by_cases ha : (accept (sqaDelta J T P G Q (r.ints 0 % J.rows) (r.ints 1 % P)) T ((r.sites J.rows 1).2.sites P 1).2).1
    · rw [if_pos ha, if_pos ha]
      intro p hp
      simp only [flipRing]
      split_ifs
      · exact same_flip (h p hp) _
      · exact h p hp
    · rw [if_neg ha, if_neg ha]
      exact h
  · intro p
    split_ifs
    · simp only [flipRing]
      split_ifs
      · exact hd p
      · exact hd p
    · exact hd p

theorem same_ring_sweep (J : NpMat) (hJ : J.rows = n) (T G : ℝ) : ∀ (k : ℕ) {Q Q' : ℕ → NpInts} (h : SameRing P Q Q')
    (hd : ∀ p, (Q p).dim = n) (r : Rand),
    SameRing P (sqaSweep J T P G k (Q, r)).1 (sqaSweep J T P G k (Q', r)).1 ∧
      (sqaSweep J T P G k (Q, r)).2 = (sqaSweep J T P G k (Q', r)).2 ∧ ∀ p, ((sqaSweep J T P G k (Q, r)).1 p).dim = n
  | 0, _, _, h, hd, r => ⟨h, rfl, hd⟩
  | k + 1, Q, Q', h, hd, r => by
    obtain ⟨h1, h2, h3⟩ := same_ring_step h hd J hJ T G r
    have := same_ring_sweep J hJ T G k h1 h3 (sqaStep J T P G (Q, r)).2
    simp only [sqaSweep]
    rw [show sqaStep J T P G (Q', r) = ((sqaStep J T P G (Q', r)).1, (sqaStep J T P G (Q, r)).2) from by rw [h2]]
    exact this

theorem same_ring_loop (J : NpMat) (hJ : J.rows = n) (ep T Gf R : ℝ) (ite : ℕ) (S : Set (ℕ → NpInts))
    (hS : ∀ Q Q', (∀ p, (Q p).dim = n) → SameRing P Q Q' → (Q ∈ S ↔ Q' ∈ S)) : ∀ (fuel : ℕ) (G : ℝ) (Q Q' : ℕ → NpInts) (r : Rand),
      (∀ p, (Q p).dim = n) → SameRing P Q Q' →
      (ringEv J ep T Gf R P ite fuel G Q r [] S ↔ ringEv J ep T Gf R P ite fuel G Q' r [] S) := by
  intro fuel
  induction fuel with
  | zero =>
    intro G Q Q' r hd h
    by_cases hG : G > Gf
    · simp [ringEv, sqaLoop, hG]
    · rw [ringEv_stop _ _ _ _ _ _ _ _ _ _ hG, ringEv_stop _ _ _ _ _ _ _ _ _ _ hG, hS Q Q' hd h]
  | succ fuel ih =>
    intro G Q Q' r hd h
    by_cases hG : G > Gf
    · rw [ringEv_step _ _ _ _ _ _ _ _ _ _ hG, ringEv_step _ _ _ _ _ _ _ _ _ _ hG]
      obtain ⟨h1, h2, h3⟩ := same_ring_sweep J hJ T G ite h hd r
      rw [← h2]
      exact ih _ _ _ _ h3 h1
    · rw [ringEv_stop _ _ _ _ _ _ _ _ _ _ hG, ringEv_stop _ _ _ _ _ _ _ _ _ _ hG, hS Q Q' hd h]

/-- The rows of an assignment. -/
def ringOf (c : Fin P × Fin n → Bool) : ℕ → NpInts := fun p =>
  ⟨n, fun i => if h : p < P ∧ i < n then if c (⟨p, h.1⟩, ⟨i, h.2⟩) then 1 else -1 else -1⟩

theorem ringOf_spins (c : Fin P × Fin n → Bool) : RingSpins n (ringOf c) := by
  refine fun p => ⟨rfl, fun i hi => ?_⟩
  simp only [ringOf]
  split_ifs <;> simp

theorem cring_ringOf (c : Fin P × Fin n → Bool) : cring P n (ringOf c) = c := by
  funext ⟨p, i⟩
  simp only [cring, ringOf, p.2, i.2, and_self, dif_pos, Fin.eta]
  cases c (p, i) <;> simp

theorem ring_start_law (B : (ℕ → NpInts) → Set Draws)
    (hS : ∀ Q Q', (∀ p, (Q p).dim = n) → SameRing P Q Q' → B Q = B Q') (m : (Fin P × Fin n → Bool) → ℝ)
    (hB : RingEvents P n B m) :
    MeasurableSet {ω | ofRand (sqaInit P n (toRand ω)).2 ∈ B (sqaInit P n (toRand ω)).1} ∧
    (draws (P * n)).real {ω | ofRand (sqaInit P n (toRand ω)).2 ∈ B (sqaInit P n (toRand ω)).1} =
      (1 / 2) ^ (P * n) * ∑ c, m c := by
  have hn : 0 < n := Nat.pos_of_ne_zero (NeZero.ne n)
  have hlt : ∀ i < P * n, i / n < P := fun i hi => Nat.div_lt_of_lt_mul (by rwa [Nat.mul_comm])
  let code : (Fin P × Fin n → Bool) → ℕ → Bool := fun c i =>
    if h : i < P * n then c (⟨i / n, hlt i h⟩, ⟨i % n, Nat.mod_lt _ hn⟩) else false
  have hidx : ∀ p < P, ∀ i < n, p * n + i < P * n := by
    intro p hp i hi
    calc p * n + i < p * n + n := by omega
      _ = (p + 1) * n := by ring
      _ ≤ P * n := Nat.mul_le_mul_right n hp
  have hcode : ∀ c (p : Fin P) (i : Fin n), code c (p * n + i) = c (p, i) := by
    intro c p i
    have h1 := hidx p p.2 i i.2
    simp only [code, dif_pos h1]
    congr 1
    refine Prod.ext (Fin.ext ?_) (Fin.ext ?_)
    · show ((p : ℕ) * n + i) / n = p
      rw [Nat.add_comm, Nat.add_mul_div_right _ _ hn, Nat.div_eq_of_lt i.2, Nat.zero_add]
    · show ((p : ℕ) * n + i) % n = i
      rw [Nat.add_comm, Nat.add_mul_mod_self_right, Nat.mod_eq_of_lt i.2]
  have hev := fun c : Fin P × Fin n → Bool => signs_event (n := P * n) (P * n) (code c) (hB (ringOf c) (ringOf_spins c)).1
  have e : {ω | ofRand (sqaInit P n (toRand ω)).2 ∈ B (sqaInit P n (toRand ω)).1} =
      ⋃ c ∈ (Finset.univ : Finset (Fin P × Fin n → Bool)),
      {ω : Draws | (∀ i < P * n, ω.1 i = code c i) ∧ dropSigns (P * n) ω ∈ B (ringOf c)} := by
    ext ω
    have hrow : ∀ c : Fin P × Fin n → Bool, (∀ i < P * n, ω.1 i = code c i) →
        B (sqaInit P n (toRand ω)).1 = B (ringOf c) := by
      intro c hc
      refine hS _ _ (fun _ => rfl) fun p hp => ⟨rfl, fun i hi => ?_⟩
      have hi' : i < n := hi
      have h1 := hc _ (hidx p hp i hi')
      have h2 := hcode c ⟨p, hp⟩ ⟨i, hi'⟩
      simp only [sqaInit, toRand, ringOf, dif_pos (And.intro hp hi'), h1]
      simp only at h2
      rw [h2]
    simp only [Set.mem_iUnion, Set.mem_setOf_eq, Finset.mem_univ, exists_prop, true_and]
    constructor
    · intro h
      have hc : ∀ i < P * n, ω.1 i = code (fun z => ω.1 (z.1 * n + z.2)) i := by
        intro i hi
        simp only [code, dif_pos hi]
        rw [Nat.mul_comm, Nat.div_add_mod i n]
      exact ⟨fun z => ω.1 (z.1 * n + z.2), hc, hrow (fun z => ω.1 (z.1 * n + z.2)) hc ▸ h⟩
    · rintro ⟨c, hc, h⟩
      rw [hrow c hc]
      exact h
  rw [e]
  refine ⟨Finset.measurableSet_biUnion _ fun c _ => (hev c).1, ?_⟩
  rw [measureReal_biUnion_finset]
  · rw [Finset.mul_sum]
    refine Finset.sum_congr rfl fun c _ => ?_
    rw [(hev c).2, (hB (ringOf c) (ringOf_spins c)).2, cring_ringOf]
  · intro c _ c' _ hne
    rw [Function.onFun, Set.disjoint_left]
    rintro ω ⟨h1, -⟩ ⟨h2, -⟩
    refine hne (funext fun z => ?_)
    obtain ⟨p, i⟩ := z
    have hi := hidx p p.2 i i.2
    rw [← hcode c, ← hcode c', ← h1 _ hi, ← h2 _ hi]
  · exact fun c _ => (hev c).1

end

end

end Blueqat
