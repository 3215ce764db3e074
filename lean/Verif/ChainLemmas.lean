import Verif.Spec.Chain
import Mathlib.Analysis.SpecificLimits.Basic
import Mathlib.Topology.Algebra.Order.Field
import Mathlib.Topology.Algebra.Monoid
import Mathlib.Topology.Order.OrderClosed

/-!
# Lemmas: the Metropolis chain tends to the Boltzmann distribution
-/

set_option linter.unusedSimpArgs false
set_option linter.unusedVariables false

namespace Blueqat

open Spec Finset Filter Topology

noncomputable section

/-! ## Stochastic matrices -/

section
variable {α : Type} [Fintype α] [DecidableEq α]

/-- Non-negative entries, and every row has the sum 1. -/
def Stoch (M : Matrix α α ℝ) : Prop := (∀ c d, 0 ≤ M c d) ∧ ∀ c, ∑ d, M c d = 1

theorem stoch_one : Stoch (1 : Matrix α α ℝ) := by
  refine ⟨fun c d => ?_, fun c => ?_⟩
  · simp only [Matrix.one_apply]; split_ifs <;> norm_num
  · simp [Matrix.one_apply]

theorem Stoch.mul {M N : Matrix α α ℝ} (hM : Stoch M) (hN : Stoch N) : Stoch (M * N) := by
  refine ⟨fun c d => ?_, fun c => ?_⟩
  · rw [Matrix.mul_apply]; exact sum_nonneg fun e _ => mul_nonneg (hM.1 _ _) (hN.1 _ _)
  · simp only [Matrix.mul_apply]
    rw [sum_comm]
    simp only [← mul_sum, hN.2, mul_one, hM.2]

theorem Stoch.pow {M : Matrix α α ℝ} (hM : Stoch M) (k : ℕ) : Stoch (M ^ k) := by
  induction k with
  | zero => rw [pow_zero]; exact stoch_one
  | succ k ih => rw [pow_succ]; exact ih.mul hM

/-- The values differ by at most `K`. -/
def OscLe (f : α → ℝ) (K : ℝ) : Prop := ∀ c c', f c - f c' ≤ K

theorem osc_apply {M : Matrix α α ℝ} (hM : Stoch M) {δ : ℝ} (hδ : ∀ c d, δ ≤ M c d) {f : α → ℝ} {K : ℝ}
    (hf : OscLe f K) : OscLe (M.mulVec f) ((1 - δ * Fintype.card α) * K) := by
  intro c c'
  haveI : Nonempty α := ⟨c⟩
  obtain ⟨a, ha⟩ := Finite.exists_max f
  obtain ⟨b, hb⟩ := Finite.exists_min f
  have hs : ∀ c, ∑ e, (M c e - δ) = 1 - δ * Fintype.card α := by
    intro c
    rw [sum_sub_distrib, hM.2, sum_const, card_univ, nsmul_eq_mul, mul_comm]
  have h0 : 0 ≤ 1 - δ * Fintype.card α := by
    rw [← hs c]; exact sum_nonneg fun e _ => sub_nonneg.2 (hδ c e)
  have h1 : ∑ e, (M c e - δ) * f e ≤ (1 - δ * Fintype.card α) * f a := by
    rw [← hs c, sum_mul]
    exact sum_le_sum fun e _ => mul_le_mul_of_nonneg_left (ha e) (sub_nonneg.2 (hδ c e))
  have h2 : (1 - δ * Fintype.card α) * f b ≤ ∑ e, (M c' e - δ) * f e := by
    rw [← hs c', sum_mul]
    exact sum_le_sum fun e _ => mul_le_mul_of_nonneg_left (hb e) (sub_nonneg.2 (hδ c' e))
  have h3 : M.mulVec f c - M.mulVec f c' = ∑ e, (M c e - δ) * f e - ∑ e, (M c' e - δ) * f e := by
    simp only [Matrix.mulVec, dotProduct, sub_mul, sum_sub_distrib]; ring
  have h4 := mul_le_mul_of_nonneg_left (hf a b) h0
  rw [h3]; nlinarith [h1, h2, h4]

theorem osc_mono {M : Matrix α α ℝ} (hM : Stoch M) {f : α → ℝ} {K : ℝ} (hf : OscLe f K) : OscLe (M.mulVec f) K := by
  have := osc_apply hM (δ := 0) hM.1 hf
  simpa using this

/-- If some power has only positive entries, the rows of the powers become equal. -/
theorem osc_tendsto {M : Matrix α α ℝ} (hM : Stoch M) {m : ℕ} {δ : ℝ} (hδ0 : 0 < δ) (hδ : ∀ c d, δ ≤ (M ^ m) c d)
    (hc : 0 < Fintype.card α) (d : α) : ∀ ε > 0, ∃ k0, ∀ k ≥ k0, OscLe (fun c => (M ^ k) c d) ε := by
  have hm : 0 < m ∨ m = 0 := by omega
  have hs1 : (0 : ℝ) ≤ 1 - δ * Fintype.card α := by
    haveI : Nonempty α := ⟨d⟩
    have h1 := (hM.pow m).2 d
    have h2 : ∑ e : α, δ ≤ ∑ e, (M ^ m) d e := sum_le_sum fun e _ => hδ d e
    rw [h1, sum_const, card_univ, nsmul_eq_mul] at h2
    linarith
  have hs2 : 1 - δ * Fintype.card α < 1 := by
    have : (0 : ℝ) < Fintype.card α := by exact_mod_cast hc
    nlinarith
  have hpow : ∀ j, OscLe (fun c => (M ^ (m * j)) c d) ((1 - δ * Fintype.card α) ^ j) := by
    intro j
    induction j with
    | zero =>
      intro c c'
      simp only [mul_zero, pow_zero, Matrix.one_apply]
      split_ifs <;> norm_num
    | succ j ih =>
      have := osc_apply (hM.pow m) hδ ih
      rw [pow_succ']
      intro c c'
      have h := this c c'
      have e : ∀ c, (M ^ (m * (j + 1))) c d = (M ^ m).mulVec (fun c => (M ^ (m * j)) c d) c := by
        intro c
        rw [show m * (j + 1) = m + m * j by ring, pow_add, Matrix.mul_apply]; rfl
      simp only [e]
      exact h
  intro ε hε
  obtain ⟨j, hj⟩ := exists_pow_lt_of_lt_one hε hs2
  refine ⟨m * j, fun k hk => ?_⟩
  obtain ⟨i, rfl⟩ := Nat.exists_eq_add_of_le hk
  have h1 := osc_mono (hM.pow i) (hpow j)
  intro c c'
  have h := h1 c c'
  have e : ∀ c, (M ^ (m * j + i)) c d = (M ^ i).mulVec (fun c => (M ^ (m * j)) c d) c := by
    intro c
    rw [add_comm, pow_add, Matrix.mul_apply]; rfl
  simp only [e]
  exact h.trans hj.le

/-- The distribution is invariant under the chain. -/
def Invariant (π : α → ℝ) (M : Matrix α α ℝ) : Prop := ∀ d, ∑ c, π c * M c d = π d

theorem Invariant.pow {π : α → ℝ} {M : Matrix α α ℝ} (h : Invariant π M) (k : ℕ) : Invariant π (M ^ k) := by
  induction k with
  | zero => intro d; simp [Matrix.one_apply]
  | succ k ih =>
    intro d
    simp only [pow_succ, Matrix.mul_apply, mul_sum]
    rw [sum_comm]
    simp only [← mul_assoc, ← sum_mul, ih _]
    exact h d

/-- Convergence, uniformly in the start. -/
theorem chain_tendsto {M : Matrix α α ℝ} (hM : Stoch M) {m : ℕ} {δ : ℝ} (hδ0 : 0 < δ) (hδ : ∀ c d, δ ≤ (M ^ m) c d)
    {π : α → ℝ} (hπ0 : ∀ c, 0 ≤ π c) (hπ1 : ∑ c, π c = 1) (hπ : Invariant π M) (d : α) :
    ∀ ε > 0, ∃ k0, ∀ k ≥ k0, ∀ c, |(M ^ k) c d - π d| ≤ ε := by
  intro ε hε
  obtain ⟨k0, hk0⟩ := osc_tendsto hM hδ0 hδ (Fintype.card_pos_iff.2 ⟨d⟩) d ε hε
  refine ⟨k0, fun k hk c => ?_⟩
  have h := hk0 k hk
  have e : (M ^ k) c d - π d = ∑ c', π c' * ((M ^ k) c d - (M ^ k) c' d) := by
    simp only [mul_sub, sum_sub_distrib, ← sum_mul, hπ1, one_mul, hπ.pow k d]
  rw [e, abs_le]
  constructor
  · have : ∑ c', π c' * -ε ≤ ∑ c', π c' * ((M ^ k) c d - (M ^ k) c' d) :=
      sum_le_sum fun c' _ => mul_le_mul_of_nonneg_left (by have := h c' c; simp only at this; linarith) (hπ0 c')
    rw [← sum_mul, hπ1, one_mul] at this
    exact this
  · have : ∑ c', π c' * ((M ^ k) c d - (M ^ k) c' d) ≤ ∑ c', π c' * ε :=
      sum_le_sum fun c' _ => mul_le_mul_of_nonneg_left (h c c') (hπ0 c')
    rw [← sum_mul, hπ1, one_mul] at this
    exact this

end

/-! ## The Metropolis chain -/

section
variable {ι : Type} [Fintype ι] [DecidableEq ι] (H : (ι → Bool) → ℝ) (T : ℝ)

theorem flipOne_ne (c : ι → Bool) (x : ι) : flipOne c x ≠ c := by
  intro h
  have := congrFun h x
  simp [flipOne] at this

theorem flipOne_flipOne (c : ι → Bool) (x : ι) : flipOne (flipOne c x) x = c := by
  simp [flipOne]

theorem acceptProb_nonneg {α : Type} (H : α → ℝ) (c f : α) : 0 ≤ acceptProb H T c f := le_min zero_le_one (Real.exp_pos _).le

theorem acceptProb_pos {α : Type} (H : α → ℝ) (c f : α) : 0 < acceptProb H T c f := lt_min zero_lt_one (Real.exp_pos _)

theorem acceptProb_le {α : Type} (H : α → ℝ) (c f : α) : acceptProb H T c f ≤ 1 := min_le_left _ _

theorem metropolis_stoch (hn : 0 < Fintype.card ι) : Stoch (metropolisMatrix H T) := by
  have hn' : (Fintype.card ι : ℝ) ≠ 0 := by exact_mod_cast hn.ne'
  refine ⟨fun c d => sum_nonneg fun x _ => mul_nonneg (by positivity) (add_nonneg ?_ ?_), fun c => ?_⟩
  · split_ifs
    · exact acceptProb_nonneg T H _ _
    · exact le_rfl
  · split_ifs
    · exact sub_nonneg.2 (acceptProb_le T H _ _)
    · exact le_rfl
  · simp only [metropolisMatrix]
    rw [sum_comm]
    simp only [← mul_sum, sum_add_distrib, sum_ite_eq', mem_univ, if_true]
    simp [hn']

theorem boltz_sum_pos : 0 < ∑ d : ι → Bool, Real.exp (-H d / T) := sum_pos (fun d _ => Real.exp_pos _) ⟨fun _ => false, mem_univ _⟩

theorem boltz_nonneg (c : ι → Bool) : 0 ≤ boltzmann H T c := div_nonneg (Real.exp_pos _).le (boltz_sum_pos H T).le

theorem boltz_sum : ∑ c, boltzmann H T c = 1 := by
  simp only [boltzmann, ← sum_div]
  exact div_self (boltz_sum_pos H T).ne'

theorem accept_balance (c f : ι → Bool) : boltzmann H T c * acceptProb H T c f = boltzmann H T f * acceptProb H T f c := by
  have key : ∀ c f : ι → Bool, Real.exp (-H c / T) * acceptProb H T c f = min (Real.exp (-H c / T)) (Real.exp (-H f / T)) := by
    intro c f
    rw [acceptProb, mul_min_of_nonneg _ _ (Real.exp_pos _).le, mul_one, ← Real.exp_add]
    congr 2
    rw [← add_div]; ring_nf
  simp only [boltzmann, div_mul_eq_mul_div, key]
  rw [min_comm]

theorem metropolis_balance (c d : ι → Bool) :
    boltzmann H T c * metropolisMatrix H T c d = boltzmann H T d * metropolisMatrix H T d c := by
  simp only [metropolisMatrix, mul_sum]
  refine sum_congr rfl fun x _ => ?_
  by_cases hdc : d = c
  · subst hdc; rfl
  · rw [if_neg hdc, if_neg (Ne.symm hdc), add_zero, add_zero]
    by_cases hf : d = flipOne c x
    · have hf' : c = flipOne d x := by rw [hf, flipOne_flipOne]
      rw [if_pos hf, if_pos hf', ← hf, ← hf']
      have := accept_balance H T c d
      linear_combination (1 / Fintype.card ι : ℝ) * this
    · have hf' : c ≠ flipOne d x := fun h => hf (by rw [h, flipOne_flipOne])
      rw [if_neg hf, if_neg hf']; ring

theorem metropolis_invariant (hn : 0 < Fintype.card ι) : Invariant (boltzmann H T) (metropolisMatrix H T) := by
  intro d
  simp only [metropolis_balance H T _ d, ← mul_sum, (metropolis_stoch H T hn).2, mul_one]

theorem metropolis_flip_pos (hn : 0 < Fintype.card ι) (c : ι → Bool) (x : ι) : 0 < metropolisMatrix H T c (flipOne c x) := by
  have hn' : (0 : ℝ) < Fintype.card ι := by exact_mod_cast hn
  refine sum_pos' (fun y _ => mul_nonneg (by positivity) (add_nonneg ?_ ?_)) ⟨x, mem_univ _, ?_⟩
  · split_ifs
    · exact acceptProb_nonneg T H _ _
    · exact le_rfl
  · split_ifs
    · exact sub_nonneg.2 (acceptProb_le T H _ _)
    · exact le_rfl
  · rw [if_pos rfl, if_neg (flipOne_ne c x), add_zero]
    exact mul_pos (by positivity) (acceptProb_pos T H _ _)

theorem metropolis_stay_pos (hn : 0 < Fintype.card ι) (hT : 0 < T) (c : ι → Bool) (x : ι) (h : H c < H (flipOne c x)) :
    0 < metropolisMatrix H T c c := by
  have hn' : (0 : ℝ) < Fintype.card ι := by exact_mod_cast hn
  refine sum_pos' (fun y _ => mul_nonneg (by positivity) (add_nonneg ?_ ?_)) ⟨x, mem_univ _, ?_⟩
  · split_ifs
    · exact acceptProb_nonneg T H _ _
    · exact le_rfl
  · split_ifs
    · exact sub_nonneg.2 (acceptProb_le T H _ _)
    · exact le_rfl
  · rw [if_neg (flipOne_ne c x).symm, if_pos rfl, zero_add]
    refine mul_pos (by positivity) (sub_pos.2 ?_)
    refine lt_of_le_of_lt (min_le_right _ _) ?_
    rw [← Real.exp_zero, Real.exp_lt_exp]
    exact div_neg_of_neg_of_pos (by linarith) hT

theorem pow_pos_mul {M : Matrix (ι → Bool) (ι → Bool) ℝ} (hM : Stoch M) {a b : ℕ} {c e d : ι → Bool}
    (h1 : 0 < (M ^ a) c e) (h2 : 0 < (M ^ b) e d) : 0 < (M ^ (a + b)) c d := by
  rw [pow_add, Matrix.mul_apply]
  exact sum_pos' (fun x _ => mul_nonneg ((hM.pow a).1 _ _) ((hM.pow b).1 _ _)) ⟨e, mem_univ _, mul_pos h1 h2⟩

theorem diff_erase (c d : ι → Bool) (x : ι) (hx' : c x ≠ d x) :
    (univ.filter fun y => flipOne c x y ≠ d y) = (univ.filter fun y => c y ≠ d y).erase x := by
  ext y
  rw [mem_filter, mem_erase, mem_filter]
  by_cases hy : y = x
  · subst hy
    have : flipOne c y y = !c y := by simp [flipOne]
    rw [this]
    revert hx'
    cases c y <;> cases d y <;> simp
  · have : flipOne c x y = c y := by simp [flipOne, Function.update_of_ne hy]
    rw [this]
    simp [hy]

/-- Every assignment is reached from every other in as many steps as bits differ. -/
theorem metropolis_reach (hn : 0 < Fintype.card ι) : ∀ (k : ℕ) (c d : ι → Bool), (univ.filter fun x => c x ≠ d x).card = k →
    0 < (metropolisMatrix H T ^ k) c d := by
  intro k
  induction k with
  | zero =>
    intro c d h
    have : c = d := by
      funext x
      by_contra hx
      have : x ∈ univ.filter fun x => c x ≠ d x := by simp [hx]
      rw [card_eq_zero.1 h] at this
      simp at this
    subst this
    simp
  | succ k ih =>
    intro c d h
    obtain ⟨x, hx⟩ : (univ.filter fun x => c x ≠ d x).Nonempty := by rw [← card_pos]; omega
    have hx' : c x ≠ d x := by simpa using hx
    have h1 := diff_erase c d x hx'
    have h2 := ih (flipOne c x) d (by rw [h1, card_erase_of_mem hx, h]; rfl)
    rw [add_comm]
    refine pow_pos_mul (metropolis_stoch H T hn) (e := flipOne c x) ?_ h2
    rw [pow_one]; exact metropolis_flip_pos H T hn c x

theorem exists_uphill (hne : ∃ c d, H c ≠ H d) : ∃ c x, H c < H (flipOne c x) := by
  by_contra hcon
  push Not at hcon
  have hle : ∀ c x, H (flipOne c x) = H c := by
    intro c x
    refine le_antisymm (hcon c x) ?_
    have := hcon (flipOne c x) x
    rwa [flipOne_flipOne] at this
  have hall : ∀ (k : ℕ) (c d : ι → Bool), (univ.filter fun x => c x ≠ d x).card = k → H c = H d := by
    intro k
    induction k with
    | zero =>
      intro c d h
      have : c = d := by
        funext x
        by_contra hx
        have : x ∈ univ.filter fun x => c x ≠ d x := by simp [hx]
        rw [card_eq_zero.1 h] at this
        simp at this
      rw [this]
    | succ k ih =>
      intro c d h
      obtain ⟨x, hx⟩ : (univ.filter fun x => c x ≠ d x).Nonempty := by rw [← card_pos]; omega
      have hx' : c x ≠ d x := by simpa using hx
      have h1 := diff_erase c d x hx'
      rw [← hle c x]
      exact ih (flipOne c x) d (by rw [h1, card_erase_of_mem hx, h]; rfl)
  obtain ⟨c, d, hcd⟩ := hne
  exact hcd (hall _ c d rfl)

theorem metropolis_tendsto (hn : 0 < Fintype.card ι) (hT : 0 < T) (hne : ∃ c d, H c ≠ H d) (d : ι → Bool) :
    ∀ ε > 0, ∃ k0, ∀ k ≥ k0, ∀ c, |(metropolisMatrix H T ^ k) c d - boltzmann H T d| ≤ ε := by
  have hst := metropolis_stoch H T hn
  obtain ⟨a, x, hax⟩ := exists_uphill H hne
  have hstay := metropolis_stay_pos H T hn hT a x hax
  have hstay' : ∀ k, 0 < (metropolisMatrix H T ^ k) a a := by
    intro k
    induction k with
    | zero => simp
    | succ k ih => exact pow_pos_mul hst ih (by rwa [pow_one])
  have hdist : ∀ c d : ι → Bool, (univ.filter fun x => c x ≠ d x).card ≤ Fintype.card ι := by
    intro c d
    refine (card_filter_le _ _).trans ?_
    simp
  have hpos : ∀ c d, 0 < (metropolisMatrix H T ^ (Fintype.card ι + Fintype.card ι)) c d := by
    intro c d
    obtain ⟨i, hi⟩ := Nat.exists_eq_add_of_le (hdist c a)
    have h1 := metropolis_reach H T hn _ c a rfl
    have h2 := metropolis_reach H T hn _ a d rfl
    obtain ⟨j, hj⟩ := Nat.exists_eq_add_of_le (hdist a d)
    have h3 := pow_pos_mul hst (pow_pos_mul hst h1 (hstay' (i + j))) h2
    have e : (univ.filter fun x => c x ≠ a x).card + (i + j) + (univ.filter fun x => a x ≠ d x).card = Fintype.card ι + Fintype.card ι := by omega
    rw [e] at h3
    exact h3
  obtain ⟨p, hp⟩ := Finite.exists_min fun p : (ι → Bool) × (ι → Bool) => (metropolisMatrix H T ^ (Fintype.card ι + Fintype.card ι)) p.1 p.2
  exact chain_tendsto hst (hpos p.1 p.2) (fun c d => hp (c, d)) (boltz_nonneg H T) (boltz_sum H T) (metropolis_invariant H T hn) d

theorem anneal_stoch {α : Type} [Fintype α] [DecidableEq α] {M : ℝ → Matrix α α ℝ} (h : ∀ T, Stoch (M T)) (ite : ℕ) :
    ∀ ts : List ℝ, Stoch (annealMatrix M ite ts)
  | [] => stoch_one
  | T :: ts => ((h T).pow ite).mul (anneal_stoch h ite ts)

theorem anneal_append {α : Type} [Fintype α] [DecidableEq α] (M : ℝ → Matrix α α ℝ) (ite : ℕ) (T : ℝ) : ∀ ts : List ℝ,
    annealMatrix M ite (ts ++ [T]) = annealMatrix M ite ts * M T ^ ite
  | [] => by simp [annealMatrix]
  | t :: ts => by rw [List.cons_append, annealMatrix, annealMatrix, anneal_append M ite T ts, Matrix.mul_assoc]

theorem boltzmann_const (h : ∀ c d, H c = H d) (T : ℝ) (c : ι → Bool) : boltzmann H T c = (1 / 2) ^ Fintype.card ι := by
  have e : ∀ d, Real.exp (-H d / T) = Real.exp (-H c / T) := fun d => by rw [h d c]
  rw [boltzmann, sum_congr rfl fun d _ => e d, sum_const, card_univ, Fintype.card_fun, Fintype.card_bool,
    nsmul_eq_mul]
  have := Real.exp_ne_zero (-H c / T)
  field_simp
  push_cast
  rw [← mul_pow]
  norm_num

theorem start_tendsto (M : ℝ → Matrix (ι → Bool) (ι → Bool) ℝ) (hM : ∀ t, Stoch (M t)) (hn : 0 < Fintype.card ι) (T : ℝ) (hT : 0 < T)
    (t : ℝ) (hMt : M t = metropolisMatrix H T)
    (hne : (∃ c d, H c ≠ H d) ∨ ∀ t, Invariant (fun _ => (1 / 2 : ℝ) ^ Fintype.card ι) (M t)) (ts : List ℝ) (d : ι → Bool) :
    ∀ ε > 0, ∃ k0, ∀ k ≥ k0, |annealProb M k (ts ++ [t]) d - boltzmann H T d| ≤ ε := by
  intro ε hε
  have hcard : ∑ c : ι → Bool, (1 / 2 : ℝ) ^ Fintype.card ι = 1 := by
    rw [sum_const, card_univ, Fintype.card_fun, Fintype.card_bool, nsmul_eq_mul]
    push_cast
    rw [← mul_pow]
    norm_num
  by_cases hne' : ∃ c d, H c ≠ H d
  · obtain ⟨k0, hk0⟩ := metropolis_tendsto H T hn hT hne' d ε hε
    refine ⟨k0, fun k hk => ?_⟩
    have hA := anneal_stoch hM k ts
    rw [annealProb]
    have hrow : ∀ c, |annealMatrix M k (ts ++ [t]) c d - boltzmann H T d| ≤ ε := by
      intro c
      rw [anneal_append, Matrix.mul_apply, hMt]
      have e : ∑ j, annealMatrix M k ts c j * (metropolisMatrix H T ^ k) j d - boltzmann H T d =
          ∑ j, annealMatrix M k ts c j * ((metropolisMatrix H T ^ k) j d - boltzmann H T d) := by
        simp only [mul_sub, sum_sub_distrib, ← sum_mul, hA.2, one_mul]
      rw [e]
      refine (abs_sum_le_sum_abs _ _).trans ?_
      calc ∑ j, |annealMatrix M k ts c j * ((metropolisMatrix H T ^ k) j d - boltzmann H T d)|
          ≤ ∑ j, annealMatrix M k ts c j * ε := by
            refine sum_le_sum fun j _ => ?_
            rw [abs_mul, abs_of_nonneg (hA.1 _ _)]
            exact mul_le_mul_of_nonneg_left (hk0 k hk j) (hA.1 _ _)
        _ = ε := by rw [← sum_mul, hA.2, one_mul]
    have e : (1 / 2 : ℝ) ^ Fintype.card ι * ∑ c, annealMatrix M k (ts ++ [t]) c d - boltzmann H T d =
        ∑ c, (1 / 2 : ℝ) ^ Fintype.card ι * (annealMatrix M k (ts ++ [t]) c d - boltzmann H T d) := by
      rw [← mul_sum, sum_sub_distrib, mul_sub, sub_right_inj, mul_sum, ← sum_mul, hcard, one_mul]
    rw [e]
    refine (abs_sum_le_sum_abs _ _).trans ?_
    calc ∑ c, |(1 / 2 : ℝ) ^ Fintype.card ι * (annealMatrix M k (ts ++ [t]) c d - boltzmann H T d)|
        ≤ ∑ c : ι → Bool, (1 / 2 : ℝ) ^ Fintype.card ι * ε := by
          refine sum_le_sum fun c _ => ?_
          rw [abs_mul, abs_of_nonneg (by positivity)]
          exact mul_le_mul_of_nonneg_left (hrow c) (by positivity)
      _ = ε := by rw [← sum_mul, hcard, one_mul]
  · have hinv := hne.resolve_left hne'
    push Not at hne'
    refine ⟨0, fun k _ => ?_⟩
    have h1 : ∀ ts, Invariant (fun _ => (1 / 2 : ℝ) ^ Fintype.card ι) (annealMatrix M k ts) := by
      intro ts
      induction ts with
      | nil => intro d; simp [annealMatrix, Matrix.one_apply]
      | cons t ts ih =>
        intro d
        simp only [annealMatrix, Matrix.mul_apply, mul_sum]
        rw [sum_comm]
        simp only [← mul_assoc, ← sum_mul, (hinv t).pow k _]
        exact ih d
    have h2 := h1 (ts ++ [t]) d
    simp only at h2
    rw [annealProb, mul_sum, h2, boltzmann_const H hne', sub_self, abs_zero]
    exact hε.le

/-- Every schedule that cools to a positive target ends, with a last temperature of at most `target / R`. -/
theorem schedule_exists (R target : ℝ) (hR : 0 < R) (hR1 : R < 1) (ht : 0 < target) (T : ℝ) (hT : target < T) :
    ∃ ts t, Schedule R target T (ts ++ [t]) ∧ (∀ s ∈ ts ++ [t], target < s) ∧ t * R ≤ target := by
  obtain ⟨N, hN⟩ := exists_pow_lt_of_lt_one (div_pos ht (ht.trans hT)) hR1
  rw [lt_div_iff₀ (ht.trans hT)] at hN
  clear ht
  induction N generalizing T with
  | zero => simp at hN; linarith
  | succ N ih =>
    by_cases h : target < T * R
    · obtain ⟨ts, t, h1, h2, h3⟩ := ih (T * R) h (by rw [pow_succ] at hN; linarith)
      refine ⟨T :: ts, t, .step hT h1, ?_, h3⟩
      intro s hs
      rcases List.mem_cons.1 hs with rfl | hs
      · exact hT
      · exact h2 s hs
    · exact ⟨[], T, .step hT (.stop h), by simpa using hT, not_lt.1 h⟩

/-- Towards temperature 0 the Boltzmann distribution becomes uniform on the assignments of least energy. -/
theorem boltzmann_cold (d : ι → Bool) :
    Filter.Tendsto (fun T => boltzmann H T d) (nhdsWithin 0 (Set.Ioi 0))
      (nhds (open Classical in if ∀ c, H d ≤ H c then 1 / ((univ.filter fun e => ∀ c, H e ≤ H c).card : ℝ) else 0)) := by
  classical
  obtain ⟨a, ha⟩ := Finite.exists_min H
  have hmin : ∀ d, (∀ c, H d ≤ H c) ↔ H d = H a := fun d => ⟨fun h => le_antisymm (h a) (ha d), fun h c => h ▸ ha c⟩
  have hterm : ∀ d, Filter.Tendsto (fun T => Real.exp (-(H d - H a) / T)) (nhdsWithin 0 (Set.Ioi 0))
      (nhds (if H d = H a then 1 else 0)) := by
    intro d
    by_cases h : H d = H a
    · rw [if_pos h, h]
      simp
    · rw [if_neg h]
      have hpos : 0 < H d - H a := sub_pos.2 (lt_of_le_of_ne (ha d) (Ne.symm h))
      have h1 : Filter.Tendsto (fun T : ℝ => (H d - H a) * T⁻¹) (nhdsWithin 0 (Set.Ioi 0)) Filter.atTop :=
        Filter.Tendsto.const_mul_atTop hpos tendsto_inv_nhdsGT_zero
      have h2 := Real.tendsto_exp_neg_atTop_nhds_zero.comp h1
      refine h2.congr fun T => ?_
      simp only [Function.comp_apply]
      congr 1
      rw [neg_div, div_eq_mul_inv]
  have hb : ∀ T, boltzmann H T d = Real.exp (-(H d - H a) / T) / ∑ e, Real.exp (-(H e - H a) / T) := by
    intro T
    have e : ∀ e, Real.exp (-(H e - H a) / T) = Real.exp (-H e / T) * Real.exp (H a / T) := by
      intro e
      rw [← Real.exp_add]
      congr 1
      ring
    simp only [e, ← sum_mul, boltzmann]
    rw [mul_div_mul_right _ _ (Real.exp_ne_zero _)]
  simp only [hb]
  have hsum := tendsto_finset_sum (univ : Finset (ι → Bool)) fun e _ => hterm e
  have hcard : ∑ e : ι → Bool, (if H e = H a then (1 : ℝ) else 0) = ((univ.filter fun e => ∀ c, H e ≤ H c).card : ℝ) := by
    rw [sum_boole]
    congr 2
    ext e
    simp only [mem_filter, mem_univ, true_and, hmin]
  rw [hcard] at hsum
  have hne : ((univ.filter fun e => ∀ c, H e ≤ H c).card : ℝ) ≠ 0 := by
    have : 0 < (univ.filter fun e => ∀ c, H e ≤ H c).card := card_pos.2 ⟨a, by simp [hmin]⟩
    exact_mod_cast this.ne'
  have := (hterm d).div hsum hne
  by_cases h : ∀ c, H d ≤ H c
  · rw [if_pos ((hmin d).1 h)] at this
    rw [if_pos h]
    exact this
  · rw [if_neg (mt (hmin d).2 h), zero_div] at this
    rw [if_neg h]
    exact this

end

end

end Blueqat
