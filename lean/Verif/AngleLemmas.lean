import Verif.SympyAngle
import Verif.Spec.Angles
import Verif.SympyLemmas
import Verif.NormLemmas
import Verif.PauliEvolution
import Mathlib.Analysis.InnerProductSpace.PiL2
import Mathlib.Analysis.SpecialFunctions.Trigonometric.Bounds

/-!
# Lemmas: operations depend continuously on their angles
-/

set_option linter.unusedSimpArgs false
set_option linter.unusedVariables false

namespace Spec

open Blueqat

noncomputable section

/-- A state as an element of a Euclidean space. -/
def toE (n : ℕ) (ψ : Vec) : EuclideanSpace ℂ (Fin (2 ^ n)) := WithLp.toLp 2 fun i => ψ i

/-- Distance of two states. -/
def gap (n : ℕ) (ψ χ : Vec) : ℝ := Real.sqrt (normSqN n fun i => ψ i - χ i)

theorem norm_toE (n : ℕ) (ψ : Vec) : ‖toE n ψ‖ = Real.sqrt (normSqN n ψ) := by
  rw [EuclideanSpace.norm_eq, normSqN, Finset.sum_range]
  rfl

theorem gap_eq (n : ℕ) (ψ χ : Vec) : gap n ψ χ = ‖toE n ψ - toE n χ‖ := by
  rw [gap, ← norm_toE]; rfl

theorem gap_self (n : ℕ) (ψ : Vec) : gap n ψ ψ = 0 := by rw [gap_eq, sub_self, norm_zero]

theorem gap_triangle (n : ℕ) (ψ χ ω : Vec) : gap n ψ ω ≤ gap n ψ χ + gap n χ ω := by
  simp only [gap_eq]; exact norm_sub_le_norm_sub_add_norm_sub _ _ _

theorem gap_congr {n : ℕ} {ψ ψ' χ χ' : Vec} (h1 : ∀ i < 2 ^ n, ψ i = ψ' i) (h2 : ∀ i < 2 ^ n, χ i = χ' i) :
    gap n ψ χ = gap n ψ' χ' := by
  rw [gap, gap, normSqN, normSqN]
  congr 1
  exact Finset.sum_congr rfl fun i hi => by rw [h1 i (Finset.mem_range.1 hi), h2 i (Finset.mem_range.1 hi)]

theorem gap_elem {n : ℕ} {ph : ℝ → ℂ} (hph : ∀ x, ‖ph x‖ = 1) (e : Elem) (hv : e.Valid n) (ψ χ : Vec) :
    gap n (e.unitary ph ψ) (e.unitary ph χ) = gap n ψ χ := by
  have h := elem_lin ph e 1 (-1) ψ χ
  have e1 : (fun i => e.unitary ph ψ i - e.unitary ph χ i) = e.unitary ph (fun i => ψ i - χ i) := by
    rw [show (fun i => ψ i - χ i) = fun i => 1 * ψ i + (-1) * χ i by funext i; ring, h]
    funext i; ring
  rw [gap, gap, e1, (isom_elem hph e hv).norm]

theorem gap_app {n t : ℕ} (ht : t < n) {M : M2} (hM : M.Unit) (ψ χ : Vec) :
    gap n (app M t ψ) (app M t χ) = gap n ψ χ := by
  have e1 : (fun i => app M t ψ i - app M t χ i) = app M t (fun i => ψ i - χ i) := by
    funext i; simp only [app]; split_ifs <;> ring
  rw [gap, gap, e1, (isom_app ht hM).norm]

/-- A bound on what a 2x2 matrix does to two amplitudes is a bound on what it does to a state. -/
theorem normSqN_app_le {n t : ℕ} (ht : t < n) (D : M2) (K : ℝ)
    (h : ∀ x y : ℂ, ‖D.a * x + D.b * y‖ ^ 2 + ‖D.c * x + D.d * y‖ ^ 2 ≤ K * (‖x‖ ^ 2 + ‖y‖ ^ 2)) (ψ : Vec) :
    normSqN n (app D t ψ) ≤ K * normSqN n ψ := by
  rw [normSqN, normSqN, sum_pair ht, sum_pair ht (fun i => ‖ψ i‖ ^ 2), Finset.mul_sum]
  refine Finset.sum_le_sum fun i hi => ?_
  have hb := (Finset.mem_filter.1 hi).2
  have := h (ψ i) (ψ (flipBit t i))
  simpa [app, testBit_flipBit_self, hb, flipBit_flipBit] using this

theorem gap_app_app {n t : ℕ} (ht : t < n) (A B : M2) {κ : ℝ} (hκ : 0 ≤ κ)
    (h : ∀ x y : ℂ, ‖(A.a - B.a) * x + (A.b - B.b) * y‖ ^ 2 + ‖(A.c - B.c) * x + (A.d - B.d) * y‖ ^ 2 ≤
      κ ^ 2 * (‖x‖ ^ 2 + ‖y‖ ^ 2)) (ψ : Vec) :
    gap n (app A t ψ) (app B t ψ) ≤ κ * Real.sqrt (normSqN n ψ) := by
  have e1 : (fun i => app A t ψ i - app B t ψ i) = app ⟨A.a - B.a, A.b - B.b, A.c - B.c, A.d - B.d⟩ t ψ := by
    funext i; simp only [app]; split_ifs <;> ring
  rw [gap, e1]
  have hb : normSqN n (app ⟨A.a - B.a, A.b - B.b, A.c - B.c, A.d - B.d⟩ t ψ) ≤ κ ^ 2 * normSqN n ψ :=
    normSqN_app_le ht ⟨A.a - B.a, A.b - B.b, A.c - B.c, A.d - B.d⟩ (κ ^ 2) (fun x y => h x y) ψ
  refine (Real.sqrt_le_sqrt hb).trans ?_
  rw [Real.sqrt_mul (sq_nonneg κ), Real.sqrt_sq hκ]

theorem cis_sub_le (u v : ℝ) : ‖cis u - cis v‖ ≤ |u - v| := by
  have : cis u - cis v = cis v * (Complex.exp (Complex.I * ((u - v : ℝ) : ℂ)) - 1) := by
    rw [mul_sub, mul_one, cis, cis, ← Complex.exp_add]; congr 2; push_cast; ring
  rw [this, norm_mul, norm_cis, one_mul]
  exact Real.norm_exp_I_mul_ofReal_sub_one_le

theorem cos_sin_sub_sq_le (u v : ℝ) :
    (Real.cos u - Real.cos v) ^ 2 + (Real.sin u - Real.sin v) ^ 2 ≤ (u - v) ^ 2 := by
  have h := cis_sub_le u v
  have h2 : ‖cis u - cis v‖ ^ 2 = (Real.cos u - Real.cos v) ^ 2 + (Real.sin u - Real.sin v) ^ 2 := by
    rw [← Complex.normSq_eq_norm_sq, Complex.normSq_apply]
    simp only [cis, Complex.exp_ofReal_mul_I_re, Complex.exp_ofReal_mul_I_im, Complex.sub_re, Complex.sub_im]
    ring
  rw [← h2, ← sq_abs (u - v)]
  exact pow_le_pow_left₀ (norm_nonneg _) h 2

theorem nsq (z : ℂ) : ‖z‖ ^ 2 = z.re ^ 2 + z.im ^ 2 := by
  rw [← Complex.normSq_eq_norm_sq, Complex.normSq_apply]; ring

theorem gap_RX {n t : ℕ} (ht : t < n) (u v : ℝ) (ψ : Vec) :
    gap n (app (mRX u) t ψ) (app (mRX v) t ψ) ≤ |u - v| / 2 * Real.sqrt (normSqN n ψ) := by
  refine gap_app_app ht _ _ (by positivity) (fun x y => ?_) ψ
  have h := cos_sin_sub_sq_le (u / 2) (v / 2)
  have e : (|u - v| / 2) ^ 2 = (u / 2 - v / 2) ^ 2 := by rw [div_pow, sq_abs]; ring
  rw [e]
  refine le_trans (le_of_eq ?_) (mul_le_mul_of_nonneg_right h (by positivity))
  simp only [mRX, nsq, Complex.add_re, Complex.add_im, Complex.mul_re, Complex.mul_im, Complex.sub_re, Complex.sub_im,
    Complex.neg_re, Complex.neg_im, Complex.I_re, Complex.I_im, Complex.ofReal_re, Complex.ofReal_im]
  ring

theorem gap_RY {n t : ℕ} (ht : t < n) (u v : ℝ) (ψ : Vec) :
    gap n (app (mRY u) t ψ) (app (mRY v) t ψ) ≤ |u - v| / 2 * Real.sqrt (normSqN n ψ) := by
  refine gap_app_app ht _ _ (by positivity) (fun x y => ?_) ψ
  have h := cos_sin_sub_sq_le (u / 2) (v / 2)
  have e : (|u - v| / 2) ^ 2 = (u / 2 - v / 2) ^ 2 := by rw [div_pow, sq_abs]; ring
  rw [e]
  refine le_trans (le_of_eq ?_) (mul_le_mul_of_nonneg_right h (by positivity))
  simp only [mRY, nsq, Complex.add_re, Complex.add_im, Complex.mul_re, Complex.mul_im, Complex.sub_re, Complex.sub_im,
    Complex.neg_re, Complex.neg_im, Complex.ofReal_re, Complex.ofReal_im]
  ring

theorem gap_diag {n t : ℕ} (ht : t < n) {a b c d : ℂ} {κ : ℝ} (h1 : ‖a - c‖ ≤ κ) (h2 : ‖b - d‖ ≤ κ) (ψ : Vec) :
    gap n (app ⟨a, 0, 0, b⟩ t ψ) (app ⟨c, 0, 0, d⟩ t ψ) ≤ κ * Real.sqrt (normSqN n ψ) := by
  refine gap_app_app ht _ _ ((norm_nonneg _).trans h1) (fun x y => ?_) ψ
  simp only [sub_self, zero_mul, add_zero, zero_add, norm_mul, mul_pow, mul_add]
  have e1 := pow_le_pow_left₀ (norm_nonneg _) h1 2
  have e2 := pow_le_pow_left₀ (norm_nonneg _) h2 2
  exact add_le_add (mul_le_mul_of_nonneg_right e1 (by positivity)) (mul_le_mul_of_nonneg_right e2 (by positivity))

theorem gap_RZ {n t : ℕ} (ht : t < n) (u v : ℝ) (ψ : Vec) :
    gap n (app (mRZ u) t ψ) (app (mRZ v) t ψ) ≤ |u - v| / 2 * Real.sqrt (normSqN n ψ) := by
  have e : |u - v| / 2 = |u / 2 - v / 2| := by
    rw [← sub_div, abs_div, abs_of_pos (by norm_num : (0 : ℝ) < 2)]
  refine gap_diag ht ?_ ?_ ψ
  · refine (cis_sub_le _ _).trans (le_of_eq ?_)
    rw [e, ← abs_neg]; congr 1; ring
  · rw [e]; exact cis_sub_le _ _

theorem gap_phase {n t : ℕ} (ht : t < n) (u v : ℝ) (ψ : Vec) :
    gap n (app (mPhase u) t ψ) (app (mPhase v) t ψ) ≤ |u - v| * Real.sqrt (normSqN n ψ) :=
  gap_diag ht (by simp) (cis_sub_le _ _) ψ

/-- The one-qubit operations depend on their angles as their weights say. -/
theorem gap_simplified {n t : ℕ} (ht : t < n) {S : ℝ → ℝ} {δ : ℝ} (hδ : 0 ≤ δ) (k : G1)
    (hS : ∀ x ∈ (Elem.one k t).angles, |S x - x| ≤ δ) (ψ : Vec) :
    gap n (app (matrix1 (k.simplified S)) t ψ) (app (matrix1 k) t ψ) ≤
      (Elem.one k t).weight * δ * Real.sqrt (normSqN n ψ) := by
  have hN := Real.sqrt_nonneg (normSqN n ψ)
  have half : ∀ {x : ℝ}, |S x - x| ≤ δ → |S x - x| / 2 * Real.sqrt (normSqN n ψ) ≤ 1 / 2 * δ * Real.sqrt (normSqN n ψ) :=
    fun h => mul_le_mul_of_nonneg_right (by linarith) hN
  have u3 : ∀ θ φ lam θ' φ' lam' : ℝ, gap n (app (mU3 θ' φ' lam') t ψ) (app (mU3 θ φ lam) t ψ) ≤
      |φ' - φ| / 2 * Real.sqrt (normSqN n ψ) + (|θ' - θ| / 2 * Real.sqrt (normSqN n ψ) +
        |lam' - lam| / 2 * Real.sqrt (normSqN n ψ)) := by
    intro θ φ lam θ' φ' lam'
    simp only [mU3_eq, ← app_app]
    have n1 : normSqN n (app (mRZ lam') t ψ) = normSqN n ψ := (isom_app ht (unit_RZ _)).norm ψ
    have n2 : normSqN n (app (mRY θ') t (app (mRZ lam') t ψ)) = normSqN n ψ := by
      rw [(isom_app ht (unit_RY _)).norm, n1]
    refine (gap_triangle n _ (app (mRZ φ) t (app (mRY θ') t (app (mRZ lam') t ψ))) _).trans (add_le_add ?_ ?_)
    · have := gap_RZ ht φ' φ (app (mRY θ') t (app (mRZ lam') t ψ)); rwa [n2] at this
    · rw [gap_app ht (unit_RZ φ)]
      refine (gap_triangle n _ (app (mRY θ) t (app (mRZ lam') t ψ)) _).trans (add_le_add ?_ ?_)
      · have := gap_RY ht θ' θ (app (mRZ lam') t ψ); rwa [n1] at this
      · rw [gap_app ht (unit_RY θ)]; exact gap_RZ ht lam' lam ψ
  cases k <;> simp only [G1.simplified, matrix1, Elem.weight, Elem.angles, List.mem_cons, List.not_mem_nil, or_false,
    forall_eq_or_imp, forall_eq] at hS ⊢
  case rx θ => exact (gap_RX ht _ _ ψ).trans (half hS)
  case ry θ => exact (gap_RY ht _ _ ψ).trans (half hS)
  case rz θ => exact (gap_RZ ht _ _ ψ).trans (half hS)
  case u1 θ => exact (gap_RZ ht _ _ ψ).trans (half hS)
  case phase θ => exact (gap_phase ht _ _ ψ).trans (mul_le_mul_of_nonneg_right (by linarith) hN)
  case u2 φ lam =>
    have := u3 (Real.pi / 2) φ lam (Real.pi / 2) (S φ) (S lam)
    rw [sub_self, abs_zero, zero_div, zero_mul, zero_add] at this
    have h1 := half hS.1
    have h2 := half hS.2
    linarith
  case u3 θ φ lam =>
    have := u3 θ φ lam (S θ) (S φ) (S lam)
    have h1 := half hS.1
    have h2 := half hS.2.1
    have h3 := half hS.2.2
    linarith
  all_goals rw [gap_self]; positivity

theorem weights_append (es fs : List Elem) : weights (es ++ fs) = weights es + weights fs := by
  simp [weights]

theorem weights_cons (e : Elem) (es : List Elem) : weights (e :: es) = e.weight + weights es := by
  simp [weights]

theorem weight_nonneg (e : Elem) : 0 ≤ e.weight := by
  rcases e with ⟨k, _⟩ | ⟨k, _, _⟩ | ⟨k, _, _, _⟩ | _ | _ <;> try cases k
  all_goals norm_num [Elem.weight]

theorem weight_le (e : Elem) : e.weight ≤ 7 := by
  rcases e with ⟨k, _⟩ | ⟨k, _, _⟩ | ⟨k, _, _, _⟩ | _ | _ <;> try cases k
  all_goals norm_num [Elem.weight]

/-- All angles are at most `Θ`. -/
def AnglesLE (Θ : ℝ) (es : List Elem) : Prop := ∀ e ∈ es, ∀ x ∈ e.angles, |x| ≤ Θ

/-- A list of operations stands for another without more weight or larger angles. -/
def Lighter (Θ : ℝ) (fs es : List Elem) : Prop := weights fs ≤ weights es ∧ (AnglesLE Θ es → AnglesLE Θ fs)

theorem Lighter.append {Θ : ℝ} {a b c d : List Elem} (h1 : Lighter Θ a b) (h2 : Lighter Θ c d) :
    Lighter Θ (a ++ c) (b ++ d) := by
  refine ⟨by rw [weights_append, weights_append]; exact add_le_add h1.1 h2.1, fun h e he => ?_⟩
  rcases List.mem_append.1 he with h' | h'
  · exact h1.2 (fun e he => h e (by simp [he])) e h'
  · exact h2.2 (fun e he => h e (by simp [he])) e h'

theorem gatesDenote_flatMap {α : Type} {n : ℕ} {Θ : ℝ} (xs : List α) (f : α → List Gate) (e : α → Elem)
    (h : ∀ x ∈ xs, ∃ fs, GatesDenote n (f x) fs ∧ Lighter Θ fs [e x]) :
    ∃ fs, GatesDenote n (xs.flatMap f) fs ∧ Lighter Θ fs (xs.map e) := by
  induction xs with
  | nil => exact ⟨[], rfl, le_refl _, fun h => h⟩
  | cons x xs ih =>
    obtain ⟨f1, h1, h2⟩ := h x (by simp)
    obtain ⟨f2, h3, h4⟩ := ih fun y hy => h y (by simp [hy])
    exact ⟨f1 ++ f2, by rw [List.flatMap_cons]; exact gatesDenote_append h1 h3, h2.append h4⟩

theorem on1_denote {n : ℕ} {gs : List Gate} {es : List Elem} (k : G1) (t : ℕ) (h : GatesDenote n gs es) :
    GatesDenote n (on1 k t :: gs) (.one k t :: es) := gatesDenote_cons (gateDenotes_on1 n k t) h

theorem on2_denote {n : ℕ} {gs : List Gate} {es : List Elem} (k : G2) {c t : ℕ} (hne : c ≠ t) (h : GatesDenote n gs es) :
    GatesDenote n (on2 k c t :: gs) (.two k c t :: es) := gatesDenote_cons (gateDenotes_on2 n k c t hne) h

theorem g1_lighter {n t : ℕ} {Θ : ℝ} (hΘ : Real.pi / 2 ≤ Θ) (k : G1) (f : ℤ → List Gate) (hf : k.fallbackOn = some f)
    (hp : ∀ θ, k ≠ .phase θ) (hu1 : ∀ θ, k ≠ .u1 θ) (hu2 : ∀ φ lam, k ≠ .u2 φ lam) :
    ∃ fs, GatesDenote n (f t) fs ∧ Lighter Θ fs [.one k t] := by
  have hpi := Real.pi_pos
  cases k <;> simp only [G1.fallbackOn, Option.some.injEq, reduceCtorEq] at hf <;> subst hf <;>
    first
    | exact absurd rfl (hp _)
    | exact absurd rfl (hu1 _)
    | exact absurd rfl (hu2 _ _)
    | (refine ⟨_, on1_denote _ t rfl, le_refl _, fun _ => ?_⟩
       simp only [AnglesLE, List.mem_singleton, forall_eq, Elem.angles]
       rw [abs_le]; constructor <;> linarith)

theorem g2_lighter {n c t : ℕ} {Θ : ℝ} (hΘ : Real.pi / 2 ≤ Θ) (hne : c ≠ t) (k : G2) (f : ℤ → ℤ → List Gate)
    (hf : k.fallbackOn = some f) : ∃ fs, GatesDenote n (f c t) fs ∧ Lighter Θ fs [.two k c t] := by
  have hpi := Real.pi_pos
  have hne' := hne.symm
  have mid : ∀ {gs : List Gate} {fs es : List Elem}, GatesDenote n gs fs →
      weights fs ≤ weights es → (AnglesLE Θ es → AnglesLE Θ fs) →
      ∃ fs, GatesDenote n gs fs ∧ Lighter Θ fs es := fun h1 h2 h3 => ⟨_, h1, h2, h3⟩
  cases k <;> simp only [G2.fallbackOn, Option.some.injEq, reduceCtorEq] at hf <;> subst hf <;>
    apply mid <;>
    first
    | (dsimp only
       repeat (first | apply on1_denote | apply on2_denote _ hne | apply on2_denote _ hne')
       exact rfl)
    | skip
  all_goals
    first
    | (norm_num [weights, Elem.weight]; done)
    | (simp only [AnglesLE, List.mem_cons, List.not_mem_nil, or_false, forall_eq_or_imp, forall_eq, Elem.angles,
        false_imp_iff, implies_true, and_true, true_and, imp_self]; done)
    | (simp only [AnglesLE, List.mem_cons, List.not_mem_nil, or_false, forall_eq_or_imp, forall_eq, Elem.angles,
        false_imp_iff, implies_true, and_true, true_and, abs_le]
       intros
       simp only [← and_assoc] at *
       (repeat' constructor) <;> (try simp only [and_assoc] at *) <;> norm_num <;> linarith)

theorem g3_lighter {n a b t : ℕ} {Θ : ℝ} (hab : a ≠ b) (hat : a ≠ t) (hbt : b ≠ t) :
    ∃ fs, GatesDenote n (toffoliFallback (.atom (.int a)) (.atom (.int b)) (.atom (.int t))) fs ∧
      Lighter Θ fs [.three .ccx a b t] := by
  simp only [toffoliFallback, onItem_natCast, onItems_natCast]
  refine ⟨_, on1_denote _ _ (on2_denote _ hbt (on1_denote _ _ (on2_denote _ hat (on1_denote _ _ (on2_denote _ hbt
    (on1_denote _ _ (on2_denote _ hat (on1_denote _ _ (on1_denote _ _ (on1_denote _ _ (on2_denote _ hab
    (on1_denote _ _ (on1_denote _ _ (on2_denote _ hab rfl)))))))))))))), ?_, ?_⟩
  · norm_num [weights, Elem.weight]
  · simp [AnglesLE, Elem.angles]

theorem cswap_lighter {n a b t : ℕ} {Θ : ℝ} (hbt : b ≠ t) :
    ∃ fs, GatesDenote n [onItems .cx (.atom (.int t)) (.atom (.int b)),
      .g3 .ccx (.tup [.atom (.int a), .atom (.int b), .atom (.int t)]),
      onItems .cx (.atom (.int t)) (.atom (.int b))] fs ∧ Lighter Θ fs [.three .cswap a b t] := by
  simp only [onItems_natCast]
  refine ⟨_, on2_denote _ hbt.symm (gatesDenote_cons (gateDenotes_three n .ccx a b t)
    (on2_denote _ hbt.symm rfl)), ?_, ?_⟩
  · norm_num [weights, Elem.weight]
  · simp [AnglesLE, Elem.angles]

/-- What a gate without a method of its own is replaced by has no more weight and no larger angles. -/
theorem fallback_lighter {n : ℕ} {Θ : ℝ} (hΘ : Real.pi / 2 ≤ Θ) (S : ℝ → ℝ) (g : Gate) (es : List Elem) (gs : List Gate)
    (hnone : syActionA S n g = none) (hd : GateDenotes n g es) (hv : ∀ e ∈ es, e.Valid n) (hf : g.fallback n = .ok gs) :
    ∃ fs, GatesDenote n gs fs ∧ Lighter Θ fs es := by
  cases g with
  | measure T => simp [Gate.fallback] at hf
  | reset T => simp [Gate.fallback] at hf
  | g3 k T =>
    obtain ⟨a, b, c, rfl, rfl⟩ := hd
    obtain ⟨ha, hb, hc, hab, hac, hbc⟩ := hv _ (List.mem_singleton.2 rfl)
    cases k <;> simp only [Gate.fallback, unpack3, Except.ok.injEq, reduceCtorEq] at hf <;> subst hf
    · exact g3_lighter hab hac hbc
    · exact cswap_lighter hbc
  | g2 k T =>
    obtain ⟨L, hL, rfl⟩ := hd
    rw [← pairsDenote_iff] at hL
    simp only [Gate.fallback] at hf
    split at hf
    · cases hf
    · rename_i f hfo
      rw [hL] at hf
      simp only [Except.ok.injEq] at hf
      subst hf
      rw [List.flatMap_map]
      refine gatesDenote_flatMap L _ (fun p => .two k p.1 p.2) fun p hp => ?_
      exact g2_lighter hΘ (hv (.two k p.1 p.2) (List.mem_map.2 ⟨p, hp, rfl⟩)).2.2 k f hfo
  | g1 k T =>
    obtain ⟨L, hL, rfl⟩ := hd
    rw [← slicing_eq_iff, ← toList_eq_ok_iff] at hL
    by_cases hki : k = .i
    · subst hki
      simp only [Gate.fallback, Except.ok.injEq] at hf
      subst hf
      refine ⟨[], rfl, ?_, fun _ => by simp [AnglesLE]⟩
      clear hL hv
      induction L with
      | nil => exact le_refl _
      | cons q L ih => rw [List.map_cons, weights_cons]; simpa [Elem.weight] using ih
    · have hf' : (match k.fallbackOn with
        | none => .error .notImplementedError
        | some f =>
          match (slicing T n).toList with
          | .error e => .error e
          | .ok ts => .ok (ts.flatMap f)) = (Except.ok gs : Except PyErr (List Gate)) := by
        rw [← hf]; cases k <;> first | exact absurd rfl hki | rfl
      split at hf'
      · cases hf'
      · rename_i f hfo
        rw [hL] at hf'
        simp only [Except.ok.injEq] at hf'
        subst hf'
        rw [List.flatMap_map]
        refine gatesDenote_flatMap L _ (fun q => .one k q) fun q hq => ?_
        refine g1_lighter hΘ k f hfo ?_ ?_ ?_ <;> (first | rintro _ rfl | rintro _ _ rfl) <;>
          simp [syActionA, G1.simplified, sySympyGate] at hnone

theorem gap_unitaries {n : ℕ} (es : List Elem) (hv : ∀ e ∈ es, e.Valid n) (ψ χ : Vec) :
    gap n (unitaries phSim es ψ) (unitaries phSim es χ) = gap n ψ χ := by
  induction es generalizing ψ χ with
  | nil => rfl
  | cons e es ih =>
    simp only [unitaries, List.foldl_cons] at ih ⊢
    rw [ih (fun e he => hv e (by simp [he])), gap_elem norm_phSim e (hv e (by simp))]

theorem gap_foldl {n : ℕ} {S : ℝ → ℝ} {δ : ℝ} (hδ : 0 ≤ δ) (k : G1) (L : List ℕ) (hL : ∀ t ∈ L, t < n)
    (hS : ∀ t, ∀ x ∈ (Elem.one k t).angles, |S x - x| ≤ δ) (φ χ : Vec) :
    gap n (L.foldl (fun ψ t => app (matrix1 (k.simplified S)) t ψ) φ) (L.foldl (fun ψ t => app (matrix1 k) t ψ) χ) ≤
      gap n φ χ + weights (L.map fun t => .one k t) * δ * Real.sqrt (normSqN n χ) := by
  induction L generalizing φ χ with
  | nil => simp [weights]
  | cons t L ih =>
    have ht : t < n := hL t (by simp)
    have h1 := ih (fun t h => hL t (by simp [h])) (app (matrix1 (k.simplified S)) t φ) (app (matrix1 k) t χ)
    rw [(isom_app ht (unit_matrix1 k)).norm χ] at h1
    have h2 := gap_triangle n (app (matrix1 (k.simplified S)) t φ) (app (matrix1 (k.simplified S)) t χ) (app (matrix1 k) t χ)
    rw [gap_app ht (unit_matrix1 _)] at h2
    have h3 := gap_simplified ht hδ k (hS t) χ
    simp only [List.foldl_cons, List.map_cons, weights_cons]
    have e : ((Elem.one k t).weight + weights (L.map fun t => Elem.one k t)) * δ * Real.sqrt (normSqN n χ) =
      (Elem.one k t).weight * δ * Real.sqrt (normSqN n χ) + weights (L.map fun t => Elem.one k t) * δ * Real.sqrt (normSqN n χ) := by
      ring
    linarith

/-- The matrix, applied to the start vector, is within `B` of a state. -/
structure Near (ψ0 : Vec) (n : ℕ) (M : SMat) (χ : Vec) (B : ℝ) : Prop where
  dim : M.dim = 2 ^ n
  near : gap n (mv (2 ^ n) M ψ0) χ ≤ B

theorem syActionA_near {n : ℕ} (hn : 0 < n) {S : ℝ → ℝ} {δ Θ : ℝ} (hδ : 0 ≤ δ) (hS : ∀ x, |x| ≤ Θ → |S x - x| ≤ δ)
    (ψ0 : Vec) (g : Gate) (a : SMat → Except PyErr SMat) (es : List Elem) (ha : syActionA S n g = some a)
    (hq : SyOk n g) (hd : GateDenotes n g es) (hv : ∀ e ∈ es, e.Valid n) (hu : ∀ e ∈ es, e.IsUnitary)
    (hA : AnglesLE Θ es) (M : SMat) (χ : Vec) (B : ℝ) (hR : Near ψ0 n M χ B) :
    ∃ M', a M = .ok M' ∧ Near ψ0 n M' (unitaries phSim es χ) (B + weights es * δ * Real.sqrt (normSqN n χ)) := by
  have hw : 0 ≤ weights es * δ * Real.sqrt (normSqN n χ) := by
    have : 0 ≤ weights es := List.sum_nonneg fun x hx => by
      obtain ⟨e, -, rfl⟩ := List.mem_map.1 hx; exact weight_nonneg e
    positivity
  by_cases hg : ∃ k T, g = .g1 k T
  · obtain ⟨k, T, rfl⟩ := hg
    simp only [syActionA, Option.map_eq_some_iff] at ha
    obtain ⟨G, hG, rfl⟩ := ha
    obtain ⟨L, hL, rfl⟩ := hd
    have hlt : ∀ t ∈ L, t < n := fun t ht => hv (.one k t) (List.mem_map.2 ⟨t, ht, rfl⟩)
    have hnd : L.Nodup := List.Nodup.of_map _ (hq (by
      cases k <;> simp [sySympyGate, G1.simplified] at hG ⊢) _ hL)
    obtain ⟨m, h1, h2, h3⟩ := syOneQubit_ok hn (sySympyGate_is2 hG) L hnd hlt
    have hT := (toList_eq_ok_iff _ _).2 ((slicing_eq_iff n T _).2 hL)
    refine ⟨m.mul M, by simp only [syGate1, hT, ok_bind, h1]; rfl, h2, ?_⟩
    have e1 : gap n (mv (2 ^ n) (m.mul M) ψ0) (unitaries phSim (L.map fun t => .one k t) χ) =
        gap n (L.foldl (fun ψ t => app (matrix1 (k.simplified S)) t ψ) (mv (2 ^ n) M ψ0))
          (L.foldl (fun ψ t => app (matrix1 k) t ψ) χ) := by
      refine gap_congr (fun i hi => ?_) (fun i hi => ?_)
      · rw [mv_mul _ _ _ h2, h3 _ i hi]
      · rw [unitaries_map]; rfl
    cases hl : L with
    | nil =>
      subst hl
      rw [e1]; exact hR.near.trans (by simpa using hw)
    | cons t0 L0 =>
      rw [← hl, e1]
      refine (gap_foldl hδ k L hlt (fun t x hx => hS x ?_) _ _).trans (add_le_add_left hR.near _)
      exact hA (.one k t0) (by rw [hl]; simp) x hx
  · have ha' : syAction n g = some a := by
      rw [← ha]; cases g <;> first | rfl | exact absurd ⟨_, _, rfl⟩ hg
    obtain ⟨M', h1, h2⟩ := syAction_refine (ph := phSim) hn ψ0 g a es ha' hq hd hv (fun e he => .inr (hu e he)) M
      ⟨mv (2 ^ n) M ψ0, fun _ => false, fun _ => 0⟩ ⟨hR.dim, fun i _ => rfl⟩
    refine ⟨M', h1, h2.dim, ?_⟩
    have h3 := h2.eq
    rw [steps_unitary phSim n es hu] at h3
    rw [gap_congr (fun i hi => (h3 i hi).symm) (fun i _ => rfl), gap_unitaries es hv]
    linarith [hR.near]

theorem runGate_near {n : ℕ} (hn : 0 < n) {S : ℝ → ℝ} {δ Θ : ℝ} (hδ : 0 ≤ δ) (hΘ : Real.pi / 2 ≤ Θ)
    (hS : ∀ x, |x| ≤ Θ → |S x - x| ≤ δ) (ψ0 : Vec)
    (fuel : ℕ) : ∀ (g : Gate), g.rank < fuel → SyOk n g → ∀ (es : List Elem), GateDenotes n g es →
      (∀ e ∈ es, e.Valid n) → (∀ e ∈ es, e.IsUnitary) → AnglesLE Θ es → ∀ M χ B, Near ψ0 n M χ B →
      ∃ M', runGate (syActionA S n) n fuel g M = .ok M' ∧
        Near ψ0 n M' (unitaries phSim es χ) (B + weights es * δ * Real.sqrt (normSqN n χ)) := by
  induction fuel with
  | zero => intro g hg; omega
  | succ fuel ih =>
    intro g hr hq0 es hd hv hu hA M χ B hR
    simp only [runGate]
    cases hact' : syActionA S n g with
    | some a => exact syActionA_near hn hδ hS ψ0 g a es hact' hq0 hd hv hu hA M χ B hR
    | none =>
      have hno : syAction n g = none := by
        cases g with
        | g1 k T =>
          cases k <;> simp [syActionA, G1.simplified, sySympyGate] at hact' <;> rfl
        | g2 k T => exact hact'
        | g3 k T => exact hact'
        | measure T => exact hact'
        | reset T => exact hact'
      have hfb := syAction_none g hno hq0
      obtain ⟨gs, hgs⟩ := fallback_ok hfb hd
      obtain ⟨fs, hfs, hfv, hfu⟩ := fallback_implements phSim g es gs hd hv hgs
        (fun θ T h => by subst h; simp [syAction, sySympyGate] at hno) (fun lam T h => rfl)
      obtain ⟨fs', hfs', hwt, hang⟩ := fallback_lighter hΘ S g es gs hact' hd hv hgs
      obtain rfl := gatesDenote_unique hfs hfs'
      have hqs := syOk_fallback g es gs hq0 hd hgs
      have hrk := rank_fallback hgs
      rw [hgs, ← hfu χ]
      have hlist : ∀ (gs : List Gate) (fs : List Elem), (∀ g' ∈ gs, g'.rank < fuel) → (∀ g' ∈ gs, SyOk n g') →
          GatesDenote n gs fs → (∀ e ∈ fs, e.Valid n ∧ e.IsUnitary) → AnglesLE Θ fs → ∀ M χ B, Near ψ0 n M χ B →
          ∃ M', gs.foldlM (fun s g' => runGate (syActionA S n) n fuel g' s) M = .ok M' ∧
            Near ψ0 n M' (unitaries phSim fs χ) (B + weights fs * δ * Real.sqrt (normSqN n χ)) := by
        intro gs
        induction gs with
        | nil =>
          intro fs _ _ hd _ _ M χ B hR
          simp only [GatesDenote] at hd; subst hd
          exact ⟨M, rfl, by simpa [weights, unitaries] using hR⟩
        | cons g' gs ih' =>
          rintro fs hrk hqs ⟨e₁, e₂, h1, h2, rfl⟩ hv hA M χ B hR
          obtain ⟨M1, hM1, hR1⟩ := ih g' (hrk g' (by simp)) (hqs g' (by simp)) e₁ h1
            (fun e he => (hv e (by simp [he])).1) (fun e he => (hv e (by simp [he])).2)
            (fun e he => hA e (by simp [he])) M χ B hR
          obtain ⟨M2, hM2, hR2⟩ := ih' e₂ (fun g hg => hrk g (by simp [hg])) (fun g hg => hqs g (by simp [hg])) h2
            (fun e he => hv e (by simp [he])) (fun e he => hA e (by simp [he])) M1 _ _ hR1
          refine ⟨M2, ?_, ?_⟩
          · simp only [List.foldlM_cons, hM1]; exact hM2
          · rw [(isom_unitaries norm_phSim e₁ fun e he => (hv e (by simp [he])).1).norm χ] at hR2
            refine ⟨hR2.dim, ?_⟩
            have h3 := hR2.near
            rw [← unitaries_append] at h3
            rw [weights_append]
            refine h3.trans (le_of_eq (by ring))
      obtain ⟨M', h1, h2⟩ := hlist gs fs (fun g' hg' => by have := hrk g' hg'; omega) hqs hfs hfv (hang hA) M χ B hR
      refine ⟨M', h1, h2.dim, h2.near.trans ?_⟩
      have := mul_le_mul_of_nonneg_right (mul_le_mul_of_nonneg_right hwt hδ) (Real.sqrt_nonneg (normSqN n χ))
      linarith

/-- The run with changed angles stays near the operations. -/
theorem runGates_near {n : ℕ} (hn : 0 < n) {S : ℝ → ℝ} {δ Θ : ℝ} (hδ : 0 ≤ δ) (hΘ : Real.pi / 2 ≤ Θ)
    (hS : ∀ x, |x| ≤ Θ → |S x - x| ≤ δ) (ψ0 : Vec) (gs : List Gate) : ∀ (es : List Elem), GatesDenote n gs es →
    (∀ e ∈ es, e.Valid n) → (∀ e ∈ es, e.IsUnitary) → (∀ g ∈ gs, SyOk n g) → AnglesLE Θ es → ∀ M χ B, Near ψ0 n M χ B →
    ∃ M', runGates (syActionA S n) n recursionLimit gs M = .ok M' ∧
      Near ψ0 n M' (unitaries phSim es χ) (B + weights es * δ * Real.sqrt (normSqN n χ)) := by
  induction gs with
  | nil =>
    intro es hd _ _ _ _ M χ B hR
    simp only [GatesDenote] at hd; subst hd
    exact ⟨M, rfl, by simpa [weights, unitaries] using hR⟩
  | cons g gs ih =>
    rintro es ⟨e1, e2, h1, h2, rfl⟩ hv hu hq hA M χ B hR
    obtain ⟨M1, hM1, hR1⟩ := runGate_near hn hδ hΘ hS ψ0 recursionLimit g
      (by have := rank_le g; simp only [recursionLimit]; omega) (hq g (by simp)) e1 h1 (fun e he => hv e (by simp [he]))
      (fun e he => hu e (by simp [he])) (fun e he => hA e (by simp [he])) M χ B hR
    obtain ⟨M2, hM2, hR2⟩ := ih e2 h2 (fun e he => hv e (by simp [he])) (fun e he => hu e (by simp [he]))
      (fun g hg => hq g (by simp [hg])) (fun e he => hA e (by simp [he])) M1 _ _ hR1
    refine ⟨M2, ?_, ?_⟩
    · simp only [runGates, List.foldlM_cons, hM1] at hM2 ⊢; exact hM2
    · rw [(isom_unitaries norm_phSim e1 fun e he => hv e (by simp [he])).norm χ] at hR2
      refine ⟨hR2.dim, ?_⟩
      have h3 := hR2.near
      rw [← unitaries_append] at h3
      rw [weights_append]
      exact h3.trans (le_of_eq (by ring))

end

end Spec
