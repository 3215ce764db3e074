import Verif.Spec.Dagger
import Verif.NormLemmas
import Verif.FallbackGates

/-!
# Helper lemmas: inverses and commutation of elementary operations
-/

set_option linter.unusedSimpArgs false

namespace Spec

open Blueqat (G1 G2 G3 Gate)
open Complex

noncomputable section

theorem mPhase_mul (a b : ℝ) : mPhase a * mPhase b = mPhase (a + b) := by
  ext <;> simp [M2.mul_def, mPhase, cis_add]

theorem mPhase_zero : mPhase 0 = 1 := by ext <;> simp [mPhase, M2.one_def, cis_zero]

theorem mU3_inv (θ φ lam : ℝ) : mU3 (-θ) (-lam) (-φ) * mU3 θ φ lam = 1 := by
  rw [mU3_eq, mU3_eq]
  calc mRZ (-lam) * (mRY (-θ) * mRZ (-φ)) * (mRZ φ * (mRY θ * mRZ lam))
      = mRZ (-lam) * (mRY (-θ) * ((mRZ (-φ) * mRZ φ) * (mRY θ * mRZ lam))) := by simp only [mul_assoc]
    _ = mRZ (-lam) * ((mRY (-θ) * mRY θ) * mRZ lam) := by
        rw [mRZ_mul, neg_add_cancel, mRZ_zero, one_mul, mul_assoc]
    _ = 1 := by
        rw [mRY_mul, neg_add_cancel, mRY_zero, one_mul, mRZ_mul, neg_add_cancel, mRZ_zero]

theorem matrix1_dagger (k : G1) : matrix1 k.dagger * matrix1 k = 1 := by
  cases k <;> simp only [G1.dagger, matrix1]
  · exact one_mul 1
  · exact mX_mX
  · exact mY_mY
  · exact mZ_mZ
  · exact mH_mH
  · simp only [mT, mTdg, mPhase_mul, neg_add_cancel, mPhase_zero]
  · simp only [mT, mTdg, mPhase_mul, add_neg_cancel, mPhase_zero]
  · rw [mS_eq, mSdg_eq, mPhase_mul]; rw [show -Real.pi / 2 + Real.pi / 2 = 0 by ring, mPhase_zero]
  · exact mS_mSdg
  · rw [mRX_mul, neg_add_cancel, mRX_zero]
  · rw [mRY_mul, neg_add_cancel, mRY_zero]
  · rw [mRZ_mul, neg_add_cancel, mRZ_zero]
  · rw [mPhase_mul, neg_add_cancel, mPhase_zero]
  · rw [mRZ_mul, neg_add_cancel, mRZ_zero]
  · rw [neg_div]; exact mU3_inv _ _ _
  · exact mU3_inv _ _ _

theorem app_inv (t : ℕ) {M N : M2} (h : M * N = 1) (ψ : Vec) : app M t (app N t ψ) = ψ := by
  rw [app_eq_mux, app_eq_mux, mux_mux' t _ _ (fun _ => rfl)]
  simp only [h]; exact mux_one t ψ

theorem ctrl_app_inv {c t : ℕ} (hct : c ≠ t) {M N : M2} (h : M * N = 1) (ψ : Vec) :
    ctrl c (app M t) (ctrl c (app N t) ψ) = ψ := by
  rw [ctrl_app, ctrl_app, mux_mux' t _ _ (fun i => by simp only [testBit_flipBit_ne hct.symm])]
  rw [mux_congr (G := fun _ => mI)]
  · exact mux_one t ψ
  · intro i; by_cases hc : i.testBit c <;> simp [hc, h, mI_eq_one]

theorem ctrl_ctrl_inv {a b : ℕ} {U V : Vec → Vec} (h : ∀ ψ, U (V ψ) = ψ)
    (hU : ∀ ψ χ : Vec, (∀ i, i.testBit a = true → ψ i = χ i) → ∀ i, i.testBit a = true → U ψ i = U χ i) (ψ : Vec) :
    ctrl a U (ctrl a V ψ) = ψ := by
  funext i
  simp only [ctrl]
  by_cases ha : i.testBit a
  · simp only [ha, if_true]
    rw [hU _ (V ψ) (fun j hj => by simp [ctrl, hj]) i ha, h]
  · simp [ha]

theorem app_local {a t : ℕ} (h : a ≠ t) (M : M2) (ψ χ : Vec) (hψ : ∀ i, i.testBit a = true → ψ i = χ i) :
    ∀ i, i.testBit a = true → app M t ψ i = app M t χ i := by
  intro i hi
  have h1 := hψ i hi
  have h2 := hψ (flipBit t i) (by rw [testBit_flipBit_ne h.symm]; exact hi)
  simp only [app, h1, h2]

theorem ctrl_local {a b : ℕ} {U : Vec → Vec}
    (hU : ∀ ψ χ : Vec, (∀ i, i.testBit a = true → ψ i = χ i) → ∀ i, i.testBit a = true → U ψ i = U χ i)
    (ψ χ : Vec) (hψ : ∀ i, i.testBit a = true → ψ i = χ i) :
    ∀ i, i.testBit a = true → ctrl b U ψ i = ctrl b U χ i := by
  intro i hi
  simp only [ctrl, hU ψ χ hψ i hi, hψ i hi]

theorem testBit_swapBits (a b i k : ℕ) : (swapBits a b i).testBit k =
    if k = a then i.testBit b else if k = b then i.testBit a else i.testBit k := by
  simp only [swapBits]
  by_cases h : i.testBit a = i.testBit b
  · simp only [h, if_true]
    by_cases h1 : k = a
    · subst h1; simp [h]
    · by_cases h2 : k = b
      · subst h2; simp [h1, h]
      · simp [h1, h2]
  · simp only [h, if_false, testBit_flipBit]
    by_cases h1 : k = a
    · subst h1
      by_cases hab : b = k
      · subst hab; simp at h
      · simp only [hab, decide_true, decide_false, if_true]
        revert h; cases i.testBit k <;> cases i.testBit b <;> simp
    · by_cases h2 : k = b
      · subst h2
        simp only [Ne.symm h1, h1, decide_true, decide_false, if_true, if_false]
        revert h; cases i.testBit k <;> cases i.testBit a <;> simp
      · simp [Ne.symm h1, Ne.symm h2, h1, h2]

theorem swapBits_swapBits (a b i : ℕ) : swapBits a b (swapBits a b i) = i := by
  apply Nat.eq_of_testBit_eq
  intro k
  simp only [testBit_swapBits]
  by_cases h1 : k = a
  · subst h1; by_cases h : b = k <;> simp [h]
  · by_cases h2 : k = b
    · subst h2; simp [h1]
    · simp [h1, h2]

theorem swapOp_inv (a b : ℕ) (ψ : Vec) : swapOp a b (swapOp a b ψ) = ψ := by
  funext i; simp [swapOp, swapBits_swapBits]

theorem swapOp_local {c a b : ℕ} (h1 : c ≠ a) (h2 : c ≠ b) (ψ χ : Vec)
    (hψ : ∀ i, i.testBit c = true → ψ i = χ i) :
    ∀ i, i.testBit c = true → swapOp a b ψ i = swapOp a b χ i := by
  intro i hi
  exact hψ _ (by rw [testBit_swapBits]; simpa [h1, h2] using hi)

theorem swapOp_comm {a b c d : ℕ} (h1 : a ≠ c) (h2 : a ≠ d) (h3 : b ≠ c) (h4 : b ≠ d) (ψ : Vec) :
    swapOp a b (swapOp c d ψ) = swapOp c d (swapOp a b ψ) := by
  funext i
  simp only [swapOp]
  congr 1
  apply Nat.eq_of_testBit_eq
  intro k
  simp only [testBit_swapBits]
  by_cases ka : k = a
  · subst ka; simp [h1, h2, h3, h4]
  · by_cases kb : k = b
    · subst kb; simp [h1, h2, h3, h4, ka]
    · by_cases kc : k = c
      · subst kc; simp [Ne.symm h1, Ne.symm h2, Ne.symm h3, Ne.symm h4]
      · by_cases kd : k = d
        · subst kd; simp [Ne.symm h1, Ne.symm h2, Ne.symm h3, Ne.symm h4, kc]
        · simp [ka, kb, kc, kd]

theorem app_comm_same (M : M2) (s t : ℕ) (ψ : Vec) : app M s (app M t ψ) = app M t (app M s ψ) := by
  by_cases h : s = t
  · subst h; rfl
  · exact app_comm h M M ψ

theorem expPP_inv {P : M2} (hP : P * P = 1) {a b : ℕ} (θ : ℝ) (ψ : Vec) :
    expPP P (-θ) a b (expPP P θ a b ψ) = ψ := by
  have h4 : app P a (app P b (app P a (app P b ψ))) = ψ := by
    rw [app_comm_same P b a, app_inv a hP, app_inv b hP]
  rw [expPP_eq P θ, expPP_eq, app_lin, app_lin, h4]
  funext i
  have hcs := cs_sq (θ / 2)
  rw [neg_div, Real.cos_neg, Real.sin_neg]
  push_cast at hcs ⊢
  have hI : I * I = -1 := I_mul_I
  linear_combination (ψ i) * hcs - (Complex.sin (θ / 2)) ^ 2 * ψ i * hI

theorem expPP_comm (P : M2) (θ φ : ℝ) (a b c d : ℕ) (ψ : Vec) :
    expPP P θ a b (expPP P φ c d ψ) = expPP P φ c d (expPP P θ a b ψ) := by
  have h : app P a (app P b (app P c (app P d ψ))) = app P c (app P d (app P a (app P b ψ))) := by
    rw [app_comm_same P b c, app_comm_same P a c, app_comm_same P b d, app_comm_same P a d]
  rw [expPP_eq P θ a b, expPP_eq P φ c d, expPP_eq P φ c d, expPP_eq P θ a b, app_lin, app_lin, app_lin,
    app_lin, h]
  funext i; ring

/-- The operator multiplies each amplitude by a factor. -/
def Diag (U : Vec → Vec) : Prop := ∃ f : ℕ → ℂ, ∀ ψ, U ψ = fun i => f i * ψ i

theorem Diag.comm {U V : Vec → Vec} (hU : Diag U) (hV : Diag V) (ψ : Vec) : U (V ψ) = V (U ψ) := by
  obtain ⟨f, hf⟩ := hU
  obtain ⟨g, hg⟩ := hV
  rw [hf, hg, hg, hf]; funext i; ring

theorem diag_ctrl_app (c t : ℕ) (z w : ℂ) : Diag (ctrl c (app ⟨z, 0, 0, w⟩ t)) :=
  ⟨fun i => if i.testBit c then (if i.testBit t then w else z) else 1, fun ψ => by
    funext i; simp only [ctrl, app]
    by_cases hc : i.testBit c <;> by_cases ht : i.testBit t <;> simp [hc, ht]⟩

theorem diag_smul {U : Vec → Vec} (h : Diag U) (z : ℂ) : Diag (fun ψ i => z * U ψ i) := by
  obtain ⟨f, hf⟩ := h
  exact ⟨fun i => z * f i, fun ψ => by funext i; show z * U ψ i = _; rw [hf]; ring⟩

theorem ctrl_app_comm {c t d s : ℕ} (hct : c ≠ t) (hds : d ≠ s) (h1 : c ≠ s) (h2 : d ≠ t) (M : M2) (ψ : Vec) :
    ctrl c (app M t) (ctrl d (app M s) ψ) = ctrl d (app M s) (ctrl c (app M t) ψ) := by
  by_cases h : t = s
  · subst h
    simp only [ctrl_app]
    rw [mux_mux' t _ _ (fun i => by simp only [testBit_flipBit_ne h2.symm]),
      mux_mux' t _ _ (fun i => by simp only [testBit_flipBit_ne h1.symm])]
    apply mux_congr
    intro i
    by_cases hc : i.testBit c <;> by_cases hd : i.testBit d <;> simp [hc, hd, mI_eq_one]
  · funext i
    simp only [ctrl, app, testBit_flipBit_ne h, testBit_flipBit_ne (Ne.symm h), testBit_flipBit_ne h1.symm,
      testBit_flipBit_ne h2.symm, testBit_flipBit_ne hct.symm, testBit_flipBit_ne hds.symm, flipBit_comm s t]
    by_cases hc : i.testBit c <;> by_cases hd : i.testBit d <;> by_cases ht : i.testBit t <;>
      by_cases hs : i.testBit s <;> simp [hc, hd, ht, hs] <;> ring

/-- The elementary operation that undoes a unitary one. -/
def Elem.inv : Elem → Elem
  | .one k t => .one k.dagger t
  | .two k c t => .two k.dagger c t
  | .three k a b c => .three k.dagger a b c
  | e => e

theorem elem_inv {n : ℕ} {ph : ℝ → ℂ} (hph : ∀ x, ph (-x) * ph x = 1) (e : Elem) (hv : e.Valid n)
    (ψ : Vec) : e.inv.unitary ph (e.unitary ph ψ) = ψ := by
  cases e with
  | one k t => exact app_inv t (matrix1_dagger k) ψ
  | two k c t =>
    obtain ⟨_, _, h⟩ := hv
    have hc : ∀ {M N : M2}, M * N = 1 → ctrl c (app M t) (ctrl c (app N t) ψ) = ψ := fun hMN => ctrl_app_inv h hMN ψ
    cases k <;> simp only [Elem.inv, Elem.unitary, G2.dagger, op2]
    · exact hc mX_mX
    · exact hc mZ_mZ
    · exact hc mY_mY
    · exact hc mH_mH
    · exact hc (matrix1_dagger (.rx _))
    · exact hc (matrix1_dagger (.ry _))
    · exact hc (matrix1_dagger (.rz _))
    · exact hc (matrix1_dagger (.phase _))
    · exact expPP_inv mX_mX _ ψ
    · exact expPP_inv mY_mY _ ψ
    · exact expPP_inv mZ_mZ _ ψ
    · exact swapOp_inv c t ψ
    · rename_i lam
      have h1 : ctrl c (app (mPhase (-lam)) t) (fun i => ph lam * ctrl c (app (mPhase lam) t) ψ i) =
          fun i => ph lam * ctrl c (app (mPhase (-lam)) t) (ctrl c (app (mPhase lam) t) ψ) i := by
        funext i; simp only [ctrl, app, testBit_flipBit_ne h.symm]
        by_cases hc : i.testBit c <;> by_cases ht : i.testBit t <;> simp [hc, ht] <;> ring
      have h2 := hc (M := mPhase (-lam)) (N := mPhase lam) (matrix1_dagger (.phase lam))
      rw [h1, h2]
      funext i
      rw [← mul_assoc, hph, one_mul]
    · exact hc (matrix1_dagger (.u2 _ _))
    · exact hc (matrix1_dagger (.u3 _ _ _))
  | three k a b c =>
    obtain ⟨_, _, _, hab, hac, hbc⟩ := hv
    cases k <;> simp only [Elem.inv, Elem.unitary, G3.dagger, op3]
    · exact ctrl_ctrl_inv (b := b) (fun ψ => ctrl_app_inv hbc mX_mX ψ) (ctrl_local (app_local hac mX)) ψ
    · exact ctrl_ctrl_inv (b := b) (fun ψ => ctrl_app_inv hbc mZ_mZ ψ) (ctrl_local (app_local hac mZ)) ψ
    · exact ctrl_ctrl_inv (b := b) (fun ψ => swapOp_inv b c ψ) (swapOp_local hab hac) ψ
  | meas t => rfl
  | reset t => rfl

theorem two_comm {ph : ℝ → ℂ} (k : G2) {p q : ℕ × ℕ} (hp : p.1 ≠ p.2) (hq : q.1 ≠ q.2)
    (h : Exchangeable k p q) (ψ : Vec) :
    op2 ph k p.1 p.2 (op2 ph k q.1 q.2 ψ) = op2 ph k q.1 q.2 (op2 ph k p.1 p.2 ψ) := by
  cases k <;> simp only [Exchangeable] at h <;> simp only [op2]
  · exact ctrl_app_comm hp hq h.1 h.2 _ ψ
  · exact Diag.comm (diag_ctrl_app _ _ _ _) (diag_ctrl_app _ _ _ _) ψ
  · exact ctrl_app_comm hp hq h.1 h.2 _ ψ
  · exact ctrl_app_comm hp hq h.1 h.2 _ ψ
  · exact ctrl_app_comm hp hq h.1 h.2 _ ψ
  · exact ctrl_app_comm hp hq h.1 h.2 _ ψ
  · exact Diag.comm (diag_ctrl_app _ _ _ _) (diag_ctrl_app _ _ _ _) ψ
  · exact Diag.comm (diag_ctrl_app _ _ _ _) (diag_ctrl_app _ _ _ _) ψ
  · exact expPP_comm _ _ _ _ _ _ _ ψ
  · exact expPP_comm _ _ _ _ _ _ _ ψ
  · exact expPP_comm _ _ _ _ _ _ _ ψ
  · exact swapOp_comm h.1 h.2.1 h.2.2.1 h.2.2.2 ψ
  · exact Diag.comm (diag_smul (diag_ctrl_app p.1 p.2 1 _) _) (diag_smul (diag_ctrl_app q.1 q.2 1 _) _) ψ
  · exact ctrl_app_comm hp hq h.1 h.2 _ ψ
  · exact ctrl_app_comm hp hq h.1 h.2 _ ψ

theorem one_comm (k : G1) (s t : ℕ) (ψ : Vec) :
    app (matrix1 k) s (app (matrix1 k) t ψ) = app (matrix1 k) t (app (matrix1 k) s ψ) := app_comm_same _ s t ψ

theorem elem_inv_valid {n : ℕ} (e : Elem) : e.inv.Valid n ↔ e.Valid n := by
  cases e <;> rfl

theorem elem_inv_inv (ph : ℝ → ℂ) (e : Elem) : e.inv.inv.unitary ph = e.unitary ph := by
  cases e with
  | one k t => cases k <;> simp [Elem.inv, Elem.unitary, G1.dagger, matrix1, neg_div]
  | two k c t => cases k <;> simp [Elem.inv, Elem.unitary, G2.dagger, op2, neg_div]
  | three k a b c => cases k <;> rfl
  | meas t => rfl
  | reset t => rfl

theorem elem_inv_inv_left {n : ℕ} {ph : ℝ → ℂ} (hph : ∀ x, ph (-x) * ph x = 1) (e : Elem) (hv : e.Valid n)
    (ψ : Vec) : e.unitary ph (e.inv.unitary ph ψ) = ψ := by
  have := elem_inv hph e.inv ((elem_inv_valid e).2 hv) ψ
  rw [elem_inv_inv] at this; exact this

/-- Pairwise commuting operations followed by their inverses in the same order do nothing. -/
theorem unitaries_inv_comm {n : ℕ} {ph : ℝ → ℂ} (hph : ∀ x, ph (-x) * ph x = 1) (es : List Elem)
    (hv : ∀ e ∈ es, e.Valid n)
    (hc : es.Pairwise (fun e f => ∀ ψ, e.unitary ph (f.unitary ph ψ) = f.unitary ph (e.unitary ph ψ))) (ψ : Vec) :
    unitaries ph (es.map Elem.inv) (unitaries ph es ψ) = ψ := by
  induction es generalizing ψ with
  | nil => rfl
  | cons e es ih =>
    obtain ⟨h1, h2⟩ := List.pairwise_cons.1 hc
    have hv' : ∀ f ∈ es, f.Valid n := fun f hf => hv f (by simp [hf])
    have hve := hv e (by simp)
    -- `e⁻¹` moves to the front
    have key : ∀ (l : List Elem), (∀ f ∈ l, f ∈ es) → ∀ ψ,
        e.inv.unitary ph (unitaries ph l (e.unitary ph ψ)) = unitaries ph l ψ := by
      intro l
      induction l using List.reverseRecOn with
      | nil => intro _ ψ; exact elem_inv hph e hve ψ
      | append_singleton l f ihl =>
        intro hl ψ
        have hf := hl f (by simp)
        rw [unitaries_append, unitaries_append]
        show e.inv.unitary ph (f.unitary ph _) = f.unitary ph _
        have : unitaries ph l (e.unitary ph ψ) = e.unitary ph (unitaries ph l ψ) := by
          have := ihl (fun g hg => hl g (by simp [hg])) ψ
          have h3 := congrArg (e.unitary ph) this
          rw [elem_inv_inv_left hph e hve] at h3; exact h3
        rw [this, ← h1 f hf, elem_inv hph e hve]
    simp only [List.map_cons]
    show unitaries ph (es.map Elem.inv) (e.inv.unitary ph (unitaries ph es (e.unitary ph ψ))) = ψ
    rw [key es (fun f hf => hf), ih hv' h2]

/-- The operations of the dagger of a gate. -/
theorem gateDenotes_dagger {n : ℕ} {g g' : Gate} {es : List Elem} (hd : GateDenotes n g es)
    (h : g.dagger = .ok g') : GateDenotes n g' (es.map Elem.inv) := by
  cases g with
  | g1 k T =>
    simp only [Gate.dagger, Except.ok.injEq] at h; subst h
    obtain ⟨L, h1, rfl⟩ := hd
    exact ⟨L, h1, by simp [Elem.inv]⟩
  | g2 k T =>
    simp only [Gate.dagger, Except.ok.injEq] at h; subst h
    obtain ⟨L, h1, rfl⟩ := hd
    exact ⟨L, h1, by simp [Elem.inv]⟩
  | g3 k T =>
    simp only [Gate.dagger, Except.ok.injEq] at h; subst h
    obtain ⟨a, b, c, h1, rfl⟩ := hd
    exact ⟨a, b, c, h1, by simp [Elem.inv]⟩
  | measure T => simp [Gate.dagger] at h
  | reset T => simp [Gate.dagger] at h

theorem gate_inv {n : ℕ} {ph : ℝ → ℂ} (hph : ∀ x, ph (-x) * ph x = 1) {g : Gate} {es : List Elem}
    (hd : GateDenotes n g es) (hv : ∀ e ∈ es, e.Valid n) (ho : OrderFree n g) (ψ : Vec) :
    unitaries ph (es.map Elem.inv) (unitaries ph es ψ) = ψ := by
  apply unitaries_inv_comm hph es hv
  cases g with
  | g1 k T =>
    obtain ⟨L, h1, rfl⟩ := hd
    rw [List.pairwise_map]
    exact List.pairwise_of_forall (fun a b ψ => one_comm k a b ψ)
  | g2 k T =>
    obtain ⟨L, h1, rfl⟩ := hd
    rw [List.pairwise_map]
    refine List.Pairwise.imp_of_mem ?_ (ho L h1)
    intro p q hp hq hx ψ
    have hvp := hv (.two k p.1 p.2) (List.mem_map.2 ⟨p, hp, rfl⟩)
    have hvq := hv (.two k q.1 q.2) (List.mem_map.2 ⟨q, hq, rfl⟩)
    exact two_comm k hvp.2.2 hvq.2.2 hx ψ
  | g3 k T =>
    obtain ⟨a, b, c, h1, rfl⟩ := hd
    simp
  | measure T =>
    obtain ⟨L, h1, rfl⟩ := hd
    rw [List.pairwise_map]
    exact List.pairwise_of_forall (fun a b ψ => rfl)
  | reset T =>
    obtain ⟨L, h1, rfl⟩ := hd
    rw [List.pairwise_map]
    exact List.pairwise_of_forall (fun a b ψ => rfl)

end

end Spec
