import Verif.SymGate
import Mathlib.Tactic.Ring
import Mathlib.Tactic.FieldSimp

/-!
# Lemmas about symbolic gate parameters: evaluation commutes with the backend
-/

set_option linter.unusedSimpArgs false
set_option linter.unusedVariables false

namespace Blueqat

open Spec (SE)

noncomputable section

/-- The gate with the values of the parameters (their real parts). -/
def SG1.val (ρ : String → ℂ) : SG1 → G1
  | .i => .i
  | .x => .x
  | .y => .y
  | .z => .z
  | .h => .h
  | .t => .t
  | .tdg => .tdg
  | .s => .s
  | .sdg => .sdg
  | .rx θ => .rx (θ.value ρ).re
  | .ry θ => .ry (θ.value ρ).re
  | .rz θ => .rz (θ.value ρ).re
  | .phase θ => .phase (θ.value ρ).re
  | .u1 lam => .u1 (lam.value ρ).re
  | .u2 φ lam => .u2 (φ.value ρ).re (lam.value ρ).re
  | .u3 θ φ lam => .u3 (θ.value ρ).re (φ.value ρ).re (lam.value ρ).re

/-- The gate with the values of the parameters (their real parts). -/
def SG2.val (ρ : String → ℂ) : SG2 → G2
  | .cx => .cx
  | .cz => .cz
  | .cy => .cy
  | .ch => .ch
  | .swap => .swap
  | .crx θ => .crx (θ.value ρ).re
  | .cry θ => .cry (θ.value ρ).re
  | .crz θ => .crz (θ.value ρ).re
  | .cphase θ => .cphase (θ.value ρ).re
  | .rxx θ => .rxx (θ.value ρ).re
  | .ryy θ => .ryy (θ.value ρ).re
  | .rzz θ => .rzz (θ.value ρ).re
  | .cu1 lam => .cu1 (lam.value ρ).re
  | .cu2 φ lam => .cu2 (φ.value ρ).re (lam.value ρ).re
  | .cu3 θ φ lam => .cu3 (θ.value ρ).re (φ.value ρ).re (lam.value ρ).re

/-- The gate with the values of the parameters (their real parts). -/
def SGate.val (ρ : String → ℂ) : SGate → Gate
  | .g1 k T => .g1 (k.val ρ) T
  | .g2 k T => .g2 (k.val ρ) T
  | .g3 k T => .g3 k T
  | .measure T => .measure T
  | .reset T => .reset T

/-- The matrix of the values. -/
def SymMat.val (ρ : String → ℂ) (M : SymMat) : SMat := ⟨M.dim, fun i j => (M.ent i j).value ρ⟩

variable {ρ : String → ℂ}

theorem val_lit (a b c d : SE) : (SymMat.lit a b c d).val ρ = .lit (a.value ρ) (b.value ρ) (c.value ρ) (d.value ρ) := by
  simp only [SymMat.val, SymMat.lit, SMat.lit, SMat.mk.injEq, true_and]
  funext i j
  split_ifs <;> rfl

theorem val_eye (d : ℕ) : (SymMat.eye d).val ρ = .eye d := by
  simp only [SymMat.val, SymMat.eye, SMat.eye, SMat.mk.injEq, true_and]
  funext i j
  split_ifs <;> simp [SE.value]

theorem seSum_value (l : List SE) : (seSum l).value ρ = (l.map (SE.value ρ)).sum := by
  induction l with
  | nil => simp [seSum, SE.value]
  | cons x l ih => simp only [seSum, List.foldr_cons, SE.value, List.map_cons, List.sum_cons] at *; rw [ih]

theorem val_mul (A B : SymMat) : (A.mul B).val ρ = (A.val ρ).mul (B.val ρ) := by
  simp only [SymMat.val, SymMat.mul, SMat.mul, SMat.mk.injEq, true_and]
  funext i j
  rw [seSum_value, List.map_map]; rfl

theorem val_add (A B : SymMat) : (A.add B).val ρ = (A.val ρ).add (B.val ρ) := rfl

theorem val_scale (A : SymMat) (z : SE) : (A.scale z).val ρ = (A.val ρ).scale (z.value ρ) := rfl

theorem val_tensor (A B : SymMat) : (A.tensor B).val ρ = (A.val ρ).tensor (B.val ρ) := rfl

/-! ## Errors and folds -/

theorem pyReduce_map {α β : Type} (f : α → α → α) (f' : β → β → β) (v : α → β) (h : ∀ a b, v (f a b) = f' (v a) (v b)) (l : List α) :
    (pyReduce f l).map v = pyReduce f' (l.map v) := by
  cases l with
  | nil => rfl
  | cons x l =>
    simp only [pyReduce, List.map_cons, Except.map]
    congr 1
    induction l generalizing x with
    | nil => rfl
    | cons y l ih => simp only [List.foldl_cons, List.map_cons]; rw [ih, h]

theorem foldlM_map {σ τ α β : Type} (v : σ → τ) (w : α → β) (f : σ → α → Except PyErr σ) (f' : τ → β → Except PyErr τ)
    (l : List α) (h : ∀ s, ∀ x ∈ l, (f s x).map v = f' (v s) (w x)) (s : σ) :
    (l.foldlM f s).map v = (l.map w).foldlM f' (v s) := by
  induction l generalizing s with
  | nil => rfl
  | cons x l ih =>
    simp only [List.foldlM_cons, List.map_cons]
    rw [← h s x (by simp)]
    cases hx : f s x with
    | error e => rfl
    | ok s' => exact ih (fun s y hy => h s y (by simp [hy])) s'

/-! ## The backend commutes with evaluation -/

theorem symOneQubit_val (n : ℕ) (ts : List ℤ) (G : SymMat) :
    (symOneQubit n ts G).map (SymMat.val ρ) = syOneQubit n ts (G.val ρ) := by
  simp only [symOneQubit, syOneQubit]
  rw [pyReduce_map _ SMat.tensor _ val_tensor, List.map_reverse, List.map_map]
  congr 3
  funext i
  simp only [Function.comp_apply]
  split_ifs
  · rfl
  · exact val_eye 2

theorem symGate1_val (n : ℕ) (G : SymMat) (T : Targets) (M : SymMat) :
    (symGate1 n G T M).map (SymMat.val ρ) = syGate1 n (G.val ρ) T (M.val ρ) := by
  simp only [symGate1, syGate1]
  cases (slicing T n).toList with
  | error e => rfl
  | ok ts =>
    simp only [bind, Except.bind]
    rw [← symOneQubit_val]
    cases symOneQubit n ts G with
    | error e => rfl
    | ok m => simp only [Except.map, pure, Except.pure, val_mul]

theorem symTwoQubit_val (n : ℕ) (G : SymMat) (c t : ℤ) :
    (symTwoQubit n G c t).map (SymMat.val ρ) = syTwoQubit n (G.val ρ) c t := by
  simp only [symTwoQubit, syTwoQubit]
  have h0 := symOneQubit_val (ρ := ρ) n [c] (.lit (.num 1) (.num 0) (.num 0) (.num 0))
  have h1 := symOneQubit_val (ρ := ρ) n [c] (.lit (.num 0) (.num 0) (.num 0) (.num 1))
  rw [val_lit] at h0 h1
  simp only [SE.value, Complex.ofReal_one, Complex.ofReal_zero] at h0 h1
  rw [← h0, ← h1, ← symOneQubit_val]
  cases symOneQubit n [c] (.lit (.num 1) (.num 0) (.num 0) (.num 0)) with
  | error e => rfl
  | ok a =>
    cases symOneQubit n [c] (.lit (.num 0) (.num 0) (.num 0) (.num 1)) with
    | error e => rfl
    | ok b =>
      cases symOneQubit n [t] G with
      | error e => rfl
      | ok m => simp only [Except.map, bind, Except.bind, pure, Except.pure, val_mul, val_add]

theorem symGate2_val (n : ℕ) (G : SymMat) (T : Targets) (M : SymMat) :
    (symGate2 n G T M).map (SymMat.val ρ) = syGate2 n (G.val ρ) T (M.val ρ) := by
  simp only [symGate2, syGate2, forPairs]
  cases qubitPairs T n with
  | error e => rfl
  | ok ps =>
    simp only
    rw [foldlM_map (SymMat.val ρ) id _ (fun M p => do
      let m ← syTwoQubit n (G.val ρ) p.1 p.2
      pure (m.mul M))]
    · rw [List.map_id]
    · intro M p _
      simp only [id]
      rw [← symTwoQubit_val]
      cases symTwoQubit n G p.1 p.2 with
      | error e => rfl
      | ok m => simp only [Except.map, bind, Except.bind, pure, Except.pure, val_mul]

theorem value_re {e : SE} (h : e.RealAt ρ) : (((e.value ρ).re : ℝ) : ℂ) = e.value ρ := by
  apply Complex.ext <;> simp [h.2]

/-- Evaluating after a substitution is evaluating with other values of the symbols. -/
theorem seSubs_value (σ : String → Option SE) (e : SE) :
    (seSubs σ e).value ρ = e.value (fun s => ((σ s).getD (.sym s)).value ρ) := by
  induction e <;> simp only [seSubs, SE.value, *]

theorem val_subs (σ : String → Option SE) (M : SymMat) :
    (M.subs σ).val ρ = M.val (fun s => ((σ s).getD (.sym s)).value ρ) := by
  simp only [SymMat.val, SymMat.subs, seSubs_value]

theorem symGate_val (k : SG1) (h : ∀ p ∈ k.params, p.RealAt ρ) :
    (symGate k).map (SymMat.val ρ) = sySympyGate (k.val ρ) := by
  cases k <;> simp only [SG1.params, List.mem_cons, List.not_mem_nil, or_false, forall_eq_or_imp, forall_eq] at h <;>
    simp only [symGate, SG1.val, sySympyGate, Option.map_none, Option.map_some, tmplX, tmplY, tmplZ, tmplH, tmplRX, tmplRY, tmplRZ,
      tmplPhase, tmplU1, tmplU2, tmplU3, val_subs, val_lit, SE.value, seTheta, sePhi, seLambd, sHalf, seCisHalf, seCisNegHalf,
      substTheta, substU, if_true, Option.getD_some] <;> simp only [String.reduceEq, if_true, if_false, Option.getD_some,
      Complex.ofReal_one, Complex.ofReal_zero, Complex.ofReal_neg, Complex.ofReal_ofNat]
  case rx => rw [value_re h]
  case ry => rw [value_re h]
  case rz => rw [value_re h]
  case phase => rw [value_re h]
  case u1 => rw [value_re h]
  case u2 => rw [value_re h.1, value_re h.2]
  case u3 => rw [value_re h.1, value_re h.2.1, value_re h.2.2]

/-! ## Fallbacks -/

/-- A property of expressions that the fallbacks keep. -/
structure ParamClosed (R : SE → Prop) : Prop where
  num : ∀ c, R (.num c)
  half : ∀ e, R e → R (sHalf e)
  neg : ∀ e, R e → R (.neg e)
  add : ∀ a b, R a → R b → R (.add a b)
  sub : ∀ a b, R a → R b → R (.sub a b)

theorem fallback_params {R : SE → Prop} (hR : ParamClosed R) {g : SGate} {n : ℕ} {gs : List SGate} (hg : ∀ p ∈ g.params, R p)
    (h : g.fallback n = .ok gs) : ∀ g' ∈ gs, ∀ p ∈ g'.params, R p := by
  have key : ∀ l : List SGate, (∀ g' ∈ l, g'.params = []) → ∀ g' ∈ l, ∀ p ∈ g'.params, R p := by
    intro l hl g' hg' p hp; rw [hl g' hg'] at hp; simp at hp
  cases g with
  | measure T => simp [SGate.fallback] at h
  | reset T => simp [SGate.fallback] at h
  | g3 k T =>
    cases k with
    | ccz => simp [SGate.fallback] at h
    | ccx =>
      simp only [SGate.fallback] at h
      split at h
      · simp at h
      · obtain rfl := Except.ok.inj h
        exact key _ (by simp [sToffoli, sOnItem, sOnItems, SGate.params, SG1.params, SG2.params])
    | cswap =>
      simp only [SGate.fallback] at h
      split at h
      · simp at h
      · obtain rfl := Except.ok.inj h
        exact key _ (by simp [sToffoli, sOnItem, sOnItems, SGate.params, SG1.params, SG2.params])
  | g1 k T =>
    have h1 : ∀ f, k.fallbackOn = some f → ∀ t, ∀ g' ∈ f t, ∀ p ∈ g'.params, R p := by
      intro f hf t
      cases k <;> simp only [SG1.fallbackOn, reduceCtorEq, Option.some.injEq] at hf <;> subst hf <;>
        simp only [SGate.params, SG1.params, List.mem_cons, List.not_mem_nil, or_false, forall_eq_or_imp, forall_eq] at hg <;>
        simp [sOn1, SGate.params, SG1.params, hR.num, hg]
    cases k <;> simp only [SGate.fallback] at h
    case i => obtain rfl := Except.ok.inj h; simp
    all_goals
      split at h
      · simp at h
      · rename_i f hf
        split at h
        · simp at h
        · obtain rfl := Except.ok.inj h
          intro g' hg' p hp
          obtain ⟨t, -, ht⟩ := List.mem_flatMap.1 hg'
          exact h1 f hf t g' ht p hp
  | g2 k T =>
    have h1 : ∀ f, k.fallbackOn = some f → ∀ c t, ∀ g' ∈ f c t, ∀ p ∈ g'.params, R p := by
      intro f hf c t
      cases k <;> simp only [SG2.fallbackOn, reduceCtorEq, Option.some.injEq] at hf <;> subst hf <;>
        simp only [SGate.params, SG2.params, List.mem_cons, List.not_mem_nil, or_false, forall_eq_or_imp, forall_eq] at hg <;>
        simp [sOn1, sOn2, SGate.params, SG1.params, SG2.params, hR.num, hg, hR.half, hR.neg, hR.add, hR.sub]
      exact hR.half _ (hR.neg _ (hR.add _ _ hg.2.1 hg.2.2))
    simp only [SGate.fallback] at h
    split at h
    · simp at h
    · rename_i f hf
      split at h
      · simp at h
      · obtain rfl := Except.ok.inj h
        intro g' hg' p hp
        obtain ⟨t, -, ht⟩ := List.mem_flatMap.1 hg'
        exact h1 f hf _ _ g' ht p hp

theorem realAt_closed (ρ : String → ℂ) : ParamClosed (SE.RealAt ρ) where
  num c := ⟨trivial, by simp [SE.value]⟩
  half e h := ⟨⟨h.1, trivial, by simp [SE.value]⟩, by
    have := value_re h; simp only [sHalf, SE.value]; rw [← this, ← Complex.ofReal_div, Complex.ofReal_im]⟩
  neg e h := ⟨h.1, by simp [SE.value, h.2]⟩
  add a b ha hb := ⟨⟨ha.1, hb.1⟩, by simp [SE.value, ha.2, hb.2]⟩
  sub a b ha hb := ⟨⟨ha.1, hb.1⟩, by simp [SE.value, ha.2, hb.2]⟩

theorem half_re (e : SE) : ((sHalf e).value ρ).re = (e.value ρ).re / 2 := by
  simp [sHalf, SE.value]

theorem fallback_val (g : SGate) (n : ℕ) :
    (g.fallback n).map (List.map (SGate.val ρ)) = (g.val ρ).fallback n := by
  cases g with
  | measure T => rfl
  | reset T => rfl
  | g3 k T =>
    cases k with
    | ccz => rfl
    | ccx =>
      simp only [SGate.fallback, SGate.val, Gate.fallback]
      cases unpack3 T with
      | error e => rfl
      | ok p => rfl
    | cswap =>
      simp only [SGate.fallback, SGate.val, Gate.fallback]
      cases unpack3 T with
      | error e => rfl
      | ok p => rfl
  | g1 k T =>
    have h1 : k.fallbackOn.map (fun f t => (f t).map (SGate.val ρ)) = (k.val ρ).fallbackOn := by
      cases k <;> simp [SG1.fallbackOn, SG1.val, G1.fallbackOn, sOn1, on1, SGate.val, SE.value]
    have hi : ∀ k' : G1, (k.val ρ = .i ↔ k = .i) := by intro _; cases k <;> simp [SG1.val]
    by_cases hk : k = .i
    · subst hk; rfl
    · have e1 : SGate.fallback (.g1 k T) n = (match k.fallbackOn with
        | none => .error .notImplementedError
        | some f =>
          match (slicing T n).toList with
          | .error e => .error e
          | .ok ts => .ok (ts.flatMap f)) := by cases k <;> first | rfl | exact absurd rfl hk
      have e2 : Gate.fallback (.g1 (k.val ρ) T) n = (match (k.val ρ).fallbackOn with
        | none => .error .notImplementedError
        | some f =>
          match (slicing T n).toList with
          | .error e => .error e
          | .ok ts => .ok (ts.flatMap f)) := by cases k <;> first | rfl | exact absurd rfl hk
      simp only [SGate.val]
      rw [e1, e2, ← h1]
      cases k.fallbackOn with
      | none => rfl
      | some f =>
        simp only [Option.map_some]
        cases (slicing T n).toList with
        | error e => rfl
        | ok ts => simp only [Except.map, List.map_flatMap]
  | g2 k T =>
    have h1 : k.fallbackOn.map (fun f c t => (f c t).map (SGate.val ρ)) = (k.val ρ).fallbackOn := by
      cases k <;> simp [SG2.fallbackOn, SG2.val, SG1.val, G2.fallbackOn, sOn1, on1, sOn2, on2, SGate.val, SE.value, half_re]
    simp only [SGate.val, SGate.fallback, Gate.fallback]
    rw [← h1]
    cases k.fallbackOn with
    | none => rfl
    | some f =>
      simp only [Option.map_some]
      cases qubitPairs T n with
      | error e => rfl
      | ok ps => simp only [Except.map, List.map_flatMap]

/-! ## The whole run -/

theorem symAction_val (n : ℕ) (g : SGate) (h : ∀ p ∈ g.params, p.RealAt ρ) :
    (symAction n g = none ∧ syAction n (g.val ρ) = none) ∨ ∃ a b, symAction n g = some a ∧ syAction n (g.val ρ) = some b ∧
      ∀ M, (a M).map (SymMat.val ρ) = b (M.val ρ) := by
  cases g with
  | measure T => exact .inr ⟨_, _, rfl, rfl, fun M => rfl⟩
  | reset T => exact .inr ⟨_, _, rfl, rfl, fun M => rfl⟩
  | g3 k T => exact .inl ⟨rfl, rfl⟩
  | g1 k T =>
    have := symGate_val k h
    simp only [symAction, SGate.val, syAction]
    cases hk : symGate k with
    | none => rw [hk] at this; rw [← this]; exact .inl ⟨rfl, rfl⟩
    | some G =>
      rw [hk] at this; rw [← this]
      exact .inr ⟨_, _, rfl, rfl, symGate1_val n G T⟩
  | g2 k T =>
    have hX : tmplX.val ρ = .lit 0 1 1 0 := by simp [tmplX, val_lit, SE.value]
    have hZ : tmplZ.val ρ = .lit 1 0 0 (-1) := by simp [tmplZ, val_lit, SE.value]
    cases k
    case cx => exact .inr ⟨_, _, rfl, rfl, fun M => by rw [symGate2_val, hX]⟩
    case cz => exact .inr ⟨_, _, rfl, rfl, fun M => by rw [symGate2_val, hZ]⟩
    all_goals exact .inl ⟨rfl, rfl⟩

theorem symRunGate_val (n fuel : ℕ) : ∀ (g : SGate), (∀ p ∈ g.params, p.RealAt ρ) → ∀ M : SymMat,
    (symRunGate n fuel g M).map (SymMat.val ρ) = runGate (syAction n) n fuel (g.val ρ) (M.val ρ) := by
  induction fuel with
  | zero => intro g _ M; rfl
  | succ fuel ih =>
    intro g hg M
    simp only [symRunGate, runGate]
    obtain ⟨h1, h2⟩ | ⟨a, b, h1, h2, h3⟩ := symAction_val n g hg
    · rw [h1, h2]
      simp only
      rw [← fallback_val]
      cases hf : g.fallback n with
      | error e => rfl
      | ok gs =>
        simp only [Except.map]
        exact foldlM_map (SymMat.val ρ) (SGate.val ρ) _ _ gs
          (fun M g' hg' => ih g' (fallback_params (realAt_closed ρ) hg hf g' hg') M) M
    · rw [h1, h2]
      exact h3 M

theorem symRun_val (isZero : SE → Bool) (n : ℕ) (gates : List SGate) (h : ∀ g ∈ gates, ∀ p ∈ g.params, p.RealAt ρ) :
    (symRun isZero n gates false).map (SymMat.val ρ) = syRun n (gates.map (SGate.val ρ)) false := by
  have := foldlM_map (SymMat.val ρ) (SGate.val ρ) (fun M g => symRunGate n recursionLimit g M)
    (fun M g => runGate (syAction n) n recursionLimit g M) gates
    (fun M g hg => symRunGate_val n recursionLimit g (h g hg) M) (SymMat.eye (2 ^ n))
  simp only [symRun, syRun, runGates]
  rw [val_eye] at this
  rw [← this]
  cases gates.foldlM (fun M g => symRunGate n recursionLimit g M) (SymMat.eye (2 ^ n)) with
  | error e => rfl
  | ok M => rfl

/-! ## Properties of all entries -/

/-- A property of expressions that matrix operations keep. -/
structure EntryClosed (P : SE → Prop) : Prop where
  num : ∀ c, P (.num c)
  add : ∀ a b, P a → P b → P (.add a b)
  mul : ∀ a b, P a → P b → P (.mul a b)

/-- All entries have the property. -/
def SymMat.All (P : SE → Prop) (M : SymMat) : Prop := ∀ i j, P (M.ent i j)

variable {P : SE → Prop}

theorem all_eye (hP : EntryClosed P) (d : ℕ) : (SymMat.eye d).All P := by
  intro i j; simp only [SymMat.eye]; split_ifs <;> exact hP.num _

theorem all_lit {a b c d : SE} (ha : P a) (hb : P b) (hc : P c) (hd : P d) : (SymMat.lit a b c d).All P := by
  intro i j; simp only [SymMat.lit]; split_ifs <;> assumption

theorem all_mul (hP : EntryClosed P) {A B : SymMat} (hA : A.All P) (hB : B.All P) : (A.mul B).All P := by
  intro i j
  simp only [SymMat.mul]
  induction (List.range A.dim) with
  | nil => exact hP.num _
  | cons x l ih => exact hP.add _ _ (hP.mul _ _ (hA _ _) (hB _ _)) ih

theorem all_add (hP : EntryClosed P) {A B : SymMat} (hA : A.All P) (hB : B.All P) : (A.add B).All P :=
  fun i j => hP.add _ _ (hA i j) (hB i j)

theorem all_tensor (hP : EntryClosed P) {A B : SymMat} (hA : A.All P) (hB : B.All P) : (A.tensor B).All P :=
  fun i j => hP.mul _ _ (hA _ _) (hB _ _)

theorem all_oneQubit (hP : EntryClosed P) {n : ℕ} {ts : List ℤ} {G m : SymMat} (hG : G.All P) (h : symOneQubit n ts G = .ok m) :
    m.All P := by
  have key : ∀ l : List SymMat, (∀ A ∈ l, A.All P) → ∀ m, pyReduce SymMat.tensor l = .ok m → m.All P := by
    intro l
    cases l with
    | nil => intro _ m h; simp [pyReduce] at h
    | cons x l =>
      intro hl m h
      simp only [pyReduce, Except.ok.injEq] at h
      subst h
      induction l generalizing x with
      | nil => exact hl x (by simp)
      | cons y l ih =>
        refine ih (x.tensor y) ?_
        intro A hA
        rcases List.mem_cons.1 hA with rfl | hA
        · exact all_tensor hP (hl x (by simp)) (hl y (by simp))
        · exact hl A (by simp [hA])
  refine key _ ?_ m h
  intro A hA
  simp only [List.mem_reverse, List.mem_map] at hA
  obtain ⟨i, -, rfl⟩ := hA
  split_ifs
  · exact hG
  · exact all_eye hP 2

theorem all_gate1 (hP : EntryClosed P) {n : ℕ} {G M m : SymMat} {T : Targets} (hG : G.All P) (hM : M.All P)
    (h : symGate1 n G T M = .ok m) : m.All P := by
  simp only [symGate1] at h
  cases hs : (slicing T n).toList with
  | error e => rw [hs] at h; simp [bind, Except.bind] at h
  | ok ts =>
    cases ho : symOneQubit n ts G with
    | error e => rw [hs] at h; simp [bind, Except.bind, ho] at h
    | ok a =>
      rw [hs] at h; simp only [bind, Except.bind, ho, pure, Except.pure, Except.ok.injEq] at h
      subst h
      exact all_mul hP (all_oneQubit hP hG ho) hM

theorem foldlM_inv {σ α : Type} (I : σ → Prop) (f : σ → α → Except PyErr σ) (l : List α)
    (h : ∀ s, I s → ∀ x ∈ l, ∀ s', f s x = .ok s' → I s') : ∀ s, I s → ∀ s', l.foldlM f s = .ok s' → I s' := by
  induction l with
  | nil => intro s hs s' h'; obtain rfl := Except.ok.inj h'; exact hs
  | cons x l ih =>
    intro s hs s' h'
    rw [List.foldlM_cons] at h'
    cases hx : f s x with
    | error e => rw [hx] at h'; simp [bind, Except.bind] at h'
    | ok t =>
      rw [hx] at h'
      exact ih (fun s hs y hy => h s hs y (by simp [hy])) t (h s hs x (by simp) t hx) s' h'

theorem all_gate2 (hP : EntryClosed P) {n : ℕ} {G M m : SymMat} {T : Targets} (hG : G.All P) (hM : M.All P)
    (h : symGate2 n G T M = .ok m) : m.All P := by
  simp only [symGate2, forPairs] at h
  cases hq : qubitPairs T n with
  | error e => rw [hq] at h; simp at h
  | ok ps =>
    rw [hq] at h
    refine foldlM_inv (SymMat.All P) _ ps ?_ M hM m h
    intro M hM p _ s' hs'
    simp only [symTwoQubit] at hs'
    cases h0 : symOneQubit n [p.1] (.lit (.num 1) (.num 0) (.num 0) (.num 0)) with
    | error e => simp [h0, bind, Except.bind] at hs'
    | ok a =>
      cases h1 : symOneQubit n [p.1] (.lit (.num 0) (.num 0) (.num 0) (.num 1)) with
      | error e => simp [h0, h1, bind, Except.bind] at hs'
      | ok b =>
        cases h2 : symOneQubit n [p.2] G with
        | error e => simp [h0, h1, h2, bind, Except.bind] at hs'
        | ok c =>
          simp only [h0, h1, h2, bind, Except.bind, pure, Except.pure, Except.ok.injEq] at hs'
          subst hs'
          have hn := hP.num
          exact all_mul hP (all_add hP (all_oneQubit hP (all_lit (hn _) (hn _) (hn _) (hn _)) h0)
            (all_mul hP (all_oneQubit hP hG h2) (all_oneQubit hP (all_lit (hn _) (hn _) (hn _) (hn _)) h1))) hM

theorem all_run {R : SE → Prop} (hP : EntryClosed P) (hR : ParamClosed R)
    (hG : ∀ k G, (∀ p ∈ SG1.params k, R p) → symGate k = some G → G.All P) (n fuel : ℕ) :
    ∀ g : SGate, (∀ p ∈ g.params, R p) → ∀ M : SymMat, M.All P → ∀ m, symRunGate n fuel g M = .ok m → m.All P := by
  induction fuel with
  | zero => intro g _ M _ m h; simp [symRunGate] at h
  | succ fuel ih =>
    intro g hg M hM m h
    have hn := hP.num
    simp only [symRunGate] at h
    cases ha : symAction n g with
    | none =>
      rw [ha] at h
      simp only at h
      cases hf : g.fallback n with
      | error e => rw [hf] at h; simp at h
      | ok gs =>
        rw [hf] at h
        exact foldlM_inv (SymMat.All P) _ gs (fun M hM g' hg' s' hs' => ih g' (fallback_params hR hg hf g' hg') M hM s' hs') M hM m h
    | some a =>
      rw [ha] at h
      simp only at h
      cases g with
      | measure T => simp only [symAction, Option.some.injEq] at ha; subst ha; obtain rfl := Except.ok.inj h; exact hM
      | reset T => simp only [symAction, Option.some.injEq] at ha; subst ha; obtain rfl := Except.ok.inj h; exact hM
      | g3 k T => simp [symAction] at ha
      | g1 k T =>
        simp only [symAction, Option.map_eq_some_iff] at ha
        obtain ⟨G, hk, rfl⟩ := ha
        exact all_gate1 hP (hG k G hg hk) hM h
      | g2 k T =>
        cases k <;> simp only [symAction, reduceCtorEq, Option.some.injEq] at ha <;> subst ha
        · exact all_gate2 hP (all_lit (hn _) (hn _) (hn _) (hn _)) hM h
        · exact all_gate2 hP (all_lit (hn _) (hn _) (hn _) (hn _)) hM h

theorem all_symRun {R : SE → Prop} (hP : EntryClosed P) (hR : ParamClosed R)
    (hG : ∀ k G, (∀ p ∈ SG1.params k, R p) → symGate k = some G → G.All P) (isZero : SE → Bool) (n : ℕ) (gates : List SGate)
    (h : ∀ g ∈ gates, ∀ p ∈ g.params, R p) (S : SymMat) (hS : symRun isZero n gates false = .ok S) : S.All P := by
  simp only [symRun] at hS
  cases hf : gates.foldlM (fun M g => symRunGate n recursionLimit g M) (SymMat.eye (2 ^ n)) with
  | error e => rw [hf] at hS; simp [bind, Except.bind] at hS
  | ok M =>
    rw [hf] at hS
    obtain rfl := Except.ok.inj hS
    exact foldlM_inv (SymMat.All P) _ gates
      (fun M hM g hg s' hs' => all_run hP hR hG n recursionLimit g (h g hg) M hM s' hs') _ (all_eye hP _) _ hf

end

end Blueqat
