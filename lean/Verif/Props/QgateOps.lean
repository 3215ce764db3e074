import Verif.Spec.QgateOps
import Verif.FallbackGates
import Verif.Props.Qgate
import Verif.Qgate

/-!
# C63: the operators of the qgate backend
-/

set_option linter.unusedSimpArgs false
set_option linter.unusedVariables false

namespace Blueqat

open Spec

noncomputable section

theorem qregAt_nat {n q : ℕ} (h : q < n) : qregAt n (q : ℤ) = .ok q := by
  simp [qregAt, h]

theorem qregAt_pyIndex {n : ℕ} {a : ℤ} {q : ℕ} (hq : q < n) (h : (q : ℤ) = pyIndex n a) : qregAt n a = .ok q := by
  unfold pyIndex at h
  unfold qregAt
  split_ifs at h with h1
  · rw [if_neg (by omega), if_pos (by omega)]
    congr 1; omega
  · rw [if_pos (by omega)]
    congr 1; omega

theorem mapM_qregAt {n : ℕ} (L : List ℕ) (h : ∀ q ∈ L, q < n) : (L.map (fun q : ℕ => (q : ℤ))).mapM (qregAt n) = .ok L := by
  induction L with
  | nil => rfl
  | cons q L ih =>
    rw [List.map_cons, List.mapM_cons, qregAt_nat (h q (by simp)), ih (fun q hq => h q (by simp [hq]))]
    rfl

theorem qgCollect_denotes {n : ℕ} {T : Targets} {L : List ℕ} (hT : TargetsDenote n T (L.map (fun q : ℕ => (q : ℤ))))
    (h : ∀ q ∈ L, q < n) (f : ℕ → QOp) : qgCollect n (slicing T n) f = .ok (L.map f) := by
  rw [(slicing_eq_iff n T _).2 hT]
  simp only [qgCollect, mapM_qregAt L h]
  rfl

theorem qgPairs_denotes {n : ℕ} (ty : QType) (params : List ℝ) (L : List (ℕ × ℕ)) (h : ∀ p ∈ L, p.1 < n ∧ p.2 < n) :
    qgPairs n ty params (L.map (fun p : ℕ × ℕ => ((p.1 : ℤ), (p.2 : ℤ)))) =
      .ok (L.map (fun p => .gate ty params false [p.1] p.2)) := by
  induction L with
  | nil => rfl
  | cons p L ih =>
    have hp := h p (by simp)
    simp only [List.map_cons, qgPairs, qregAt_nat hp.1, qregAt_nat hp.2, ih (fun q hq => h q (by simp [hq]))]
    rfl

theorem app_scale (z : ℂ) (M : M2) (t : ℕ) (ψ : Vec) (i : ℕ) : app (M.scale z) t ψ i = z * app M t ψ i := by
  simp only [app, M2.scale]
  split_ifs <;> ring

theorem mT_adjoint : mT.adjoint = mTdg := by
  have : star (cis (Real.pi / 4)) = cis (-(Real.pi / 4)) := by
    simp only [cis, Complex.star_def, ← Complex.exp_conj]
    congr 1
    rw [map_mul, Complex.conj_ofReal, Complex.conj_I]
    push_cast; ring
  simp [M2.adjoint, mT, mTdg, mPhase, this]

theorem mS_adjoint : mS.adjoint = mSdg := by
  simp [M2.adjoint, mS, mSdg]

theorem scale_one (M : M2) : M.scale 1 = M := by simp [M2.scale]

theorem one_performs {mat : QType → List ℝ → M2} {ph : ℝ → ℝ → ℂ} (hm : QgateMatrices mat ph) (k : G1) (q : ℕ) :
    Performs mat ph (.one k q) (.gate (qgType1 k).1 (qgType1 k).2.1 (qgType1 k).2.2 [] q) := by
  refine ⟨by simp, fun ψ i => ?_⟩
  cases k <;>
    simp [opAction, qgType1, uFactor, Elem.unitary, matrix1, hm.id, hm.x, hm.y, hm.z, hm.h, hm.t, hm.s, hm.rx, hm.ry, hm.rz, hm.u1,
      hm.u2, hm.u, mT_adjoint, mS_adjoint, app_scale]

theorem two_performs {mat : QType → List ℝ → M2} {ph : ℝ → ℝ → ℂ} (hm : QgateMatrices mat ph) (k : G2) (ty : QType)
    (params : List ℝ) (hk : qgType2 k = some (ty, params)) (hf : ∀ T, FactorOne ph (.g2 k T)) (c t : ℕ) :
    Performs mat ph (.two k c t) (.gate ty params false [c] t) := by
  have hf := hf (.tup [])
  refine ⟨by simp, fun ψ i => ?_⟩
  cases k <;> simp only [qgType2, Option.some.injEq, Prod.mk.injEq, reduceCtorEq] at hk <;> obtain ⟨rfl, rfl⟩ := hk <;>
    simp only [FactorOne] at hf <;>
    simp [opAction, uFactor, Elem.unitary, op2, phDoc, hm.x, hm.z, hm.rx, hm.ry, hm.rz, hm.u1, hm.u2, hm.u, hf, scale_one]

/-- C63. What the backend makes of a gate of its table: one operator per operation the gate denotes, in order, that performs
it. What is missing: swaps of slices or tuples, and controlled `U2` and `U` if qgate's have another factor than Blueqat's. -/
theorem C63_gate_partial {mat : QType → List ℝ → M2} {ph : ℝ → ℝ → ℂ} (hm : QgateMatrices mat ph) (n : ℕ) (g : Gate)
    (es : List Elem) (hd : GateDenotes n g es) (hv : ∀ e ∈ es, e.Valid n) (hs : QgateSupports g) (hf : FactorOne ph g)
    (hw : PlainSwap g) : ∃ ops, qgConvert n g = .ok ops ∧ List.Forall₂ (Performs mat ph) es ops := by
  cases g with
  | g1 k T =>
    obtain ⟨L, hT, rfl⟩ := hd
    refine ⟨_, qgCollect_denotes hT (fun q hq => hv _ (List.mem_map_of_mem hq)) _, ?_⟩
    rw [List.forall₂_map_left_iff, List.forall₂_map_right_iff]
    exact List.forall₂_same.2 (fun q _ => one_performs hm k q)
  | measure T =>
    obtain ⟨L, hT, rfl⟩ := hd
    refine ⟨_, qgCollect_denotes hT (fun q hq => hv _ (List.mem_map_of_mem hq)) _, ?_⟩
    rw [List.forall₂_map_left_iff, List.forall₂_map_right_iff]
    exact List.forall₂_same.2 (fun q _ => rfl)
  | reset T => exact absurd hs id
  | g3 k T =>
    obtain ⟨a, b, c, rfl, rfl⟩ := hd
    simp only [QgateSupports] at hs
    subst hs
    have hv := hv _ (List.mem_singleton.2 rfl)
    simp only [Elem.Valid] at hv
    refine ⟨[.gate .X [] false [a, b] c], ?_, ?_⟩
    · simp only [qgConvert, qregItem, qregAt_nat hv.1, qregAt_nat hv.2.1, qregAt_nat hv.2.2.1]; rfl
    · refine .cons ⟨by simp, fun ψ i => ?_⟩ .nil
      simp [opAction, uFactor, Elem.unitary, op3, hm.x]
  | g2 k T =>
    obtain ⟨L, hT, rfl⟩ := hd
    have hL : ∀ p ∈ L, p.1 < n ∧ p.2 < n := by
      intro p hp
      have := hv _ (List.mem_map_of_mem hp)
      exact ⟨this.1, this.2.1⟩
    by_cases hk : k = .swap
    · subst hk
      obtain ⟨a, b, rfl⟩ := hw
      obtain ⟨x, y, cs, ts, he, ha, hb, -, hL', -⟩ := hT
      simp only [Targets.tup.injEq, List.cons.injEq, and_true] at he
      obtain ⟨rfl, rfl⟩ := he
      simp only [ItemDenotes, AtomDenotes] at ha hb
      subst ha hb
      simp only [List.zip_cons_cons, List.zip_nil_right] at hL'
      obtain ⟨p, rfl⟩ : ∃ p, L = [p] := by
        cases L with
        | nil => simp at hL'
        | cons p L =>
          simp only [List.map_cons, List.cons.injEq, List.map_eq_nil_iff] at hL'
          exact ⟨p, by rw [hL'.2]⟩
      simp only [List.map_cons, List.map_nil, List.cons.injEq, Prod.mk.injEq, and_true] at hL'
      have hp := hL p (by simp)
      refine ⟨[.multi .SWAP [] p.1 p.2], ?_, ?_⟩
      · simp only [qgConvert, qregItem, qregAt_pyIndex hp.1 hL'.1, qregAt_pyIndex hp.2 hL'.2]; rfl
      · refine .cons ⟨by simp, fun ψ i => ?_⟩ .nil
        simp [opAction, uFactor, Elem.unitary, op2]
    · have hc : qgConvert n (.g2 k T) = qgControlled n k T := by
        cases k <;> first | rfl | exact absurd rfl hk
      obtain ⟨ty, params, hty⟩ : ∃ ty params, qgType2 k = some (ty, params) := by
        obtain ⟨h1, h2, h3⟩ := hs
        cases k with
        | cy => exact absurd rfl h1
        | ch => exact absurd rfl h2
        | rxx θ => exact absurd rfl (h3 θ).1
        | ryy θ => exact absurd rfl (h3 θ).2.1
        | rzz θ => exact absurd rfl (h3 θ).2.2
        | swap => exact absurd rfl hk
        | _ => exact ⟨_, _, rfl⟩
      rw [hc]
      simp only [qgControlled, hty, (pairsDenote_iff n T _).2 hT]
      refine ⟨_, qgPairs_denotes ty params L hL, ?_⟩
      rw [List.forall₂_map_left_iff, List.forall₂_map_right_iff]
      refine List.forall₂_same.2 (fun p _ => two_performs hm k ty params hty (fun T' => ?_) p.1 p.2)
      cases k <;> first | exact hf | trivial

/-- C63. The same for a whole circuit. -/
theorem C63_circuit_partial {mat : QType → List ℝ → M2} {ph : ℝ → ℝ → ℂ} (hm : QgateMatrices mat ph) (n : ℕ) :
    ∀ (gs : List Gate) (es : List Elem), GatesDenote n gs es → (∀ e ∈ es, e.Valid n) →
      (∀ g ∈ gs, QgateSupports g ∧ FactorOne ph g ∧ PlainSwap g) →
      ∃ ops, qgConvertAll n gs = .ok ops ∧ List.Forall₂ (Performs mat ph) es ops := by
  intro gs
  induction gs with
  | nil => rintro es rfl _ _; exact ⟨[], rfl, .nil⟩
  | cons g gs ih =>
    rintro es ⟨e₁, e₂, h1, h2, rfl⟩ hv hg
    obtain ⟨o1, a1, a2⟩ := C63_gate_partial hm n g e₁ h1 (fun e he => hv e (by simp [he])) (hg g (by simp)).1 (hg g (by simp)).2.1
      (hg g (by simp)).2.2
    obtain ⟨o2, b1, b2⟩ := ih e₂ h2 (fun e he => hv e (by simp [he])) (fun g' hg' => hg g' (by simp [hg']))
    refine ⟨o1 ++ o2, ?_, List.rel_append a2 b2⟩
    simp only [qgConvertAll, a1, b1]; rfl

/-- C63. So the operators of a circuit without measurements bring every state to what the circuit makes of it, times a
factor of modulus one. -/
theorem C63_state_partial {mat : QType → List ℝ → M2} {ph : ℝ → ℝ → ℂ} (hm : QgateMatrices mat ph)
    (hph : ∀ φ lam, ‖ph φ lam‖ = 1) (n : ℕ) (gs : List Gate) (es : List Elem) (hd : GatesDenote n gs es)
    (hv : ∀ e ∈ es, e.Valid n) (hu : ∀ e ∈ es, e.IsUnitary) (hg : ∀ g ∈ gs, QgateSupports g ∧ FactorOne ph g ∧ PlainSwap g) :
    ∃ ops z, qgConvertAll n gs = .ok ops ∧ ‖z‖ = 1 ∧
      ∀ ψ i, ops.foldl (fun ψ op => opAction mat op ψ) ψ i = z * unitaries phDoc es ψ i := by
  obtain ⟨ops, h1, h2⟩ := C63_circuit_partial hm n gs es hd hv hg
  have : ∃ z : ℂ, ‖z‖ = 1 ∧ ∀ ψ i, ops.foldl (fun ψ op => opAction mat op ψ) ψ i = z * unitaries phDoc es ψ i := by
    clear h1 hd hv
    induction h2 with
    | nil => exact ⟨1, by simp, fun ψ i => by simp [unitaries]⟩
    | @cons e op es ops h h2 ih =>
      obtain ⟨z, hz, hh⟩ := ih (fun e he => hu e (by simp [he]))
      have hue := hu e (by simp)
      have hP : ∀ ψ i, opAction mat op ψ i = uFactor ph e * e.unitary phDoc ψ i := by
        cases e with
        | meas q => exact absurd hue id
        | reset q => exact absurd hue id
        | _ => exact h.2
      have hF : ‖uFactor ph e‖ = 1 := by
        unfold uFactor; split <;> simp [hph]
      refine ⟨z * uFactor ph e, by rw [norm_mul, hz, hF, one_mul], fun ψ i => ?_⟩
      rw [List.foldl_cons, hh]
      have hop : opAction mat op ψ = fun i => uFactor ph e * e.unitary phDoc ψ i := funext (hP ψ)
      rw [hop, unitaries_smul]
      simp only [unitaries, List.foldl_cons]
      ring
  obtain ⟨z, a, b⟩ := this
  exact ⟨ops, z, h1, a, b⟩

/-- With the factors of the other convention, `h[:].u3(...)[0].cx[0, 1]` meets the hypotheses. -/
example (θ φ lam : ℝ) :
    let ph : ℝ → ℝ → ℂ := fun φ lam => cis ((φ + lam) / 2)
    let gs : List Gate := [.g1 (.u3 θ φ lam) (.one (.int 0)), .g2 .cx (.tup [.atom (.int 0), .atom (.int 1)])]
    let es : List Elem := [.one (.u3 θ φ lam) 0, .two .cx 0 1]
    QgateMatrices (qgateMatrix ph) ph ∧ (∀ φ lam, ‖ph φ lam‖ = 1) ∧ GatesDenote 2 gs es ∧ (∀ e ∈ es, e.Valid 2) ∧
      (∀ e ∈ es, e.IsUnitary) ∧ ∀ g ∈ gs, QgateSupports g ∧ FactorOne ph g ∧ PlainSwap g := by
  refine ⟨qgateMatrix_ok _, fun φ lam => ?_, ?_, ?_, ?_, ?_⟩
  · simp only [cis]; exact Complex.norm_exp_ofReal_mul_I _
  · exact ⟨[.one (.u3 θ φ lam) 0], [.two .cx 0 1], ⟨[0], by simp [TargetsDenote, AtomDenotes, pyIndex], rfl⟩,
      ⟨[.two .cx 0 1], [], ⟨[(0, 1)], ⟨_, _, [0], [1], rfl, by simp [ItemDenotes, AtomDenotes, pyIndex],
        by simp [ItemDenotes, AtomDenotes, pyIndex], rfl, rfl, by simp⟩, rfl⟩, rfl, rfl⟩, rfl⟩
  · simp [Elem.Valid]
  · simp [Elem.IsUnitary]
  · simp [QgateSupports, FactorOne, PlainSwap]

/-- C63. Gates that are not in the table raise an AssertionError, whatever their subscript; there is no fallback. -/
theorem C63_unsupported (n : ℕ) (g : Gate) (h : ¬ QgateSupports g) : qgConvert n g = .error .assertionError := by
  cases g with
  | g1 k T => exact absurd trivial h
  | measure T => exact absurd trivial h
  | reset T => rfl
  | g3 k T =>
    cases k with
    | ccx => exact absurd rfl h
    | _ => rfl
  | g2 k T =>
    cases k <;> first | rfl | (exfalso; exact h (by simp [QgateSupports]))

/-- `cy[0, 1]` is not in the table. -/
example : ¬ QgateSupports (.g2 .cy (.tup [.atom (.int 0), .atom (.int 1)])) := by simp [QgateSupports]

/-- C63 is false of the code: `swap[(0, 1), (2, 3)]` denotes two swaps, which the numpy backend performs, and raises. -/
theorem C63_swap_refuted : ∃ (g : Gate) (es : List Elem), GateDenotes 4 g es ∧ (∀ e ∈ es, e.Valid 4) ∧ QgateSupports g ∧
    qgConvert 4 g = .error .typeError := by
  refine ⟨.g2 .swap (.tup [.tup [.int 0, .int 1], .tup [.int 2, .int 3]]), [.two .swap 0 2, .two .swap 1 3],
    ⟨[(0, 2), (1, 3)], ⟨_, _, [0, 1], [2, 3], rfl, ?_, ?_, rfl, rfl, by simp⟩, rfl⟩, by simp [Elem.Valid],
    by simp [QgateSupports], rfl⟩
  · exact ⟨[0], [1], by simp [AtomDenotes, pyIndex], ⟨[1], [], by simp [AtomDenotes, pyIndex], rfl, rfl⟩, rfl⟩
  · exact ⟨[2], [3], by simp [AtomDenotes, pyIndex], ⟨[3], [], by simp [AtomDenotes, pyIndex], rfl, rfl⟩, rfl⟩

/-- C63. If qgate's `U` has another factor than Blueqat's, `cu3` is another operation, not only up to a factor: the factor
is missing where the control is 0. -/
theorem C63_cu3_refuted {mat : QType → List ℝ → M2} {ph : ℝ → ℝ → ℂ} (hm : QgateMatrices mat ph) (φ lam : ℝ)
    (hne : ph φ lam ≠ 1) : ∃ ops, qgConvert 2 (.g2 (.cu3 0 φ lam) (.tup [.atom (.int 0), .atom (.int 1)])) = .ok ops ∧
      ∀ z : ℂ, ∃ ψ : Vec, ops.foldl (fun ψ op => opAction mat op ψ) ψ ≠
        fun i => z * (Elem.two (.cu3 0 φ lam) 0 1).unitary phDoc ψ i := by
  refine ⟨[.gate .U [0, φ, lam] false [0] 1], rfl, fun z => ?_⟩
  by_cases hz : z = 1
  · subst hz
    refine ⟨fun i => if i = 1 then 1 else 0, fun h => ?_⟩
    have h := congrFun h 1
    simp [opAction, Elem.unitary, op2, hm.u, ctrl, app, M2.scale, mU3, flipBit] at h
    have hc : cis (-((φ + lam) / 2)) ≠ 0 := Complex.exp_ne_zero _
    have h2 : (1 : ℕ).testBit 1 = false := by decide
    simp [h2] at h
    exact hne (mul_right_cancel₀ hc (by rw [one_mul]; simpa using h))
  · refine ⟨fun i => if i = 0 then 1 else 0, fun h => hz ?_⟩
    have h := congrFun h 0
    simp [opAction, Elem.unitary, op2, ctrl] at h
    exact h.symm

/-- The other convention has another factor at `φ = 2 pi`. -/
example : (fun φ lam => cis ((φ + lam) / 2) : ℝ → ℝ → ℂ) (2 * Real.pi) 0 ≠ 1 := by
  have : cis (Real.pi) = -1 := by simp [cis, Complex.exp_pi_mul_I]
  simp only [add_zero, mul_div_cancel_left₀ Real.pi (two_ne_zero), this]
  norm_num

/-- C63. Arguments of `run`: what is returned, and which arguments raise a RuntimeError. -/
theorem C63_run {S : Type} (sim : QSim S) (n : ℕ) (gates : List Gate) (ops : List QOp) (h : qgConvertAll n gates = .ok ops)
    (shots : ℕ) (sampling runtime : String) (hr : runtime = "cuda" ∨ runtime = "cpu" ∨ runtime = "py") :
    (qgRun sim n gates "" 0 sampling runtime = .ok (.state (sim.states n ops))) ∧
    (shots ≠ 0 → qgRun sim n gates "" shots sampling runtime = .ok (.shots (qgSample sim n ops shots sampling))) ∧
    (qgRun sim n gates "shots" shots sampling runtime = .ok (.shots (qgSample sim n ops shots sampling))) ∧
    (qgRun sim n gates "statevector" shots sampling runtime = .ok (.state (sim.states n ops))) ∧
    (shots ≤ 1 → qgRun sim n gates "statevector_and_shots" shots sampling runtime =
      .ok (.both (sim.states n ops) (qgStateAndSample sim n ops).2)) ∧
    (1 < shots → qgRun sim n gates "statevector_and_shots" shots sampling runtime = .error .runtimeError) ∧
    (∀ returns, returns ≠ "" → returns ≠ "shots" → returns ≠ "statevector" → returns ≠ "statevector_and_shots" →
      qgRun sim n gates returns shots sampling runtime = .error .runtimeError) := by
  have hr' : ¬ (runtime ≠ "cuda" ∧ runtime ≠ "cpu" ∧ runtime ≠ "py") := by
    rintro ⟨a, b, c⟩; rcases hr with h | h | h <;> contradiction
  refine ⟨?_, ?_, ?_, ?_, ?_, ?_, ?_⟩
  · simp [qgRun, hr', h, bind, Except.bind]
  · intro hs; simp [qgRun, hr', h, hs, bind, Except.bind]
  · simp [qgRun, hr', h, bind, Except.bind]
  · simp [qgRun, hr', h, bind, Except.bind]
  · intro hs; simp [qgRun, hr', h, bind, Except.bind, Nat.not_lt.2 hs, qgStateAndSample]
  · intro hs; simp [qgRun, hr', h, bind, Except.bind, hs]
  · intro r h1 h2 h3 h4; simp [qgRun, hr', h, bind, Except.bind, h1, h2, h3, h4]

/-- C63. An unknown runtime raises a RuntimeError before anything else. -/
theorem C63_runtime {S : Type} (sim : QSim S) (n : ℕ) (gates : List Gate) (returns : String) (shots : ℕ) (sampling runtime : String)
    (h1 : runtime ≠ "cuda") (h2 : runtime ≠ "cpu") (h3 : runtime ≠ "py") :
    qgRun sim n gates returns shots sampling runtime = .error .runtimeError := by
  simp [qgRun, h1, h2, h3]

/-- C63 is false of the code for measurements in the middle: `m[0].x[0]` measures 0 whatever the random numbers, but a
simulator that samples the last state exactly makes the backend count only "1". -/
theorem C63_midcircuit_refuted {S : Type} (mat : QType → List ℝ → M2) (ph : ℝ → ℝ → ℂ) (hm : QgateMatrices mat ph) (sim : QSim S)
    (hsim : ∀ n ops pos shots sampling b, (ops.foldl (fun ψ op => opAction mat op ψ) (initState (fun _ => 0)).psi = fun i => if i = b then 1 else 0) →
      ∃ v : ℕ, sim.sample n ops pos shots sampling = [(v, shots)] ∧ ∀ k q, pos[k]? = some q → v.testBit k = b.testBit q)
    (shots : ℕ) :
    let gates : List Gate := [.measure (.one (.int 0)), .g1 .x (.one (.int 0))]
    let es : List Elem := [.meas 0, .one .x 0]
    GatesDenote 1 gates es ∧ (∀ rnd : ℕ → ℝ, rnd 0 < 1 → (steps phDoc 1 es (initState rnd)).creg 0 = false) ∧
    ∃ ops, qgConvertAll 1 gates = .ok ops ∧ qgSample sim 1 ops shots "qgate" = [("1", shots)] := by
  refine ⟨?_, ?_, [.measure 0 0, .gate .X [] false [] 0], rfl, ?_⟩
  · exact ⟨[.meas 0], [.one .x 0], ⟨[0], by simp [TargetsDenote, AtomDenotes, pyIndex], rfl⟩,
      ⟨[.one .x 0], [], ⟨[0], by simp [TargetsDenote, AtomDenotes, pyIndex], rfl⟩, rfl, rfl⟩, rfl⟩
  · intro rnd h
    have hp : Spec.prob 1 0 false (fun i => if i = 0 then 1 else 0) = 1 := by
      have : (Finset.range (2 ^ 1)).filter (fun i => i.testBit 0 = false) = {0} := by decide
      rw [Spec.prob, this]; simp
    simp [steps, Elem.step, initState, hp, h]
  · have hs : qgSampled [.measure 0 0, .gate .X [] false [] 0] = [0] := by
      rw [qgSampled, show List.filterMap QOp.measured [.measure 0 0, .gate .X [] false [] 0] = [0] from rfl]
      decide
    have hn : qgNoMeasure [.measure 0 0, .gate .X [] false [] 0] = [.gate .X [] false [] 0] := by
      simp [qgNoMeasure, QOp.measured]
    obtain ⟨v, h1, h2⟩ := hsim 1 [.gate .X [] false [] 0] [0] shots "qgate" 1 (by
      funext i
      simp only [List.foldl_cons, List.foldl_nil, opAction, List.foldr_nil, Bool.false_eq_true, if_false, hm.x, app, mX, initState, flipBit,
        pow_zero, zero_mul, one_mul, add_zero, zero_add]
      by_cases hi : i = 1
      · subst hi; simp
      · by_cases hi0 : i = 0
        · subst hi0; simp
        · have : i ^^^ 1 ≠ 0 := by
            intro h; exact hi (by rw [Nat.xor_eq_zero_iff] at h; exact h)
          simp [hi, hi0, this])
    have hv := h2 0 0 rfl
    simp only [qgSample, hs, hn, h1, qgStrKeys, List.foldl_cons, List.foldl_nil]
    have hp : qgPermute (1 - 1) v 0 [0] 0 = 1 := by
      have hv : v.testBit 0 = true := hv.trans (by decide)
      have : v &&& 1 = 1 := by
        rw [Nat.and_one_is_mod]; simpa [Nat.testBit_zero] using hv
      simp [qgPermute, this]
    rw [hp]
    rfl

open Classical in
/-- There is such a simulator. -/
example (mat : QType → List ℝ → M2) : ∃ sim : QSim Unit, ∀ n ops pos shots sampling b,
    (ops.foldl (fun ψ op => opAction mat op ψ) (initState (fun _ => 0)).psi = fun i => if i = b then 1 else 0) →
      ∃ v : ℕ, sim.sample n ops pos shots sampling = [(v, shots)] ∧ ∀ k q, pos[k]? = some q → v.testBit k = b.testBit q := by
  refine ⟨⟨fun _ _ => (), fun _ ops pos shots _ =>
    if h : ∃ b : ℕ, ops.foldl (fun ψ op => opAction mat op ψ) (initState (fun _ => 0)).psi = fun i => if i = b then 1 else 0 then
      [(qgObsInt (pos.map (fun q => h.choose.testBit q)), shots)] else [], fun _ _ _ => false⟩, ?_⟩
  intro n ops pos shots sampling b hb
  have h : ∃ b : ℕ, ops.foldl (fun ψ op => opAction mat op ψ) (initState (fun _ => 0)).psi = fun i => if i = b then 1 else 0 := ⟨b, hb⟩
  have hbb : h.choose = b := by
    have h2 := congrFun (hb.symm.trans h.choose_spec) b
    simp only [if_true] at h2
    by_contra hne
    rw [if_neg (fun e => hne e.symm)] at h2
    exact one_ne_zero h2
  refine ⟨_, dif_pos h, fun k q hq => ?_⟩
  rw [qgObsInt_bit, List.getElem?_map, hq, hbb]
  rfl

end

end Blueqat
