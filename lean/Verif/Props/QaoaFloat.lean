import Mathlib.Analysis.Real.Pi.Bounds
import Verif.QaoaFloatLemmas
import Verif.Props.Qaoa
import Verif.Props.VqeRun
import Verif.Props.Diagonal
import Verif.Props.PauliFloat

/-!
# C101: QAOA in floating point
-/

set_option linter.unusedSimpArgs false
set_option linter.unusedVariables false

namespace Blueqat

open Spec

noncomputable section

variable {V M C B A R : Type} (kit : Kit C B A R) (isAttr : String → Bool)

/-! ## Exact arithmetic -/

theorem flMul_exact (a b : PExpr) : a.flMul .exact b = a.mul b := rfl

theorem flSub_exact (a b : PExpr) : a.flSub .exact b = a.sub b := by
  have : flSubStep .exact = subStep := by
    funext d t
    simp only [flSubStep, subStep, PauliOps.exact, ← sub_eq_add_neg]
    cases d.get t.ops <;> rfl
  rw [PExpr.flSub, PExpr.sub, this]

theorem flCommutator_exact (a b : PExpr) : flCommutator .exact a b = commutator a b := by
  simp only [flCommutator, commutator, flExprSimplify_exact, flMul_exact, flSub_exact]

theorem flIsCommutable_exact (a b : PExpr) (eps : ℝ) : flIsCommutable .exact a b eps = isCommutable a b eps := by
  have h : ∀ (l : List ℝ) (s : ℝ), l.foldl (fun (s x : ℝ) => (PauliOps.exact.add (s : ℂ) (x : ℂ)).re) s = s + l.sum := by
    intro l
    induction l with
    | nil => intro s; simp
    | cons x l ih =>
      intro s
      rw [List.foldl_cons, ih, List.sum_cons]
      simp [PauliOps.exact, add_assoc]
  rw [flIsCommutable, isCommutable, flCommutatorSize, h, zero_add, flCommutator_exact]
  rfl

theorem flEvolutionGates_exact (ops : List POp) (c t : ℝ) : flEvolutionGates .exact ops c t = evolutionGates ops c t := rfl

theorem flEvolutionClosures_exact (vs : List PVal) : flEvolutionClosures .exact .exact vs = evolutionClosures vs := by
  induction vs with
  | nil => rfl
  | cons v vs ih =>
    have : v.flEvolutionClosure .exact .exact = v.evolutionClosure := by
      cases v with
      | term t =>
        simp only [PVal.flEvolutionClosure, PVal.evolutionClosure, PTerm.flEvolutionClosure, PTerm.evolutionClosure,
          flTermSimplify_exact]
        rfl
      | num x => rfl
      | pauli p => rfl
      | expr e => rfl
    simp only [flEvolutionClosures, evolutionClosures, this, ih]

/-- In exact arithmetic the constructor and the circuits are those of C46. -/
theorem C101_exact (ham : PVal) (step : ℕ) (init : Option ℕ) (mixer : Option (List PVal)) (a : A) (w : World V M C B)
    (q : QaoaAnsatz) (p : List ℝ) :
    QaoaAnsatz.flNew kit isAttr .exact .exact ham step init mixer a w = QaoaAnsatz.new kit isAttr ham step init mixer a w ∧
    q.flGetCircuit kit isAttr .exact p w = q.getCircuit kit isAttr p w := by
  constructor
  · simp only [QaoaAnsatz.flNew, QaoaAnsatz.new, flExprSimplify_exact, flEvolutionClosures_exact,
      PExpr.flIsAllTermsCommutable, PExpr.isAllTermsCommutable, flIsCommutable_exact]
    rfl
  · rfl

/-- C101. If every product of floats is rounded by `fl` with relative error at most `u`, the angles are accurate to `3u`. -/
theorem C101_doubles (fl : ℝ → ℝ) (u : ℝ) (hu : 0 ≤ u) (hu1 : u ≤ 1) (hfl : RoundsTo fl u) :
    AngleAccurate (.rounded fl) (3 * u) := by
  have hpi := Real.pi_pos
  have h1 := hfl Real.pi
  rw [abs_of_pos hpi] at h1
  refine ⟨fun x y => (hfl _).trans ?_, h1.trans (by nlinarith), ?_⟩
  · exact mul_le_mul_of_nonneg_right (by linarith) (abs_nonneg _)
  · show |fl (fl Real.pi / 2) - Real.pi / 2| ≤ _
    have h2 := hfl (fl Real.pi / 2)
    have h3 : |fl Real.pi / 2| ≤ (1 + u) * (Real.pi / 2) := by
      have := abs_add_le (fl Real.pi - Real.pi) Real.pi
      rw [sub_add_cancel, abs_of_pos hpi] at this
      rw [abs_div, abs_of_pos (by norm_num : (0 : ℝ) < 2)]
      linarith
    have h4 : |fl Real.pi / 2 - Real.pi / 2| ≤ u * (Real.pi / 2) := by
      rw [← sub_div, abs_div, abs_of_pos (by norm_num : (0 : ℝ) < 2)]; linarith
    have e : fl (fl Real.pi / 2) - Real.pi / 2 = (fl (fl Real.pi / 2) - fl Real.pi / 2) + (fl Real.pi / 2 - Real.pi / 2) := by ring
    rw [e]
    refine (abs_add_le _ _).trans ?_
    have h5 := h2.trans (mul_le_mul_of_nonneg_left h3 hu)
    nlinarith [mul_nonneg hu (show 0 ≤ Real.pi / 2 by linarith), mul_nonneg (mul_nonneg hu (show 0 ≤ Real.pi / 2 by linarith)) (sub_nonneg.2 hu1)]

/-! ## Words -/

theorem flTermSimplify_ops {P : PauliOps} {δ : ℝ} (hP : PauliAccurate P δ) (hδ : 0 ≤ δ) (t : PTerm) :
    (t.flSimplify P).ops = t.simplify.ops := (flTermSimplify_near hP hδ t).1

/-! ## Sizes -/

theorem appendAll_targets (gs : List Gate) : ∀ (hs : List Gate) (c d : OpsVal) (k : ℕ), gs.map Gate.targets = hs.map Gate.targets →
    c.n = d.n → c.appendAll gs = .ok ⟨k, c.ops ++ gs⟩ → d.appendAll hs = .ok ⟨k, d.ops ++ hs⟩ := by
  induction gs with
  | nil =>
    intro hs c d k he hn h
    have : hs = [] := by simpa using he.symm
    subst this
    simp only [OpsVal.appendAll, Except.ok.injEq, List.append_nil] at h ⊢
    cases c; cases d
    simp only [OpsVal.mk.injEq, and_true] at h hn ⊢
    rw [← hn, h]
  | cons g gs ih =>
    intro hs c d k he hn h
    cases hs with
    | nil => simp at he
    | cons g' hs =>
      simp only [List.map_cons, List.cons.injEq] at he
      simp only [OpsVal.appendAll, bind, Except.bind, OpsVal.append, ← he.1] at h ⊢
      cases hv : getMaximumIndex g.targets with
      | error e => rw [hv] at h; simp at h
      | ok v =>
        rw [hv] at h
        simp only at h ⊢
        have := ih hs ⟨newQubits v c.n, c.ops ++ [g]⟩ ⟨newQubits v d.n, d.ops ++ [g']⟩ k he.2 (by simp [hn])
          (by rw [h]; simp)
        rw [this]; simp

theorem Grows.targets {gs hs : List Gate} {m : ℕ} (h : Grows gs m) (he : gs.map Gate.targets = hs.map Gate.targets) :
    Grows hs m := fun c => appendAll_targets gs hs c c _ he rfl (h c)

theorem basisGates_targets (u v : ℝ) (ops : List POp) :
    (basisGates u ops).map Gate.targets = (basisGates v ops).map Gate.targets := by
  induction ops with
  | nil => rfl
  | cons o ops ih =>
    obtain ⟨p, k⟩ := o
    cases p <;> simp [basisGates, ih, on1, Gate.targets]

theorem Grows.flEvolution (O : AngleOps) (ops : List POp) (c t : ℝ) : Grows (flEvolutionGates O ops c t) (qubitsOf ops) := by
  refine (Grows.evolution ops 0 0).targets ?_
  simp only [evolutionGates, flEvolutionGates]
  cases ops.getLast? with
  | none => rfl
  | some o =>
    simp only [List.map_append, List.map_cons, List.map_nil, on1, Gate.targets]
    rw [basisGates_targets (-(Real.pi / 2)) (-O.halfPi), basisGates_targets (Real.pi / 2) O.halfPi]

theorem flClosures_grow (O : AngleOps) (ts : List PTerm) (τ : ℝ) :
    Grows ((flClosuresOf O ts).flatMap (fun f => f τ)) (qubitsOfAll (ts.map PTerm.ops)) := by
  rw [flClosuresOf, List.flatMap_map, ← foldr_max_map]
  exact Grows.flatMap ts _ _ (fun t _ => .flEvolution _ _ _ _)

/-! ## The constructor -/

theorem flEvolutionClosures_ok (P : PauliOps) (O : AngleOps) (vs : List PVal) (fs : List (ℝ → List Gate))
    (h : flEvolutionClosures P O vs = .ok fs) :
    ∃ ts : List PTerm, vs = ts.map .term ∧ fs = flClosuresOf O (ts.map (PTerm.flSimplify P)) ∧
      ∀ t ∈ ts, (t.flSimplify P).coeff.im = 0 := by
  induction vs generalizing fs with
  | nil =>
    simp only [flEvolutionClosures, Except.ok.injEq] at h
    exact ⟨[], rfl, h.symm, by simp⟩
  | cons v vs ih =>
    simp only [flEvolutionClosures, bind, Except.bind] at h
    cases hv : v.flEvolutionClosure P O with
    | error e => rw [hv] at h; simp at h
    | ok f =>
      rw [hv] at h; simp only at h
      cases hvs : flEvolutionClosures P O vs with
      | error e => rw [hvs] at h; simp at h
      | ok gs =>
        rw [hvs] at h; simp only [Except.ok.injEq] at h
        obtain ⟨ts, rfl, rfl, h3⟩ := ih gs hvs
        cases v with
        | num x => simp [PVal.flEvolutionClosure] at hv
        | pauli p => simp [PVal.flEvolutionClosure] at hv
        | expr e => simp [PVal.flEvolutionClosure] at hv
        | term t =>
          simp only [PVal.flEvolutionClosure, PTerm.flEvolutionClosure] at hv
          split_ifs at hv with hi
          simp only [Except.ok.injEq] at hv
          refine ⟨t :: ts, rfl, by rw [← h, ← hv]; rfl, ?_⟩
          intro s hs
          rcases List.mem_cons.1 hs with rfl | hs
          · simpa using hi
          · exact h3 s hs

/-- Everything the constructor establishes. -/
structure FlNewOk (P : PauliOps) (O : AngleOps) (ham : PVal) (step : ℕ) (init : Option ℕ) (mixer : Option (List PVal))
    (w w' : World V M C B) (q : QaoaAnsatz) (ms : List PTerm) : Prop where
  wf : w'.WF
  init_lt : q.initCircuit < w'.nCircs
  hamEq : q.hamiltonian = ham.toExpr.flSimplify P
  stepEq : q.step = step
  params : q.nParams = 2 * step
  mixerEq : q.mixer = mixer
  mixTerms : mixer.getD [] = ms.map .term
  mixReal : ∀ t ∈ ms, (t.flSimplify P).coeff.im = 0
  real : ∀ t ∈ q.hamiltonian.terms, (t.flSimplify P).coeff.im = 0
  evos : q.timeEvolutions = flClosuresOf O (q.hamiltonian.terms.map (PTerm.flSimplify P))
  mixEvos : q.mixerTimeEvolutions = flClosuresOf O (ms.map (PTerm.flSimplify P))
  fresh : init = none → q.initCircuit = w.nCircs ∧ (view w' w.nCircs).n = q.hamiltonian.nQubits ∧
    (view w' w.nCircs).ops = [onAll .h]

theorem flNew_ok {P : PauliOps} {O : AngleOps} {ham : PVal} {step : ℕ} {init : Option ℕ} {mixer : Option (List PVal)} {a : A}
    {w : World V M C B} {q : QaoaAnsatz} (hw : w.WF) (hi : ∀ j ∈ init, j < w.nCircs)
    (h : (QaoaAnsatz.flNew kit isAttr P O ham step init mixer a w).2 = .ok q) :
    ∃ ms, FlNewOk P O ham step init mixer w (QaoaAnsatz.flNew kit isAttr P O ham step init mixer a w).1 q ms := by
  generalize hr : QaoaAnsatz.flNew kit isAttr P O ham step init mixer a w = r at h ⊢
  obtain ⟨w', x⟩ := r
  simp only at h ⊢
  subst h
  simp only [QaoaAnsatz.flNew] at hr
  split_ifs at hr with h1 h2
  · simp at hr
  · simp at hr
  cases hc : QaoaAnsatz.chooseInit kit isAttr (ham.toExpr.flSimplify P).nQubits init mixer w with
  | mk w1 x1 =>
    rw [hc] at hr
    cases x1 with
    | error e => simp at hr
    | ok p =>
      obtain ⟨i, n⟩ := p
      simp only at hr
      obtain ⟨f1, i1, g1, n1⟩ := chooseInit_ok kit isAttr hw hi hc
      cases hm : w1.step kit isAttr (.makeCache i none a) with
      | mk w2 x2 =>
        rw [hm] at hr
        cases x2 with
        | error e => simp at hr
        | ok y =>
          simp only at hr
          obtain ⟨f2, m1, m2⟩ := makeCache_ok kit isAttr f1.wf i1 hm
          cases he : flEvolutionClosures P O ((ham.toExpr.flSimplify P).terms.map .term) with
          | error e => rw [he] at hr; simp at hr
          | ok fs =>
            rw [he] at hr
            simp only at hr
            cases hx : flEvolutionClosures P O (mixer.getD []) with
            | error e => rw [hx] at hr; simp at hr
            | ok gs =>
              rw [hx] at hr
              simp only [Prod.mk.injEq, Except.ok.injEq] at hr
              obtain ⟨rfl, rfl⟩ := hr
              obtain ⟨ts, t1, t2, t3⟩ := flEvolutionClosures_ok P O _ _ he
              obtain ⟨ms, s1, s2, s3⟩ := flEvolutionClosures_ok P O _ _ hx
              have ht : ts = (ham.toExpr.flSimplify P).terms := by
                have hinj : Function.Injective (PVal.term) := fun a b h => by injection h
                exact ((List.map_injective_iff.2 hinj) t1).symm
              subst ht
              refine ⟨ms, ⟨f2.wf, i1.trans_le f2.le, rfl, rfl, by simp [mul_comm], rfl, s1, s3, t3, t2, s2, ?_⟩⟩
              intro hn
              obtain ⟨rfl, e2, e3, e4, e5⟩ := n1 hn
              exact ⟨rfl, by rw [m1, e3], by rw [m2, e4]⟩

/-! ## The circuit -/

theorem time_near {O : AngleOps} {ε : ℝ} (hO : AngleAccurate O ε) (hε : 0 ≤ ε) (x : ℝ) :
    |O.mul x O.pi - Real.pi * x| ≤ ((1 + ε) ^ 2 - 1) * |Real.pi * x| ∧
    |O.mul x (O.mul 2 O.pi) - 2 * Real.pi * x| ≤ ((1 + ε) ^ 3 - 1) * |2 * Real.pi * x| := by
  have hpi := Real.pi_pos
  have h1 := hO.pi
  have hp : |O.pi| ≤ (1 + ε) * Real.pi := by
    refine abs_le_of_near (y := Real.pi) (by rw [add_sub_cancel_left]; exact h1) (by rw [abs_of_pos hpi])
  have h2 := hO.mul 2 O.pi
  set d := O.mul 2 O.pi with hd
  have hd1 : |d - 2 * Real.pi| ≤ ((1 + ε) ^ 2 - 1) * (2 * Real.pi) := by
    have e : d - 2 * Real.pi = (d - 2 * O.pi) + 2 * (O.pi - Real.pi) := by ring
    rw [e]
    refine (abs_add_le _ _).trans ?_
    rw [abs_mul, abs_of_pos (by norm_num : (0 : ℝ) < 2)] at h2 ⊢
    nlinarith [mul_le_mul_of_nonneg_left hp hε]
  have hd2 : |d| ≤ (1 + ε) ^ 2 * (2 * Real.pi) := abs_le_of_near hd1 (by rw [abs_of_pos (by positivity)])
  have gen : ∀ (y c : ℝ) (k : ℕ), 0 < c → |y - c| ≤ ((1 + ε) ^ k - 1) * c →
      |O.mul x y - c * x| ≤ ((1 + ε) ^ (k + 1) - 1) * |c * x| := by
    intro y c k hc hy
    have hy2 : |y| ≤ (1 + ε) ^ k * c := abs_le_of_near hy (by rw [abs_of_pos hc])
    have h3 := hO.mul x y
    have e : O.mul x y - c * x = (O.mul x y - x * y) + x * (y - c) := by ring
    rw [e]
    refine (abs_add_le _ _).trans ?_
    rw [abs_mul] at h3
    rw [abs_mul x (y - c), abs_mul c x, abs_of_pos hc]
    have h4 := h3.trans (mul_le_mul_of_nonneg_left (mul_le_mul_of_nonneg_left hy2 (abs_nonneg x)) hε)
    have h5 := mul_le_mul_of_nonneg_left hy (abs_nonneg x)
    refine (add_le_add h4 h5).trans (le_of_eq ?_)
    ring
  refine ⟨gen O.pi Real.pi 1 hpi (by rw [pow_one, add_sub_cancel_left]; exact h1), ?_⟩
  exact gen d (2 * Real.pi) 2 (by positivity) hd1

/-- The gates of one step with exact angles. -/
def exactStep (ts ms : List PTerm) (mixer : Option (List PVal)) (p : ℝ × ℝ) : List Gate :=
  (closuresOf ts).flatMap (fun f => f (2 * Real.pi * p.2)) ++
    match mixer with
    | none => [onAll (.rx (Real.pi * p.1))]
    | some _ => (closuresOf ms).flatMap (fun f => f (Real.pi * p.1))

/-- C101. `get_circuit` in floating point, for every Hamiltonian, initial circuit and mixer the constructor accepts, on any
state reachable after it: it returns a new circuit and changes no existing one. The new circuit is the initial one followed
by unitary gates which differ, in the operator norm and up to a global phase, by at most `qaoaShift` from the alternating
operator of the terms of the Hamiltonian and of the mixer as the machine has simplified them (`signedOp`: terms with an odd
number of `Y` evolve with the wrong sign, see C46). The number of passes and a bound on the angles are those that the errors of
the simulator depend on. -/
theorem C101_circuit (P : PauliOps) (δ : ℝ) (hP : PauliAccurate P δ) (hδ : 0 ≤ δ) (O : AngleOps) (ε : ℝ) (hO : AngleAccurate O ε)
    (hε : 0 ≤ ε) (b : B) (reg : Registry V M C) (h h' : List (Cmd V M C A)) (ham : PVal) (step : ℕ)
    (init : Option ℕ) (mixer : Option (List PVal)) (a : A) (q : QaoaAnsatz) (params : List ℝ) (Θ : ℝ) :
    let w0 := (World.start b reg).exec kit isAttr h
    let r := QaoaAnsatz.flNew kit isAttr P O ham step init mixer a w0
    let w := r.1.exec kit isAttr h'
    let c := q.flGetCircuit kit isAttr O params w
    let i := q.initCircuit
    let steps := (params.take step).zip (params.drop step)
    let ts := q.hamiltonian.terms.map (PTerm.flSimplify P)
    (∀ i ∈ init, i < w0.nCircs) → r.2 = .ok q →
      c.2 = .ok w.nCircs ∧ (∀ j < w.nCircs, view c.1 j = view w j) ∧
      ∃ (ms : List PTerm) (n : ℕ) (gs : List Gate) (cost mix : ℝ → Operator),
        mixer.getD [] = ms.map .term ∧
        n = (if steps = [] then (view w i).n else
          max (view w i).n (max (qubitsOfAll (ts.map PTerm.ops)) (qubitsOfAll (ms.map (fun t => (t.flSimplify P).ops))))) ∧
        view c.1 w.nCircs = ⟨(view w i).ops ++ gs, n, (view w i).dflt, (view w i).bes⟩ ∧
        IsProductEvolution (ts.map signedOp) cost ∧
        IsProductEvolution (if mixer = none then xMixer n else ms.map (fun t => signedOp (t.flSimplify P))) mix ∧
        let mx := if mixer = none then none else some (ms.map (PTerm.flSimplify P))
        (AnglesWithin ε Θ ts mx steps → ∃ es, GatesDenote n gs es ∧
          (∀ e ∈ es, e.Valid n ∧ e.IsUnitary ∧ ∀ x ∈ e.angles, |x| ≤ Θ) ∧ passes es = steps.length * stepPasses n ts mx ∧
          ∃ z : ℂ, ‖z‖ = 1 ∧ ∀ ψ : Vec,
            Real.sqrt (normSqN n (fun i => unitaries phDoc es ψ i - z * qaoaOp cost mix steps ψ i)) ≤
              qaoaShift ε n ts mx steps * Real.sqrt (normSqN n ψ)) := by
  intro w0 r w c i steps ts hi hok
  obtain ⟨ms, hn⟩ := flNew_ok kit isAttr (WF_exec kit isAttr (WF_start b reg) h) hi hok
  have hnw : ∀ t ∈ ts, NormalWord t.ops := by
    intro t ht
    obtain ⟨s, hs, rfl⟩ := List.mem_map.1 ht
    rw [flTermSimplify_ops hP hδ]
    exact simplify_normal s
  have hnm : ∀ t ∈ ms.map (PTerm.flSimplify P), NormalWord t.ops := by
    intro t ht
    obtain ⟨s, hs, rfl⟩ := List.mem_map.1 ht
    rw [flTermSimplify_ops hP hδ]
    exact simplify_normal s
  have hreal : ∀ t ∈ ts, t.coeff.im = 0 := by
    intro t ht
    obtain ⟨s, hs, rfl⟩ := List.mem_map.1 ht
    exact hn.real s hs
  have hw : w.WF := WF_exec kit isAttr hn.wf h'
  have hiw : i < w.nCircs := hn.init_lt.trans_le (WF_frame_exec kit isAttr hn.wf h')
  clear_value w
  set gs := steps.flatMap (fun p => q.flStepGates O p.1 p.2) with hgs
  set m := max (qubitsOfAll (ts.map PTerm.ops)) (qubitsOfAll (ms.map (fun t => (t.flSimplify P).ops))) with hm
  have hmm : (ms.map (PTerm.flSimplify P)).map PTerm.ops = ms.map (fun t => (t.flSimplify P).ops) := by rw [List.map_map]; rfl
  have hms : q.mixer = none → ms = [] := by
    intro h0
    have := hn.mixTerms
    rw [← hn.mixerEq, h0] at this
    simpa using this.symm
  have hgrow : Grows gs (if steps = [] then 0 else m) := by
    rw [← foldr_const_max]
    refine Grows.flatMap steps _ _ (fun p _ => ?_)
    simp only [QaoaAnsatz.flStepGates, hn.evos, hn.mixEvos]
    refine (flClosures_grow _ _ _).append ?_
    cases hq : q.mixer with
    | none => rw [hms hq]; exact Grows.onAll _
    | some _ => simp only; rw [← hmm]; exact flClosures_grow _ _ _
  -- the copy
  have hcopy := frame_step kit isAttr hw (.copy i true true)
  have hstep : w.step kit isAttr (.copy i true true) = (w.copyCirc i true true, .ok (.circuit w.nCircs)) := by
    simp only [World.step, World.onCirc, hiw, if_true]
  have hview : view (w.copyCirc i true true) w.nCircs = view w i := by
    unfold World.copyCirc
    rw [view_allocCopy hw i hiw]
    rfl
  rw [hstep] at hcopy
  have hlt : w.nCircs < (w.copyCirc i true true).nCircs := by simp [copyCirc_nCircs]
  have hstat := statements_ok kit isAttr gs (w.copyCirc i true true) w.nCircs hcopy.wf hlt _ (hgrow _)
  have hc : c = ((World.statements kit isAttr w.nCircs gs (w.copyCirc i true true)).1, .ok w.nCircs) := by
    show QaoaAnsatz.flGetCircuit kit isAttr O q params w = _
    simp only [QaoaAnsatz.flGetCircuit]
    rw [hstep]
    simp only [hn.stepEq]
    have h1 := hstat.1
    rw [hgs] at h1 ⊢
    generalize World.statements kit isAttr w.nCircs _ (w.copyCirc i true true) = x at h1 ⊢
    obtain ⟨x1, x2⟩ := x
    simp only at h1
    subst h1
    rfl
  rw [hview] at hstat
  set n := if steps = [] then (view w i).n else max (view w i).n m with hnn
  set mixOp : ℝ → Operator := if mixer = none then fun t => inOrder ((List.range n).map
      (fun q => expI (-(1 / 2) * t) (matAt mX q))) else evoOf (ms.map (PTerm.flSimplify P)) with hmix
  refine ⟨by rw [hc], fun j hj => ?_, ms, n, gs, evoOf ts, mixOp, hn.mixTerms, rfl, ?_, evoOf_product _ hnw hreal, ?_, ?_⟩
  · rw [hc]
    exact (hstat.2.1.same j (hj.trans_le hcopy.le) (by simp; omega)).trans (hcopy.same j hj (by simp [receiver]))
  · rw [hc, hstat.2.2, hnn]
    congr 1
    split_ifs <;> simp
  · rw [hmix]
    by_cases h0 : mixer = none
    · simp only [h0, if_true]; exact xMixer_product _
    · simp only [h0, if_false]
      have := evoOf_product (ms.map (PTerm.flSimplify P)) hnm (by
        simp only [List.mem_map]; rintro _ ⟨t, ht, rfl⟩; exact hn.mixReal t ht)
      rwa [List.map_map] at this
  · intro mx hang
    -- the exact gates
    set gsx := steps.flatMap (exactStep ts (ms.map (PTerm.flSimplify P)) mixer) with hgsx
    have hact : ActsUpTo n gsx (qaoaOp (evoOf ts) mixOp steps) := by
      refine ActsUpTo.flatMap steps _ _ (fun p hp => ?_)
      have hne : steps ≠ [] := by rintro h0; rw [h0] at hp; simp at hp
      rw [if_neg hne] at hnn
      refine (closures_upTo _ _ hnw (by omega)).append ?_
      rw [hmix]
      clear_value mixOp
      clear hgs hmix mx hang hgsx gsx hstat hgrow hc hi hok c r
      cases hq : mixer with
      | none => simp only [if_true]; exact actsAs_rxAll _ _
      | some _ =>
        simp only [reduceCtorEq, if_false]
        exact closures_upTo _ _ hnm (by rw [hmm]; omega)
    have hsh : Shift n (qaoaShift ε n ts mx steps) Θ (steps.length * stepPasses n ts mx) gsx gs := by
      have := Shift.flatMap (n := n) (Θ := Θ) steps (exactStep ts (ms.map (PTerm.flSimplify P)) mixer)
        (fun p => q.flStepGates O p.1 p.2) (stepShift ε n ts mx) (fun _ => stepPasses n ts mx) (fun p hp => ?_)
      · rw [List.map_const', List.sum_replicate, smul_eq_mul] at this
        exact this
      · have hne : steps ≠ [] := by rintro h0; rw [h0] at hp; simp at hp
        rw [if_neg hne] at hnn
        have hb := time_near hO hε p.1
        have hg := time_near hO hε p.2
        have hcost := shift_closures (n := n) (Θ := Θ) hO hε ts hnw (by omega) (2 * Real.pi * p.2)
          (O.mul p.2 (O.mul 2 O.pi)) 3 hg.2 hang.basis (hang.cost p hp)
        simp only [QaoaAnsatz.flStepGates, hn.evos, hn.mixEvos, hn.mixerEq]
        refine hcost.append ?_
        cases hq : mixer with
        | none =>
          have hmx : mx = none := by simp only [mx, hq, if_true]
          rw [hmx]
          simp only
          refine (Shift.rxAll n (Θ := Θ) (Real.pi * p.1) (O.mul p.1 O.pi)
            ((abs_le_of_near hb.1 le_rfl).trans (hang.rot p hp hmx))).mono ?_
          exact mul_le_mul_of_nonneg_left (div_le_div_of_nonneg_right hb.1 (by norm_num)) (by positivity)
        | some _ =>
          have hmx : mx = some (ms.map (PTerm.flSimplify P)) := by simp [mx, hq]
          rw [hmx]
          simp only
          exact shift_closures hO hε _ hnm (by rw [hmm]; omega) (Real.pi * p.1) (O.mul p.1 O.pi) 2 hb.1 hang.basis
            (hang.mix p hp _ hmx)
    obtain ⟨es, es', d1, d2, v1, v2, np, hgap⟩ := hsh
    obtain ⟨z, hz, fs, d3, -, hu⟩ := hact
    obtain rfl := gatesDenote_unique d1 d3
    refine ⟨es', d2, v2, np, z, hz, fun ψ => ?_⟩
    have := hgap ψ
    rw [hu] at this
    exact this

/-! ## The objective function -/

theorem expectation_near (H : PExpr) (n : ℕ) (hq : ∀ t ∈ H.terms, ∀ o ∈ t.ops, o.n < n) (φ χ : Vec) (η : ℝ)
    (hχ : normSqN n χ = 1) (hη : Real.sqrt (normSqN n (fun i => χ i - φ i)) ≤ η) :
    |(expectation n (exprOp H) χ).re - (expectation n (exprOp H) φ).re| ≤ coeffTotal H.terms * ((1 + η) ^ 2 - 1) := by
  have h1 : √(∑ i ∈ Finset.range (2 ^ n), ‖φ i - χ i‖ ^ 2) ≤ η := by
    refine le_trans (le_of_eq ?_) hη
    rw [normSqN]
    congr 1
    exact Finset.sum_congr rfl fun i _ => by rw [norm_sub_rev]
  obtain ⟨g, -⟩ := form_near H n hq φ χ η hχ h1
  rw [← Complex.sub_re]
  refine (Complex.abs_re_le_norm _).trans ?_
  rw [norm_sub_rev]
  exact g

/-- C101. The objective function of a default `QaoaAnsatz` in floating point, end to end: for all parameters it computes the
mean energy, in the state that the alternating operator of the (machine-simplified) Hamiltonian `H` makes from the uniform
superposition, up to `sparseErr` (simulation and matrix) and the effect of the rounded angles, and uses no random numbers.
The products with 1 in `simplify` are assumed exact on the coefficients of `H` (`C101_unit`); terms with an odd number of `Y`
are excluded, see C46. `H` is the given Hamiltonian up to the errors of `C98_simplify`. -/
theorem C101_objective (P : PauliOps) (δ ν : ℝ) (hP : PauliAccurate P δ) (hδ : 0 ≤ δ) (hν : 0 ≤ ν) (O : AngleOps) (ε : ℝ)
    (hO : AngleAccurate O ε) (hε : 0 ≤ ε) (b : B) (reg : Registry V M C) (h : List (Cmd V M C A)) (ham : PVal) (step : ℕ) (a : A)
    (q : QaoaAnsatz) (params : List ℝ) (run : StateRunner) (Θ κ : ℝ) (L : ℕ) (jv : ℕ → ℂ) (ji : ℕ → ℕ) (m : PyMatrix)
    (rnd : ℕ → ℝ) (hr : InUnit rnd) :
    let r := QaoaAnsatz.flNew kit isAttr P O ham step none none a ((World.start b reg).exec kit isAttr h)
    let H := q.hamiltonian
    let n := H.nQubits
    let steps := (params.take step).zip (params.drop step)
    r.2 = .ok q → (∀ t ∈ H.terms, t.flSimplify P = t) → (∀ t ∈ H.terms, Even (yCount t.ops)) → (∀ t ∈ H.terms, t.ops.length ≤ L) →
    DotAccurate P n ν → RunsNear run n Θ κ → AnglesWithin ε Θ H.terms none steps → flMakeSparse P jv ji H = .ok m →
    H = ham.toExpr.flSimplify P ∧
    ∃ (cost mix : ℝ → Operator) (x : ℝ),
      IsProductEvolution (H.terms.map termOp) cost ∧ IsProductEvolution (xMixer n) mix ∧
      q.flObjective kit isAttr P O run m r.1 params rnd = .ok (x, rnd) ∧
      |x - (expectation n (exprOp H) (qaoaOp cost mix steps (plusState n))).re| ≤
        sparseErr δ ν κ n (n + steps.length * stepPasses n H.terms none) L H +
          coeffTotal H.terms * ((1 + qaoaShift ε n H.terms none steps) ^ 2 - 1) := by
  intro r H n steps hq hone hy hL hD hR hang hm
  obtain ⟨ms', hn⟩ := flNew_ok kit isAttr (WF_exec kit isAttr (WF_start b reg) h) (by simp) hq
  obtain ⟨hi, hvn, hvo⟩ := hn.fresh rfl
  refine ⟨hn.hamEq, ?_⟩
  have hts : q.hamiltonian.terms.map (PTerm.flSimplify P) = q.hamiltonian.terms := by
    conv_rhs => rw [← List.map_id q.hamiltonian.terms]
    exact List.map_congr_left hone
  obtain ⟨k1, -, ms, n', gs, cost, mix, m1, m2, m3, m4, m5, m6⟩ := C101_circuit kit isAttr P δ hP hδ O ε hO hε b reg h [] ham step
    none none a q params Θ (by simp) hq
  have hms : ms = [] := by simpa using m1.symm
  subst hms
  have hexec : ∀ w : World V M C B, w.exec kit isAttr [] = w := fun _ => rfl
  simp only [hexec, hts, if_true] at k1 m2 m3 m4 m5 m6
  rw [hi] at m2 m3
  have hn' : n' = n := by
    rw [m2, hvn]
    split_ifs
    · rfl
    · have := qubitsOfAll_le (e := q.hamiltonian)
      have h0 : qubitsOfAll (([] : List PTerm).map (fun t => (t.flSimplify P).ops)) = 0 := rfl
      rw [h0]
      show _ = q.hamiltonian.nQubits; omega
  subst hn'
  obtain ⟨es, hd, hv, hp, z, hz, hgap⟩ := m6 hang
  have hd0 : GatesDenote n [.g1 .h (.one (.slice none none none))] ((List.range n).map (.one .h)) :=
    ⟨_, [], ⟨List.range n, sliceAll_denotes _, rfl⟩, rfl, by simp⟩
  have hdall := gatesDenote_append hd0 hd
  have hvall : ∀ e ∈ (List.range n).map (Elem.one .h) ++ es, e.Valid n ∧ e.IsUnitary ∧ ∀ x ∈ e.angles, |x| ≤ Θ := by
    intro e he
    rcases List.mem_append.1 he with he | he
    · obtain ⟨k, hk, rfl⟩ := List.mem_map.1 he
      exact ⟨by simpa [Elem.Valid] using hk, trivial, by simp [Elem.angles]⟩
    · exact hv e he
  have hpass : passes ((List.range n).map (Elem.one .h) ++ es) = n + steps.length * stepPasses n H.terms none := by
    rw [passes_app, hp]
    congr 1
    simp [passes, Elem.passes, Function.comp_def]
  rcases C98_energy P δ ν hP hδ hν run n hD Θ κ hR jv ji H L hL _ _ hdall (fun e he => (hvall e he).1)
    (fun e he => (hvall e he).2.1) (fun e he => (hvall e he).2.2) rnd hr with ⟨M', f1, f2, -⟩ | ⟨f1, -⟩
  swap
  · rw [f1] at hm; cases hm
  rw [f1] at hm
  obtain rfl : M' = m := by injection hm
  obtain ⟨x, x1, x2⟩ := f2 rfl
  have hsig : q.hamiltonian.terms.map signedOp = q.hamiltonian.terms.map termOp :=
    List.map_congr_left (fun t ht => by rw [signedOp, (hy t ht).neg_one_pow, one_smul])
  rw [hsig] at m4
  refine ⟨cost, mix, x, m4, m5, ?_, ?_⟩
  · rw [← x1]
    simp only [QaoaAnsatz.flObjective]
    generalize QaoaAnsatz.flGetCircuit kit isAttr O q params r.1 = y at k1 m3
    obtain ⟨y1, y2⟩ := y
    simp only at k1
    subst k1
    have f3 := congrArg CircView.n m3
    have f4 := congrArg CircView.ops m3
    rw [hvo] at f4
    simp only [view] at f3 f4
    simp only [f3, f4]
    rfl
  · rw [hpass, show (fun j : ℕ => if j = 0 then (1 : ℂ) else 0) = zeroState from rfl, unitaries_append, unitaries_h_all] at x2
    have hχ : normSqN n (unitaries phDoc es (plusState n)) = 1 := by
      rw [← unitaries_h_all phDoc n, ← unitaries_append, unitaries_normSq _ (fun e he => (hvall e he).1)]
      exact zeroState_norm n
    have hplus : normSqN n (plusState n) = 1 := by
      rw [← unitaries_h_all phDoc n, unitaries_normSq _ (fun e he => (hvall e (List.mem_append_left _ he)).1)]
      exact zeroState_norm n
    have hg := hgap (plusState n)
    rw [hplus, Real.sqrt_one, mul_one] at hg
    have := expectation_near H n (expr_nQubits H) (z • qaoaOp cost mix steps (plusState n)) _ _ hχ hg
    rw [expectation_phase n _ z hz] at this
    have e : x - (expectation n (exprOp H) (qaoaOp cost mix steps (plusState n))).re =
        (x - (expectation n (exprOp H) (unitaries phDoc es (plusState n))).re) +
        ((expectation n (exprOp H) (unitaries phDoc es (plusState n))).re -
          (expectation n (exprOp H) (qaoaOp cost mix steps (plusState n))).re) := by ring
    rw [e]
    exact (abs_add_le _ _).trans (add_le_add x2 this)

/-! ## Diagonal Hamiltonians -/

theorem cost_of_Z (ts : List PTerm) (hz : ∀ t ∈ ts, ∀ o ∈ t.ops, o.p = .Z) (hr : ∀ t ∈ ts, t.coeff.im = 0) :
    ts.map termOp = (ts.map (fun s k => s.coeff.re * zword s.ops k)).map costOp := by
  rw [List.map_map]
  refine List.map_congr_left fun s hs => ?_
  rw [termOp_Z s (hz s hs)]
  show _ = costOp (fun k => s.coeff.re * zword s.ops k)
  rw [costOp]
  congr 1; funext k
  have : s.coeff = (s.coeff.re : ℂ) := Complex.ext rfl (by simpa using hr s hs)
  rw [Complex.ofReal_mul, ← this]

theorem costOp_sum (ds : List (ℕ → ℝ)) : (ds.map costOp).sum = costOp (fun k => (ds.map (fun d => d k)).sum) := by
  induction ds with
  | nil =>
    refine LinearMap.ext fun ψ => ?_
    funext k
    simp [costOp, diagOp]
  | cons d ds ih =>
    rw [List.map_cons, List.sum_cons, ih]
    refine LinearMap.ext fun ψ => ?_
    funext k
    simp [costOp, diagOp]
    ring

theorem costOp_inj {d e : ℕ → ℝ} (h : costOp d = costOp e) : d = e := by
  funext k
  have := congrFun (congrArg (fun A : Operator => A (basis k)) h) k
  simpa [costOp, diagOp, basis] using this

/-- C101 for Hamiltonians made of `Z`: the objective function computes the mean of the cost function in the QAOA state. -/
theorem C101_diagonal (P : PauliOps) (δ ν : ℝ) (hP : PauliAccurate P δ) (hδ : 0 ≤ δ) (hν : 0 ≤ ν) (O : AngleOps) (ε : ℝ)
    (hO : AngleAccurate O ε) (hε : 0 ≤ ε) (b : B) (reg : Registry V M C) (h : List (Cmd V M C A)) (ham : PVal) (step : ℕ) (a : A)
    (q : QaoaAnsatz) (params : List ℝ) (run : StateRunner) (Θ κ : ℝ) (L : ℕ) (jv : ℕ → ℂ) (ji : ℕ → ℕ) (m : PyMatrix)
    (rnd : ℕ → ℝ) (hr : InUnit rnd) (d : ℕ → ℝ) :
    let r := QaoaAnsatz.flNew kit isAttr P O ham step none none a ((World.start b reg).exec kit isAttr h)
    let H := q.hamiltonian
    let n := H.nQubits
    let steps := (params.take step).zip (params.drop step)
    r.2 = .ok q → (∀ t ∈ H.terms, t.flSimplify P = t) → (∀ t ∈ H.terms, ∀ o ∈ t.ops, o.p = .Z) → exprOp H = costOp d →
    (∀ t ∈ H.terms, t.ops.length ≤ L) →
    DotAccurate P n ν → RunsNear run n Θ κ → AnglesWithin ε Θ H.terms none steps → flMakeSparse P jv ji H = .ok m →
    ∃ x : ℝ, q.flObjective kit isAttr P O run m r.1 params rnd = .ok (x, rnd) ∧
      |x - meanCost n d (qaoaState n step d params)| ≤
        sparseErr δ ν κ n (n + steps.length * stepPasses n H.terms none) L H +
          coeffTotal H.terms * ((1 + qaoaShift ε n H.terms none steps) ^ 2 - 1) := by
  intro r H n steps hq hone hz hd hL hD hR hang hm
  obtain ⟨ms', hn⟩ := flNew_ok kit isAttr (WF_exec kit isAttr (WF_start b reg) h) (by simp) hq
  have hy : ∀ t ∈ q.hamiltonian.terms, Even (yCount t.ops) := by
    intro t ht
    have : yCount t.ops = 0 := by
      rw [yCount, List.length_eq_zero_iff, List.filter_eq_nil_iff]
      intro o ho
      simp [hz t ht o ho]
    rw [this]; exact Even.zero
  have hreal : ∀ t ∈ q.hamiltonian.terms, t.coeff.im = 0 := by
    intro t ht
    have := hn.real t ht
    rwa [hone t ht] at this
  obtain ⟨-, cost, mix, x, c1, c2, c3, c4⟩ := C101_objective kit isAttr P δ ν hP hδ hν O ε hO hε b reg h ham step a q params run Θ κ
    L jv ji m rnd hr hq hone hy hL hD hR hang hm
  refine ⟨x, c3, ?_⟩
  have hsum := cost_of_Z _ hz hreal
  have hdd : d = fun k => ((q.hamiltonian.terms.map (fun s k => s.coeff.re * zword s.ops k)).map (fun d => d k)).sum := by
    apply costOp_inj
    rw [← costOp_sum, ← hsum, ← hd]; rfl
  have e1 : ∀ t, cost t = costPhases d t := by
    intro t
    obtain ⟨Us, u1, u2⟩ := c1
    rw [u2, evolutions_cost _ _ Us hsum u1, ← hdd]
  rw [qaoaState, ← expectation_cost, ← hd, ← qaoaOp_congr e1 (mixer_unique n mix c2)]
  exact c4

/-! ## Stored coefficients -/

theorem filter_normal (ops : List POp) (hn : NormalWord ops) (o : POp) (hmem : o ∈ ops) :
    ops.filter (fun x => x.n = o.n) = [o] := by
  induction ops with
  | nil => simp at hmem
  | cons x ops ih =>
    have hx := List.pairwise_cons.1 hn
    rcases List.mem_cons.1 hmem with rfl | hm
    · rw [List.filter_cons, if_pos (by simp)]
      congr 1
      rw [List.filter_eq_nil_iff]
      intro y hy; have := hx.1 y hy; simp; omega
    · have := hx.1 o hm
      rw [List.filter_cons, if_neg (by simp; omega)]
      exact ih hx.2 hm

theorem flSimplifyLoop_normal (P : PauliOps) (ops : List POp) (hn : NormalWord ops) (c : ℂ) (hc : P.mul c 1 = c) :
    ∀ (l acc : List POp), (∀ o ∈ l, o ∈ ops) →
      flSimplifyLoop P (simplifyBefore ops) (l.map POp.n) (c, acc) = (c, acc ++ l)
  | [], acc, _ => by simp [flSimplifyLoop]
  | o :: l, acc, h => by
    rw [List.map_cons, flSimplifyLoop, simplifyBefore_get, filter_normal ops hn o (h o (by simp))]
    simp only [List.map_cons, List.map_nil, flSimplifyQubit, List.foldl_nil, hc, castReal_eq]
    rw [flSimplifyLoop_normal P ops hn c hc l _ (fun x hx => h x (List.mem_cons_of_mem _ hx))]
    simp

theorem flSimplify_of_normal (P : PauliOps) (t : PTerm) (h : NormalWord t.ops) (hc : P.mul t.coeff 1 = t.coeff) :
    t.flSimplify P = t := by
  have hb : simplifyBefore t.ops = t.ops.map (fun o => (o.n, [o.p])) := by
    rw [simplifyBefore, before_of_normal t.ops [] h (by simp)]; simp
  have hs : pySorted ((simplifyBefore t.ops).map Prod.fst) = t.ops.map POp.n := by
    rw [hb, List.map_map]
    have : (t.ops.map (Prod.fst ∘ fun o : POp => (o.n, [o.p]))) = t.ops.map POp.n := rfl
    rw [this, pySorted]
    apply List.mergeSort_of_pairwise
    rw [List.pairwise_map]
    exact h.imp (fun h => by simp; omega)
  rw [PTerm.flSimplify, hs, flSimplifyLoop_normal P t.ops h t.coeff hc t.ops [] (fun _ h => h)]; rfl

/-- C101. Numbers that a machine has stored are not changed by a product with 1, so `simplify` does not change the terms of a
simplified expression again: what the theorems above assume of the coefficients. -/
theorem C101_unit (fl : ℝ → ℝ) (u : ℝ) (hu : 0 ≤ u) (hu4 : u ≤ 1 / 4) (hfl : RoundsTo fl u) (hid : ∀ x, fl (fl x) = fl x)
    (e : PExpr) : ∀ t ∈ (e.flSimplify (.rounded fl)).terms, t.flSimplify (.rounded fl) = t := by
  have h0 : fl 0 = 0 := by
    have := hfl 0
    simpa using this
  intro t ht
  have hn := (C98_simplify (.rounded fl) (4 * u) (C98_doubles fl u hu hu4 hfl 0).1 (by linarith) e
    ((e.terms.map (fun t => t.ops.length)).sum) (fun t ht => List.single_le_sum (by simp) _ (List.mem_map_of_mem ht))).1 t ht
  refine flSimplify_of_normal _ t hn ?_
  have hd : ∀ (ts : List PTerm) (d : PyDict (List POp) ℂ), (∀ w, fl (coef d w).re = (coef d w).re ∧ fl (coef d w).im = (coef d w).im) →
      ∀ w, fl (coef (ts.foldl (flDictAdd (.rounded fl)) d) w).re = (coef (ts.foldl (flDictAdd (.rounded fl)) d) w).re ∧
        fl (coef (ts.foldl (flDictAdd (.rounded fl)) d) w).im = (coef (ts.foldl (flDictAdd (.rounded fl)) d) w).im := by
    intro ts
    induction ts with
    | nil => intro d h w; exact h w
    | cons t ts ih =>
      intro d h w
      rw [List.foldl_cons]
      refine ih _ (fun v => ?_) w
      simp only [coef, flDictAdd, PyDict.get_set]
      split_ifs
      · exact ⟨hid _, hid _⟩
      · exact h v
  rw [flSimplify_terms] at ht
  obtain ⟨k, -, rfl⟩ := List.mem_map.1 ht
  obtain ⟨h1, h2⟩ := hd (e.terms.map (PTerm.flSimplify (.rounded fl))) [] (by simp [coef, PyDict.get, h0]) k
  change fl (coef (e.flSimplifyDict (.rounded fl)) k).re = (coef (e.flSimplifyDict (.rounded fl)) k).re at h1
  change fl (coef (e.flSimplifyDict (.rounded fl)) k).im = (coef (e.flSimplifyDict (.rounded fl)) k).im at h2
  show (PauliOps.rounded fl).mul (coef (e.flSimplifyDict (.rounded fl)) k) 1 = coef (e.flSimplifyDict (.rounded fl)) k
  generalize coef (e.flSimplifyDict (.rounded fl)) k = z at h1 h2
  refine Complex.ext ?_ ?_
  · simp [PauliOps.rounded, FloatOps.rounded, h0, h1]
  · simp [PauliOps.rounded, FloatOps.rounded, h0, h2]

/-! ## Example: two qubits -/

theorem flSimplify_unit (fl : ℝ → ℝ) (h0 : fl 0 = 0) (h1 : fl 1 = 1) (w : List POp) (hw : NormalWord w) :
    (PVal.toExpr (.term ⟨w, 1⟩)).flSimplify (.rounded fl) = ⟨[⟨w, 1⟩]⟩ := by
  have hm : (PauliOps.rounded fl).mul 1 1 = 1 := by
    refine Complex.ext ?_ ?_ <;> simp [PauliOps.rounded, FloatOps.rounded, h0, h1]
  have ha : (PauliOps.rounded fl).add 0 1 = 1 := by
    refine Complex.ext ?_ ?_ <;> simp [PauliOps.rounded, FloatOps.rounded, h0, h1]
  have e1 : PVal.toExpr (.term ⟨w, 1⟩) = ⟨[⟨w, 1⟩]⟩ := by
    simp [PVal.toExpr, PExpr.fromTerm]
  have e2 : (⟨[⟨w, 1⟩]⟩ : PExpr).flSimplifyDict (.rounded fl) = [(w, 1)] := by
    simp [PExpr.flSimplifyDict, flSimplify_of_normal (.rounded fl) ⟨w, 1⟩ hw hm, flDictAdd, PyDict.get, PyDict.set, ha]
  have e3 := flSimplify_terms (.rounded fl) ⟨[⟨w, 1⟩]⟩
  rw [e2] at e3
  rw [e1]
  cases hh : (⟨[⟨w, 1⟩]⟩ : PExpr).flSimplify (.rounded fl)
  rw [hh] at e3
  simp [sortByRepr, coef, PyDict.get] at e3
  rw [e3]

theorem flNew_demo (fl : ℝ → ℝ) (h0 : fl 0 = 0) (h1 : fl 1 = 1) (w : List POp) (hw : NormalWord w) (step : ℕ) :
    ∃ q : QaoaAnsatz, (QaoaAnsatz.flNew demoKit (fun _ => false) (.rounded fl) (.rounded fl) (.term ⟨w, 1⟩) step none none ()
      demoStart).2 = .ok q ∧ q.hamiltonian = ⟨[⟨w, 1⟩]⟩ := by
  have hm : (PauliOps.rounded fl).mul 1 1 = 1 := by
    refine Complex.ext ?_ ?_ <;> simp [PauliOps.rounded, FloatOps.rounded, h0, h1]
  refine ⟨⟨⟨[⟨w, 1⟩]⟩, step * 2, (⟨[⟨w, 1⟩]⟩ : PExpr).nQubits, step, 0, none, [flEvolutionGates (.rounded fl) w 1], []⟩, ?_, rfl⟩
  simp [QaoaAnsatz.flNew, PVal.hasMaxN, flSimplify_unit fl h0 h1 w hw, PExpr.flIsAllTermsCommutable, combinations2,
    QaoaAnsatz.chooseInit, World.step,
    World.onCirc, World.alloc, demoStart, World.start, onAll, Gate.targets, getMaximumIndex, maximumIdxSingle,
    World.getBackend, World.dfltName, demoReg, demoKit, PyDict.get, PyDict.set, flEvolutionClosures, PVal.flEvolutionClosure,
    PTerm.flEvolutionClosure, flSimplify_of_normal (.rounded fl) ⟨w, 1⟩ hw hm, bind, Except.bind, Except.map, Function.update]

theorem rxLayer_two (t : ℝ) (χ : Vec) (k : ℕ) : rxLayer 2 t χ k =
    (Real.cos (t / 2) : ℂ) ^ 2 * χ k - Complex.I * Real.cos (t / 2) * Real.sin (t / 2) * (χ (flipBit 0 k) + χ (flipBit 1 k)) -
      (Real.sin (t / 2) : ℂ) ^ 2 * χ (flipBit 0 (flipBit 1 k)) := by
  have hX : ∀ (q : ℕ) (ψ : Vec) (k : ℕ), matAt mX q ψ k = ψ (flipBit q k) := by
    intro q ψ k
    rw [matAt_apply]
    simp [app, mX]
  simp only [rxLayer, List.range, List.range.loop, List.map_cons, List.map_nil, inOrder, one_mul, Module.End.mul_apply, expI_apply,
    hX, Pi.add_apply, Pi.smul_apply, smul_eq_mul, Real.cos_neg, Real.sin_neg]
  push_cast
  linear_combination ((Complex.sin (↑t / 2)) ^ 2 * χ (flipBit 0 (flipBit 1 k))) * Complex.I_mul_I

/-- One step of QAOA for `Z[0]*Z[1]` with `β = 1/4` and `γ = 1/8` reaches the least energy. -/
theorem zz_mean : meanCost 2 (zword [⟨.Z, 0⟩, ⟨.Z, 1⟩]) (qaoaState 2 1 (zword [⟨.Z, 0⟩, ⟨.Z, 1⟩]) [1 / 4, 1 / 8]) = -1 := by
  have hd : ∀ k, zword [⟨.Z, 0⟩, ⟨.Z, 1⟩] k = zsign k 0 * zsign k 1 := by intro k; simp [zword]
  have hs : √((2 : ℝ) ^ 2) = 2 := by rw [Real.sqrt_sq]; norm_num
  have a1 : 2 * Real.pi * (1 / 8) = Real.pi / 4 := by ring
  have a2 : Real.pi * (1 / 4) / 2 = Real.pi / 8 := by ring
  set c : ℂ := ((Real.cos (Real.pi / 8) : ℝ) : ℂ) with hc
  set s : ℂ := ((Real.sin (Real.pi / 8) : ℝ) : ℂ) with hsn
  set r : ℂ := ((√2 / 2 : ℝ) : ℂ) with hr
  have hr2 : r ^ 2 = 1 / 2 := by
    rw [hr, ← Complex.ofReal_pow, div_pow, Real.sq_sqrt (by norm_num)]; norm_num
  have hcs : c ^ 2 - s ^ 2 = r := by
    rw [hc, hsn, hr, ← Real.cos_pi_div_four, show Real.pi / 4 = 2 * (Real.pi / 8) by ring, Real.cos_two_mul']
    push_cast; ring
  have h2cs : 2 * c * s = r := by
    rw [hc, hsn, hr, ← Real.sin_pi_div_four, show Real.pi / 4 = 2 * (Real.pi / 8) by ring, Real.sin_two_mul]
    push_cast; ring
  have hp : Complex.exp (Complex.I * (Real.pi / 4)) = r + r * Complex.I := by
    rw [mul_comm, show (Real.pi / 4 : ℂ) = ((Real.pi / 4 : ℝ) : ℂ) by push_cast; rfl, Complex.exp_mul_I, ← Complex.ofReal_cos,
      ← Complex.ofReal_sin, Real.cos_pi_div_four, Real.sin_pi_div_four]
  have hm : Complex.exp (-(Complex.I * (Real.pi / 4))) = r - r * Complex.I := by
    rw [← mul_neg, mul_comm, show (-(Real.pi / 4) : ℂ) = ((-(Real.pi / 4) : ℝ) : ℂ) by push_cast; rfl, Complex.exp_mul_I,
      ← Complex.ofReal_cos, ← Complex.ofReal_sin, Real.cos_neg, Real.sin_neg, Real.cos_pi_div_four, Real.sin_pi_div_four, Complex.ofReal_neg,
      ← hr]
    ring
  simp only [meanCost, qaoaState, qaoaOp, List.take, List.drop, List.zip_cons_cons, List.zip_nil_left, List.map_cons, List.map_nil,
    inOrder, one_mul, Module.End.mul_apply, rxLayer_two, a1, a2, ← hc, ← hsn]
  have hχ : ∀ k < 4, costPhases (zword [⟨.Z, 0⟩, ⟨.Z, 1⟩]) (Real.pi / 4) (plusState 2) k =
      (if k = 0 ∨ k = 3 then r + r * Complex.I else r - r * Complex.I) / 2 := by
    intro k hk
    interval_cases k <;> simp [costPhases, diagOp, hd, zsign, plusState, hs, hp, hm, Nat.testBit] <;> ring
  have e0 : flipBit 0 0 = 1 ∧ flipBit 1 0 = 2 ∧ flipBit 0 1 = 0 ∧ flipBit 1 1 = 3 ∧ flipBit 0 2 = 3 ∧ flipBit 1 2 = 0 ∧
    flipBit 0 3 = 2 ∧ flipBit 1 3 = 1 := by decide
  obtain ⟨f1, f2, f3, f4, f5, f6, f7, f8⟩ := e0
  generalize costPhases (zword [⟨.Z, 0⟩, ⟨.Z, 1⟩]) (Real.pi / 4) (plusState 2) = χ at hχ
  have g0 := hχ 0 (by norm_num)
  have g1 := hχ 1 (by norm_num)
  have g2 := hχ 2 (by norm_num)
  have g3 := hχ 3 (by norm_num)
  norm_num at g0 g1 g2 g3
  simp only [show (2 : ℕ) ^ 2 = 4 from rfl, Finset.sum_range_succ, Finset.sum_range_zero, f1, f2, f3, f4, f5, f6, f7, f8, g0, g1,
    g2, g3]
  have k1 : c ^ 2 * ((r + r * Complex.I) / 2) - Complex.I * c * s * ((r - r * Complex.I) / 2 + (r - r * Complex.I) / 2) -
      s ^ 2 * ((r + r * Complex.I) / 2) = 0 := by
    linear_combination ((r + r * Complex.I) / 2) * hcs - Complex.I * ((r - r * Complex.I) / 2) * h2cs + r ^ 2 / 2 * Complex.I_mul_I
  have k2 : c ^ 2 * ((r - r * Complex.I) / 2) - Complex.I * c * s * ((r + r * Complex.I) / 2 + (r + r * Complex.I) / 2) -
      s ^ 2 * ((r - r * Complex.I) / 2) = (1 - Complex.I) / 2 := by
    linear_combination ((r - r * Complex.I) / 2) * hcs - Complex.I * ((r + r * Complex.I) / 2) * h2cs - r ^ 2 / 2 * Complex.I_mul_I
      + (1 - Complex.I) * hr2
  have k3 : ‖(1 - Complex.I) / 2‖ ^ 2 = 1 / 2 := by
    rw [← Complex.normSq_eq_norm_sq]
    norm_num [Complex.normSq_apply]
  rw [k1, k2, k3]
  simp [hd, zsign, Nat.testBit]
  norm_num

/-- One step of QAOA in double precision: the objective function for `Z[0]*Z[1]` at `[1/4, 1/8]` is the least energy, -1, up to
10⁻¹¹, whatever simulator runs the circuit. -/
theorem qaoa_doubles (fl : ℝ → ℝ) (hfl : RoundsTo fl (1 / 2 ^ 53)) (hid : ∀ x, fl (fl x) = fl x) (h1 : fl 1 = 1) (run : StateRunner)
    (hR : RunsNear run 2 2 (passErr (4 * (1 / 2 ^ 53)) 2)) (jv : ℕ → ℂ) (ji : ℕ → ℕ) (rnd : ℕ → ℝ) (hr : InUnit rnd) :
    let r := QaoaAnsatz.flNew demoKit (fun _ => false) (.rounded fl) (.rounded fl) (.term ⟨[⟨.Z, 0⟩, ⟨.Z, 1⟩], 1⟩) 1 none none ()
      demoStart
    ∃ q m x, r.2 = .ok q ∧ flMakeSparse (.rounded fl) jv ji q.hamiltonian = .ok m ∧
      q.flObjective demoKit (fun _ => false) (.rounded fl) (.rounded fl) run m r.1 [1 / 4, 1 / 8] rnd = .ok (x, rnd) ∧
      |x - -1| ≤ 1 / 10 ^ 11 := by
  intro r
  have h0 : fl 0 = 0 := by simpa using hfl 0
  obtain ⟨q, hq, hh⟩ := flNew_demo fl h0 h1 [⟨.Z, 0⟩, ⟨.Z, 1⟩] (by simp [NormalWord]) 1
  obtain ⟨hP, hD⟩ := C98_doubles fl (1 / 2 ^ 53) (by norm_num) (by norm_num) hfl 2
  have hO := C101_doubles fl (1 / 2 ^ 53) (by norm_num) (by norm_num) hfl
  have hn : q.hamiltonian.nQubits = 2 := by rw [hh]; simp [PExpr.nQubits, PTerm.nQubits]
  have hz : exprOp q.hamiltonian = costOp (zword [⟨.Z, 0⟩, ⟨.Z, 1⟩]) := by
    rw [hh, exprOp]
    simp only [List.map_cons, List.map_nil, List.sum_cons, List.sum_nil, add_zero]
    rw [termOp_Z _ (by simp), costOp]
    simp
  have hpi := Real.pi_pos
  have hpi2 := Real.pi_lt_d2
  have hsteps : (([1 / 4, 1 / 8] : List ℝ).take 1).zip (([1 / 4, 1 / 8] : List ℝ).drop 1) = [(1 / 4, 1 / 8)] := rfl
  have hang : AnglesWithin (3 * (1 / 2 ^ 53)) 2 q.hamiltonian.terms none
      ((([1 / 4, 1 / 8] : List ℝ).take 1).zip (([1 / 4, 1 / 8] : List ℝ).drop 1)) := by
    rw [hsteps, hh]
    refine ⟨by norm_num; linarith, ?_, by simp, ?_⟩
    · intro p hp t ht
      simp only [List.mem_singleton] at hp ht
      subst hp; subst ht
      rw [abs_of_pos (by positivity)]
      norm_num; linarith
    · intro p hp _
      simp only [List.mem_singleton] at hp
      subst hp
      rw [abs_of_pos (by positivity)]
      norm_num; linarith
  have hm : ∃ m, flMakeSparse (.rounded fl) jv ji q.hamiltonian = .ok m := by
    rcases C98_energy (PauliOps.rounded fl) _ _ hP (by norm_num) (by norm_num) run 2 hD 2 _ hR jv ji q.hamiltonian 2
      (by rw [hh]; simp) [] [] rfl (by simp) (by simp) (by simp) rnd hr with ⟨m, e1, -⟩ | ⟨-, e2⟩
    · exact ⟨m, e1⟩
    · exfalso
      have := e2 hn.symm
      rw [hz] at this
      have hx : (expectation 2 (costOp (zword [⟨.Z, 0⟩, ⟨.Z, 1⟩])) (unitaries phDoc [] (fun j => if j = 0 then 1 else 0))).re = 1 := by
        simp [expectation, costOp, diagOp, unitaries, zword, zsign, Finset.sum_range_succ]
      rw [hx, hh] at this
      norm_num [sparseErr, matrixDepth, passErr, passes, Elem.passes] at this
  obtain ⟨m, hm⟩ := hm
  have hone : ∀ t ∈ q.hamiltonian.terms, t.flSimplify (.rounded fl) = t := by
    have := C101_unit fl (1 / 2 ^ 53) (by norm_num) (by norm_num) hfl hid (PVal.toExpr (.term ⟨[⟨.Z, 0⟩, ⟨.Z, 1⟩], 1⟩))
    rwa [flSimplify_unit fl h0 h1 _ (by simp [NormalWord]), ← hh] at this
  obtain ⟨x, e1, e2⟩ := C101_diagonal demoKit (fun _ => false) (.rounded fl) (4 * (1 / 2 ^ 53))
    ((1 + 4 * (1 / 2 ^ 53)) ^ (2 ^ 2 + 1) - 1) hP (by norm_num) (by norm_num) (.rounded fl) _ hO
    (by norm_num) 0 demoReg [] _ 1 () q [1 / 4, 1 / 8] run 2 _ 2 jv ji m rnd hr _ hq hone (by rw [hh]; simp) hz (by rw [hh]; simp)
    (by rw [hn]; exact hD) (by rw [hn]; exact hR) hang hm
  refine ⟨q, m, x, hq, hm, e1, ?_⟩
  rw [hn, zz_mean] at e2
  refine e2.trans ?_
  rw [hsteps, hh]
  have hw : wordPasses [⟨.Z, 0⟩, ⟨.Z, 1⟩] = 3 := by decide
  have hy : yCount [⟨.Z, 0⟩, ⟨.Z, 1⟩] = 0 := by decide
  have b1 : qaoaShift (3 * (1 / 2 ^ 53)) 2 [⟨[⟨.Z, 0⟩, ⟨.Z, 1⟩], 1⟩] none [(1 / 4, 1 / 8)] ≤ 1 / 10 ^ 14 := by
    simp only [coeffTotal, qaoaShift, stepShift, evolutionShift, yTotal, hy, List.map_cons, List.map_nil, List.sum_cons, List.sum_nil,
      norm_one]
    rw [abs_of_pos (by positivity), abs_of_pos (by positivity)]
    norm_num
    linarith
  have b0 : 0 ≤ qaoaShift (3 * (1 / 2 ^ 53)) 2 [⟨[⟨.Z, 0⟩, ⟨.Z, 1⟩], 1⟩] none [(1 / 4, 1 / 8)] := by
    simp only [coeffTotal, qaoaShift, stepShift, evolutionShift, yTotal, hy, List.map_cons, List.map_nil, List.sum_cons, List.sum_nil,
      norm_one]
    rw [abs_of_pos (by positivity), abs_of_pos (by positivity)]
    norm_num
    linarith
  have b2 := pow_le_pow_left₀ (by linarith) (add_le_add_right b1 1) 2
  have b3 : sparseErr (4 * (1 / 2 ^ 53)) ((1 + 4 * (1 / 2 ^ 53)) ^ (2 ^ 2 + 1) - 1) (passErr (4 * (1 / 2 ^ 53)) 2) 2
      (2 + [((1 : ℝ) / 4, (1 : ℝ) / 8)].length * stepPasses 2 [⟨[⟨.Z, 0⟩, ⟨.Z, 1⟩], 1⟩] none) 2 ⟨[⟨[⟨.Z, 0⟩, ⟨.Z, 1⟩], 1⟩]⟩ ≤
      5 / 10 ^ 12 := by
    norm_num [sparseErr, matrixDepth, passErr, stepPasses, hw]
  have b4 : coeffTotal [⟨[⟨.Z, 0⟩, ⟨.Z, 1⟩], 1⟩] = 1 := by simp [coeffTotal]
  rw [b4, one_mul]
  refine (add_le_add b3 (sub_le_sub_right b2 1)).trans ?_
  norm_num

example (fl : ℝ → ℝ) (hfl : RoundsTo fl (1 / 2 ^ 53)) (hid : ∀ x, fl (fl x) = fl x) (h1 : fl 1 = 1) (jv : ℕ → ℂ) (ji : ℕ → ℕ)
    (rnd : ℕ → ℝ) (hr : InUnit rnd) :
    let r := QaoaAnsatz.flNew demoKit (fun _ => false) (.rounded fl) (.rounded fl) (.term ⟨[⟨.Z, 0⟩, ⟨.Z, 1⟩], 1⟩) 1 none none ()
      demoStart
    ∃ q m x, r.2 = .ok q ∧ flMakeSparse (.rounded fl) jv ji q.hamiltonian = .ok m ∧
      q.flObjective demoKit (fun _ => false) (.rounded fl) (.rounded fl) (flNpStatevector (FloatOps.rounded fl Real.cos Real.sin)) m
        r.1 [1 / 4, 1 / 8] rnd = .ok (x, rnd) ∧ |x - -1| ≤ 1 / 10 ^ 11 := by
  have hpi : Real.pi / 2 ≤ 2 := by have := Real.pi_le_four; linarith
  have hF := C89_doubles fl Real.cos Real.sin (1 / 2 ^ 53) 2 (by norm_num) (by norm_num) hfl (by simp) (by simp)
  exact qaoa_doubles fl hfl hid h1 _ (C97_numpy_runs _ 2 _ _ _ hF hpi (by norm_num [passErr])) jv ji rnd hr

/-- Rounding to 53 binary digits, to nearest, ties to even, is such an `fl`. -/
example : RoundsTo roundDouble (1 / 2 ^ 53) ∧ (∀ x, roundDouble (roundDouble x) = roundDouble x) ∧ roundDouble 1 = 1 :=
  ⟨roundDouble_rounds, roundDouble_signed.idem, roundDouble_signed.one⟩

end

end Blueqat
