import Verif.QaoaLemmas
import Verif.Props.PauliCommute

/-!
# C46: the QAOA circuit
-/

set_option linter.unusedSimpArgs false
set_option linter.unusedVariables false

namespace Blueqat

open Spec

noncomputable section

variable {V M C B A R : Type} (kit : Kit C B A R) (isAttr : String → Bool)

/-- The model's closure and `PTerm.getTimeEvolution` agree: calling the returned function appends these gates. -/
theorem getTimeEvolution_closure (t : PTerm) :
    t.getTimeEvolution = t.evolutionClosure.map (fun f circuit time => circuit.appendAll (f time)) := by
  simp only [PTerm.getTimeEvolution, PTerm.evolutionClosure]
  split_ifs <;> rfl

theorem WF_frame_exec {w : World V M C B} (hw : w.WF) (h : List (Cmd V M C A)) :
    w.nCircs ≤ (w.exec kit isAttr h).nCircs := by
  induction h generalizing w with
  | nil => exact le_rfl
  | cons c h ih => exact (frame_step kit isAttr hw c).le.trans (ih (frame_step kit isAttr hw c).wf)

/-! ## The constructor -/

theorem chooseInit_ok {n : ℕ} {init : Option ℕ} {mixer : Option (List PVal)} {w w' : World V M C B} {i m : ℕ} (hw : w.WF)
    (hi : ∀ j ∈ init, j < w.nCircs) (h : QaoaAnsatz.chooseInit kit isAttr n init mixer w = (w', .ok (i, m))) :
    Frame w w' none ∧ i < w'.nCircs ∧
    (∀ j ∈ init, i = j ∧ w' = w ∧ m = max (view w i).n n) ∧
    (init = none → i = w.nCircs ∧ m = n ∧ (view w' i).n = n ∧ (view w' i).ops = [onAll .h] ∧ (mixer = none ∨ mixer = some [])) := by
  cases init with
  | some j =>
    simp only [QaoaAnsatz.chooseInit, Prod.mk.injEq, Except.ok.injEq] at h
    obtain ⟨rfl, rfl, rfl⟩ := h
    refine ⟨.refl hw _, hi j rfl, ?_, by simp⟩
    rintro k hk
    simp only [Option.mem_def, Option.some.injEq] at hk
    subst hk
    refine ⟨rfl, rfl, ?_⟩
    simp only [view]
    split_ifs <;> omega
  | none =>
    have hm : mixer = none ∨ mixer = some [] := by
      rcases mixer with _ | (_ | ⟨v, vs⟩)
      · simp
      · simp
      · simp [QaoaAnsatz.chooseInit] at h
    have h2 : QaoaAnsatz.chooseInit kit isAttr n none mixer w =
        ((((w.alloc n [] [] none).step kit isAttr (.append w.nCircs (onAll .h))).1 : World V M C B), .ok (w.nCircs, n)) := by
      have : (QaoaAnsatz.chooseInit kit isAttr n none mixer w) = QaoaAnsatz.chooseInit kit isAttr n none none w := by
        rcases hm with rfl | rfl <;> rfl
      rw [this]
      have hlt : w.nCircs < (w.alloc n [] [] none).nCircs := by simp [World.alloc]
      simp only [QaoaAnsatz.chooseInit, World.step, World.onCirc, hlt, if_true, onAll, Gate.targets, getMaximumIndex,
        maximumIdxSingle, Option.getD_none]
    rw [h2] at h
    simp only [Prod.mk.injEq, Except.ok.injEq] at h
    obtain ⟨rfl, rfl, rfl⟩ := h
    have f1 := frame_step kit isAttr hw (.new n)
    have f2 := frame_step kit isAttr (w := w.alloc n [] [] none) f1.wf (.append w.nCircs (onAll .h))
    have hlt : w.nCircs < (w.alloc n [] [] none).nCircs := by simp [World.alloc]
    refine ⟨⟨f2.wf, f1.le.trans f2.le, fun j hj _ => ?_⟩, hlt.trans_le f2.le, by simp, fun _ => ⟨rfl, rfl, ?_, ?_, hm⟩⟩
    · exact (f2.same j (hj.trans_le f1.le) (by simp [receiver]; omega)).trans (f1.same j hj (by simp [receiver]))
    all_goals
      simp only [World.step, World.onCirc, hlt, if_true, onAll, Gate.targets, getMaximumIndex, maximumIdxSingle,
        Option.getD_none]
      simp [view, World.alloc, newQubits]

/-- Filling the cache changes only backend instances of that circuit. -/
theorem makeCache_ok {w w' : World V M C B} {i : ℕ} {a : A} {x : Out R} (hw : w.WF) (hi : i < w.nCircs)
    (h : w.step kit isAttr (.makeCache i none a) = (w', .ok x)) :
    Frame w w' (some i) ∧ (view w' i).n = (view w i).n ∧ (view w' i).ops = (view w i).ops := by
  have hf := frame_step kit isAttr hw (.makeCache i none a)
  rw [h] at hf
  refine ⟨hf, ?_⟩
  simp only [World.step, World.onCirc, hi, if_true] at h
  cases hg : w.getBackend kit i ((none : Option String).getD (w.dfltName i)) with
  | error e => rw [hg] at h; simp at h
  | ok p =>
    obtain ⟨-, -, -, h4, h5⟩ := frame_getBackend hw hi hg
    rw [hg] at h
    simp only [Prod.mk.injEq] at h
    obtain ⟨rfl, -⟩ := h
    exact ⟨h5, h4⟩

/-- Everything the constructor establishes. -/
structure NewOk (ham : PVal) (step : ℕ) (init : Option ℕ) (mixer : Option (List PVal)) (w w' : World V M C B)
    (q : QaoaAnsatz) (ms : List PTerm) : Prop where
  wf : w'.WF
  le : w.nCircs ≤ w'.nCircs
  init_lt : q.initCircuit < w'.nCircs
  same : ∀ j < w.nCircs, j ≠ q.initCircuit → view w' j = view w j
  hasMaxN : ham.hasMaxN = true
  hamEq : q.hamiltonian = ham.toExpr.simplify
  comm : q.hamiltonian.isAllTermsCommutable = true
  stepEq : q.step = step
  params : q.nParams = 2 * step
  mixerEq : q.mixer = mixer
  mixTerms : mixer.getD [] = ms.map .term
  mixReal : ∀ t ∈ ms, t.simplify.coeff.im = 0
  real : ∀ t ∈ q.hamiltonian.terms, t.coeff.im = 0
  evos : q.timeEvolutions = closuresOf q.hamiltonian.terms
  mixEvos : q.mixerTimeEvolutions = closuresOf (ms.map PTerm.simplify)
  given : ∀ j ∈ init, q.initCircuit = j ∧ (view w' j).ops = (view w j).ops ∧ (view w' j).n = (view w j).n ∧
    q.nQubits = max (view w j).n ham.toExpr.simplify.nQubits
  fresh : init = none → q.initCircuit = w.nCircs ∧ q.nQubits = ham.toExpr.simplify.nQubits ∧
    (view w' w.nCircs).n = ham.toExpr.simplify.nQubits ∧ (view w' w.nCircs).ops = [onAll .h] ∧ ms = []

theorem simplified_terms_normal (e : PExpr) : ∀ t ∈ e.simplify.terms, NormalWord t.ops := fun t ht =>
  exprSimplify_normal e t.ops (List.mem_map_of_mem ht)

theorem new_ok {ham : PVal} {step : ℕ} {init : Option ℕ} {mixer : Option (List PVal)} {a : A} {w : World V M C B}
    {q : QaoaAnsatz} (hw : w.WF) (hi : ∀ j ∈ init, j < w.nCircs)
    (h : (QaoaAnsatz.new kit isAttr ham step init mixer a w).2 = .ok q) :
    ∃ ms, NewOk ham step init mixer w (QaoaAnsatz.new kit isAttr ham step init mixer a w).1 q ms := by
  generalize hr : QaoaAnsatz.new kit isAttr ham step init mixer a w = r at h ⊢
  obtain ⟨w', x⟩ := r
  simp only at h ⊢
  subst h
  simp only [QaoaAnsatz.new] at hr
  split_ifs at hr with h1 h2
  · simp at hr
  · simp at hr
  cases hc : QaoaAnsatz.chooseInit kit isAttr ham.toExpr.simplify.nQubits init mixer w with
  | mk w1 x1 =>
    rw [hc] at hr
    cases x1 with
    | error e => simp at hr
    | ok p =>
      obtain ⟨i, n⟩ := p
      simp only at hr
      obtain ⟨f1, i1, g1, n1⟩ := chooseInit_ok kit isAttr hw hi hc
      cases hm : w1.step kit isAttr (.makeCache i none a) with
      | mk w2 x2 =>
        rw [hm] at hr
        cases x2 with
        | error e => simp at hr
        | ok y =>
          simp only at hr
          obtain ⟨f2, m1, m2⟩ := makeCache_ok kit isAttr f1.wf i1 hm
          cases he : evolutionClosures (ham.toExpr.simplify.terms.map .term) with
          | error e => rw [he] at hr; simp at hr
          | ok fs =>
            rw [he] at hr
            simp only at hr
            cases hx : evolutionClosures (mixer.getD []) with
            | error e => rw [hx] at hr; simp at hr
            | ok gs =>
              rw [hx] at hr
              simp only [Prod.mk.injEq, Except.ok.injEq] at hr
              obtain ⟨rfl, rfl⟩ := hr
              obtain ⟨ts, t1, t2, t3⟩ := evolutionClosures_ok _ _ he
              obtain ⟨ms, s1, s2, s3⟩ := evolutionClosures_ok _ _ hx
              have ht : ts = ham.toExpr.simplify.terms := by
                have hinj : Function.Injective (PVal.term) := fun a b h => by injection h
                exact ((List.map_injective_iff.2 hinj) t1).symm
              subst ht
              have hsimp : ham.toExpr.simplify.terms.map PTerm.simplify = ham.toExpr.simplify.terms := by
                conv_rhs => rw [← List.map_id ham.toExpr.simplify.terms]
                exact List.map_congr_left (fun t ht => simplify_of_normal t (simplified_terms_normal _ t ht))
              refine ⟨ms, ⟨f2.wf, f1.le.trans f2.le, i1.trans_le f2.le, ?_, by simpa using h1, rfl, by simpa using h2, rfl,
                by simp [mul_comm], rfl, s1, s3, ?_, by rw [t2, hsimp], s2, ?_, ?_⟩⟩
              · intro j hj hne
                exact (f2.same j (hj.trans_le f1.le) (by simpa using fun h => hne h.symm)).trans (f1.same j hj (by simp))
              · intro t ht
                have := t3 t ht
                rwa [simplify_of_normal t (simplified_terms_normal _ t ht)] at this
              · intro j hj
                obtain ⟨rfl, rfl, e3⟩ := g1 j hj
                exact ⟨rfl, m2, m1, e3⟩
              · intro hn
                obtain ⟨rfl, e2, e3, e4, e5⟩ := n1 hn
                refine ⟨rfl, e2, by rw [m1, e3], by rw [m2, e4], ?_⟩
                rcases e5 with rfl | rfl <;> simpa using s1.symm

/-- C46. What the constructor does, on any reachable state: it keeps the simplified Hamiltonian, takes `2 * step`
parameters, refers to the given initial circuit, which keeps its gates and its size, or makes a new one with `h[:]` on the
qubits of the Hamiltonian, and changes no other circuit. -/
theorem C46_new (b : B) (reg : Registry V M C) (h : List (Cmd V M C A)) (ham : PVal) (step : ℕ) (init : Option ℕ)
    (mixer : Option (List PVal)) (a : A) (q : QaoaAnsatz) :
    let w := (World.start b reg).exec kit isAttr h
    let r := QaoaAnsatz.new kit isAttr ham step init mixer a w
    (∀ i ∈ init, i < w.nCircs) → r.2 = .ok q →
      exprOp q.hamiltonian = valOp ham ∧ q.nParams = 2 * step ∧ q.mixer = mixer ∧
      (∀ j < w.nCircs, j ≠ q.initCircuit → view r.1 j = view w j) ∧
      (∀ i ∈ init, q.initCircuit = i ∧ (view r.1 i).ops = (view w i).ops ∧ (view r.1 i).n = (view w i).n) ∧
      (init = none → q.initCircuit = w.nCircs ∧ (view r.1 w.nCircs).n = q.hamiltonian.nQubits ∧
        (view r.1 w.nCircs).ops = [.g1 .h (.one (.slice none none none))]) := by
  intro w r hi hok
  obtain ⟨ms, hn⟩ := new_ok kit isAttr (WF_exec kit isAttr (WF_start b reg) h) hi hok
  refine ⟨by rw [hn.hamEq, exprSimplify_op, toExpr_op], hn.params, hn.mixerEq, hn.same, fun i hii => ?_, fun h0 => ?_⟩
  · exact ⟨(hn.given i hii).1, (hn.given i hii).2.1, (hn.given i hii).2.2.1⟩
  · obtain ⟨h1, -, h3, h4, -⟩ := hn.fresh h0
    exact ⟨h1, by rw [h3, hn.hamEq], h4⟩

/-! ## The circuit -/

theorem foldr_const_max {α : Type} (l : List α) (m : ℕ) : l.foldr (fun _ k => max m k) 0 = if l = [] then 0 else m := by
  induction l with
  | nil => rfl
  | cons a l ih =>
    simp only [List.foldr_cons, ih]
    split_ifs <;> simp_all

theorem xMixer_product (n : ℕ) :
    IsProductEvolution (xMixer n) (fun t => inOrder ((List.range n).map (fun q => expI (-(1 / 2) * t) (matAt mX q)))) := by
  have hX : ∀ q, (matAt mX q * matAt mX q : Operator) = 1 := by
    intro q
    have := word_sq [⟨.X, q⟩] (by simp [NormalWord])
    simpa [wordOp, opOp, letterM] using this
  have := isProductEvolution_expI ((List.range n).map (fun q => (-(1 / 2 : ℝ), matAt mX q))) (by
    simp only [List.mem_map]; rintro _ ⟨q, -, rfl⟩; exact hX q)
  simp only [List.map_map, Function.comp_def] at this
  have e : ((-(1 / 2) : ℝ) : ℂ) = -(1 / 2) := by push_cast; rfl
  rw [e] at this
  exact this

/-- C46. `get_circuit(params)`, in any state reachable after the ansatz was made (whatever else was done in between,
including earlier calls): it returns a new circuit and changes no existing one, in particular not the initial circuit. The
new circuit is the initial one followed by gates that act, up to a global phase, as the alternating operator of the cost
and mixer evolutions with `2πγ` and `πβ`. The code's evolution of a term has the wrong sign if it has an odd number of
`Y`, hence `signedOp`. The cost operator is the evolution of the whole Hamiltonian if its terms commute. -/
theorem C46_circuit_signed (b : B) (reg : Registry V M C) (h h' : List (Cmd V M C A)) (ham : PVal) (step : ℕ)
    (init : Option ℕ) (mixer : Option (List PVal)) (a : A) (q : QaoaAnsatz) (params : List ℝ) :
    let w0 := (World.start b reg).exec kit isAttr h
    let r := QaoaAnsatz.new kit isAttr ham step init mixer a w0
    let w := r.1.exec kit isAttr h'
    let c := q.getCircuit kit isAttr params w
    let i := q.initCircuit
    let steps := (params.take step).zip (params.drop step)
    (∀ i ∈ init, i < w0.nCircs) → r.2 = .ok q →
      c.2 = .ok w.nCircs ∧ (∀ j < w.nCircs, view c.1 j = view w j) ∧
      ∃ (ms : List PTerm) (n : ℕ) (gs : List Gate) (cost mix : ℝ → Operator),
        mixer.getD [] = ms.map .term ∧
        n = (if steps = [] then (view w i).n else
          max (view w i).n (max (qubitsOfAll (q.hamiltonian.terms.map PTerm.ops)) (qubitsOfAll (ms.map (fun t => t.simplify.ops))))) ∧
        view c.1 w.nCircs = ⟨(view w i).ops ++ gs, n, (view w i).dflt, (view w i).bes⟩ ∧
        IsProductEvolution (q.hamiltonian.terms.map signedOp) cost ∧
        ((∀ s ∈ q.hamiltonian.terms, ∀ t ∈ q.hamiltonian.terms, termOp s * termOp t = termOp t * termOp s) →
          IsEvolution (q.hamiltonian.terms.map signedOp).sum cost) ∧
        IsProductEvolution (if mixer = none then xMixer n else ms.map (fun t => signedOp t.simplify)) mix ∧
        ∃ z : ℂ, ‖z‖ = 1 ∧ ActsAs n gs (z • qaoaOp cost mix steps) := by
  intro w0 r w c i steps hi hok
  obtain ⟨ms, hn⟩ := new_ok kit isAttr (WF_exec kit isAttr (WF_start b reg) h) hi hok
  have hnw : ∀ t ∈ q.hamiltonian.terms, NormalWord t.ops := by rw [hn.hamEq]; exact simplified_terms_normal _
  have hw : w.WF := WF_exec kit isAttr hn.wf h'
  have hiw : i < w.nCircs := hn.init_lt.trans_le (WF_frame_exec kit isAttr hn.wf h')
  clear_value w
  set gs := steps.flatMap (fun p => q.stepGates p.1 p.2) with hgs
  set m := max (qubitsOfAll (q.hamiltonian.terms.map PTerm.ops)) (qubitsOfAll (ms.map (fun t => t.simplify.ops))) with hm
  have hmm : (ms.map PTerm.simplify).map PTerm.ops = ms.map (fun t => t.simplify.ops) := by rw [List.map_map]; rfl
  have hms : q.mixer = none → ms = [] := by
    intro h0
    have := hn.mixTerms
    rw [← hn.mixerEq, h0] at this
    simpa using this.symm
  have hgrow : Grows gs (if steps = [] then 0 else m) := by
    rw [← foldr_const_max]
    refine Grows.flatMap steps _ _ (fun p _ => ?_)
    simp only [QaoaAnsatz.stepGates, hn.evos, hn.mixEvos]
    refine (closures_grow _ _).append ?_
    cases hq : q.mixer with
    | none => rw [hms hq]; exact Grows.onAll _
    | some _ => simp only; rw [← hmm]; exact closures_grow _ _
  -- the copy
  have hcopy := frame_step kit isAttr hw (.copy i true true)
  have hstep : w.step kit isAttr (.copy i true true) = (w.copyCirc i true true, .ok (.circuit w.nCircs)) := by
    simp only [World.step, World.onCirc, hiw, if_true]
  have hview : view (w.copyCirc i true true) w.nCircs = view w i := by
    unfold World.copyCirc
    rw [view_allocCopy hw i hiw]
    rfl
  rw [hstep] at hcopy
  have hlt : w.nCircs < (w.copyCirc i true true).nCircs := by simp [copyCirc_nCircs]
  have hstat := statements_ok kit isAttr gs (w.copyCirc i true true) w.nCircs hcopy.wf hlt _ (hgrow _)
  have hc : c = ((World.statements kit isAttr w.nCircs gs (w.copyCirc i true true)).1, .ok w.nCircs) := by
    show QaoaAnsatz.getCircuit kit isAttr q params w = _
    simp only [QaoaAnsatz.getCircuit]
    rw [hstep]
    simp only [hn.stepEq]
    have h1 := hstat.1
    rw [hgs] at h1 ⊢
    generalize World.statements kit isAttr w.nCircs _ (w.copyCirc i true true) = x at h1 ⊢
    obtain ⟨x1, x2⟩ := x
    simp only at h1
    subst h1
    rfl
  rw [hview] at hstat
  refine ⟨by rw [hc], fun j hj => ?_, ms, if steps = [] then (view w i).n else max (view w i).n m, gs, evoOf q.hamiltonian.terms,
    if mixer = none then fun t => inOrder ((List.range (if steps = [] then (view w i).n else max (view w i).n m)).map
      (fun q => expI (-(1 / 2) * t) (matAt mX q))) else evoOf (ms.map PTerm.simplify), hn.mixTerms, rfl, ?_, evoOf_product _ hnw hn.real,
    fun hcm => ?_, ?_, ?_⟩
  · rw [hc]
    exact (hstat.2.1.same j (hj.trans_le hcopy.le) (by simp; omega)).trans (hcopy.same j hj (by simp [receiver]))
  · rw [hc, hstat.2.2]
    congr 1
    split_ifs <;> simp
  · refine evoOf_evolution _ hnw hn.real ?_ hcm
    rw [hn.hamEq]; exact exprSimplify_coeff _
  · by_cases h0 : mixer = none
    · simp only [h0, if_true]; exact xMixer_product _
    · simp only [h0, if_false]
      have := evoOf_product (ms.map PTerm.simplify) (by
        simp only [List.mem_map]; rintro _ ⟨t, -, rfl⟩; exact simplify_normal t) (by
        simp only [List.mem_map]; rintro _ ⟨t, ht, rfl⟩; exact hn.mixReal t ht)
      rwa [List.map_map] at this
  · show ActsUpTo _ gs _
    refine ActsUpTo.flatMap steps _ _ (fun p hp => ?_)
    have hne : steps ≠ [] := by rintro h0; rw [h0] at hp; simp at hp
    simp only [hne, if_false, QaoaAnsatz.stepGates, hn.evos, hn.mixEvos]
    rw [mul_comm p.1, mul_comm p.2]
    refine (closures_upTo _ _ hnw (by omega)).append ?_
    rw [← hn.mixerEq]
    cases hq : q.mixer with
    | none => simp only [if_true]; exact actsAs_rxAll _ _
    | some _ =>
      simp only [reduceCtorEq, if_false]
      refine closures_upTo _ _ (by
        simp only [List.mem_map]; rintro _ ⟨t, -, rfl⟩; exact simplify_normal t) (by rw [hmm]; omega)

/-- C46, partial: what is missing are terms with an odd number of `Y`, whose evolution has the wrong sign
(`C46_refuted`). For all others the circuit is the initial one followed by the alternating operator of the terms of the
Hamiltonian and of the mixer; the cost operator is `exp(2πiγ H)` if no coefficient is smaller than 0.01 (for smaller ones
the constructor's commutation check is not exact, see C38). -/
theorem C46_circuit_partial (b : B) (reg : Registry V M C) (h h' : List (Cmd V M C A)) (ham : PVal) (step : ℕ)
    (init : Option ℕ) (mixer : Option (List PVal)) (a : A) (q : QaoaAnsatz) (params : List ℝ) :
    let w0 := (World.start b reg).exec kit isAttr h
    let r := QaoaAnsatz.new kit isAttr ham step init mixer a w0
    let w := r.1.exec kit isAttr h'
    let c := q.getCircuit kit isAttr params w
    let i := q.initCircuit
    let steps := (params.take step).zip (params.drop step)
    (∀ i ∈ init, i < w0.nCircs) → r.2 = .ok q →
    (∀ t ∈ q.hamiltonian.terms, Even (yCount t.ops)) →
    (∀ t, .term t ∈ mixer.getD [] → Even (yCount t.simplify.ops)) →
      c.2 = .ok w.nCircs ∧ (∀ j < w.nCircs, view c.1 j = view w j) ∧
      ∃ (n : ℕ) (gs : List Gate) (cost mix : ℝ → Operator),
        (steps ≠ [] → q.hamiltonian.nQubits ≤ n) ∧
        view c.1 w.nCircs = ⟨(view w i).ops ++ gs, n, (view w i).dflt, (view w i).bes⟩ ∧
        IsProductEvolution (q.hamiltonian.terms.map termOp) cost ∧
        ((∀ t ∈ q.hamiltonian.terms, 0.01 ≤ ‖t.coeff‖) → IsEvolution (valOp ham) cost) ∧
        IsProductEvolution (if mixer = none then xMixer n else (mixer.getD []).map valOp) mix ∧
        ∃ z : ℂ, ‖z‖ = 1 ∧ ActsAs n gs (z • qaoaOp cost mix steps) := by
  intro w0 r w c i steps hi hok hy hmy
  obtain ⟨ms', hn⟩ := new_ok kit isAttr (WF_exec kit isAttr (WF_start b reg) h) hi hok
  obtain ⟨h1, h2, ms, n, gs, cost, mix, e1, e2, e3, e4, e5, e6, e7⟩ :=
    C46_circuit_signed kit isAttr b reg h h' ham step init mixer a q params hi hok
  have hs : ∀ t : PTerm, Even (yCount t.ops) → signedOp t = termOp t := by
    intro t ht; rw [signedOp, ht.neg_one_pow, one_smul]
  have hts : q.hamiltonian.terms.map signedOp = q.hamiltonian.terms.map termOp :=
    List.map_congr_left (fun t ht => hs t (hy t ht))
  have hmsn : ms.map (fun t => signedOp t.simplify) = (mixer.getD []).map valOp := by
    rw [e1, List.map_map]
    refine List.map_congr_left (fun t ht => ?_)
    rw [hs _ (hmy t (by rw [e1]; exact List.mem_map_of_mem ht)), simplify_op]; rfl
  rw [hts] at e4 e5
  rw [hmsn] at e6
  refine ⟨h1, h2, n, gs, cost, mix, ?_, e3, e4, fun hc => ?_, e6, e7⟩
  · intro hne
    rw [e2, if_neg hne]
    refine le_trans ?_ (le_trans (le_max_left _ _) (le_max_right _ _))
    have hb : ∀ t ∈ q.hamiltonian.terms, t.nQubits ≤ qubitsOfAll (q.hamiltonian.terms.map PTerm.ops) := by
      intro t ht
      have : ∀ (l : List POp) (m : ℕ), (∀ o ∈ l, o.n < qubitsOfAll (q.hamiltonian.terms.map PTerm.ops)) →
          m ≤ qubitsOfAll (q.hamiltonian.terms.map PTerm.ops) →
          l.foldl (fun m o => max m (o.n + 1)) m ≤ qubitsOfAll (q.hamiltonian.terms.map PTerm.ops) := by
        intro l
        induction l with
        | nil => intro m _ hm; exact hm
        | cons o l ih =>
          intro m hl hm
          exact ih _ (fun x hx => hl x (by simp [hx])) (max_le hm (hl o (by simp)))
      exact this t.ops 0 (fun o ho => lt_qubitsOfAll (List.mem_map_of_mem ht) ho) (Nat.zero_le _)
    have : ∀ (l : List PTerm) (m : ℕ), (∀ t ∈ l, t.nQubits ≤ qubitsOfAll (q.hamiltonian.terms.map PTerm.ops)) →
        m ≤ qubitsOfAll (q.hamiltonian.terms.map PTerm.ops) →
        l.foldl (fun m t => max m t.nQubits) m ≤ qubitsOfAll (q.hamiltonian.terms.map PTerm.ops) := by
      intro l
      induction l with
      | nil => intro m _ hm; exact hm
      | cons o l ih =>
        intro m hl hm
        exact ih _ (fun x hx => hl x (by simp [hx])) (max_le hm (hl o (by simp)))
    exact this _ 0 (fun t ht => hb t (List.mem_filter.1 ht).1) (Nat.zero_le _)
  · have := e5 ((C38_all_terms _ hc).1 hn.comm)
    have he : (q.hamiltonian.terms.map termOp).sum = valOp ham := by
      rw [← toExpr_op, ← exprSimplify_op, ← hn.hamEq]; rfl
    rwa [he] at this

/-! ## Errors -/

/-- C46. What the constructor rejects, in any state: a number or a bare Pauli operator as Hamiltonian (AttributeError),
terms that do not commute (ValueError), a mixer without initial circuit (ValueError). -/
theorem C46_rejects (w : World V M C B) (ham : PVal) (step : ℕ) (init : Option ℕ) (mixer : Option (List PVal)) (a : A) :
    ((∃ z, ham = .num z) ∨ (∃ p, ham = .pauli p) →
      QaoaAnsatz.new kit isAttr ham step init mixer a w = (w, .error .attributeError)) ∧
    ((∃ t, ham = .term t) ∨ (∃ e, ham = .expr e) →
      (ham.toExpr.simplify.isAllTermsCommutable = false →
        QaoaAnsatz.new kit isAttr ham step init mixer a w = (w, .error .valueError)) ∧
      (init = none → (∃ v vs, mixer = some (v :: vs)) →
        QaoaAnsatz.new kit isAttr ham step init mixer a w = (w, .error .valueError))) := by
  refine ⟨?_, ?_⟩
  · rintro (⟨z, rfl⟩ | ⟨p, rfl⟩) <;> simp [QaoaAnsatz.new, PVal.hasMaxN]
  · intro hh
    have h0 : ham.hasMaxN = true := by rcases hh with ⟨t, rfl⟩ | ⟨e, rfl⟩ <;> rfl
    refine ⟨fun hc => by simp [QaoaAnsatz.new, h0, hc], ?_⟩
    rintro rfl ⟨v, vs, rfl⟩
    simp only [QaoaAnsatz.new, h0, Bool.true_eq_false, if_false, QaoaAnsatz.chooseInit]
    split_ifs <;> rfl

/-- C46. Construction never succeeds with a Hamiltonian that has a coefficient that is not real, nor with a mixer that has
one or that contains anything but terms. -/
theorem C46_rejects_mixer (b : B) (reg : Registry V M C) (h : List (Cmd V M C A)) (ham : PVal) (step : ℕ) (init : Option ℕ)
    (mixer : Option (List PVal)) (a : A) (q : QaoaAnsatz) :
    let w := (World.start b reg).exec kit isAttr h
    (∀ i ∈ init, i < w.nCircs) → (QaoaAnsatz.new kit isAttr ham step init mixer a w).2 = .ok q →
      (∀ t ∈ q.hamiltonian.terms, t.coeff.im = 0) ∧
      ∀ v ∈ mixer.getD [], ∃ t : PTerm, v = .term t ∧ t.simplify.coeff.im = 0 := by
  intro w hi hok
  obtain ⟨ms, hn⟩ := new_ok kit isAttr (WF_exec kit isAttr (WF_start b reg) h) hi hok
  refine ⟨hn.real, fun v hv => ?_⟩
  rw [hn.mixTerms] at hv
  obtain ⟨t, ht, rfl⟩ := List.mem_map.1 hv
  exact ⟨t, rfl, hn.mixReal t ht⟩

/-! ## Calls as histories -/

theorem exec_cons (w : World V M C B) (c : Cmd V M C A) (l : List (Cmd V M C A)) :
    w.exec kit isAttr (c :: l) = (w.step kit isAttr c).1.exec kit isAttr l := rfl

theorem statements_exec (gs : List Gate) : ∀ (w : World V M C B) (i : ℕ),
    ∃ l : List (Cmd V M C A), (World.statements kit isAttr i gs w).1 = w.exec kit isAttr l := by
  induction gs with
  | nil => intro w i; exact ⟨[], rfl⟩
  | cons g gs ih =>
    intro w i
    simp only [World.statements]
    generalize hx : w.step kit isAttr (.append i g) = x
    obtain ⟨w1, y⟩ := x
    cases y with
    | error e => exact ⟨[.append i g], by rw [exec_cons, hx]; rfl⟩
    | ok y =>
      obtain ⟨l, hl⟩ := ih w1 i
      exact ⟨.append i g :: l, by rw [exec_cons, hx]; exact hl⟩

/-- C46. Calls of `get_circuit` are client actions like any others, so the states after any number of them are covered by
the histories of `C46_circuit_partial`. -/
theorem C46_calls (q : QaoaAnsatz) (params : List ℝ) (w : World V M C B) :
    ∃ l : List (Cmd V M C A), (q.getCircuit kit isAttr params w).1 = w.exec kit isAttr l := by
  simp only [QaoaAnsatz.getCircuit]
  generalize hx : w.step kit isAttr (.copy q.initCircuit true true) = x
  obtain ⟨w1, y⟩ := x
  have h1 : w1 = w.exec kit isAttr [.copy q.initCircuit true true] := by rw [exec_cons, hx]; rfl
  rcases y with e | (_ | c | _) <;> simp only
  all_goals try exact ⟨_, h1⟩
  obtain ⟨l, hl⟩ := statements_exec kit isAttr
    (((params.take q.step).zip (params.drop q.step)).flatMap (fun p => q.stepGates p.1 p.2)) w1 c
  refine ⟨.copy q.initCircuit true true :: l, ?_⟩
  rw [exec_cons, hx, ← hl]
  split <;> simp_all

/-! ## Examples -/

/-- The constructor in the example world, for one normal term with a real coefficient. -/
theorem new_demo (t : PTerm) (hn : NormalWord t.ops) (h0 : t.coeff ≠ 0) (hr : t.coeff.im = 0) (step : ℕ) :
    ∃ m, (QaoaAnsatz.new demoKit (fun _ => false) (.term t) step none none () demoStart).2 =
      .ok ⟨⟨[t]⟩, step * 2, m, step, 0, none, closuresOf [t], []⟩ := by
  have hs : (PVal.toExpr (.term t)).simplify = ⟨[t]⟩ := by
    have := simplify_of_term h0 (toExpr_op (.term t))
    rw [simplify_of_normal t hn] at this
    cases hh : (PVal.toExpr (.term t)).simplify
    rw [hh] at this; simp only at this; rw [this]
  refine ⟨(⟨[t]⟩ : PExpr).nQubits, ?_⟩
  simp [QaoaAnsatz.new, PVal.hasMaxN, hs, PExpr.isAllTermsCommutable, combinations2, QaoaAnsatz.chooseInit, World.step,
    World.onCirc, World.alloc, demoStart, World.start, onAll, Gate.targets, getMaximumIndex, maximumIdxSingle,
    World.getBackend, World.dfltName, demoReg, demoKit, PyDict.get, PyDict.set, evolutionClosures, PVal.evolutionClosure,
    PTerm.evolutionClosure, simplify_of_normal t hn, hr, bind, Except.bind, Except.map, closuresOf, Function.update]

/-- `Z[0] * Z[1]` with two steps: everything `C46_circuit_partial` assumes holds. -/
example : ∃ q : QaoaAnsatz, ∃ gs cost mix, ∃ z : ℂ,
    (QaoaAnsatz.new demoKit (fun _ => false) (.term ⟨[⟨.Z, 0⟩, ⟨.Z, 1⟩], 1⟩) 2 none none () demoStart).2 = .ok q ∧
    (view (q.getCircuit demoKit (fun _ => false) [1 / 2, 1 / 3, 1 / 4, 1 / 5]
      (QaoaAnsatz.new demoKit (fun _ => false) (.term ⟨[⟨.Z, 0⟩, ⟨.Z, 1⟩], 1⟩) 2 none none () demoStart).1).1
      (QaoaAnsatz.new demoKit (fun _ => false) (.term ⟨[⟨.Z, 0⟩, ⟨.Z, 1⟩], 1⟩) 2 none none () demoStart).1.nCircs).ops =
      onAll .h :: gs ∧
    IsEvolution (termOp ⟨[⟨.Z, 0⟩, ⟨.Z, 1⟩], 1⟩) cost ∧ ‖z‖ = 1 ∧ (∃ n, 2 ≤ n ∧
    ActsAs n gs (z • qaoaOp cost mix [(1 / 2, 1 / 4), (1 / 3, 1 / 5)])) := by
  obtain ⟨m, hq⟩ := new_demo ⟨[⟨.Z, 0⟩, ⟨.Z, 1⟩], 1⟩ (by simp [NormalWord]) (by simp) (by simp) 2
  have hn := (C46_new demoKit (fun _ => false) 0 demoReg [] _ 2 none none () _ (by simp) hq).2.2.2.2.2 rfl
  obtain ⟨-, -, n, gs, cost, mix, h1, h2, h3, h4, h5, z, h6, h7⟩ := C46_circuit_partial demoKit (fun _ => false) 0 demoReg [] []
    _ 2 none none () _ [1 / 2, 1 / 3, 1 / 4, 1 / 5] (by simp) hq (by simp [yCount]) (by simp)
  refine ⟨_, gs, cost, mix, z, hq, ?_, h4 (by simp; norm_num), h6, n, ?_, h7⟩
  · have e := congrArg CircView.ops h2
    refine e.trans ?_
    have e2 : (view (QaoaAnsatz.new demoKit (fun _ => false) (.term ⟨[⟨.Z, 0⟩, ⟨.Z, 1⟩], 1⟩) 2 none none () demoStart).1 0).ops =
      [onAll .h] := hn.2.2
    show (view (QaoaAnsatz.new demoKit (fun _ => false) (.term ⟨[⟨.Z, 0⟩, ⟨.Z, 1⟩], 1⟩) 2 none none () demoStart).1 0).ops ++ gs = _
    rw [e2]; rfl
  · have := h1 (by simp)
    simpa [PExpr.nQubits, PTerm.nQubits] using this

theorem signs_differ (z y : ℂ) (hy : ‖y‖ = 1) :
    z • expI (Real.pi / 4) (wordOp [⟨.Y, 0⟩]) ≠ y • expI (-(Real.pi / 4)) (wordOp [⟨.Y, 0⟩]) := by
  intro e
  have e0 := congrArg (fun A : Operator => A (fun i => if i = 0 then 1 else 0) 0) e
  have e1 := congrArg (fun A : Operator => A (fun i => if i = 0 then 1 else 0) 1) e
  have hY : ∀ ψ : Vec, wordOp [⟨.Y, 0⟩] ψ = app mY 0 ψ := by intro ψ; simp [wordOp, opOp, letterM, matAt_apply]
  simp [expI_apply, hY, app, mY, flipBit, Real.cos_neg, Real.sin_neg] at e0 e1
  subst e0
  have h2 : ((√2 : ℝ) : ℂ) ^ 2 = 2 := by
    rw [sq, ← Complex.ofReal_mul, Real.mul_self_sqrt (by norm_num)]; norm_num
  have h3 : z * ((√2 : ℝ) : ℂ) = 0 := by linear_combination -e1 + z * ((√2 : ℝ) : ℂ) * Complex.I_mul_I
  rcases mul_eq_zero.1 h3 with h3 | h3
  · rw [h3] at hy; simp at hy
  · rw [h3] at h2; norm_num at h2

/-- C46 is false of the code: for the Hamiltonian `Y[0]`, one step with β = 0 and γ = 1/8, the gates after the initial
circuit are not the alternating operator of the Hamiltonian, not even up to a factor. -/
theorem C46_refuted : ∃ (ham : PVal) (params : List ℝ) (q : QaoaAnsatz),
    let r := QaoaAnsatz.new demoKit (fun _ => false) ham 1 none none () demoStart
    let c := q.getCircuit demoKit (fun _ => false) params r.1
    r.2 = .ok q ∧ c.2 = .ok r.1.nCircs ∧
    ∃ gs, (view c.1 r.1.nCircs).ops = (view r.1 q.initCircuit).ops ++ gs ∧
      ∀ (cost mix : ℝ → Operator), IsEvolution (valOp ham) cost →
        IsProductEvolution (xMixer (view c.1 r.1.nCircs).n) mix →
        ∀ z : ℂ, ¬ ActsAs (view c.1 r.1.nCircs).n gs (z • qaoaOp cost mix ((params.take 1).zip (params.drop 1))) := by
  have hw : NormalWord [(⟨.Y, 0⟩ : POp)] := by simp [NormalWord]
  obtain ⟨m, hq⟩ := new_demo ⟨[⟨.Y, 0⟩], 1⟩ hw (by simp) (by simp) 1
  obtain ⟨hc, -, ms, n, gs, cost', mix', e1, e2, e3, e4, e5, e6, y, hy, e7⟩ := C46_circuit_signed demoKit (fun _ => false) 0
    demoReg [] [] _ 1 none none () _ [0, 1 / 8] (by simp) hq
  refine ⟨.term ⟨[⟨.Y, 0⟩], 1⟩, [0, 1 / 8], _, hq, hc, gs, congrArg CircView.ops e3, ?_⟩
  intro cost mix hcost hmix z hz
  have hn : (view (QaoaAnsatz.getCircuit demoKit (fun _ => false)
      ⟨⟨[⟨[⟨.Y, 0⟩], 1⟩]⟩, 1 * 2, m, 1, 0, none, closuresOf [⟨[⟨.Y, 0⟩], 1⟩], []⟩ [0, 1 / 8]
      (QaoaAnsatz.new demoKit (fun _ => false) (.term ⟨[⟨.Y, 0⟩], 1⟩) 1 none none () demoStart).1).1
      (QaoaAnsatz.new demoKit (fun _ => false) (.term ⟨[⟨.Y, 0⟩], 1⟩) 1 none none () demoStart).1.nCircs).n = n :=
    congrArg CircView.n e3
  rw [hn] at hz hmix
  have hstart : ∀ (Hs : List Operator) (U : ℝ → Operator), IsProductEvolution Hs U → U 0 = 1 := by
    rintro Hs U ⟨Us, h1, h2⟩
    rw [h2]
    clear h2
    induction h1 with
    | nil => rfl
    | cons h _ ih => simp only [List.map_cons, inOrder, ih, h.start, one_mul]
  have hop : ∀ co mi : ℝ → Operator, mi 0 = 1 → qaoaOp co mi (([0, 1 / 8] : List ℝ).take 1 |>.zip (([0, 1 / 8] : List ℝ).drop 1)) =
      co (Real.pi / 4) := by
    intro co mi h0
    simp only [qaoaOp, List.take, List.drop, List.zip_cons_cons, List.zip_nil_left, List.map_cons, List.map_nil, inOrder, mul_zero, h0, one_mul]
    congr 1; ring
  rw [hop _ _ (hstart _ _ hmix)] at hz
  rw [hop _ _ (hstart _ _ e6)] at e7
  have ht : termOp ⟨[⟨.Y, 0⟩], 1⟩ = wordOp [⟨.Y, 0⟩] := by simp [termOp]
  have hcomm := e5 (by simp)
  have eU := isEvolution_unique 1 [⟨.Y, 0⟩] hw (word_sq _ hw) cost (by
    have : IsEvolution (termOp ⟨[⟨.Y, 0⟩], 1⟩) cost := hcost
    rw [ht] at this; simpa using this) (Real.pi / 4)
  have eV := isEvolution_unique (-1) [⟨.Y, 0⟩] hw (word_sq _ hw) cost' (by
    simp only [List.map_cons, List.map_nil, List.sum_cons, List.sum_nil, add_zero, signedOp, ht] at hcomm
    simpa [yCount] using hcomm) (Real.pi / 4)
  rw [eU, one_mul] at hz
  rw [eV, neg_one_mul] at e7
  exact signs_differ z y hy (actsAs_unique hz e7)

end

end Blueqat
