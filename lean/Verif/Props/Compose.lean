import Verif.DaggerLemmas
import Verif.Backend
import Verif.Props.Numpy
import Verif.Props.Circuit

/-!
# C07 (meaning of concatenation), C12 (dagger is the inverse), C13 (dagger twice)
-/

set_option linter.unusedSimpArgs false
set_option linter.unusedVariables false

namespace Blueqat

open Spec

theorem ph_neg_phDoc (x : ℝ) : phDoc (-x) * phDoc x = 1 := by simp [phDoc]

theorem ph_neg_phSim (x : ℝ) : phSim (-x) * phSim x = 1 := by
  simp only [phSim, ← cis_add]
  rw [show -(-x / 4) + -(x / 4) = 0 by ring, cis_zero]

/-- Unitary gates one after the other on the numpy simulator, from any context. -/
theorem npRunGates_state {n : ℕ} (gs : List Gate) : ∀ (es : List Elem), GatesDenote n gs es →
    (∀ e ∈ es, e.Valid n) → (∀ e ∈ es, e.IsUnitary) → ∀ (ψ : Vec) (buf : Arr), buf.length = 2 ^ n →
    ∀ (cregs : List ℕ) (save : Bool) (rnd : ℕ → ℝ), ∃ (buf' : Arr) (save' : Bool), buf'.length = 2 ^ n ∧
      runGates (npAction n) n recursionLimit gs ⟨vec n ψ, buf, cregs, save, rnd⟩ =
        .ok ⟨vec n (unitaries phSim es ψ), buf', cregs, save', rnd⟩ := by
  induction gs with
  | nil => intro es hd _ _ ψ buf hb cr sv rnd; simp only [GatesDenote] at hd; subst hd; exact ⟨buf, sv, hb, rfl⟩
  | cons g gs ih =>
    rintro es ⟨e1, e2, h1, h2, rfl⟩ hv hu ψ buf hb cr sv rnd
    obtain ⟨b1, s1, hb1, hc1⟩ := npRunGate_state n g e1 h1 (fun e he => hv e (by simp [he]))
      (fun e he => hu e (by simp [he])) ψ buf hb cr sv rnd
    obtain ⟨b2, s2, hb2, hc2⟩ := ih e2 h2 (fun e he => hv e (by simp [he])) (fun e he => hu e (by simp [he]))
      (unitaries phSim e1 ψ) b1 hb1 cr s1 rnd
    refine ⟨b2, s2, hb2, ?_⟩
    simp only [npRunGate] at hc1
    simp only [runGates, List.foldlM_cons, hc1] at hc2 ⊢
    rw [unitaries_append]
    exact hc2

theorem vec_of_list {n : ℕ} (q : Arr) (h : q.length = 2 ^ n) : vec n (fun i => q.getD i 0) = q := by
  apply List.ext_getElem
  · simp [vec, h]
  · intro i h1 h2; simp [vec, h2]

theorem elems_unitary {n : ℕ} {gs : List Gate} {es : List Elem} (hd : GatesDenote n gs es)
    (hno : ∀ g ∈ gs, ¬ NonUnitary g) : ∀ e ∈ es, e.IsUnitary := by
  induction gs generalizing es with
  | nil => simp only [GatesDenote] at hd; subst hd; simp
  | cons g gs ih =>
    obtain ⟨e1, e2, h1, h2, rfl⟩ := hd
    intro e he
    rcases List.mem_append.1 he with h | h
    · have hg := hno g (by simp)
      cases g with
      | g1 k T => obtain ⟨L, -, rfl⟩ := h1; obtain ⟨x, -, rfl⟩ := List.mem_map.1 h; trivial
      | g2 k T => obtain ⟨L, -, rfl⟩ := h1; obtain ⟨x, -, rfl⟩ := List.mem_map.1 h; trivial
      | g3 k T => obtain ⟨a, b, c, -, rfl⟩ := h1; rw [List.mem_singleton.1 h]; trivial
      | measure T => exact absurd trivial hg
      | reset T => exact absurd trivial hg
    · exact ih h2 (fun g hg => hno g (by simp [hg])) e h

/-- A run from the start state, with measurements. -/
theorem fresh_state {n : ℕ} {gates : List Gate} {es : List Elem} (hd : GatesDenote n gates es)
    (hv : ∀ e ∈ es, e.Valid n) (rnd : ℕ → ℝ) (hrnd : InUnit rnd) :
    freshRun n gates ⟨none, none, false, rnd⟩ =
      .ok (.statevector (amplitudes n (steps phSim n es (initState rnd)).psi), (steps phSim n es (initState rnd)).rnd) := by
  obtain ⟨p', res', h1, h2, -⟩ := plainShots_refine (P := True) hd hv (fun e he => .inl trivial) 1
    (npNewCtx n rnd).core [] (fun _ => hrnd) (by simp) (by simp)
  have h2' := h2 (steps phSim n es (initState rnd)) rfl
  obtain ⟨be, ctx, h3, h4⟩ := run_of_shots h1
  have hparse : npParse none none = .ok (1, "statevector") := by decide
  simp only [freshRun, npRunArgs, hparse]
  rw [show (1 : ℤ).toNat = 1 from rfl, h3]
  have e1 : ctx.qubits = vec n (steps phSim n es (initState rnd)).psi := by
    have := h2'.q; rw [← h4] at this; exact this
  have e2 : ctx.rnd = (steps phSim n es (initState rnd)).rnd := by have := h2'.rnd; rw [← h4] at this; exact this
  simp only [Bool.false_eq_true, if_false, npReturn, if_true, e1, e2]
  rfl

section
variable {V M C B A R : Type} (kit : Kit C B A R) (isAttr : String → Bool)

/-! ## C07 -/

/-- C07: on every backend (any action table, any context type, any register size and recursion depth) running the
operations of `a + b` is running those of `a` and then those of `b`; if a gate of `a` raises, the run raises the
same exception. -/
theorem C07_run {σ : Type} (act : Gate → Option (σ → Except PyErr σ)) (n fuel : ℕ) (b : B) (reg : Registry V M C)
    (h : List (Cmd V M C A)) (i j : ℕ) (ctx : σ) :
    let w := (World.start b reg).exec kit isAttr h
    i < w.nCircs → j < w.nCircs →
      runGates act n fuel (view (w.step kit isAttr (.add i j)).1 w.nCircs).ops ctx =
        match runGates act n fuel (view w i).ops ctx with
        | .error e => .error e
        | .ok ctx' => runGates act n fuel (view w j).ops ctx' := by
  intro w hi hj
  rw [(C07_add_ops kit isAttr b reg h i j hi hj).2]
  simp only [runGates, List.foldlM_append]
  cases List.foldlM (fun s g => runGate act n fuel g s) ctx (view w i).ops <;> rfl

/-- C07: `(a + b) + c` and `a + (b + c)` have the same operations and the same size. The two circuits are made in
the same history; `k` is the number of the first new circuit. -/
theorem C07_associative (b : B) (reg : Registry V M C) (h : List (Cmd V M C A)) (i j l : ℕ) :
    let w := (World.start b reg).exec kit isAttr h
    let k := w.nCircs
    let w' := w.exec kit isAttr [.add i j, .add k l, .add j l, .add i (k + 2)]
    i < k → j < k → l < k →
      (view w' (k + 1)).ops = (view w' (k + 3)).ops ∧ (view w' (k + 1)).n = (view w' (k + 3)).n ∧
      (view w' (k + 1)).ops = (view w i).ops ++ (view w j).ops ++ (view w l).ops ∧
      (view w' (k + 1)).n = max (max (view w i).n (view w j).n) (view w l).n := by
  intro w k w' hi hj hl
  have hw0 : w.WF := WF_exec kit isAttr (WF_start b reg) h
  -- one `+` on a world satisfying the invariant
  have hadd : ∀ (w : World V M C B), w.WF → ∀ i j, i < w.nCircs → j < w.nCircs →
      let w1 := (w.step kit isAttr (.add i j)).1
      w1.WF ∧ w1.nCircs = w.nCircs + 1 ∧ (∀ m < w.nCircs, view w1 m = view w m) ∧
      (view w1 w.nCircs).ops = (view w i).ops ++ (view w j).ops ∧
      (view w1 w.nCircs).n = max (view w i).n (view w j).n := by
    intro w hwf i j hi hj w1
    have hf := frame_step kit isAttr hwf (.add i j)
    have hv : view (w.copyCirc i true true) w.nCircs = view w i := view_allocCopy hwf i hi true _ _ _
    have hf' := frame_copyCirc hwf i true true
    have hvj := hf'.same j hj (by simp)
    refine ⟨hf.wf, ?_, fun m hm => hf.same m hm (by simp [receiver]), ?_, ?_⟩
    · simp [w1, World.step, World.onCirc, hi, hj, World.extend, copyCirc_nCircs]
    · simp only [w1, World.step, World.onCirc, hi, hj, if_true]
      simp only [view, CircView.mk.injEq] at hv hvj
      simp only [view, World.extend, Function.update_self, hv.1, hvj.1]
    · simp only [w1, World.step, World.onCirc, hi, hj, if_true]
      simp only [view, CircView.mk.injEq] at hv hvj
      simp only [view, World.extend, Function.update_self, hv.2.1, hvj.2.1]
  obtain ⟨a1, a2, a3, a4, a5⟩ := hadd w hw0 i j hi hj
  obtain ⟨b1, b2, b3, b4, b5⟩ := hadd _ a1 k l (by rw [a2]; omega) (by rw [a2]; omega)
  obtain ⟨c1, c2, c3, c4, c5⟩ := hadd _ b1 j l (by rw [b2, a2]; omega) (by rw [b2, a2]; omega)
  obtain ⟨d1, d2, d3, d4, d5⟩ := hadd _ c1 i (k + 2) (by rw [c2, b2, a2]; omega) (by rw [c2, b2, a2]; omega)
  simp only [a2, b2, c2] at b3 b4 b5 c3 c4 c5 d3 d4 d5
  have e1 : w.nCircs = k := rfl
  simp only [e1] at a3 a4 a5 b3 b4 b5 c3 c4 c5 d3 d4 d5
  have hw' : w' = ((((w.step kit isAttr (.add i j)).1.step kit isAttr (.add k l)).1.step kit isAttr
    (.add j l)).1.step kit isAttr (.add i (k + 2))).1 := rfl
  rw [hw', d3 (k + 1) (by omega), c3 (k + 1) (by omega)]
  have f1 : k + 1 + 1 + 1 = k + 3 := by omega
  have f2 : k + 1 + 1 = k + 2 := by omega
  rw [f1] at d4 d5
  rw [f2] at c4 c5
  rw [d4, d5, b4, b5, c4, c5, a4, a5]
  rw [c3 i (by omega), b3 i (by omega), a3 i hi, b3 j (by omega), a3 j hj, b3 l (by omega), a3 l hl]
  refine ⟨by simp, by rw [max_assoc], rfl, rfl⟩

/-- C07: the operator of `a + b` on the joint register is the product of the operators, and a numpy run from
`|0...0>` (without cache) gives the state obtained by applying `a` and then `b`, for operations with valid
qubits. Measurement and reset are allowed: `steps` also transforms classical bits and random numbers. -/
theorem C07_unitary (b : B) (reg : Registry V M C) (h : List (Cmd V M C A)) (i j : ℕ) :
    let w := (World.start b reg).exec kit isAttr h
    let w' := (w.step kit isAttr (.add i j)).1
    let n := max (view w i).n (view w j).n
    ∀ (ea eb : List Elem), i < w.nCircs → j < w.nCircs →
      GatesDenote n (view w i).ops ea → GatesDenote n (view w j).ops eb →
      (view w' w.nCircs).n = n ∧
      ∃ es, GatesDenote n (view w' w.nCircs).ops es ∧
        (∀ ph ψ, unitaries ph es ψ = unitaries ph eb (unitaries ph ea ψ)) ∧
        (∀ ph s, steps ph n es s = steps ph n eb (steps ph n ea s)) ∧
        ((∀ e ∈ ea, e.Valid n) → (∀ e ∈ eb, e.Valid n) → ∀ rnd : ℕ → ℝ, InUnit rnd →
          freshRun n (view w' w.nCircs).ops ⟨none, none, false, rnd⟩ =
            .ok (.statevector (amplitudes n (steps phSim n eb (steps phSim n ea (initState rnd))).psi),
              (steps phSim n eb (steps phSim n ea (initState rnd))).rnd)) := by
  intro w w' n ea eb hi hj ha hb
  have hadd := (C07_add_ops kit isAttr b reg h i j hi hj).2
  have hden : GatesDenote n (view w' w.nCircs).ops (ea ++ eb) := by
    show GatesDenote n (view (w.step kit isAttr (.add i j)).1 w.nCircs).ops _
    rw [hadd]; exact gatesDenote_append ha hb
  refine ⟨by show (view (w.step kit isAttr (.add i j)).1 w.nCircs).n = n; rw [hadd], ea ++ eb, hden,
    fun ph ψ => unitaries_append ph ea eb ψ, fun ph s => steps_append ph n ea eb s, ?_⟩
  intro hva hvb rnd hrnd
  rw [← steps_append]
  exact fresh_state hden
    (fun e he => by rcases List.mem_append.1 he with h | h; exact hva e h; exact hvb e h) rnd hrnd

/-- Hypotheses met: `Circuit().h[0]` and `Circuit().cx[0, 1]`. -/
example :
    let w := demoStart.exec demoKit (fun _ => false) [.new 0, .append 0 (on1 .h 0), .new 0, .append 1 (on2 .cx 0 1)]
    0 < w.nCircs ∧ 1 < w.nCircs ∧ max (view w 0).n (view w 1).n = 2 ∧
      GatesDenote 2 (view w 0).ops [.one .h 0] ∧ GatesDenote 2 (view w 1).ops [.two .cx 0 1] := by
  have h0 : GatesDenote 2 [on1 .h 0] [.one .h 0] := by
    refine ⟨[.one .h 0], [], ⟨[0], ?_, rfl⟩, rfl, rfl⟩
    rw [← slicing_eq_iff]; rfl
  have h1 : GatesDenote 2 [on2 .cx 0 1] [.two .cx 0 1] := by
    refine ⟨[.two .cx 0 1], [], ⟨[(0, 1)], ?_, rfl⟩, rfl, rfl⟩
    rw [← pairsDenote_iff]; rfl
  intro w
  have e0 : (view w 0).ops = [on1 .h 0] := by
    simp [w, World.exec, World.step, World.onCirc, World.alloc, demoStart, World.start, view, getMaximumIndex,
      maximumIdxSingle, maxOver, Gate.targets, on1, on2, Targets.ofInt, Targets.ofPair, Function.update]
  have e1 : (view w 1).ops = [on2 .cx 0 1] := by
    simp [w, World.exec, World.step, World.onCirc, World.alloc, demoStart, World.start, view, getMaximumIndex,
      maximumIdxSingle, maxOver, Gate.targets, on1, on2, Targets.ofInt, Targets.ofPair, Function.update]
  refine ⟨?_, ?_, ?_, by rw [e0]; exact h0, by rw [e1]; exact h1⟩ <;>
  simp [w, World.exec, World.step, World.onCirc, World.alloc, demoStart, World.start, view, getMaximumIndex,
    maximumIdxSingle, maxOver, Gate.targets, on1, on2, Targets.ofInt, Targets.ofPair, Function.update, newQubits]

/-! ## C12 -/

theorem daggerGates_denote {n : ℕ} (gs : List Gate) : ∀ (es : List Elem), GatesDenote n gs es →
    (∀ g ∈ gs, ¬ NonUnitary g) → ∃ ds, GatesDenote n (gs.reverse.filterMap (fun g => g.dagger.toOption)) ds ∧
      ((∀ e ∈ es, e.Valid n) → ∀ e ∈ ds, e.Valid n) ∧ ((∀ e ∈ es, e.IsUnitary) → ∀ e ∈ ds, e.IsUnitary) ∧
      (∀ ph, (∀ x, ph (-x) * ph x = 1) → (∀ e ∈ es, e.Valid n) → (∀ g ∈ gs, OrderFree n g) →
        ∀ ψ, unitaries ph ds (unitaries ph es ψ) = ψ) := by
  induction gs with
  | nil => intro es hd _; simp only [GatesDenote] at hd; subst hd; exact ⟨[], rfl, by simp, by simp, fun _ _ _ _ ψ => rfl⟩
  | cons g gs ih =>
    rintro es ⟨e1, e2, h1, h2, rfl⟩ hnu
    obtain ⟨ds, hds, hval, huni, hinv⟩ := ih e2 h2 (fun g hg => hnu g (by simp [hg]))
    obtain ⟨g', hg'⟩ : ∃ g', g.dagger = .ok g' := by
      have := hnu g (by simp)
      cases g <;> simp [NonUnitary, Gate.dagger] at this ⊢
    have hden := gateDenotes_dagger h1 hg'
    refine ⟨ds ++ e1.map Elem.inv, ?_, ?_, ?_, ?_⟩
    · rw [List.reverse_cons, List.filterMap_append]
      refine gatesDenote_append hds ?_
      simp only [List.filterMap_cons, List.filterMap_nil, hg', Except.toOption]
      exact ⟨_, [], hden, rfl, by simp⟩
    · intro hv e he
      rcases List.mem_append.1 he with h | h
      · exact hval (fun e he => hv e (by simp [he])) e h
      · obtain ⟨f, hf, rfl⟩ := List.mem_map.1 h
        exact (elem_inv_valid f).2 (hv f (by simp [hf]))
    · intro hv e he
      rcases List.mem_append.1 he with h | h
      · exact huni (fun e he => hv e (by simp [he])) e h
      · obtain ⟨f, hf, rfl⟩ := List.mem_map.1 h
        have := hv f (by simp [hf])
        cases f <;> simp [Elem.inv, Elem.IsUnitary] at this ⊢
    · intro ph hph hv ho ψ
      rw [unitaries_append, unitaries_append, hinv ph hph (fun e he => hv e (by simp [he])) (fun g hg => ho g (by simp [hg]))]
      exact gate_inv hph h1 (fun e he => hv e (by simp [he])) (ho g (by simp)) ψ

/-- C12 in full: for every circuit without measurement or reset, with valid targets, and every state vector,
running the operations of `c + c.dagger()` on the numpy simulator gives the vector back. -/
def C12_full : Prop :=
  ∀ (V M C B A R : Type) (kit : Kit C B A R) (isAttr : String → Bool) (b : B) (reg : Registry V M C)
    (h : List (Cmd V M C A)) (i : ℕ),
    let w := (World.start b reg).exec kit isAttr h
    let w' := w.exec kit isAttr [.dagger i false false false, .add i w.nCircs]
    let n := (view w i).n
    ∀ es, i < w.nCircs → GatesDenote n (view w i).ops es → (∀ e ∈ es, e.Valid n) →
      (∀ g ∈ (view w i).ops, ¬ NonUnitary g) →
      ∀ ctx : NpCtx, ctx.qubits.length = 2 ^ n → ctx.buf.length = 2 ^ n →
        ∃ ctx', runGates (npAction n) n recursionLimit (view w' (w.nCircs + 1)).ops ctx = .ok ctx' ∧
          ctx'.qubits = ctx.qubits

theorem dagger_add_ops (b : B) (reg : Registry V M C) (h : List (Cmd V M C A)) (i : ℕ) :
    let w := (World.start b reg).exec kit isAttr h
    let w' := w.exec kit isAttr [.dagger i false false false, .add i w.nCircs]
    i < w.nCircs → (∀ g ∈ (view w i).ops, ¬ NonUnitary g) →
      (view w' (w.nCircs + 1)).ops =
        (view w i).ops ++ (view w i).ops.reverse.filterMap (fun g => g.dagger.toOption) ∧
      (view w' (w.nCircs + 1)).n = (view w i).n := by
  intro w w' hi hno
  have hwf : w.WF := WF_exec kit isAttr (WF_start b reg) h
  obtain ⟨-, hv⟩ := C13_dagger_ops kit isAttr b reg h i false false false hi (.inr hno)
  have hn1 : (w.step kit isAttr (.dagger i false false false)).1.nCircs = w.nCircs + 1 := by
    have hd := (daggerOps_spec false (w.lists (w.circs i).ops).reverse).2
      (.inr (fun g hg => hno g (by simpa [view] using hg)))
    simp [World.step, World.onCirc, hi, hd, World.alloc]
  have hadd := C07_add_ops kit isAttr b reg (h ++ [.dagger i false false false]) i w.nCircs
  have hex : (World.start b reg).exec kit isAttr (h ++ [.dagger i false false false]) =
      (w.step kit isAttr (.dagger i false false false)).1 := by
    simp [World.exec, List.foldl_append, w]
  simp only [hex, hn1] at hadd
  have h2 := (hadd (by omega) (by omega)).2
  have hsame := (frame_step kit isAttr hwf (.dagger i false false false)).same i hi (by simp [receiver])
  have hw' : w' = ((w.step kit isAttr (.dagger i false false false)).1.step kit isAttr (.add i w.nCircs)).1 := rfl
  rw [hw', h2, hsame, hv]
  refine ⟨rfl, max_self _⟩

/-- C12, proved part: `C12_full` for circuits in which the pairs of every two-qubit operation may be applied in any
order (`OrderFree`; an operation on one pair always qualifies, and so do diagonal gates, and controlled gates in
which no qubit is both control and target). Missing: nothing more can be proved, see
`C12_dagger_inverse_refuted`. The documented operators are inverse as well. -/
theorem C12_dagger_inverse_partial (b : B) (reg : Registry V M C) (h : List (Cmd V M C A)) (i : ℕ) :
    let w := (World.start b reg).exec kit isAttr h
    let w' := w.exec kit isAttr [.dagger i false false false, .add i w.nCircs]
    let n := (view w i).n
    ∀ es, i < w.nCircs → GatesDenote n (view w i).ops es → (∀ e ∈ es, e.Valid n) →
      (∀ g ∈ (view w i).ops, ¬ NonUnitary g) → (∀ g ∈ (view w i).ops, OrderFree n g) →
      (∀ ctx : NpCtx, ctx.qubits.length = 2 ^ n → ctx.buf.length = 2 ^ n →
        ∃ ctx', runGates (npAction n) n recursionLimit (view w' (w.nCircs + 1)).ops ctx = .ok ctx' ∧
          ctx'.qubits = ctx.qubits) ∧
      ∃ all, GatesDenote n (view w' (w.nCircs + 1)).ops all ∧ (∀ e ∈ all, e.Valid n) ∧
        (view w' (w.nCircs + 1)).n = n ∧ ∀ ψ, unitaries phDoc all ψ = ψ := by
  intro w w' n es hi hd hv hno ho
  obtain ⟨hops, hn⟩ := dagger_add_ops kit isAttr b reg h i hi hno
  obtain ⟨ds, h1, h2, h3, h4⟩ := daggerGates_denote _ es hd hno
  have hu : ∀ e ∈ es, e.IsUnitary := elems_unitary hd hno
  have hden : GatesDenote n (view w' (w.nCircs + 1)).ops (es ++ ds) := by
    show GatesDenote n (view (w.exec kit isAttr [.dagger i false false false, .add i w.nCircs]) (w.nCircs + 1)).ops _
    rw [hops]; exact gatesDenote_append hd h1
  have hva : ∀ e ∈ es ++ ds, e.Valid n := fun e he => by
    rcases List.mem_append.1 he with h | h
    · exact hv e h
    · exact h2 hv e h
  have hua : ∀ e ∈ es ++ ds, e.IsUnitary := fun e he => by
    rcases List.mem_append.1 he with h | h
    · exact hu e h
    · exact h3 hu e h
  refine ⟨?_, es ++ ds, hden, hva, hn, fun ψ => ?_⟩
  · intro ctx hq hb
    obtain ⟨q, buf, cr, sv, rnd⟩ := ctx
    simp only at hq hb
    obtain ⟨b', s', -, he⟩ := npRunGates_state _ (es ++ ds) hden hva hua (fun i => q.getD i 0) buf hb cr sv rnd
    rw [vec_of_list q hq] at he
    refine ⟨_, he, ?_⟩
    simp only [unitaries_append]
    rw [h4 phSim ph_neg_phSim hv ho, vec_of_list q hq]
  · rw [unitaries_append]; exact h4 phDoc ph_neg_phDoc hv ho ψ

/-- Hypotheses met: `Circuit().cx[(0, 1), (2, 3)].u2(a, b)[0]` (two pairs without a common qubit). -/
example (x y : ℝ) :
    let g : Gate := .g2 .cx (.tup [.tup [.int 0, .int 1], .tup [.int 2, .int 3]])
    GatesDenote 4 [g, on1 (.u2 x y) 0] [.two .cx 0 2, .two .cx 1 3, .one (.u2 x y) 0] ∧
      (∀ e ∈ [Elem.two .cx 0 2, .two .cx 1 3, .one (.u2 x y) 0], e.Valid 4) ∧ OrderFree 4 g ∧ ¬ NonUnitary g := by
  have hpd : PairsDenote ((4 : ℕ) : ℤ) (.tup [.tup [.int 0, .int 1], .tup [.int 2, .int 3]])
      ([(0, 2), (1, 3)].map (fun p : ℕ × ℕ => ((p.1 : Int), (p.2 : Int)))) := by
    rw [← pairsDenote_iff]; rfl
  refine ⟨⟨_, [.one (.u2 x y) 0], ⟨[(0, 2), (1, 3)], hpd, rfl⟩, ⟨[.one (.u2 x y) 0], [], ⟨[0], ?_, rfl⟩, rfl, rfl⟩, rfl⟩,
    by simp [Elem.Valid], ?_, fun h => h⟩
  · rw [← slicing_eq_iff]; rfl
  · intro L hL
    rw [← pairsDenote_iff] at hL hpd
    rw [hL] at hpd
    have hLL : L = [(0, 2), (1, 3)] := by
      have hinj : Function.Injective (fun p : ℕ × ℕ => ((p.1 : Int), (p.2 : Int))) := by
        intro a b hab; simp only [Prod.mk.injEq, Nat.cast_inj] at hab; exact Prod.ext hab.1 hab.2
      exact hinj.list_map (Except.ok.inj hpd)
    subst hLL
    simp [Exchangeable]

/-- C12 is false of the code: `Circuit().cx[0:2, 1:3]` applies CX(0,1) and then CX(1,2); its dagger applies them in
the same order. The basis state with qubit 0 set does not come back. -/
theorem C12_dagger_inverse_refuted : ¬ C12_full := by
  intro hall
  let g : Gate := .g2 .cx (.tup [.atom (.slice (some 0) (some 2) none), .atom (.slice (some 1) (some 3) none)])
  let h : List (Cmd Unit Unit Unit Unit) := [.new 0, .append 0 g]
  let w := demoStart.exec demoKit (fun _ => false) h
  have hv : (view w 0).ops = [g] ∧ (view w 0).n = 3 ∧ w.nCircs = 1 := by
    simp [w, h, g, World.exec, World.step, World.onCirc, World.alloc, demoStart, World.start, view, getMaximumIndex,
      maximumIdxSingle, maxOver, Gate.targets, Function.update, newQubits]
  obtain ⟨hops, hn, hc⟩ := hv
  have hi : 0 < w.nCircs := by omega
  have hno : ∀ g' ∈ (view w 0).ops, ¬ NonUnitary g' := by rw [hops]; simp [g, NonUnitary]
  have hpd : PairsDenote ((3 : ℕ) : ℤ) (.tup [.atom (.slice (some 0) (some 2) none), .atom (.slice (some 1) (some 3) none)])
      ([(0, 1), (1, 2)].map (fun p : ℕ × ℕ => ((p.1 : Int), (p.2 : Int)))) := by
    rw [← pairsDenote_iff]
    simp [qubitPairs, slicingItem, slicingSinglevalue, sliceIndices, loopUp, Gen.toList]
  have hd : GatesDenote (view w 0).n (view w 0).ops [.two .cx 0 1, .two .cx 1 2] := by
    rw [hops, hn]
    exact ⟨_, [], ⟨[(0, 1), (1, 2)], hpd, rfl⟩, rfl, rfl⟩
  have hval : ∀ e ∈ [Elem.two .cx 0 1, .two .cx 1 2], e.Valid (view w 0).n := by rw [hn]; simp [Elem.Valid]
  let ψ : Vec := fun i => if i = 1 then 1 else 0
  obtain ⟨ctx', h1, h2⟩ := hall Unit Unit Unit ℕ Unit (ℕ × ℕ) demoKit (fun _ => false) 0 demoReg h 0
    [.two .cx 0 1, .two .cx 1 2] hi hd hval hno ⟨vec 3 ψ, vec 3 ψ, [], true, fun _ => 0⟩
    (by show (vec 3 ψ).length = 2 ^ (view w 0).n; rw [hn]; simp [vec])
    (by show (vec 3 ψ).length = 2 ^ (view w 0).n; rw [hn]; simp [vec])
  obtain ⟨hadd, -⟩ := dagger_add_ops demoKit (fun _ => false) 0 demoReg h 0 hi hno
  have hw : (World.start 0 demoReg).exec demoKit (fun _ => false) h = w := rfl
  rw [hw] at h1 hadd
  rw [hadd, hops, hn] at h1
  have hden : GatesDenote 3 ([g] ++ [g].reverse.filterMap (fun g => g.dagger.toOption))
      [.two .cx 0 1, .two .cx 1 2, .two .cx 0 1, .two .cx 1 2] :=
    ⟨_, _, ⟨[(0, 1), (1, 2)], hpd, rfl⟩, ⟨_, [], ⟨[(0, 1), (1, 2)], hpd, rfl⟩, rfl, rfl⟩, rfl⟩
  obtain ⟨b', s', -, he⟩ := npRunGates_state _ _ hden (by simp [Elem.Valid]) (by simp [Elem.IsUnitary]) ψ (vec 3 ψ)
    (by simp [vec]) [] true (fun _ => 0)
  rw [he] at h1
  cases h1
  have h3 := congrArg (fun l => l.getD 1 0) h2
  simp [vec, unitaries, Elem.unitary, op2, ctrl, app, mX, flipBit, ψ, Nat.testBit] at h3

/-! ## C13 -/

theorem daggerGates_twice {n : ℕ} (gs : List Gate) : ∀ (es : List Elem), GatesDenote n gs es →
    (∀ g ∈ gs, ¬ NonUnitary g) →
    ∃ ds, GatesDenote n (gs.filterMap (fun g => g.dagger.toOption.bind (fun g' => g'.dagger.toOption))) ds ∧
      (∀ ph ψ, unitaries ph ds ψ = unitaries ph es ψ) ∧ ((∀ e ∈ es, e.Valid n) → ∀ e ∈ ds, e.Valid n) ∧
      ((∀ e ∈ es, e.IsUnitary) → ∀ e ∈ ds, e.IsUnitary) := by
  induction gs with
  | nil => intro es hd _; simp only [GatesDenote] at hd; subst hd; exact ⟨[], rfl, fun _ _ => rfl, by simp, by simp⟩
  | cons g gs ih =>
    rintro es ⟨e1, e2, h1, h2, rfl⟩ hnu
    obtain ⟨ds, hds, heq, hva, hun⟩ := ih e2 h2 (fun g hg => hnu g (by simp [hg]))
    obtain ⟨g', g'', hg', hg''⟩ : ∃ g' g'', g.dagger = .ok g' ∧ g'.dagger = .ok g'' := by
      have := hnu g (by simp)
      cases g <;> simp [NonUnitary, Gate.dagger] at this ⊢
    have hden := gateDenotes_dagger (gateDenotes_dagger h1 hg') hg''
    refine ⟨(e1.map Elem.inv).map Elem.inv ++ ds, ?_, ?_, ?_, ?_⟩
    · simp only [List.filterMap_cons, hg', hg'', Except.toOption, Option.bind]
      exact ⟨_, ds, hden, hds, rfl⟩
    · intro ph ψ
      rw [unitaries_append, unitaries_append, heq]
      congr 1
      clear hden h1
      induction e1 generalizing ψ with
      | nil => rfl
      | cons e es ih =>
        show unitaries ph _ (e.inv.inv.unitary ph ψ) = unitaries ph es (e.unitary ph ψ)
        rw [elem_inv_inv]; exact ih _
    · intro hv e he
      rcases List.mem_append.1 he with h | h
      · obtain ⟨f, hf, rfl⟩ := List.mem_map.1 h
        obtain ⟨f', hf', rfl⟩ := List.mem_map.1 hf
        exact (elem_inv_valid _).2 ((elem_inv_valid f').2 (hv f' (by simp [hf'])))
      · exact hva (fun e he => hv e (by simp [he])) e h
    · intro hv e he
      rcases List.mem_append.1 he with h | h
      · obtain ⟨f, hf, rfl⟩ := List.mem_map.1 h
        obtain ⟨f', hf', rfl⟩ := List.mem_map.1 hf
        have := hv f' (by simp [hf'])
        cases f' <;> simp [Elem.inv, Elem.IsUnitary] at this ⊢
      · exact hun (fun e he => hv e (by simp [he])) e h

/-- C13: taking the dagger twice gives a circuit of the same size whose operator is the same, for every circuit
without measurement and reset; on the numpy simulator both circuits take every state vector to the same one. -/
theorem C13_dagger_twice (b : B) (reg : Registry V M C) (h : List (Cmd V M C A)) (i : ℕ) :
    let w := (World.start b reg).exec kit isAttr h
    let w' := w.exec kit isAttr [.dagger i false false false, .dagger w.nCircs false false false]
    let n := (view w i).n
    i < w.nCircs → (∀ g ∈ (view w i).ops, ¬ NonUnitary g) →
      (view w' (w.nCircs + 1)).n = n ∧
      ∀ es, GatesDenote n (view w i).ops es →
        (∃ ds, GatesDenote n (view w' (w.nCircs + 1)).ops ds ∧ ∀ ph ψ, unitaries ph ds ψ = unitaries ph es ψ) ∧
        ((∀ e ∈ es, e.Valid n) → ∀ ctx : NpCtx, ctx.qubits.length = 2 ^ n → ctx.buf.length = 2 ^ n →
          ∃ c1 c2, runGates (npAction n) n recursionLimit (view w i).ops ctx = .ok c1 ∧
            runGates (npAction n) n recursionLimit (view w' (w.nCircs + 1)).ops ctx = .ok c2 ∧
            c1.qubits = c2.qubits) := by
  intro w w' n hi hno
  have hwf : w.WF := WF_exec kit isAttr (WF_start b reg) h
  obtain ⟨-, hv⟩ := C13_dagger_ops kit isAttr b reg h i false false false hi (.inr hno)
  have hn1 : (w.step kit isAttr (.dagger i false false false)).1.nCircs = w.nCircs + 1 := by
    have hd := (daggerOps_spec false (w.lists (w.circs i).ops).reverse).2
      (.inr (fun g hg => hno g (by simpa [view] using hg)))
    simp [World.step, World.onCirc, hi, hd, World.alloc]
  have hadd := C13_dagger_ops kit isAttr b reg (h ++ [.dagger i false false false]) w.nCircs false false false
  have hex : (World.start b reg).exec kit isAttr (h ++ [.dagger i false false false]) =
      (w.step kit isAttr (.dagger i false false false)).1 := by
    simp [World.exec, List.foldl_append, w]
  simp only [hex, hn1] at hadd
  have hv' : view (w.step kit isAttr (.dagger i false false false)).1 w.nCircs = _ := hv
  have hno' : ∀ g ∈ (view (w.step kit isAttr (.dagger i false false false)).1 w.nCircs).ops, ¬ NonUnitary g := by
    rw [hv']
    intro g hg
    obtain ⟨g0, hg0, hg1⟩ := List.mem_filterMap.1 hg
    cases g0 <;> simp [Gate.dagger, Except.toOption] at hg1 <;> subst hg1 <;> simp [NonUnitary]
  have h2 := (hadd (by omega) (.inr hno')).2
  have hw' : view w' (w.nCircs + 1) = _ := h2
  rw [hv'] at hw'
  have hops : (view w' (w.nCircs + 1)).ops =
      (view w i).ops.filterMap (fun g => g.dagger.toOption.bind (fun g' => g'.dagger.toOption)) := by
    rw [hw']
    simp only [← List.filterMap_reverse, List.reverse_reverse, List.filterMap_filterMap]
    rfl
  have hn : (view w' (w.nCircs + 1)).n = n := by rw [hw']
  refine ⟨hn, fun es hd => ?_⟩
  obtain ⟨ds, h3, h4, h5, h6⟩ := daggerGates_twice _ es hd hno
  rw [← hops] at h3
  refine ⟨⟨ds, h3, h4⟩, fun hva ctx hq hb => ?_⟩
  have hu := elems_unitary hd hno
  obtain ⟨q, buf, cr, sv, rnd⟩ := ctx
  simp only at hq hb
  obtain ⟨b1, s1, -, r1⟩ := npRunGates_state _ es hd hva hu (fun i => q.getD i 0) buf hb cr sv rnd
  obtain ⟨b2, s2, -, r2⟩ := npRunGates_state _ ds h3 (h5 hva) (h6 hu) (fun i => q.getD i 0) buf hb cr sv rnd
  rw [vec_of_list q hq] at r1 r2
  exact ⟨_, _, r1, r2, by simp only [h4]⟩

end

end Blueqat
