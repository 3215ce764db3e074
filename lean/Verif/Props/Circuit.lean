import Verif.WorldLemmas
import Verif.AppendLemmas

/-!
# Properties of circuit objects: appending, sharing, concatenation, dagger, `Ops`

All theorems are about arbitrary histories of client actions, with any backends (`kit`), any module tables
and any `hasattr` table.
-/

set_option linter.unusedSimpArgs false
set_option linter.unusedVariables false

namespace Blueqat

open Spec

section
variable {V M C B A R : Type} (kit : Kit C B A R) (isAttr : String → Bool)

/-- A tiny backend for the examples: its state counts the runs, the result is state and number of gates. -/
def demoKit : Kit Unit ℕ Unit (ℕ × ℕ) :=
  ⟨fun _ => 0, fun _ => (), fun b gs _ _ => (b + 1, .ok (b, gs.length)), fun b _ _ _ => (b + 1, .ok ())⟩

/-- Module tables for the examples: one backend named numpy. -/
def demoReg : Registry Unit Unit Unit := ⟨[], [], [("numpy", ())], "numpy"⟩

/-- Start of the example programs. -/
def demoStart : World Unit Unit Unit ℕ := World.start 0 demoReg

/-! ## C04 -/

/-- C04: appending a gate with a well-formed subscript succeeds, adds exactly that operation at the end, keeps
everything else, and grows the register to the least size that contains every mentioned index. -/
theorem C04_append (w : World V M C B) (i : ℕ) (hi : i < w.nCircs) (g : Gate) (hg : Plain g.targets) :
    (w.step kit isAttr (.append i g)).2 = .ok (.circuit i) ∧
    ∃ m, GrownTo (view w i).n g.targets m ∧
      view (w.step kit isAttr (.append i g)).1 i =
        ⟨(view w i).ops ++ [g], m, (view w i).dflt, (view w i).bes⟩ := by
  obtain ⟨v, hv⟩ := getMaximumIndex_plain hg
  simp only [World.step, World.onCirc, hi, if_true, hv, true_and]
  exact ⟨newQubits v (w.circs i).n, newQubits_grown hv _, by simp [view]⟩

/-- C04: no action ever shrinks a register or removes or changes an operation of an existing circuit. -/
theorem C04_monotone (b : B) (reg : Registry V M C) (h : List (Cmd V M C A)) (c : Cmd V M C A) (j : ℕ) :
    let w := (World.start b reg).exec kit isAttr h
    j < w.nCircs →
      (view w j).n ≤ (view (w.step kit isAttr c).1 j).n ∧
      (view w j).ops <+: (view (w.step kit isAttr c).1 j).ops := by
  intro w hj
  have hwf : w.WF := WF_exec kit isAttr (WF_start b reg) h
  have hfr := frame_step kit isAttr hwf c
  by_cases hr : receiver c = some j
  · have hrun : ∀ (w' : World V M C B) (name : String) (a : ℕ), w.getBackend kit j name = .ok (w', a) →
        (view w' j).n = (view w j).n ∧ (view w' j).ops = (view w j).ops := by
      intro w' name a hg
      obtain ⟨-, -, -, h4, h5⟩ := frame_getBackend hwf hj hg
      exact ⟨h5, h4⟩
    have hsame : ∀ w' : World V M C B, ((view w' j).n = (view w j).n ∧ (view w' j).ops = (view w j).ops) →
        (view w j).n ≤ (view w' j).n ∧ (view w j).ops <+: (view w' j).ops := by
      rintro w' ⟨e1, e2⟩; rw [e1, e2]; exact ⟨le_rfl, List.prefix_rfl⟩
    cases c <;> simp only [receiver, Option.some.injEq, reduceCtorEq] at hr <;> subst hr
    case append i g =>
      simp only [World.step, World.onCirc, hj, if_true]
      cases hv : getMaximumIndex g.targets with
      | error e => simp [view]
      | ok v =>
        refine ⟨?_, ?_⟩
        · have := (newQubits_grown hv (w.circs i).n).1.1
          simpa [view] using this
        · simp [view]
    case appendCtorError i e => simp [World.step, World.onCirc, hj]
    case iadd i k =>
      simp only [World.step, World.onCirc, hj, if_true]
      split_ifs
      · simp [World.extend, view]
      · simp
    case run i sel a =>
      apply hsame
      simp only [World.step, World.onCirc, hj, if_true]
      cases sel with
      | none =>
        simp only
        cases hg : w.getBackend kit i (w.dfltName i) with
        | error e => simp
        | ok p => simpa [World.runAt, view] using hrun _ _ _ hg
      | name s =>
        simp only
        cases hg : w.getBackend kit i s with
        | error e => simp
        | ok p => simpa [World.runAt, view] using hrun _ _ _ hg
      | inst k =>
        simp only
        cases w.insts[k]? <;> simp [World.runAt, view]
    case runWith i s a =>
      apply hsame
      simp only [World.step, World.onCirc, hj, if_true]
      split_ifs
      · cases hg : w.getBackend kit i s with
        | error e => simp
        | ok p => simpa [World.runAt, view] using hrun _ _ _ hg
      · simp
    case makeCache i s a =>
      apply hsame
      simp only [World.step, World.onCirc, hj, if_true]
      cases hg : w.getBackend kit i (s.getD (w.dfltName i)) with
      | error e => simp
      | ok p => simpa [view] using hrun _ _ _ hg
    case setDefault i s =>
      apply hsame
      simp only [World.step, World.onCirc, hj, if_true]
      cases s with
      | none => simp
      | some s => simp only; split_ifs <;> simp [view]
  · rw [hfr.same j hj hr]; exact ⟨le_rfl, List.prefix_rfl⟩

/-- `c.x[1, -1, 2:5]` on a one-qubit circuit grows it to 5 qubits. -/
example : let w := (demoStart.exec demoKit (fun _ => false) [.new 1])
    0 < w.nCircs ∧ Plain (.tup [.atom (.int 1), .atom (.int (-1)), .atom (.slice (some 2) (some 5) none)]) ∧
    GrownTo 1 (.tup [.atom (.int 1), .atom (.int (-1)), .atom (.slice (some 2) (some 5) none)]) 5 := by
  refine ⟨by simp [World.exec, World.step, World.alloc, demoStart, World.start], by simp [Plain], ?_⟩
  constructor
  · simp [mentions, atomsOf, atomMentions]
  · rintro m ⟨h1, h2⟩
    have := h2 4 (by simp [mentions, atomsOf, atomMentions]); omega

/-! ## C05 -/

/-- C05 (refuted): an append that raises can leave the rejected operation in the circuit. Witness:
`c.x[1.5]` on a fresh circuit raises AttributeError and yet stores the operation. -/
theorem C05_atomic_append_refuted :
    ∃ (h : List (Cmd Unit Unit Unit Unit)) (i : ℕ) (g : Gate),
      let w := demoStart.exec demoKit (fun _ => false) h
      i < w.nCircs ∧ (w.step demoKit (fun _ => false) (.append i g)).2 = .error .attributeError ∧
      (view (w.step demoKit (fun _ => false) (.append i g)).1 i).ops ≠ (view w i).ops := by
  refine ⟨[.new 2], 0, .g1 .x (.one .bad), ?_, ?_, ?_⟩
  · simp [World.exec, World.step, World.alloc, demoStart, World.start]
  · simp [World.exec, World.step, World.alloc, demoStart, World.start, World.onCirc, getMaximumIndex, Gate.targets,
      maximumIdxSingle]
  · simp [World.exec, World.step, World.alloc, demoStart, World.start, World.onCirc, getMaximumIndex, Gate.targets,
      maximumIdxSingle, view]

/-- C05 (partial; missing: the stored operation itself, see the refutation): when an append raises, the error is
the constructor's, and then nothing at all changes, or an AttributeError for a subscript that is not made of
integers and slices; in the latter case size, default and backends are unchanged, and apart from one operation
at the end the operations too. -/
theorem C05_rejected_append_partial (w : World V M C B) (i : ℕ) (hi : i < w.nCircs) :
    (∀ e, (w.step kit isAttr (.appendCtorError i e)).1 = w ∧
      (w.step kit isAttr (.appendCtorError i e)).2 = .error e) ∧
    (∀ g, ((∃ e, (w.step kit isAttr (.append i g)).2 = .error e) ↔ ¬ Plain g.targets) ∧
      (¬ Plain g.targets → (w.step kit isAttr (.append i g)).2 = .error .attributeError ∧
        view (w.step kit isAttr (.append i g)).1 i =
          ⟨(view w i).ops ++ [g], (view w i).n, (view w i).dflt, (view w i).bes⟩)) := by
  refine ⟨fun e => by simp [World.step, World.onCirc, hi], fun g => ?_⟩
  simp only [World.step, World.onCirc, hi, if_true]
  cases hv : getMaximumIndex g.targets with
  | error e =>
    have hp : ¬ Plain g.targets := fun hp => by
      obtain ⟨v, hv'⟩ := getMaximumIndex_plain hp; rw [hv] at hv'; cases hv'
    have := getMaximumIndex_error hv
    subst this
    simp [hp, view]
  | ok v => simp [(getMaximumIndex_ok hv).1]

example : Plain (.one (.int 3)) ∧ ¬ Plain (.tup [.tup [.int 0, .int 1], .tup [.int 2, .int 3]]) := by
  simp [Plain]

/-! ## C06 -/

/-- C06: whatever happened before, an action changes at most the circuit it is called on: operations, size,
default backend and backend states of every other existing circuit stay as they are. In particular `copy`, `+`,
`dagger` change no existing circuit and `a += b` changes only `a`. -/
theorem C06_isolation (b : B) (reg : Registry V M C) (h : List (Cmd V M C A)) (c : Cmd V M C A) (j : ℕ) :
    let w := (World.start b reg).exec kit isAttr h
    j < w.nCircs → receiver c ≠ some j → view (w.step kit isAttr c).1 j = view w j := by
  intro w hj hr
  exact (frame_step kit isAttr (WF_exec kit isAttr (WF_start b reg) h) c).same j hj hr

/-- C06: over a whole history: actions on other circuits, any number of them, leave circuit `j` alone. -/
theorem C06_isolation_history (b : B) (reg : Registry V M C) (h h' : List (Cmd V M C A)) (j : ℕ) :
    let w := (World.start b reg).exec kit isAttr h
    j < w.nCircs → (∀ c ∈ h', receiver c ≠ some j) → view (w.exec kit isAttr h') j = view w j := by
  intro w hj hr
  have hwf : w.WF := WF_exec kit isAttr (WF_start b reg) h
  clear_value w
  induction h' generalizing w with
  | nil => rfl
  | cons c h' ih =>
    have hf := frame_step kit isAttr hwf c
    have := ih (w := (w.step kit isAttr c).1) (hj.trans_le hf.le) (fun c hc => hr c (by simp [hc])) hf.wf
    exact this.trans (hf.same j hj (hr c (by simp)))

/-- What a run of circuit `j` with a backend chosen by name or default returns is determined by the observable
part of the circuit and by the module tables. -/
theorem run_of_view {w1 w2 : World V M C B} (j : ℕ) (h1 : j < w1.nCircs) (h2 : j < w2.nCircs)
    (hv : view w1 j = view w2 j) (hr : w1.reg = w2.reg) (sel : Sel) (hs : ∀ k, sel ≠ .inst k) (a : A) :
    (w1.step kit isAttr (.run j sel a)).2 = (w2.step kit isAttr (.run j sel a)).2 := by
  simp only [view, CircView.mk.injEq] at hv
  obtain ⟨e1, e2, e3, e4⟩ := hv
  have key : ∀ name, (match w1.getBackend kit j name with
      | .error e => (w1, (.error e : Except PyErr (Out R)))
      | .ok (w, addr) => w.runAt kit j addr a).2 =
      (match w2.getBackend kit j name with
      | .error e => (w2, (.error e : Except PyErr (Out R)))
      | .ok (w, addr) => w.runAt kit j addr a).2 := by
    intro name
    have hget : ∀ (d1 d2 : PyDict String ℕ), d1.map (fun p => (p.1, w1.bes p.2)) = d2.map (fun p => (p.1, w2.bes p.2)) →
        (d1.get name).map w1.bes = (d2.get name).map w2.bes := by
      intro d1
      induction d1 with
      | nil => intro d2 h; cases d2 <;> simp_all [PyDict.get]
      | cons p d1 ih =>
        intro d2 h
        cases d2 with
        | nil => simp at h
        | cons q d2 =>
          simp only [List.map_cons, List.cons.injEq, Prod.mk.injEq] at h
          obtain ⟨⟨ha, hb⟩, h⟩ := h
          obtain ⟨p1, p2⟩ := p
          obtain ⟨q1, q2⟩ := q
          simp only at ha hb
          subst ha
          simp only [PyDict.get]
          split_ifs
          · simp [hb]
          · exact ih d2 h
    have hh := hget _ _ e4
    simp only [World.getBackend]
    cases g1 : (w1.circs j).bes.get name with
    | some x =>
      cases g2 : (w2.circs j).bes.get name with
      | none => rw [g1, g2] at hh; cases hh
      | some y =>
        rw [g1, g2] at hh
        simp only [Option.map_some, Option.some.injEq] at hh
        simp only [World.runAt, hh, e1, e2]
    | none =>
      cases g2 : (w2.circs j).bes.get name with
      | some y => rw [g1, g2] at hh; cases hh
      | none =>
        simp only [hr]
        cases w2.reg.backends.get name with
        | none => rfl
        | some c => simp [World.runAt, e1, e2]
  simp only [World.step, World.onCirc, h1, h2, if_true]
  cases sel with
  | none =>
    have hd : w1.dfltName j = w2.dfltName j := by simp [World.dfltName, e3, hr]
    simp only [hd]
    exact key _
  | name s => exact key s
  | inst k => exact absurd rfl (hs k)

theorem reg_exec (h : List (Cmd V M C A)) : ∀ w : World V M C B, (∀ c ∈ h, touchesTables c = false) →
    (w.exec kit isAttr h).reg = w.reg := by
  have hcopy : ∀ (d : PyDict String ℕ) (w : World V M C B), (w.copyBes d).1.reg = w.reg := by
    intro d w; rw [(copyBes_spec d w).1]
  have hgb : ∀ (w w' : World V M C B) (i : ℕ) (s : String) (a : ℕ), w.getBackend kit i s = .ok (w', a) →
      w'.reg = w.reg := by
    intro w w' i s a hg
    simp only [World.getBackend] at hg
    split at hg
    · simp at hg; rw [hg.1]
    · split at hg
      · simp at hg
      · simp at hg; rw [← hg.1]
  have hcc : ∀ (w : World V M C B) i cb cd, (w.copyCirc i cb cd).reg = w.reg := by
    intro w i cb cd
    cases cb <;> simp [World.copyCirc, World.alloc, hcopy]
  have hstep : ∀ (w : World V M C B) (c : Cmd V M C A), touchesTables c = false →
      (w.step kit isAttr c).1.reg = w.reg := by
    intro w c hc
    have hon : ∀ (i : ℕ) (r : World V M C B × Except PyErr (Out R)), r.1.reg = w.reg →
        (w.onCirc i r).1.reg = w.reg := by
      intro i r hr; simp only [World.onCirc]; split_ifs <;> simp [hr]
    cases c <;> simp only [touchesTables, Bool.true_eq_false] at hc
    case new n => rfl
    case newFrom => rfl
    case append i g =>
      refine hon i _ ?_
      cases getMaximumIndex g.targets <;> rfl
    case appendCtorError => exact hon _ _ rfl
    case copy => exact hon _ _ (hcc _ _ _ _)
    case add i j => exact hon _ _ (hon _ _ (hcc w i true true))
    case iadd => exact hon _ _ (hon _ _ rfl)
    case dagger i ign cb cd =>
      refine hon i _ ?_
      cases daggerOps ign (w.lists (w.circs i).ops).reverse with
      | error e => rfl
      | ok ops => cases cb <;> simp [World.alloc, hcopy]
    case run i sel a =>
      refine hon i _ ?_
      cases sel with
      | none =>
        simp only
        cases hg : w.getBackend kit i (w.dfltName i) with
        | error e => rfl
        | ok p => exact hgb _ p.1 _ _ p.2 hg
      | name s =>
        simp only
        cases hg : w.getBackend kit i s with
        | error e => rfl
        | ok p => exact hgb _ p.1 _ _ p.2 hg
      | inst k => simp only; cases w.insts[k]? <;> rfl
    case runWith i s a =>
      refine hon i _ ?_
      split_ifs
      · cases hg : w.getBackend kit i s with
        | error e => rfl
        | ok p => exact hgb _ p.1 _ _ p.2 hg
      · rfl
    case makeCache i s a =>
      refine hon i _ ?_
      cases hg : w.getBackend kit i (s.getD (w.dfltName i)) with
      | error e => rfl
      | ok p => exact hgb _ p.1 _ _ p.2 hg
    case setDefault i s =>
      refine hon i _ ?_
      cases s with
      | none => rfl
      | some s => simp only; split_ifs <;> rfl
    case newBackend => rfl
  induction h with
  | nil => intro w _; rfl
  | cons c h ih =>
    intro w hc
    exact (ih _ (fun c hc' => hc c (by simp [hc']))).trans (hstep w c (hc c (by simp)))

/-- C06: what a run of circuit `j` returns is not affected by any actions on other circuits in between (the
module tables, which all circuits share by design, being left alone). -/
theorem C06_results (b : B) (reg : Registry V M C) (h h' : List (Cmd V M C A)) (j : ℕ) (sel : Sel)
    (hs : ∀ k, sel ≠ .inst k) (a : A) :
    let w := (World.start b reg).exec kit isAttr h
    j < w.nCircs → (∀ c ∈ h', receiver c ≠ some j ∧ touchesTables c = false) →
      ((w.exec kit isAttr h').step kit isAttr (.run j sel a)).2 = (w.step kit isAttr (.run j sel a)).2 := by
  intro w hj hr
  have hle : ∀ (l : List (Cmd V M C A)) (w : World V M C B), w.WF → w.nCircs ≤ (w.exec kit isAttr l).nCircs := by
    intro l
    induction l with
    | nil => intro w _; exact le_rfl
    | cons c l ih =>
      intro w hw
      have hf := frame_step kit isAttr hw c
      exact hf.le.trans (ih _ hf.wf)
  have hwf : w.WF := WF_exec kit isAttr (WF_start b reg) h
  refine run_of_view kit isAttr j (hj.trans_le (hle h' w hwf)) hj ?_ ?_ sel hs a
  · exact C06_isolation_history kit isAttr b reg h h' j hj (fun c hc => (hr c hc).1)
  · exact reg_exec kit isAttr h' w (fun c hc => (hr c hc).2)

/-- C06: `copy` makes a new circuit that looks like the original. -/
theorem C06_copy (b : B) (reg : Registry V M C) (h : List (Cmd V M C A)) (i : ℕ) (cb cd : Bool) :
    let w := (World.start b reg).exec kit isAttr h
    i < w.nCircs →
      (w.step kit isAttr (.copy i cb cd)).2 = .ok (.circuit w.nCircs) ∧
      view (w.step kit isAttr (.copy i cb cd)).1 w.nCircs =
        ⟨(view w i).ops, (view w i).n, if cd then (view w i).dflt else none, if cb then (view w i).bes else []⟩ := by
  intro w hi
  have hwf : w.WF := WF_exec kit isAttr (WF_start b reg) h
  simp only [World.step, World.onCirc, hi, if_true, true_and, World.copyCirc]
  rw [view_allocCopy hwf i hi]
  cases cd <;> rfl

/-- Two circuits, the second a copy of the first; appending to and running the copy leaves the first alone. -/
example :
    let w := demoStart.exec demoKit (fun _ => false) [.new 2, .append 0 (on1 .x 0), .copy 0 true true,
      .append 1 (on1 .h 1), .run 1 .none ()]
    0 < w.nCircs ∧ (view w 0).ops = [on1 .x 0] ∧ (view w 1).ops = [on1 .x 0, on1 .h 1] ∧
      (view w 0).bes = [] ∧ (view w 1).bes = [("numpy", 1)] := by
  simp [World.exec, World.step, World.onCirc, World.alloc, World.copyCirc, World.copyBes, demoStart, World.start,
    view, getMaximumIndex, maximumIdxSingle, Gate.targets, on1, Targets.ofInt, World.getBackend, World.dfltName,
    World.runAt, demoKit, demoReg, PyDict.get, PyDict.set, Function.update]

/-! ## C07 (structure) -/

/-- C07: `a + b` is a new circuit with `a`'s operations followed by `b`'s, on as many qubits as the larger one. -/
theorem C07_add_ops (b : B) (reg : Registry V M C) (h : List (Cmd V M C A)) (i j : ℕ) :
    let w := (World.start b reg).exec kit isAttr h
    i < w.nCircs → j < w.nCircs →
      (w.step kit isAttr (.add i j)).2 = .ok (.circuit w.nCircs) ∧
      view (w.step kit isAttr (.add i j)).1 w.nCircs =
        ⟨(view w i).ops ++ (view w j).ops, max (view w i).n (view w j).n, (view w i).dflt, (view w i).bes⟩ := by
  intro w hi hj
  have hwf : w.WF := WF_exec kit isAttr (WF_start b reg) h
  have hf := frame_copyCirc hwf i true true
  have hvj := hf.same j hj (by simp)
  have hv : view (w.copyCirc i true true) w.nCircs = view w i := by
    exact view_allocCopy hwf i hi true _ _ _
  simp only [World.step, World.onCirc, hi, hj, if_true, true_and]
  simp only [view, CircView.mk.injEq] at hv hvj
  obtain ⟨a1, a2, a3, a4⟩ := hv
  obtain ⟨b1, b2, b3, b4⟩ := hvj
  simp only [view, World.extend, Function.update_self, CircView.mk.injEq, a1, a2, a3, b1, b2, true_and]
  exact a4

/-- C07: `a += b` appends `b`'s operations to `a` (also for `a += a`). -/
theorem C07_iadd_ops (w : World V M C B) (i j : ℕ) (hi : i < w.nCircs) (hj : j < w.nCircs) :
    (w.step kit isAttr (.iadd i j)).2 = .ok (.circuit i) ∧
      view (w.step kit isAttr (.iadd i j)).1 i =
        ⟨(view w i).ops ++ (view w j).ops, max (view w i).n (view w j).n, (view w i).dflt, (view w i).bes⟩ := by
  simp [World.step, World.onCirc, hi, hj, World.extend, view]

/-! ## C13 (structure) -/

theorem daggerOps_spec (ign : Bool) (l : List Gate) :
    (ign = false → (∃ g ∈ l, NonUnitary g) → daggerOps ign l = .error .valueError) ∧
    ((ign = true ∨ ∀ g ∈ l, ¬ NonUnitary g) →
      daggerOps ign l = .ok (l.filterMap (fun g => g.dagger.toOption))) := by
  induction l with
  | nil => simp [daggerOps]
  | cons g l ih =>
    constructor
    · intro hi hex
      cases g with
      | measure T => simp [daggerOps, Gate.dagger, hi]
      | reset T => simp [daggerOps, Gate.dagger, hi]
      | g1 k T =>
        have := ih.1 hi (by simpa [NonUnitary] using hex)
        simp [daggerOps, Gate.dagger, this]
      | g2 k T =>
        have := ih.1 hi (by simpa [NonUnitary] using hex)
        simp [daggerOps, Gate.dagger, this]
      | g3 k T =>
        have := ih.1 hi (by simpa [NonUnitary] using hex)
        simp [daggerOps, Gate.dagger, this]
    · intro h
      have := ih.2 (by rcases h with h | h; exact .inl h; exact .inr (fun g hg => h g (by simp [hg])))
      cases g with
      | measure T =>
        have hi : ign = true := by rcases h with h | h; exact h; exact absurd trivial (h (.measure T) (by simp))
        subst hi
        simpa [daggerOps, Gate.dagger, Except.toOption] using this
      | reset T =>
        have hi : ign = true := by rcases h with h | h; exact h; exact absurd trivial (h (.reset T) (by simp))
        subst hi
        simpa [daggerOps, Gate.dagger, Except.toOption] using this
      | g1 k T => simp [daggerOps, Gate.dagger, this, Except.toOption]
      | g2 k T => simp [daggerOps, Gate.dagger, this, Except.toOption]
      | g3 k T => simp [daggerOps, Gate.dagger, this, Except.toOption]

/-- C13: `dagger()` raises exactly when the circuit contains a measurement or a reset; the error is ValueError
and nothing changes. -/
theorem C13_dagger_raises (w : World V M C B) (i : ℕ) (hi : i < w.nCircs) (cb cd : Bool) :
    ((∃ e, (w.step kit isAttr (.dagger i false cb cd)).2 = .error e) ↔ ∃ g ∈ (view w i).ops, NonUnitary g) ∧
    ((∃ g ∈ (view w i).ops, NonUnitary g) →
      (w.step kit isAttr (.dagger i false cb cd)) = (w, .error .valueError)) := by
  simp only [World.step, World.onCirc, hi, if_true, view]
  by_cases h : ∃ g ∈ w.lists (w.circs i).ops, NonUnitary g
  · have := (daggerOps_spec false (w.lists (w.circs i).ops).reverse).1 rfl (by simpa using h)
    simp [this, h]
  · have h' : ∀ g ∈ (w.lists (w.circs i).ops).reverse, ¬ NonUnitary g := by
      intro g hg hn; exact h ⟨g, by simpa using hg, hn⟩
    have := (daggerOps_spec false (w.lists (w.circs i).ops).reverse).2 (.inr h')
    simp [this, h]

/-- C13: `dagger(ignore_measurement=True)` never raises; the new circuit has, in reverse order, the dagger of
each operation that is neither a measurement nor a reset, on the same number of qubits. Without measurement or
reset `dagger()` does the same. -/
theorem C13_dagger_ops (b : B) (reg : Registry V M C) (h : List (Cmd V M C A)) (i : ℕ) (ign cb cd : Bool) :
    let w := (World.start b reg).exec kit isAttr h
    i < w.nCircs → (ign = true ∨ ∀ g ∈ (view w i).ops, ¬ NonUnitary g) →
      (w.step kit isAttr (.dagger i ign cb cd)).2 = .ok (.circuit w.nCircs) ∧
      view (w.step kit isAttr (.dagger i ign cb cd)).1 w.nCircs =
        ⟨(view w i).ops.reverse.filterMap (fun g => g.dagger.toOption), (view w i).n,
          if cd then (view w i).dflt else none, if cb then (view w i).bes else []⟩ := by
  intro w hi hno
  have hwf : w.WF := WF_exec kit isAttr (WF_start b reg) h
  have hd := (daggerOps_spec ign (w.lists (w.circs i).ops).reverse).2
    (by rcases hno with h | h; exact .inl h; exact .inr (fun g hg => h g (by simpa [view] using hg)))
  simp only [World.step, World.onCirc, hi, if_true, hd, true_and]
  rw [view_allocCopy hwf i hi]
  cases cd <;> rfl

/-- A circuit with a measurement, as in C13. -/
example :
    let w := demoStart.exec demoKit (fun _ => false) [.new 1, .append 0 (on1 .s 0), .append 0 (.measure (.ofInt 0))]
    0 < w.nCircs ∧ (∃ g ∈ (view w 0).ops, NonUnitary g) ∧
      (view w 0).ops.reverse.filterMap (fun g => g.dagger.toOption) = [on1 .sdg 0] := by
  simp [World.exec, World.step, World.onCirc, World.alloc, demoStart, World.start, view, getMaximumIndex,
    maximumIdxSingle, Gate.targets, on1, Targets.ofInt, Function.update, NonUnitary, Gate.dagger, Except.toOption,
    G1.dagger]

/-! ## C61 -/

/-- C61: an `Ops` value and a circuit that mirror each other still do after the same append; the append is
accepted by both or raises the same error in both (the circuit then keeps the operation, see C05). -/
theorem C61_append (w : World V M C B) (i : ℕ) (o : OpsVal) (h : Mirrors w i o) (g : Gate) :
    (∀ o', o.append g = .ok o' →
      (w.step kit isAttr (.append i g)).2 = .ok (.circuit i) ∧ Mirrors (w.step kit isAttr (.append i g)).1 i o') ∧
    (∀ e, o.append g = .error e ↔ (w.step kit isAttr (.append i g)).2 = .error e) := by
  obtain ⟨hi, h1, h2⟩ := h
  simp only [view] at h1 h2
  simp only [OpsVal.append, World.step, World.onCirc, hi, if_true]
  cases hv : getMaximumIndex g.targets with
  | error e => simp
  | ok v => simp [Mirrors, view, hi, h1, h2]

/-- C61: the same for `+`, whose result mirrors the new circuit. -/
theorem C61_add (b : B) (reg : Registry V M C) (h : List (Cmd V M C A)) (i j : ℕ) (o p : OpsVal) :
    let w := (World.start b reg).exec kit isAttr h
    Mirrors w i o → Mirrors w j p → Mirrors (w.step kit isAttr (.add i j)).1 w.nCircs (o.add p) := by
  intro w hi hj
  have := (C07_add_ops kit isAttr b reg h i j hi.1 hj.1).2
  have hle := (frame_step kit isAttr (WF_exec kit isAttr (WF_start b reg) h) (.add i j)).le
  refine ⟨?_, ?_, ?_⟩
  · show w.nCircs < (w.step kit isAttr (.add i j)).1.nCircs
    simp only [World.step, World.onCirc, hi.1, hj.1, if_true]
    simp only [World.extend, copyCirc_nCircs]; omega
  · rw [this]; simp only [OpsVal.add]; rw [hi.2.1, hj.2.1]
  · rw [this]; simp only [OpsVal.add]; rw [hi.2.2, hj.2.2]

/-- C61: the same for `dagger`, including when it raises. -/
theorem C61_dagger (b : B) (reg : Registry V M C) (h : List (Cmd V M C A)) (i : ℕ) (o : OpsVal) (cb cd : Bool) :
    let w := (World.start b reg).exec kit isAttr h
    Mirrors w i o →
      (∀ o', o.dagger = .ok o' → Mirrors (w.step kit isAttr (.dagger i false cb cd)).1 w.nCircs o') ∧
      (∀ e, o.dagger = .error e ↔ (w.step kit isAttr (.dagger i false cb cd)).2 = .error e) := by
  intro w hi
  have hwf : w.WF := WF_exec kit isAttr (WF_start b reg) h
  obtain ⟨hi, h1, h2⟩ := hi
  simp only [view] at h1 h2
  simp only [OpsVal.dagger, World.step, World.onCirc, hi, if_true, ← h1]
  cases hd : daggerOps false (w.lists (w.circs i).ops).reverse with
  | error e => simp
  | ok ops =>
    simp only [Except.ok.injEq, reduceCtorEq, implies_true, and_true, forall_eq', false_iff, not_false_iff]
    refine ⟨?_, ?_, ?_⟩
    · have : ∀ (x : World V M C B) n l d e, (x.alloc n l d e).nCircs = x.nCircs + 1 := fun _ _ _ _ _ => rfl
      simp only [this, copyBes_nCircs]; omega
    · rw [view_allocCopy hwf i hi]
    · rw [view_allocCopy hwf i hi]; exact h2

/-- C61: `Ops(n)` mirrors `Circuit(n)`, and `to_circuit()` mirrors the value it is called on; every other
`Ops` value and circuit is unaffected (values are immutable, circuits by C06). -/
theorem C61_to_circuit (w : World V M C B) (n : ℕ) (o : OpsVal) :
    Mirrors (w.step kit isAttr (.new n)).1 w.nCircs ⟨n, []⟩ ∧
    Mirrors (w.step kit isAttr (.newFrom o.n o.ops)).1 w.nCircs o := by
  simp [Mirrors, World.step, World.alloc, view]

/-- `Ops(2).h[0].cx[0, 4]` -/
example : (OpsVal.append ⟨2, [on1 .h 0]⟩ (on2 .cx 0 4)) = .ok ⟨5, [on1 .h 0, on2 .cx 0 4]⟩ := by
  simp [OpsVal.append, on2, Targets.ofPair, Gate.targets, getMaximumIndex, maxOver, maximumIdxSingle, newQubits]

end

end Blueqat
