import Verif.NumbaCache
import Verif.WorldInv
import Verif.Spec.RunNumba
import Verif.Props.Registry

/-!
# C19: the numba cache
-/

set_option linter.unusedSimpArgs false
set_option linter.unusedVariables false

namespace Blueqat

open Spec

section
variable {V M C B R : Type}

theorem noInterrupt_args {c : Cmd V M C NbArgs} {a : NbArgs} (h : NoInterrupt c) (ha : c.args = some a) :
    a.interrupt = none := by
  cases c <;> simp only [Cmd.args, Option.some.injEq, reduceCtorEq] at ha <;> subst ha <;> exact h

theorem nbCache_rules (other : Kit C B NbArgs R) (isAttr : String → Bool) :
    InvRules (V := V) (M := M) (besideNumba other) isAttr (fun _ _ => True)
      (fun ops b => match b with | .inl be => NbCacheInv ops be | .inr _ => True)
      (fun _ c => NoDaggerCopy c ∧ NoInterrupt c) where
  new := fun _ => trivial
  newFrom := fun _ _ _ _ => trivial
  append := by intro w i g n ops _ _ _ _ _; cases getMaximumIndex g.targets <;> trivial
  add := fun _ _ _ _ _ _ => trivial
  dagger := fun _ _ _ _ _ _ => trivial
  make := by
    intro ops c
    cases c with
    | inl c => exact nbCacheInv_new ops
    | inr c => trivial
  ext := by
    intro a l b h
    cases b with
    | inl be => exact fun n => nbCacheOK_append l (h n)
    | inr b => trivial
  run := by
    intro w c ops n b a hc ha h
    cases b with
    | inl be => exact (nbRunArgs_spec n ops be h a (noInterrupt_args hc.2 ha)).1
    | inr b => trivial
  makeCache := by
    intro w c ops n b a hc ha h
    cases b with
    | inl be =>
      exact (nbRunArgs_spec n ops be h ⟨none, none, true, false, a.rnd, a.interrupt⟩
        (show a.interrupt = none from noInterrupt_args hc.2 ha)).1
    | inr b => trivial
  daggerQ := by intro w i ign cd ops l b h; simp [NoDaggerCopy] at h

/-- C19 (partial; missing: runs cut short by an asynchronous exception, for which it is refuted below, and
`dagger(copy_backends=True)`, where it fails as in C17): after any history of appends, runs with the cache enabled or
not that succeed or raise at whatever gate of whatever shot, `make_cache`, copies, concatenations, daggers,
registrations and other backends, a run of a circuit on its own numba backend, with the cache enabled or not,
returns exactly what a run of the same operations on a new object with `enable_cache=False` returns, errors
included, and leaves the same random numbers unused. -/
theorem C19_cache_invisible_partial (other : Kit C B NbArgs R) (isAttr : String → Bool) (b : NbBackend ⊕ B)
    (reg : Registry V M (Unit ⊕ C)) (h : List (Cmd V M (Unit ⊕ C) NbArgs))
    (hh : ∀ c ∈ h, NoDaggerCopy c ∧ NoInterrupt c)
    (j : ℕ) (explicit : Option String) (a : NbArgs) (ha : a.interrupt = none) :
    let w := (World.start b reg).exec (besideNumba other) isAttr h
    j < w.nCircs → OwnNumba w j (inForce explicit (view w j).dflt w.reg.dflt) →
      (w.step (besideNumba other) isAttr (.run j (selOf explicit) a)).2 =
        (freshNumba (view w j).n (view w j).ops a).map (fun r => Out.result (.inl r)) := by
  intro w hj hown
  have hok : ∀ (h : List (Cmd V M (Unit ⊕ C) NbArgs)) (w0 : World V M (Unit ⊕ C) (NbBackend ⊕ B)),
      (∀ c ∈ h, NoDaggerCopy c ∧ NoInterrupt c) →
        OkHist (besideNumba other) isAttr (fun _ c => NoDaggerCopy c ∧ NoInterrupt c) w0 h := by
    intro h
    induction h with
    | nil => intro _ _; trivial
    | cons c h ih => intro w0 hc; exact ⟨hc c (by simp), ih _ (fun c hc' => hc c (by simp [hc']))⟩
  have hall := allCircs_exec (nbCache_rules (V := V) (M := M) other isAttr) h _ (WF_start b reg)
    (allCircs_start b reg) (hok h _ hh)
  have hsel := C55_selection (besideNumba other) isAttr w j hj explicit a
  simp only at hsel
  have hmap : ∀ r : Except PyErr (NpVal × (ℕ → ℝ)), (Except.map Out.result (r.map Sum.inl) :
      Except PyErr (Out ((NpVal × (ℕ → ℝ)) ⊕ R))) = r.map (fun r => Out.result (.inl r)) := by
    intro r; cases r <;> rfl
  have hfresh : ∀ n ops, freshNumba n ops a = nbPlainRun n ops a := by
    intro n ops
    exact (nbRunArgs_spec n ops NbBackend.new (nbCacheInv_new ops) { a with enableCache := false } ha).2
  rw [hfresh]
  rcases hown with ⟨be, hbe⟩ | ⟨hn, hc⟩
  · rw [hsel.1 _ hbe]
    have hinv := (hall j hj).2 _ (PyDict.get_mem hbe)
    simp only [besideNumba]
    rw [hmap]
    show Except.map _ (nbRunArgs _ _ be a).2 = _
    rw [(nbRunArgs_spec _ _ be hinv a ha).2]
  · rw [hsel.2.1 hn _ hc]
    simp only [besideNumba]
    rw [hmap]
    show Except.map _ (nbRunArgs _ _ NbBackend.new a).2 = _
    rw [(nbRunArgs_spec _ _ NbBackend.new (nbCacheInv_new _) a ha).2]

end

/-! ## Concrete cases -/

/-- No other backend than numba. -/
def noKitNb : Kit Empty Empty NbArgs Empty := ⟨fun c => c, fun b => b, fun b => (nomatch b), fun b => (nomatch b)⟩

/-- Module tables with the numba backend only. -/
def nbReg : Registry Unit Unit (Unit ⊕ Empty) := ⟨[], [], [("numba", .inl ())], "numba"⟩

/-- Program start with numba only. -/
noncomputable def nbStart : World Unit Unit (Unit ⊕ Empty) (NbBackend ⊕ Empty) := World.start (.inl NbBackend.new) nbReg

/-- No run arguments. -/
def noArgsNb : NbArgs := ⟨none, none, true, false, fun _ => 0, none⟩

theorem nbRunGate_x_one (z w : ℂ) (cr : List ℕ) (r : ℕ → ℝ) :
    nbRunGate 1 (on1 .x 0) ⟨[z, w], cr, r⟩ = .ok ⟨[w, z], cr, r⟩ := by
  rfl

theorem stopsCache_x : (on1 .x 0).stopsCache = false := rfl

theorem stopsCache_measure (T : Targets) : (Gate.measure T).stopsCache = true := rfl

theorem nbP0_one (z w : ℂ) : nbP0 1 0 [z, w] = 0 + (z.re * z.re + z.im * z.im) := rfl

theorem nbRunGate_measure_one (c : ℕ) (z w : ℂ) (h : (z, w) = (0, 1) ∨ (z, w) = (1, 0)) (r : ℕ → ℝ) (hr : r = fun _ => 0) :
    nbRunGate 1 (.measure (.ofInt 0)) ⟨[z, w], [c], r⟩ = .ok ⟨[z, w], [if z = 0 then 1 else 0], r⟩ := by
  have hm : nbMeasureBody 1 0 ⟨[z, w], [c], r⟩ = .ok ⟨[z, w], [if z = 0 then 1 else 0], r⟩ := by
    simp only [nbMeasureBody, Int.toNat_zero, nbP0_one]
    subst hr
    rcases h with h | h <;> cases h
    · have e : ∀ x : ℂ, runIters (iters1 (insReduce1 x) 1 0) [0, 1] = [0, 1 * x] := fun _ => rfl
      simp [e, setCreg]
    · have e : ∀ x : ℂ, runIters (iters1 (insReduce0 x) 1 0) [1, 0] = [1 * x, 0] := fun _ => rfl
      simp [e, setCreg]
  have h0 : nbRunGate 1 (.measure (.ofInt 0)) ⟨[z, w], [c], r⟩ =
    forGen (slicing (.ofInt 0) 1) (nbMeasureBody 1) ⟨[z, w], [c], r⟩ := rfl
  have h1 : slicing (.ofInt 0) 1 = ⟨[0], none⟩ := rfl
  rw [h0, h1]
  simp [forGen, hm]

/-- `x[0].measure[0].x[0]`. -/
def xmx : List Gate := [on1 .x 0, .measure (.ofInt 0), on1 .x 0]

theorem nb_xmx (z w : ℂ) (h : (z, w) = (0, 1) ∨ (z, w) = (1, 0)) (c : ℕ) (cache : Option Arr) (save : Bool) (idx : ℤ) :
    nbGates 1 xmx ⟨⟨[z, w], [c], fun _ => 0⟩, save, cache, idx, none⟩ =
      (⟨⟨[z, w], [if w = 0 then 1 else 0], fun _ => 0⟩, false, if save then some [w, z] else cache,
        if save then idx + 1 else idx, none⟩, .ok ()) := by
  have h' : (w, z) = (0, 1) ∨ (w, z) = (1, 0) := by
    rcases h with h | h <;> cases h
    · exact .inr rfl
    · exact .inl rfl
  simp [xmx, nbGates, nbRunGate_x_one, nbRunGate_measure_one c w z h' _ rfl, stopsCache_x, stopsCache_measure]

theorem nb_xmx_interrupted :
    nbGates 1 xmx ⟨⟨[1, 0], [0], fun _ => 0⟩, true, none, -1, some 2⟩ =
      (⟨⟨[0, 1], [1], fun _ => 0⟩, false, some [0, 1], 0, some 0⟩, .error .keyboardInterrupt) := by
  simp [xmx, nbGates, nbRunGate_x_one, nbRunGate_measure_one 0 0 1 (.inl rfl) _ rfl, stopsCache_x, stopsCache_measure]

theorem fresh_xmx (en : Bool) : (nbRunArgs 1 xmx NbBackend.new { noArgsNb with enableCache := en }).2 =
    .ok (.statevector [1, 0], fun _ => 0) := by
  have h := nb_xmx 1 0 (.inr rfl) 0 none en (-1)
  have hp : nbPrepare 1 none ⟨[0, 0], [], fun _ => 0⟩ = .ok ⟨[1, 0], [0], fun _ => 0⟩ := rfl
  cases en <;>
    simp [nbRunArgs, nbParse, noArgsNb, nbReturnTypes, NbBackend.new, NbBackend.clearIfInvalid, nbShots, hp, h, npReturn]

theorem interrupted_xmx : nbRunArgs 1 xmx NbBackend.new { noArgsNb with interrupt := some 2 } =
    (⟨some [0, 1], -1⟩, .error .keyboardInterrupt) := by
  have h := nb_xmx_interrupted
  have hp : nbPrepare 1 none ⟨[0, 0], [], fun _ => 0⟩ = .ok ⟨[1, 0], [0], fun _ => 0⟩ := rfl
  simp [nbRunArgs, nbParse, noArgsNb, nbReturnTypes, NbBackend.new, NbBackend.clearIfInvalid, nbShots, hp, h, npReturn]

theorem stale_xmx : (nbRunArgs 1 xmx ⟨some [0, 1], -1⟩ noArgsNb).2 = .ok (.statevector [0, 1], fun _ => 0) := by
  have h := nb_xmx 0 1 (.inl rfl) 0 (some [0, 1]) true (-1)
  have hp : nbPrepare 1 (some [0, 1]) ⟨[0, 0], [], fun _ => 0⟩ = .ok ⟨[0, 1], [0], fun _ => 0⟩ := by simp [nbPrepare]
  simp [nbRunArgs, nbParse, noArgsNb, nbReturnTypes, NbBackend.new, NbBackend.clearIfInvalid, nbShots, hp, h, npReturn]

/-- C19 (refuted for interrupted runs): `c = Circuit(1).x[0].measure[0].x[0]`, a first `c.run()` that the user
interrupts (KeyboardInterrupt) after the measurement, caught by the user, and a second `c.run()`, which returns
`[0, 1]` where the circuit gives `[1, 0]`: the measurement stored the state in `cache` while `cache_idx` was not
advanced. -/
theorem C19_interrupt_refuted :
    ∃ (h : List (Cmd Unit Unit (Unit ⊕ Empty) NbArgs)) (j : ℕ),
      let w := nbStart.exec (besideNumba noKitNb) (fun _ => false) h
      (∀ c ∈ h, NoDaggerCopy c) ∧ j < w.nCircs ∧ OwnNumba w j "numba" ∧
      (w.step (besideNumba noKitNb) (fun _ => false) (.run j .none noArgsNb)).2 ≠
        (freshNumba (view w j).n (view w j).ops noArgsNb).map (fun r => Out.result (.inl r)) := by
  let h0 : List (Cmd Unit Unit (Unit ⊕ Empty) NbArgs) :=
    [.new 1, .append 0 (on1 .x 0), .append 0 (.measure (.ofInt 0)), .append 0 (on1 .x 0)]
  let w0 := nbStart.exec (besideNumba noKitNb) (fun _ => false) h0
  let c1 : Cmd Unit Unit (Unit ⊕ Empty) NbArgs := .run 0 .none { noArgsNb with interrupt := some 2 }
  let w1 := (w0.step (besideNumba noKitNb) (fun _ => false) c1).1
  have hw1 : nbStart.exec (besideNumba noKitNb) (fun _ => false) (h0 ++ [c1]) = w1 := rfl
  have hbes : (view w1 0).bes = [("numba", .inl (nbRunArgs 1 xmx NbBackend.new { noArgsNb with interrupt := some 2 }).1)] := rfl
  have hn : (view w1 0).n = 1 := rfl
  have hops : (view w1 0).ops = xmx := rfl
  refine ⟨h0 ++ [c1], 0, ?_⟩
  simp only [hw1]
  refine ⟨by simp [h0, c1, NoDaggerCopy], Nat.one_pos, .inl ⟨_, by rw [hbes]; rfl⟩, ?_⟩
  have hsel := (C55_selection (besideNumba noKitNb) (fun _ => false) w1 0 Nat.one_pos none noArgsNb).1
    (.inl ⟨some [0, 1], -1⟩) (by rw [hbes, interrupted_xmx]; rfl)
  have hf : freshNumba 1 xmx noArgsNb = .ok (.statevector [1, 0], fun _ => 0) := fresh_xmx false
  rw [hn, hops, hf]
  have hs : (w1.step (besideNumba noKitNb) (fun _ => false) (.run 0 .none noArgsNb)).2 =
      Except.map Out.result (Except.map Sum.inl (nbRunArgs 1 xmx ⟨some [0, 1], -1⟩ noArgsNb).2) := hsel
  rw [hs, stale_xmx]
  intro hc
  simp only [Except.map, Except.ok.injEq, Out.result.injEq, Sum.inl.injEq, Prod.mk.injEq,
    NpVal.statevector.injEq, List.cons.injEq] at hc
  exact zero_ne_one hc.1.1

/-- A history as in C19: a gate, a run that fills the cache, a gate, a run with `enable_cache=False`, an invalid
gate, a run that raises. -/
example :
    let h : List (Cmd Unit Unit (Unit ⊕ Empty) NbArgs) :=
      [.new 1, .append 0 (on1 .x 0), .run 0 .none noArgsNb, .append 0 (.g3 .ccz (.ofInt 0))]
    let w := nbStart.exec (besideNumba noKitNb) (fun _ => false) h
    (∀ c ∈ h, NoDaggerCopy c ∧ NoInterrupt c) ∧ 0 < w.nCircs ∧ OwnNumba w 0 "numba" ∧
      (view w 0).bes = [("numba", .inl ⟨some [0, 1], 0⟩)] ∧
      (w.step (besideNumba noKitNb) (fun _ => false) (.run 0 .none noArgsNb)).2 = .error .typeError := by
  intro h w
  have hb : (view w 0).bes = [("numba", .inl ⟨some [0, 1], 0⟩)] := by rfl
  refine ⟨?_, ?_, .inl ⟨⟨some [0, 1], 0⟩, ?_⟩, hb, rfl⟩
  · simp [h, NoDaggerCopy, NoInterrupt, noArgsNb]
  · exact Nat.one_pos
  · rw [hb]; rfl

end Blueqat
