import Verif.NpCache
import Verif.NpShared
import Verif.WorldInv
import Verif.Spec.Run
import Verif.Props.Registry

/-!
# C17, C18, C20: the numpy cache
-/

set_option linter.unusedSimpArgs false
set_option linter.unusedVariables false

namespace Blueqat

open Spec

section
variable {V M C B R : Type}

theorem cache_rules (other : Kit C B RunArgs R) (isAttr : String → Bool) :
    InvRules (V := V) (M := M) (beside other) isAttr (fun _ _ => True)
      (fun ops b => match b with | .inl be => CacheInv ops be | .inr _ => True) (fun _ c => NoDaggerCopy c) where
  new := fun _ => trivial
  newFrom := fun _ _ _ _ => trivial
  append := by intro w i g n ops _ _ _ _ _; cases getMaximumIndex g.targets <;> trivial
  add := fun _ _ _ _ _ _ => trivial
  dagger := fun _ _ _ _ _ _ => trivial
  make := by
    intro ops c
    cases c with
    | inl c => exact cacheInv_of_ok (cacheOK_new 0 ops)
    | inr c => trivial
  ext := by
    intro a l b h
    cases b with
    | inl be => exact fun n => cacheOK_append l (h n)
    | inr b => trivial
  run := by
    intro w c ops n b a _ _ h
    cases b with
    | inl be => exact (npRunArgs_spec n ops be h a).1
    | inr b => trivial
  makeCache := by
    intro w c ops n b a _ _ h
    cases b with
    | inl be => exact (npRunArgs_spec n ops be h ⟨none, none, false, a.rnd⟩).1
    | inr b => trivial
  daggerQ := by intro w i ign cd ops l b h; simp [NoDaggerCopy] at h

/-- C17: after any history (appends, runs that succeed or raise, `make_cache`, copies, concatenations, daggers
without `copy_backends`, registrations, other backends, ...) a run of a circuit on its own numpy backend, chosen
by name or by default, returns exactly what a run of the same operations without any cache returns, errors
included, and leaves the same random numbers unused. -/
theorem C17_cache_invisible (other : Kit C B RunArgs R) (isAttr : String → Bool) (b : NpBackend ⊕ B)
    (reg : Registry V M (Unit ⊕ C)) (h : List (Cmd V M (Unit ⊕ C) RunArgs)) (hh : ∀ c ∈ h, NoDaggerCopy c)
    (j : ℕ) (explicit : Option String) (a : RunArgs) :
    let w := (World.start b reg).exec (beside other) isAttr h
    j < w.nCircs → OwnNumpy w j (inForce explicit (view w j).dflt w.reg.dflt) →
      (w.step (beside other) isAttr (.run j (selOf explicit) a)).2 =
        (freshRun (view w j).n (view w j).ops a).map (fun r => Out.result (.inl r)) := by
  intro w hj hown
  have hok : ∀ (h : List (Cmd V M (Unit ⊕ C) RunArgs)) (w0 : World V M (Unit ⊕ C) (NpBackend ⊕ B)),
      (∀ c ∈ h, NoDaggerCopy c) → OkHist (beside other) isAttr (fun _ c => NoDaggerCopy c) w0 h := by
    intro h
    induction h with
    | nil => intro _ _; trivial
    | cons c h ih => intro w0 hc; exact ⟨hc c (by simp), ih _ (fun c hc' => hc c (by simp [hc']))⟩
  have hall := allCircs_exec (cache_rules (V := V) (M := M) other isAttr) h _ (WF_start b reg) (allCircs_start b reg)
    (hok h _ hh)
  have hsel := C55_selection (beside other) isAttr w j hj explicit a
  simp only at hsel
  have hmap : ∀ r : Except PyErr (NpVal × (ℕ → ℝ)), (Except.map Out.result (r.map Sum.inl) :
      Except PyErr (Out ((NpVal × (ℕ → ℝ)) ⊕ R))) = r.map (fun r => Out.result (.inl r)) := by
    intro r; cases r <;> rfl
  rcases hown with ⟨be, hbe⟩ | ⟨hn, hc⟩
  · rw [hsel.1 _ hbe]
    have hinv := (hall j hj).2 _ (PyDict.get_mem hbe)
    simp only [beside]
    rw [hmap]
    show Except.map _ (npRunArgs _ _ be a).2 = _
    rw [(npRunArgs_spec _ _ be hinv a).2]; rfl
  · rw [hsel.2.1 hn _ hc]
    simp only [beside]
    rw [hmap]; rfl

/-- C18: in particular, if a run raises (at whatever gate of whatever shot) later runs are still as without a
cache, whatever is done in between. -/
theorem C18_failed_run (other : Kit C B RunArgs R) (isAttr : String → Bool) (b : NpBackend ⊕ B)
    (reg : Registry V M (Unit ⊕ C)) (h h' : List (Cmd V M (Unit ⊕ C) RunArgs))
    (hh : ∀ c ∈ h, NoDaggerCopy c) (hh' : ∀ c ∈ h', NoDaggerCopy c) (i j : ℕ) (sel : Sel) (a a' : RunArgs)
    (e : PyErr) (explicit : Option String) :
    let w := (World.start b reg).exec (beside other) isAttr h
    (w.step (beside other) isAttr (.run i sel a)).2 = .error e →
    let w' := (w.step (beside other) isAttr (.run i sel a)).1.exec (beside other) isAttr h'
    j < w'.nCircs → OwnNumpy w' j (inForce explicit (view w' j).dflt w'.reg.dflt) →
      (w'.step (beside other) isAttr (.run j (selOf explicit) a')).2 =
        (freshRun (view w' j).n (view w' j).ops a').map (fun r => Out.result (.inl r)) := by
  intro w _ w'
  have hw : w' = (World.start b reg).exec (beside other) isAttr (h ++ .run i sel a :: h') := by
    simp only [w', w, World.exec, List.foldl_append, List.foldl_cons]
  rw [hw]
  refine C17_cache_invisible other isAttr b reg (h ++ .run i sel a :: h') ?_ j explicit a'
  intro c hc
  simp only [List.mem_append, List.mem_cons] at hc
  rcases hc with hc | rfl | hc
  · exact hh c hc
  · trivial
  · exact hh' c hc

end

/-! ## Concrete cases -/

theorem npRunGate_x_one (z w u v : ℂ) (cr : List ℕ) (s : Bool) (r : ℕ → ℝ) :
    npRunGate 1 (on1 .x 0) ⟨[z, w], [u, v], cr, s, r⟩ = .ok ⟨[w, z], [z, w], cr, s, r⟩ := by
  rfl

theorem npRunGate_y_one (z w u v : ℂ) (cr : List ℕ) (s : Bool) (r : ℕ → ℝ) :
    npRunGate 1 (on1 .y 0) ⟨[z, w], [u, v], cr, s, r⟩ =
      .ok ⟨[-1 * Complex.I * w, 1 * Complex.I * z], [z, w], cr, s, r⟩ := by
  rfl

theorem npRunGate_z_one (z w u v : ℂ) (cr : List ℕ) (s : Bool) (r : ℕ → ℝ) :
    npRunGate 1 (on1 .z 0) ⟨[z, w], [u, v], cr, s, r⟩ = .ok ⟨[z, w * (-1)], [u, v], cr, s, r⟩ := by
  rfl

/-- No other backend than numpy. -/
def noKit : Kit Empty Empty RunArgs Empty := ⟨fun c => c, fun b => b, fun b => (nomatch b), fun b => (nomatch b)⟩

/-- Module tables with the numpy backend only. -/
def npReg : Registry Unit Unit (Unit ⊕ Empty) := ⟨[], [], [("numpy", .inl ())], "numpy"⟩

/-- Program start with numpy only. -/
noncomputable def npStart : World Unit Unit (Unit ⊕ Empty) (NpBackend ⊕ Empty) := World.start (.inl NpBackend.new) npReg

/-- No run arguments. -/
def noArgs : RunArgs := ⟨none, none, false, fun _ => 0⟩

theorem fresh_x : npRunArgs 1 [on1 .x 0] NpBackend.new noArgs =
    (⟨some [0, 1], 0⟩, .ok (.statevector [0, 1], fun _ => 0)) := by rfl

theorem fresh_z : npRunArgs 1 [on1 .z 0] NpBackend.new noArgs =
    (⟨some [1, 0 * (-1)], 0⟩, .ok (.statevector [1, 0 * (-1)], fun _ => 0)) := by rfl

theorem stale_z : npRunArgs 1 [on1 .z 0] ⟨some [0, 1], 0⟩ noArgs =
    (⟨some [0, 1], 0⟩, .ok (.statevector [0, 1], fun _ => 0)) := by rfl

theorem fresh_yz : npRunArgs 1 [on1 .y 0, on1 .z 0] NpBackend.new noArgs =
    (⟨some [-1 * Complex.I * 0, 1 * Complex.I * 1 * (-1)], 1⟩,
      .ok (.statevector [-1 * Complex.I * 0, 1 * Complex.I * 1 * (-1)], fun _ => 0)) := by rfl

theorem fresh_zy : npRunArgs 1 [on1 .z 0, on1 .y 0] NpBackend.new noArgs =
    (⟨some [-1 * Complex.I * (0 * (-1)), 1 * Complex.I * 1], 1⟩,
      .ok (.statevector [-1 * Complex.I * (0 * (-1)), 1 * Complex.I * 1], fun _ => 0)) := by rfl

theorem stale_zy (q : Arr) (h : q.length = 2) : npRunArgs 1 [on1 .z 0, on1 .y 0] ⟨some q, 1⟩ noArgs =
    (⟨some q, 1⟩, .ok (.statevector q, fun _ => 0)) := by
  match q, h with
  | [a, b], _ => rfl

/-- After `x[0]`, a run (which fills the cache), and `y[0]`, the circuit's numpy object holds a cache for the
first gate, and the hypotheses of C17 hold. -/
example :
    let h : List (Cmd Unit Unit (Unit ⊕ Empty) RunArgs) :=
      [.new 1, .append 0 (on1 .x 0), .run 0 .none noArgs, .append 0 (on1 .y 0)]
    let w := npStart.exec (beside noKit) (fun _ => false) h
    (∀ c ∈ h, NoDaggerCopy c) ∧ 0 < w.nCircs ∧ OwnNumpy w 0 "numpy" ∧
      (view w 0).bes = [("numpy", .inl ⟨some [0, 1], 0⟩)] ∧ (view w 0).ops = [on1 .x 0, on1 .y 0] := by
  intro h w
  have hb : (view w 0).bes = [("numpy", .inl ⟨some [0, 1], 0⟩)] := by rfl
  refine ⟨?_, ?_, .inl ⟨⟨some [0, 1], 0⟩, ?_⟩, hb, rfl⟩
  · simp [h, NoDaggerCopy]
  · exact Nat.one_pos
  · rw [hb]; rfl

/-- A run that raises after a gate has been cached (`c.x[0].ccz[0]`, TypeError), as in C18. -/
example :
    let h : List (Cmd Unit Unit (Unit ⊕ Empty) RunArgs) :=
      [.new 1, .append 0 (on1 .x 0), .append 0 (.g3 .ccz (.ofInt 0))]
    let w := npStart.exec (beside noKit) (fun _ => false) h
    (w.step (beside noKit) (fun _ => false) (.run 0 .none noArgs)).2 = .error .typeError ∧
    (view (w.step (beside noKit) (fun _ => false) (.run 0 .none noArgs)).1 0).bes =
      [("numpy", .inl ⟨some [0, 1], 0⟩)] := by
  exact ⟨rfl, rfl⟩

/-- C17 (refuted for `dagger(copy_backends=True)`): the dagger then inherits the cache of the forward circuit.
Witness: `c = Circuit(1).y[0].z[0]; c.run(); d = c.dagger(copy_backends=True); d.run()`. -/
theorem C17_dagger_copy_backends_refuted :
    ∃ (h : List (Cmd Unit Unit (Unit ⊕ Empty) RunArgs)) (j : ℕ),
      let w := npStart.exec (beside noKit) (fun _ => false) h
      j < w.nCircs ∧ OwnNumpy w j "numpy" ∧
      (w.step (beside noKit) (fun _ => false) (.run j .none noArgs)).2 ≠
        (freshRun (view w j).n (view w j).ops noArgs).map (fun r => Out.result (.inl r)) := by
  refine ⟨[.new 1, .append 0 (on1 .y 0), .append 0 (on1 .z 0), .run 0 .none noArgs, .dagger 0 false true true], 1,
    ?_, ?_, ?_⟩
  · exact Nat.one_lt_two
  · exact .inl ⟨_, rfl⟩
  · have h1 : ((npStart.exec (beside noKit) (fun _ => false) [.new 1, .append 0 (on1 .y 0), .append 0 (on1 .z 0),
        .run 0 .none noArgs, .dagger 0 false true true]).step (beside noKit) (fun _ => false) (.run 1 .none noArgs)).2 =
        .ok (.result (.inl (.statevector [-1 * Complex.I * 0, 1 * Complex.I * 1 * (-1)], fun _ => 0))) := by rfl
    have h2 : (freshRun (view (npStart.exec (beside noKit) (fun _ => false) [.new 1, .append 0 (on1 .y 0),
        .append 0 (on1 .z 0), .run 0 .none noArgs, .dagger 0 false true true]) 1).n
        (view (npStart.exec (beside noKit) (fun _ => false) [.new 1, .append 0 (on1 .y 0),
        .append 0 (on1 .z 0), .run 0 .none noArgs, .dagger 0 false true true]) 1).ops noArgs) =
        .ok (.statevector [-1 * Complex.I * (0 * (-1)), 1 * Complex.I * 1], fun _ => 0) := by rfl
    intro hc
    simp only [h1, h2, Except.map, Except.ok.injEq, Out.result.injEq, Sum.inl.injEq, Prod.mk.injEq,
      NpVal.statevector.injEq, List.cons.injEq] at hc
    have := hc.1.2.1
    simp only [one_mul, mul_one, mul_neg] at this
    have h3 : (Complex.I : ℂ) = 0 := by linear_combination (-1 / 2 : ℂ) * this
    exact Complex.I_ne_zero h3

/-! ## C20 -/

/-- C20 (refuted): one backend object used for two circuits of the same size. Witness:
`be = NumPyBackend(); a = Circuit(1).x[0]; b = Circuit(1).z[0]; a.run(backend=be); b.run(backend=be)` returns
the state of `a`. -/
theorem C20_shared_backend_refuted :
    ∃ (h : List (Cmd Unit Unit (Unit ⊕ Empty) RunArgs)) (j k : ℕ),
      let w := npStart.exec (beside noKit) (fun _ => false) h
      j < w.nCircs ∧ k < w.insts.length ∧
      (w.step (beside noKit) (fun _ => false) (.run j (.inst k) noArgs)).2 ≠
        (freshRun (view w j).n (view w j).ops noArgs).map (fun r => Out.result (.inl r)) := by
  refine ⟨[.new 1, .append 0 (on1 .x 0), .new 1, .append 1 (on1 .z 0), .newBackend (.inl ()),
    .run 0 (.inst 0) noArgs], 1, 0, ?_, ?_, ?_⟩
  · exact Nat.one_lt_two
  · exact Nat.one_pos
  · have h1 : ((npStart.exec (beside noKit) (fun _ => false) [.new 1, .append 0 (on1 .x 0), .new 1,
        .append 1 (on1 .z 0), .newBackend (.inl ()), .run 0 (.inst 0) noArgs]).step (beside noKit) (fun _ => false)
        (.run 1 (.inst 0) noArgs)).2 = .ok (.result (.inl (.statevector [0, 1], fun _ => 0))) := by rfl
    have h2 : (freshRun (view (npStart.exec (beside noKit) (fun _ => false) [.new 1, .append 0 (on1 .x 0), .new 1,
        .append 1 (on1 .z 0), .newBackend (.inl ()), .run 0 (.inst 0) noArgs]) 1).n
        (view (npStart.exec (beside noKit) (fun _ => false) [.new 1, .append 0 (on1 .x 0), .new 1,
        .append 1 (on1 .z 0), .newBackend (.inl ()), .run 0 (.inst 0) noArgs]) 1).ops noArgs) =
        .ok (.statevector [1, 0 * (-1)], fun _ => 0) := by rfl
    intro hc
    simp only [h1, h2, Except.map, Except.ok.injEq, Out.result.injEq, Sum.inl.injEq, Prod.mk.injEq,
      NpVal.statevector.injEq, List.cons.injEq] at hc
    exact zero_ne_one hc.1.1

/-- One run request on a shared backend object: size and operations of the circuit, and the arguments. -/
structure Job where
  n : ℕ
  ops : List Gate
  args : RunArgs

/-- Running jobs one after the other on one object; the results in order. -/
noncomputable def runJobs (be : NpBackend) : List Job → List (Except PyErr (NpVal × (ℕ → ℝ)))
  | [] => []
  | j :: js => (npRunArgs j.n j.ops be j.args).2 :: runJobs (npRunArgs j.n j.ops be j.args).1 js

/-- C20 (partial; missing: circuits of the same size that do not extend each other, see the refutation): one
backend object gives each of any number of circuits its own result, errors included, provided any two of them
have different sizes or the later one starts with the operations of the earlier one. -/
theorem C20_shared_backend_partial (js : List Job)
    (h : js.Pairwise (fun a b => a.n ≠ b.n ∨ a.ops <+: b.ops)) :
    runJobs NpBackend.new js = js.map (fun j => freshRun j.n j.ops j.args) := by
  have key : ∀ (js : List Job) (be : NpBackend), js.Pairwise (fun a b => a.n ≠ b.n ∨ a.ops <+: b.ops) →
      (∀ j ∈ js, CacheOK j.n j.ops (be.clearIfInvalid j.n)) →
      runJobs be js = js.map (fun j => freshRun j.n j.ops j.args) := by
    intro js
    induction js with
    | nil => intro be _ _; rfl
    | cons j js ih =>
      intro be hp hc
      rw [List.pairwise_cons] at hp
      have hnew : CacheOK j.n j.ops (NpBackend.new.clearIfInvalid j.n) := .inl ⟨rfl, rfl⟩
      have hj := hc j (by simp)
      -- one run from a cache that is right for this size
      have hone : ∀ be : NpBackend, CacheOK j.n j.ops (be.clearIfInvalid j.n) →
          ((npRunArgs j.n j.ops be j.args).1 = be ∨ CacheOK j.n j.ops (npRunArgs j.n j.ops be j.args).1) ∧
          (npRunArgs j.n j.ops be j.args).2 = freshRun j.n j.ops j.args := by
        intro be hb
        have hclear : (be.clearIfInvalid j.n).clearIfInvalid j.n = be.clearIfInvalid j.n := by
          rcases be with ⟨_ | q, i⟩
          · rfl
          · by_cases hq : q.length = 2 ^ j.n <;> simp [NpBackend.clearIfInvalid, hq]
        have hrun : ∀ s, npRun j.n j.ops s be j.args.rnd = npRun j.n j.ops s (be.clearIfInvalid j.n) j.args.rnd := by
          intro s; simp only [npRun, hclear]
        constructor
        · simp only [npRunArgs]
          cases hp : npParse j.args.shots j.args.returns with
          | error e => exact .inl rfl
          | ok p =>
            right
            obtain ⟨s, ret⟩ := p
            have h1 := (npShots_spec j.n j.ops s.toNat (be.clearIfInvalid j.n) (npNewCtx j.n j.args.rnd) []
              (by simp [NpCtx.Wf, npNewCtx]) hb).1
            change CacheOK j.n j.ops (npRun j.n j.ops s.toNat be j.args.rnd).1 at h1
            rcases hr : npRun j.n j.ops s.toNat be j.args.rnd with ⟨b1, r1⟩
            rw [hr] at h1
            cases r1 <;> simpa [hr] using h1
        · have h1 := (npRunArgs_spec j.n j.ops (be.clearIfInvalid j.n) (cacheInv_of_ok hb) j.args).2
          rw [freshRun, ← h1]
          simp only [npRunArgs]
          cases hp : npParse j.args.shots j.args.returns with
          | error e => rfl
          | ok p =>
            simp only [hrun]
      simp only [runJobs, List.map_cons]
      rw [(hone be hj).2]
      congr 1
      refine ih _ hp.2 (fun k hk => ?_)
      rcases (hone be hj).1 with he | hok
      · rw [he]; exact hc k (by simp [hk])
      · rcases hp.1 k hk with hn | hpre
        · refine cacheInv_of_ok hok k.n |>.elim (fun h => .inl h) ?_
          rintro ⟨m, q, h1, h2, h3, h4, h5⟩
          exfalso
          rcases hok with ⟨g1, g2⟩ | ⟨m', q', g1, g2, g3, g4, g5⟩
          · simp [NpBackend.clearIfInvalid, g1] at h1
          · have : (2 : ℕ) ^ j.n ≠ 2 ^ k.n := fun h => hn (Nat.pow_right_injective le_rfl h)
            simp [NpBackend.clearIfInvalid, g1, g4, this] at h1
        · obtain ⟨l, hl⟩ := hpre
          rw [← hl]
          exact cacheOK_append l (cacheInv_of_ok hok k.n)
  exact key js _ h (fun j _ => .inl ⟨rfl, rfl⟩)

/-- Three jobs that satisfy the condition: the second extends the first, the third has another size. -/
example : List.Pairwise (fun a b : Job => a.n ≠ b.n ∨ a.ops <+: b.ops)
    [⟨1, [on1 .x 0], noArgs⟩, ⟨1, [on1 .x 0, on1 .z 0], noArgs⟩, ⟨2, [on1 .h 1], noArgs⟩] := by
  simp

/-- The operations that a run really executes on an object that last ran `n` qubits and holds the state after `L`:
for a circuit of the same size, those of `L` and then those of the circuit from position `|L|` on. -/
def effective (n : ℕ) (L : List Gate) (j : Job) : List Gate :=
  if n = j.n then L ++ j.ops.drop L.length else j.ops

/-- The results of runs without any cache of the operations really executed. -/
noncomputable def mixedRuns : ℕ → List Gate → List Job → List (Except PyErr (NpVal × (ℕ → ℝ)))
  | _, _, [] => []
  | n, L, j :: js => freshRun j.n (effective n L j) j.args :: mixedRuns j.n (unitaryPart (effective n L j)) js

/-- C20 (what a shared object does instead): for any circuits run one after the other on one new object, with at
least one shot each and without errors, each run gives the result of the mixed circuit: the operations before the
first measurement or reset that the object executed last, then its own operations from that position on (its own
operations alone if the size has changed). -/
theorem C20_mixture (js : List Job) (hs : ∀ j ∈ js, ∀ s, j.args.shots = some s → 1 ≤ s)
    (hok : ∀ r ∈ mixedRuns 0 [] js, ∃ x, r = .ok x) : runJobs NpBackend.new js = mixedRuns 0 [] js := by
  have key : ∀ (js : List Job) (n : ℕ) (L : List Gate) (be : NpBackend), HoldsState n L be →
      L.all (fun g => !g.isMeas) = true → (∀ j ∈ js, ∀ s, j.args.shots = some s → 1 ≤ s) →
      (∀ r ∈ mixedRuns n L js, ∃ x, r = .ok x) → runJobs be js = mixedRuns n L js := by
    intro js
    induction js with
    | nil => intro n L be _ _ _ _; rfl
    | cons j js ih =>
      intro n L be hb hL hs hok
      obtain ⟨x, hx⟩ := hok _ (by simp only [mixedRuns, List.mem_cons]; exact .inl rfl)
      obtain ⟨h1, h2⟩ := npRunArgs_shared n j.n L j.ops be j.args hb hL (hs j (by simp)) (effective n L j) rfl x hx
      simp only [runJobs, mixedRuns, h1, hx]
      congr 1
      refine ih _ _ _ h2 ?_ (fun k hk => hs k (by simp [hk])) (fun r hr => hok r ?_)
      · rw [unitaryPart_eq]; exact List.all_takeWhile
      · simp only [mixedRuns, List.mem_cons]; exact .inr hr
  exact key js 0 [] NpBackend.new ⟨.inl ⟨rfl, rfl⟩, rfl⟩ rfl hs hok

/-- C20 (two circuits of the same size, the first without measurement or reset): the second run executes the
operations of the first circuit and then its own from that position on. In particular a circuit that is not longer
gets the state of the first one, whatever its operations are. -/
theorem C20_second (n : ℕ) (a b : List Gate) (ha : ∀ g ∈ a, ¬ NonUnitary g) (ra rb : RunArgs)
    (hra : ∀ s, ra.shots = some s → 1 ≤ s) (hrb : ∀ s, rb.shots = some s → 1 ≤ s) (x y : NpVal × (ℕ → ℝ))
    (hx : freshRun n a ra = .ok x) (hy : freshRun n (a ++ b.drop a.length) rb = .ok y) :
    runJobs NpBackend.new [⟨n, a, ra⟩, ⟨n, b, rb⟩] = [.ok x, .ok y] ∧
      (b.length ≤ a.length → freshRun n a rb = .ok y) := by
  have hu : unitaryPart a = a := by
    clear hx hy
    induction a with
    | nil => rfl
    | cons g a ih =>
      have h1 := ih (fun g hg => ha g (by simp [hg]))
      have h2 := ha g (by simp)
      cases g <;> simp_all [unitaryPart, NonUnitary]
  have he : effective 0 [] ⟨n, a, ra⟩ = a := by simp [effective]
  have hm : mixedRuns 0 [] [⟨n, a, ra⟩, ⟨n, b, rb⟩] = [.ok x, .ok y] := by
    simp only [mixedRuns, he, hu, hx]
    simp [effective, hy]
  refine ⟨?_, fun hl => ?_⟩
  · rw [C20_mixture _ (by rintro j hj; simp only [List.mem_cons, List.mem_nil_iff, or_false] at hj; rcases hj with rfl | rfl <;> assumption) ?_, hm]
    rw [hm]
    intro r hr
    simp only [List.mem_cons, List.mem_nil_iff, or_false] at hr
    rcases hr with rfl | rfl <;> exact ⟨_, rfl⟩
  · rw [List.drop_eq_nil_of_le hl, List.append_nil] at hy; exact hy

/-- `x` and then `z` on one object: the second run executes `x` alone. -/
example : runJobs NpBackend.new [⟨1, [on1 .x 0], noArgs⟩, ⟨1, [on1 .z 0], noArgs⟩] =
    [.ok (.statevector [0, 1], fun _ => 0), .ok (.statevector [0, 1], fun _ => 0)] :=
  (C20_second 1 [on1 .x 0] [on1 .z 0] (by simp [on1, NonUnitary]) noArgs noArgs (by simp [noArgs]) (by simp [noArgs]) _ _
    (by rw [freshRun, fresh_x]) (by rw [List.drop_eq_nil_of_le (by simp), List.append_nil, freshRun, fresh_x])).1

end Blueqat
