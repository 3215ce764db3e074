import Verif.Spec.Program
import Verif.Props.Generated
import Verif.Props.NpCache
import Verif.Props.NumbaCache
import Verif.Props.Calls
import Verif.Props.Numba
import Verif.Props.Sympy
import Verif.Props.Qasm

/-!
# C109: programs with the initial backends
-/

set_option linter.unusedSimpArgs false
set_option linter.unusedVariables false

namespace Blueqat

open Spec

/-- The cache of a standard object fits the operations. -/
def StdInv (ops : List Gate) : StdObj → Prop
  | .numpy be => CacheInv ops be
  | .numba be => NbCacheInv ops be
  | _ => True

theorem stdInv_make (ops : List Gate) (c : StdClass) : StdInv ops (StdObj.make c) := by
  cases c
  · exact cacheInv_of_ok (cacheOK_new 0 ops)
  · exact nbCacheInv_new ops
  · trivial
  · trivial

theorem clear_clear (be : NpBackend) (n : ℕ) : ∀ gates, CacheInv gates be → CacheInv gates (be.clearIfInvalid n) :=
  fun gates h => cacheInv_of_ok (h n)

theorem npRunCall_inv (n : ℕ) (gates : List Gate) (be : NpBackend) (h : CacheInv gates be) (c : PyCall) (rnd : ℕ → ℝ) :
    CacheInv gates (npRunCall n gates be c rnd).1 ∧
      (npRunCall n gates be c rnd).2 = (npRunCall n gates NpBackend.new c rnd).2 := by
  unfold npRunCall
  split_ifs with hc
  · exact ⟨h, rfl⟩
  · split
    · exact ⟨h, rfl⟩
    · split
      · exact ⟨h, rfl⟩
      · split
        · exact npRunArgs_spec n gates be h _
        · split_ifs
          · exact ⟨h, rfl⟩
          · exact ⟨clear_clear be n gates h, rfl⟩
          · exact ⟨h, rfl⟩
    · exact ⟨h, rfl⟩

theorem nbRunCall_inv (n : ℕ) (gates : List Gate) (be : NbBackend) (h : NbCacheInv gates be) (c : PyCall) (rnd : ℕ → ℝ) :
    NbCacheInv gates (nbRunCall n gates be c rnd none).1 ∧
      (nbRunCall n gates be c rnd none).2 = (nbRunCall n gates NbBackend.new c rnd none).2 := by
  unfold nbRunCall
  split_ifs with hc
  · exact ⟨h, rfl⟩
  · split
    · exact ⟨h, rfl⟩
    · split
      · exact ⟨h, rfl⟩
      · split
        · refine ⟨(nbRunArgs_spec n gates be h _ rfl).1, ?_⟩
          rw [(nbRunArgs_spec n gates be h _ rfl).2, (nbRunArgs_spec n gates _ (nbCacheInv_new gates) _ rfl).2]
        · split_ifs
          · exact ⟨h, rfl⟩
          · exact ⟨nbCacheInv_of_ok (h n), rfl⟩
          · exact ⟨nbCacheInv_of_ok (n := 0) (.empty rfl rfl), rfl⟩
          · exact ⟨h, rfl⟩
    · exact ⟨h, rfl⟩

theorem stdRun_inv (fmt : ℝ → String) (n : ℕ) (ops : List Gate) (o : StdObj) (h : StdInv ops o) (a : CallArgs) (ha : a.interrupt = none) :
    StdInv ops (o.run fmt ops n a).1 ∧ (o.run fmt ops n a).1.cls = o.cls ∧ (o.run fmt ops n a).2 = onNewObject fmt o.cls n ops a := by
  cases o with
  | numpy be =>
    have := npRunCall_inv n ops be h a.call a.rnd
    refine ⟨this.1, rfl, ?_⟩
    simp only [StdObj.run, onNewObject, StdObj.make, StdObj.cls, this.2]
  | numba be =>
    have := nbRunCall_inv n ops be h a.call a.rnd
    simp only [StdObj.run, onNewObject, StdObj.make, StdObj.cls, ha, this.2]
    exact ⟨this.1, trivial, trivial⟩
  | qasm => exact ⟨trivial, rfl, rfl⟩
  | sympy => exact ⟨trivial, rfl, rfl⟩

theorem stdMakeCache_inv (n : ℕ) (ops : List Gate) (o : StdObj) (h : StdInv ops o) (a : CallArgs) (ha : a.interrupt = none) :
    StdInv ops (o.makeCache ops n a).1 ∧ (o.makeCache ops n a).1.cls = o.cls := by
  cases o with
  | numpy be => exact ⟨(npRunArgs_spec n ops be h ⟨none, none, false, a.rnd⟩).1, rfl⟩
  | numba be => exact ⟨(nbRunArgs_spec n ops be h ⟨none, none, true, false, a.rnd, a.interrupt⟩ ha).1, rfl⟩
  | qasm => exact ⟨trivial, rfl⟩
  | sympy => exact ⟨trivial, rfl⟩

theorem uninterrupted_args {V M C : Type} {c : Cmd V M C CallArgs} {a : CallArgs} (h : Uninterrupted c) (ha : c.args = some a) :
    a.interrupt = none := by
  cases c <;> simp only [Cmd.args, Option.some.injEq, reduceCtorEq] at ha <;> subst ha <;> exact h

section
variable {V M C B R : Type} (fmt : ℝ → String) (other : Kit C B CallArgs R) (isAttr : String → Bool)

/-- The initial names still have their classes. -/
def KeepsNames (w : World V M (StdClass ⊕ C) (StdObj ⊕ B)) : Prop :=
  ∀ name cl, initialClass name = some cl → w.reg.backends.get name = some (.inl cl)

theorem program_rules :
    NamedRules (V := V) (M := M) (stdKit fmt other) isAttr (fun _ _ => True)
      (fun s ops b => (∀ o, b = .inl o → StdInv ops o) ∧ ∀ cl, initialClass s = some cl → ∃ o, b = .inl o ∧ o.cls = cl)
      (fun w c => KeepsNames w ∧ Ordinary c) where
  new := by intros; trivial
  newFrom := by intros; trivial
  append := by intros; split <;> trivial
  add := by intros; trivial
  dagger := by intros; trivial
  make := by
    intro w c s cl ops hok hg
    refine ⟨?_, ?_⟩
    · intro o ho
      cases cl with
      | inl k => cases ho; exact stdInv_make ops k
      | inr k => cases ho
    · intro k hk
      rw [hok.1 s k hk] at hg
      cases hg
      exact ⟨_, rfl, by cases k <;> rfl⟩
  ext := by
    intro s a l b h
    refine ⟨?_, h.2⟩
    intro o ho
    have := h.1 o ho
    cases o with
    | numpy be => exact fun n => cacheOK_append l (this n)
    | numba be => exact fun n => nbCacheOK_append l (this n)
    | qasm => trivial
    | sympy => trivial
  run := by
    intro w c s ops n b a hok hargs h
    have ha := uninterrupted_args hok.2.2.1 hargs
    cases b with
    | inl o =>
      have := stdRun_inv fmt n ops o (h.1 o rfl) a ha
      refine ⟨?_, ?_⟩
      · intro o' ho'; cases ho'; exact this.1
      · intro cl hcl
        obtain ⟨o', h1, h2⟩ := h.2 cl hcl
        cases h1
        exact ⟨_, rfl, this.2.1.trans h2⟩
    | inr b =>
      refine ⟨?_, ?_⟩
      · intro o' ho'; cases ho'
      · intro cl hcl
        obtain ⟨o', h1, h2⟩ := h.2 cl hcl
        cases h1
  makeCache := by
    intro w c s ops n b a hok hargs h
    have ha := uninterrupted_args hok.2.2.1 hargs
    cases b with
    | inl o =>
      have := stdMakeCache_inv n ops o (h.1 o rfl) a ha
      refine ⟨?_, ?_⟩
      · intro o' ho'; cases ho'; exact this.1
      · intro cl hcl
        obtain ⟨o', h1, h2⟩ := h.2 cl hcl
        cases h1
        exact ⟨_, rfl, this.2.trans h2⟩
    | inr b =>
      refine ⟨?_, ?_⟩
      · intro o' ho'; cases ho'
      · intro cl hcl
        obtain ⟨o', h1, h2⟩ := h.2 cl hcl
        cases h1
  daggerQ := by
    intro w i ign cd s ops l b hok
    have := hok.2.1
    simp [NoDaggerCopy] at this

theorem keepsNames_step {w : World V M (StdClass ⊕ C) (StdObj ⊕ B)} (h : KeepsNames w) {c : Cmd V M (StdClass ⊕ C) CallArgs}
    (hc : Ordinary c) : KeepsNames (w.step (stdKit fmt other) isAttr c).1 := by
  intro name cl hn
  rw [backends_step isAttr _ _ _ _ (hc.2.2 name (by rw [hn]; rfl))]
  exact h name cl hn

theorem keepsNames_hist (h : List (Cmd V M (StdClass ⊕ C) CallArgs)) : ∀ w : World V M (StdClass ⊕ C) (StdObj ⊕ B), KeepsNames w →
    (∀ c ∈ h, Ordinary c) →
    OkHist (stdKit fmt other) isAttr (fun w c => KeepsNames w ∧ Ordinary c) w h ∧ KeepsNames (w.exec (stdKit fmt other) isAttr h) := by
  induction h with
  | nil => intro w hw _; exact ⟨trivial, hw⟩
  | cons c h ih =>
    intro w hw hc
    have h1 := ih _ (keepsNames_step fmt other isAttr hw (hc c (by simp))) (fun c hc' => hc c (by simp [hc']))
    exact ⟨⟨⟨hw, hc c (by simp)⟩, h1.1⟩, h1.2⟩

theorem keepsNames_start (b : StdObj ⊕ B) (gates : PyDict String V) (ibmq qgate : C) :
    KeepsNames (World.start b (initTables (M := M) gates ibmq qgate)) := by
  intro name cl h
  unfold initialClass at h
  split_ifs at h with h1 h2 h3 h4
  · subst h1; cases h; rfl
  · subst h2; cases h; rfl
  · subst h3; cases h; rfl
  · subst h4; cases h; rfl

/-- C109 (histories): in a program that starts with the initial tables, after any history of ordinary actions, every run of every
circuit by the name of numpy, numba, qasm_output or sympy_unitary (`run(backend=name)`, a default or `run_with_name`, so also
`to_qasm` and `to_unitary`), with whatever arguments, returns or raises what the same call does on a new object of the class. -/
theorem C109_history (b : StdObj ⊕ B) (gates : PyDict String V) (ibmq qgate : C)
    (h : List (Cmd V M (StdClass ⊕ C) CallArgs)) (hh : ∀ c ∈ h, Ordinary c) :
    let w := (World.start b (initTables (M := M) gates ibmq qgate)).exec (stdKit fmt other) isAttr h
    ∀ j < w.nCircs, ∀ name cl, initialClass name = some cl → ∀ a : CallArgs, a.interrupt = none →
      (∀ explicit, inForce explicit (view w j).dflt w.reg.dflt = name →
        (w.step (stdKit fmt other) isAttr (.run j (selOf explicit) a)).2 =
          (onNewObject fmt cl (view w j).n (view w j).ops a).map (fun v => Out.result (.inl v))) ∧
      (w.step (stdKit fmt other) isAttr (.runWith j name a)).2 =
          (onNewObject fmt cl (view w j).n (view w j).ops a).map (fun v => Out.result (.inl v)) := by
  intro w j hj name cl hcl a ha
  obtain ⟨hok, hkeep⟩ := keepsNames_hist fmt other isAttr h _ (keepsNames_start b gates ibmq qgate) hh
  have hall := namedCircs_exec (program_rules fmt other isAttr) h _ (WF_start b _) (by
    intro j hj; exact absurd hj (Nat.not_lt_zero _)) hok
  have hmap : ∀ r : Except PyErr StdVal, (Except.map Out.result (r.map Sum.inl) : Except PyErr (Out (StdVal ⊕ R))) =
      r.map (fun r => Out.result (.inl r)) := by
    intro r; cases r <;> rfl
  have key : ∀ explicit, inForce explicit (view w j).dflt w.reg.dflt = name →
        (w.step (stdKit fmt other) isAttr (.run j (selOf explicit) a)).2 =
          (onNewObject fmt cl (view w j).n (view w j).ops a).map (fun v => Out.result (.inl v)) := by
    intro explicit hn
    have hsel := C55_selection (stdKit fmt other) isAttr w j hj explicit a
    simp only at hsel
    rw [hn] at hsel
    cases hg : PyDict.get (view w j).bes name with
    | none =>
      rw [hsel.2.1 hg _ (hkeep name cl hcl)]
      simp only [stdKit]
      rw [hmap]
      cases cl <;> rfl
    | some b =>
      have hq := (hall j hj).2 _ (PyDict.get_mem hg)
      obtain ⟨o, rfl, ho⟩ := hq.2 cl hcl
      rw [hsel.1 _ hg]
      simp only [stdKit]
      rw [hmap, (stdRun_inv fmt _ _ o (hq.1 o rfl) a ha).2.2, ho]
  refine ⟨key, ?_⟩
  have := key (some name) rfl
  simp only [World.step, World.onCirc, hj, if_true, selOf] at this ⊢
  have hhas : w.reg.backends.has name = true := (has_iff _ _).2 ⟨_, hkeep name cl hcl⟩
  rw [if_pos hhas]
  exact this

theorem noDflt_step (kit : Kit C B CallArgs R) {w : World V M C B} (h : ∀ j, (w.circs j).dflt = none) {c : Cmd V M C CallArgs}
    (hc : SetsNoDefault c) : ∀ j, ((w.step kit isAttr c).1.circs j).dflt = none := by
  have upd : ∀ (f : ℕ → CircObj) i (o : CircObj), (∀ j, (f j).dflt = none) → o.dflt = none → ∀ j, (Function.update f i o j).dflt = none := by
    intro f i o hf ho j
    by_cases e : j = i
    · subst e; rw [Function.update_self]; exact ho
    · rw [Function.update_of_ne e]; exact hf j
  have alloc : ∀ (w : World V M C B) n ops bes d, (∀ j, (w.circs j).dflt = none) → d = none →
      ∀ j, ((w.alloc n ops bes d).circs j).dflt = none := fun w n ops bes d hw hd => upd _ _ _ hw hd
  have cp : ∀ (cb : Bool) (d : PyDict String ℕ), (if cb then w.copyBes d else (w, [])).1.circs = w.circs := by
    intro cb d
    cases cb with
    | false => rfl
    | true =>
      obtain ⟨e1, -⟩ := copyBes_spec d w
      simp only [if_true]; rw [e1]
  have dd : ∀ (cd : Bool) i, (if cd then (w.circs i).dflt else none) = none := by
    intro cd i; rw [h i]; split_ifs <;> rfl
  have copyC : ∀ i cb cd, ∀ j, ((w.copyCirc i cb cd).circs j).dflt = none := by
    intro i cb cd
    exact alloc _ _ _ _ _ (by rw [cp]; exact h) (dd cd i)
  have ext : ∀ (w : World V M C B) i j, (∀ k, (w.circs k).dflt = none) → ∀ k, ((w.extend i j).circs k).dflt = none :=
    fun w i j hw => upd _ _ _ hw (hw i)
  have gb : ∀ i s w' ad, w.getBackend kit i s = .ok (w', ad) → ∀ j, (w'.circs j).dflt = none := by
    intro i s w' ad hg
    unfold World.getBackend at hg
    split at hg
    · cases hg; exact h
    · split at hg
      · cases hg
      · cases hg; exact upd _ _ _ h (h i)
  have rs : ∀ r : Except PyErr (Registry V M C), ∀ j, ((w.regStep (R := R) r).1.circs j).dflt = none := by
    intro r; cases r <;> exact h
  have oc : ∀ i (r : World V M C B × Except PyErr (Out R)), (∀ j, (r.1.circs j).dflt = none) →
      ∀ j, ((w.onCirc i r).1.circs j).dflt = none := by
    intro i r hr; unfold World.onCirc; split_ifs; exacts [hr, h]
  cases c <;> simp only [World.step]
  case new n => exact alloc _ _ _ _ _ h rfl
  case newFrom n ops => exact alloc _ _ _ _ _ h rfl
  case append i g =>
    unfold World.onCirc
    split_ifs
    · cases getMaximumIndex g.targets with
      | error e => exact h
      | ok m => exact upd _ _ _ h (h i)
    · exact h
  case appendCtorError i e => unfold World.onCirc; split_ifs <;> exact h
  case copy i cb cd => unfold World.onCirc; split_ifs; exacts [copyC i cb cd, h]
  case add i j => unfold World.onCirc; split_ifs; exacts [ext _ _ _ (copyC i true true), h, h]
  case iadd i j => unfold World.onCirc; split_ifs; exacts [ext _ _ _ h, h, h]
  case dagger i ign cb cd =>
    refine oc _ _ ?_
    split
    · exact h
    · exact alloc _ _ _ _ _ (by rw [cp]; exact h) (dd cd i)
  case run i sel a =>
    refine oc _ _ ?_
    split
    · split
      · exact h
      · rename_i hg; have := gb _ _ _ _ hg; exact this
    · split
      · exact h
      · rename_i hg; have := gb _ _ _ _ hg; exact this
    · split <;> exact h
  case runWith i s a =>
    refine oc _ _ ?_
    split_ifs
    · split
      · exact h
      · rename_i hg; have := gb _ _ _ _ hg; exact this
    · exact h
  case makeCache i s a =>
    refine oc _ _ ?_
    split
    · exact h
    · rename_i hg; have := gb _ _ _ _ hg; exact this
  case setDefault i s => exact hc.elim
  case newBackend c => exact h
  all_goals exact rs _

theorem default_hist (kit : Kit C B CallArgs R) (h : List (Cmd V M C CallArgs)) : ∀ w : World V M C B,
    (∀ j, (w.circs j).dflt = none) → (∀ c ∈ h, SetsNoDefault c) →
    (∀ j, ((w.exec kit isAttr h).circs j).dflt = none) ∧ (w.exec kit isAttr h).reg.dflt = w.reg.dflt := by
  induction h with
  | nil => intro w hw _; exact ⟨hw, rfl⟩
  | cons c h ih =>
    intro w hw hc
    have h1 := ih _ (noDflt_step isAttr kit hw (hc c (by simp))) (fun c hc' => hc c (by simp [hc']))
    refine ⟨h1.1, h1.2.trans (C55_default_stable kit isAttr w c ?_)⟩
    rintro s rfl
    exact hc (.setGlobalDefault s) (by simp)

/-- C109 (default): if no default is set in the program, `c.run(...)` without a backend is a run on a new numpy object. -/
theorem C109_default (b : StdObj ⊕ B) (gates : PyDict String V) (ibmq qgate : C)
    (h : List (Cmd V M (StdClass ⊕ C) CallArgs)) (hh : ∀ c ∈ h, Ordinary c) (hs : ∀ c ∈ h, SetsNoDefault c) :
    let w := (World.start b (initTables (M := M) gates ibmq qgate)).exec (stdKit fmt other) isAttr h
    ∀ j < w.nCircs, ∀ a : CallArgs, a.interrupt = none →
      (w.step (stdKit fmt other) isAttr (.run j .none a)).2 =
        (onNewObject fmt .numpy (view w j).n (view w j).ops a).map (fun v => Out.result (.inl v)) := by
  intro w j hj a ha
  obtain ⟨h1, h2⟩ := default_hist isAttr (stdKit fmt other) h (World.start b (initTables (M := M) gates ibmq qgate)) (fun _ => rfl) hs
  refine (C109_history fmt other isAttr b gates ibmq qgate h hh j hj "numpy" .numpy rfl a ha).1 none ?_
  simp only [inForce, view, h1, h2]
  rfl

/-- A call without arguments. -/
def plainArgs (rnd : ℕ → ℝ) : CallArgs := ⟨⟨[], []⟩, rnd, none⟩

theorem onNew_numpy (n : ℕ) (ops : List Gate) (rnd : ℕ → ℝ) :
    onNewObject fmt .numpy n ops (plainArgs rnd) = (freshRun n ops ⟨none, none, false, rnd⟩).map .sim := rfl

theorem onNew_numba (n : ℕ) (ops : List Gate) (rnd : ℕ → ℝ) :
    onNewObject fmt .numba n ops (plainArgs rnd) = ((nbRunArgs n ops NbBackend.new ⟨none, none, true, false, rnd, none⟩).2).map .sim := rfl

theorem onNew_qasm (n : ℕ) (ops : List Gate) (rnd : ℕ → ℝ) :
    onNewObject fmt .qasm n ops (plainArgs rnd) = (qaRun fmt n ops true).map .text := rfl

theorem onNew_sympy (n : ℕ) (ops : List Gate) (rnd : ℕ → ℝ) :
    onNewObject fmt .sympy n ops (plainArgs rnd) = (syRun n ops false).map .matrix := rfl

/-- C109 (meaning): in such a program, for a circuit of unitary gates with valid targets (1 to 64 qubits, no one-qubit gate that
names a qubit twice): `run(backend="numpy")` and `run(backend="numba")` return the same vector, the documented operators applied to
the all-zero state (times a number `z` of absolute value 1, which is 1 without `cu1`); `to_unitary()` returns the matrix of these
operators, with the same `z`; and `to_qasm()` returns a program that does the same up to a global phase (with `cu2` as blueqat's
own addition to `qelib1.inc`). -/
theorem C109_meaning (b : StdObj ⊕ B) (gates : PyDict String V) (ibmq qgate : C)
    (h : List (Cmd V M (StdClass ⊕ C) CallArgs)) (hh : ∀ c ∈ h, Ordinary c) :
    let w := (World.start b (initTables (M := M) gates ibmq qgate)).exec (stdKit fmt other) isAttr h
    ∀ j < w.nCircs, ∀ es : List Elem, GatesDenote (view w j).n (view w j).ops es → (∀ e ∈ es, e.Valid (view w j).n) →
      (∀ e ∈ es, e.IsUnitary) → 0 < (view w j).n → (view w j).n ≤ 64 → NoCcz (view w j).ops → NoRepeat (view w j).n (view w j).ops →
      ∀ rnd : ℕ → ℝ, ∃ z : ℂ, ‖z‖ = 1 ∧ ((∀ e ∈ es, ¬ e.IsCu1) → z = 1) ∧
        (∀ name, name = "numpy" ∨ name = "numba" →
          (w.step (stdKit fmt other) isAttr (.run j (selOf (some name)) (plainArgs rnd))).2 =
            .ok (.result (.inl (.sim (.statevector (amplitudes (view w j).n
              (fun i => z * unitaries phDoc es (fun k => if k = 0 then 1 else 0) i)), rnd))))) ∧
        (∃ m : SMat, (w.step (stdKit fmt other) isAttr (.runWith j "sympy_unitary" (plainArgs rnd))).2 = .ok (.result (.inl (.matrix m))) ∧
          IsSquare (2 ^ (view w j).n) m.rows ∧
          ∀ ψ, matVec m.rows (amplitudes (view w j).n ψ) = amplitudes (view w j).n (fun i => z * unitaries phDoc es ψ i)) ∧
        ∃ lines : List QLine, (w.step (stdKit fmt other) isAttr (.runWith j "qasm_output" (plainArgs rnd))).2 =
            .ok (.result (.inl (.text (programText fmt (view w j).n lines)))) ∧
          Means qelibCu2 (view w j).n (lines.map QLine.stmt) es ∧
          ((∀ φ lam T, Gate.g2 (.cu2 φ lam) T ∉ (view w j).ops) → Means qelib (view w j).n (lines.map QLine.stmt) es) := by
  intro w j hj es hd hv hu hpos h64 hz hr rnd
  have hist := C109_history fmt other isAttr b gates ibmq qgate h hh j hj
  obtain ⟨z, hz1, hz2, hz3⟩ := unitaries_phSim es
  have hnp : freshRun (view w j).n (view w j).ops ⟨none, none, false, rnd⟩ = .ok (.statevector (amplitudes (view w j).n
      (fun i => z * unitaries phDoc es (fun k => if k = 0 then 1 else 0) i)), rnd) := by
    rw [freshRun_phSim (view w j).n (view w j).ops es hd hv hu rnd, hz3]
  have hnb := C23_numba_eq_numpy (view w j).n h64 (view w j).ops es hd hv ⟨none, none, true, false, rnd, none⟩ rfl (.inr hu)
  refine ⟨z, hz1, hz2, ?_, ?_, ?_⟩
  · rintro name (rfl | rfl)
    · rw [(hist "numpy" .numpy rfl (plainArgs rnd) rfl).1 (some "numpy") rfl, onNew_numpy, hnp]; rfl
    · rw [(hist "numba" .numba rfl (plainArgs rnd) rfl).1 (some "numba") rfl, onNew_numba, hnb, hnp]; rfl
  · obtain ⟨m, h1, h2, h3⟩ := syRun_matrix hpos hd hv hu (syOk_of hr hz)
    refine ⟨m, ?_, rows_square h2, ?_⟩
    · rw [(hist "sympy_unitary" .sympy rfl (plainArgs rnd) rfl).2, onNew_sympy, h1]; rfl
    · intro ψ
      rw [matVec_rows h2, ← vec_eq_amplitudes, ← vec_eq_amplitudes, ← hz3 ψ]
      exact vec_congr (fun i hi => (h3 ψ i hi).symm)
  · obtain ⟨lines, h1, h2, h3⟩ := C29_meaning_partial fmt (view w j).n (view w j).ops es hd hv hz
    refine ⟨lines, ?_, h2, h3⟩
    rw [(hist "qasm_output" .qasm rfl (plainArgs rnd) rfl).2, onNew_qasm, h1]; rfl

/-- The call `run(shots=k)`. -/
def shotsArgs (k : ℕ) (rnd : ℕ → ℝ) : CallArgs := ⟨⟨[], [("shots", .int k)]⟩, rnd, none⟩

/-- C109 (counts): in such a program, for a circuit with valid targets, measurements and resets included, `run(shots=k)` on numpy and on
numba return, from the same random numbers, the same counts: of every outcome the number of shots that end with it, where the shots
are independent runs of the documented circuit from the all-zero state. -/
theorem C109_counts (b : StdObj ⊕ B) (gates : PyDict String V) (ibmq qgate : C)
    (h : List (Cmd V M (StdClass ⊕ C) CallArgs)) (hh : ∀ c ∈ h, Ordinary c) :
    let w := (World.start b (initTables (M := M) gates ibmq qgate)).exec (stdKit fmt other) isAttr h
    ∀ j < w.nCircs, ∀ es : List Elem, GatesDenote (view w j).n (view w j).ops es → (∀ e ∈ es, e.Valid (view w j).n) →
      0 < (view w j).n → (view w j).n ≤ 64 → ∀ (k : ℕ) (rnd : ℕ → ℝ), InUnit rnd → ∃ (c : Counter) (rest : ℕ → ℝ),
        (∀ name, name = "numpy" ∨ name = "numba" →
          (w.step (stdKit fmt other) isAttr (.run j (selOf (some name)) (shotsArgs k rnd))).2 =
            .ok (.result (.inl (.sim (.shots c, rest))))) ∧
        ∀ key, countOf c key = (shotStates phSim (view w j).n es k rnd).countP (fun s => decide (bitString (view w j).n s.creg = key)) := by
  intro w j hj es hd hv hpos h64 k rnd hr
  have hist := C109_history fmt other isAttr b gates ibmq qgate h hh j hj
  obtain ⟨c, rest, h1, h2⟩ := C16_counts_exact (view w j).n hpos (view w j).ops es hd hv k false rnd hr
  have hnb := C23_numba_eq_numpy (view w j).n h64 (view w j).ops es hd hv ⟨some k, none, true, false, rnd, none⟩ rfl (.inl hr)
  have e1 : onNewObject fmt .numpy (view w j).n (view w j).ops (shotsArgs k rnd) =
      (freshRun (view w j).n (view w j).ops ⟨some k, none, false, rnd⟩).map .sim := rfl
  have e2 : onNewObject fmt .numba (view w j).n (view w j).ops (shotsArgs k rnd) =
      ((nbRunArgs (view w j).n (view w j).ops NbBackend.new ⟨some k, none, true, false, rnd, none⟩).2).map .sim := rfl
  refine ⟨c, rest, ?_, h2⟩
  rintro name (rfl | rfl)
  · rw [(hist "numpy" .numpy rfl (shotsArgs k rnd) rfl).1 (some "numpy") rfl, e1, h1]; rfl
  · rw [(hist "numba" .numba rfl (shotsArgs k rnd) rfl).1 (some "numba") rfl, e2, hnb, h1]; rfl

end

/-- No further backends. -/
def noOther : Kit Unit Unit CallArgs Unit := ⟨fun _ => (), fun _ => (), fun b _ _ _ => (b, .ok ()), fun b _ _ _ => (b, .ok ())⟩

/-- An ordinary program: a circuit is run while it grows, copied with its backends, and a backend is registered. -/
def programDemo (rnd : ℕ → ℝ) : List (Cmd Unit Unit (StdClass ⊕ Unit) CallArgs) :=
  [.new 2, .append 0 (.g1 .h (.one (.int 0))), .run 0 .none (plainArgs rnd),
    .append 0 (.g2 .cx (.tup [.atom (.int 0), .atom (.int 1)])), .copy 0 true true, .registerBackend "mine" (.inr ()) false]

seal StdObj.run StdObj.makeCache in
/-- The hypotheses of C109 hold for this program and its first circuit (`Circuit(2).h[0].cx[0, 1]`). -/
example (fmt : ℝ → String) (rnd : ℕ → ℝ) :
    let w := (World.start (.inr ()) (initTables [] () ())).exec (stdKit fmt noOther) (fun _ => false) (programDemo rnd)
    (∀ c ∈ programDemo rnd, Ordinary c ∧ SetsNoDefault c) ∧ w.nCircs = 2 ∧ (view w 0).n = 2 ∧
    (view w 0).ops = [.g1 .h (.one (.int 0)), .g2 .cx (.tup [.atom (.int 0), .atom (.int 1)])] ∧
    GatesDenote 2 [.g1 .h (.one (.int 0)), .g2 .cx (.tup [.atom (.int 0), .atom (.int 1)])] [.one .h 0, .two .cx 0 1] := by
  intro w
  refine ⟨?_, rfl, rfl, rfl, ?_⟩
  · intro c hc
    simp only [programDemo, List.mem_cons, List.not_mem_nil, or_false] at hc
    refine ⟨⟨?_, ?_, ?_⟩, ?_⟩
    · rcases hc with rfl | rfl | rfl | rfl | rfl | rfl <;> simp [NoDaggerCopy]
    · rcases hc with rfl | rfl | rfl | rfl | rfl | rfl <;> simp [Uninterrupted, plainArgs]
    · intro name hn
      rcases hc with rfl | rfl | rfl | rfl | rfl | rfl <;> simp [NamesBackend]
      rintro rfl
      simp [initialClass] at hn
    · rcases hc with rfl | rfl | rfl | rfl | rfl | rfl <;> trivial
  · refine ⟨[.one .h 0], [.two .cx 0 1], ⟨[0], ?_, rfl⟩, ⟨[.two .cx 0 1], [], ⟨[(0, 1)], ?_, rfl⟩, rfl, rfl⟩, rfl⟩
    · rw [← slicing_eq_iff]; rfl
    · rw [← pairsDenote_iff]; rfl

end Blueqat
