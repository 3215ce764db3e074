import Verif.Spec.Generated
import Verif.Props.Registry
import Verif.Props.Circuit
import Verif.WorldInv
import Verif.PauliLemmas

/-!
# C108: backends generated from a reader of OpenQASM
-/

set_option linter.unusedSimpArgs false
set_option linter.unusedVariables false

namespace Blueqat

open Spec

section
variable {V M C B A R : Type} (fmt : ℝ → String) (other : Kit C B A R) (isAttr : String → Bool)

theorem qasmParsableRun_eq (runner : String → A → Except PyErr R) (n : ℕ) (ops : List Gate) (a : A) :
    qasmParsableRun fmt (fun q => runner q a) ops n = readerResult fmt runner n ops a := by
  unfold qasmParsableRun readerResult
  cases qaRun fmt n ops true <;> rfl

/-- The entry of a backend name changes only when that name is registered or unregistered. -/
theorem backends_step (kit : Kit C B A R) (w : World V M C B) (c : Cmd V M C A) (name : String) (hc : ¬ NamesBackend name c) :
    (w.step kit isAttr c).1.reg.backends.get name = w.reg.backends.get name := by
  by_cases ht : touchesTables c = false
  · have := reg_exec kit isAttr [c] w (by simpa using ht)
    rw [← this]; rfl
  · cases c <;> simp only [touchesTables, Bool.true_eq_false, not_true_eq_false, not_false_eq_true] at ht
    all_goals simp only [World.step, World.regStep]
    case registerMacro s f al =>
      unfold Registry.registerMacro
      split_ifs <;> rfl
    case unregisterMacro s =>
      unfold Registry.unregisterMacro
      split_ifs <;> rfl
    case registerGate s f al =>
      unfold Registry.registerGate
      split_ifs <;> rfl
    case unregisterGate s =>
      unfold Registry.unregisterGate
      split_ifs <;> rfl
    case registerBackend s f al =>
      unfold Registry.registerBackend
      split_ifs
      · rfl
      · rfl
      · simp only [PyDict.get_set]
        rw [if_neg (fun h => hc (by simpa [NamesBackend] using h.symm))]
    case unregisterBackend s =>
      unfold Registry.unregisterBackend
      split_ifs
      · rfl
      · rfl
      · simp only [PyDict.get_del]
        rw [if_neg (fun h => hc (by simpa [NamesBackend] using h.symm))]
    case setGlobalDefault s =>
      unfold Registry.setDefault
      split_ifs <;> rfl

/-- C108 (one run): a run on an object of a generated backend gives the text of the circuit (`to_qasm()`) and the arguments to the
reader and returns its answer; a circuit without a text raises the printer's error. Nothing in the program changes: neither the object
nor anything else, also if one instance is given to runs of several circuits. `make_cache` does nothing. -/
theorem C108_run (w : World V M ((Unit → ParsableBackend A R) ⊕ C) (ParsableBackend A R ⊕ B)) (i : ℕ) (hi : i < w.nCircs)
    (runner : String → A → Except PyErr R) (a : A) :
    let result := (readerResult fmt runner (view w i).n (view w i).ops a).map Out.result
    (∀ explicit, PyDict.get (view w i).bes (inForce explicit (view w i).dflt w.reg.dflt) = some (.inl ⟨runner⟩) →
      w.step (parsableKit fmt other) isAttr (.run i (selOf explicit) a) = (w, result)) ∧
    (∀ explicit, PyDict.get (view w i).bes (inForce explicit (view w i).dflt w.reg.dflt) = none →
      w.reg.backends.get (inForce explicit (view w i).dflt w.reg.dflt) = some (.inl (generateBackend runner)) →
      (w.step (parsableKit fmt other) isAttr (.run i (selOf explicit) a)).2 = result) ∧
    (∀ k ad, w.insts[k]? = some ad → w.bes ad = .inl ⟨runner⟩ →
      w.step (parsableKit fmt other) isAttr (.run i (.inst k) a) = (w, result)) ∧
    (∀ explicit, PyDict.get (view w i).bes (inForce explicit (view w i).dflt w.reg.dflt) = some (.inl ⟨runner⟩) →
      w.step (parsableKit fmt other) isAttr (.makeCache i explicit a) = (w, .ok .unit)) := by
  intro result
  have hrun : ∀ ad, w.bes ad = .inl ⟨runner⟩ → w.runAt (parsableKit fmt other) i ad a = (w, result) := by
    intro ad had
    simp only [World.runAt, had, parsableKit, ParsableBackend.run, qasmParsableRun_eq]
    rw [← had, Function.update_eq_self]
    rfl
  have hown : ∀ explicit, PyDict.get (view w i).bes (inForce explicit (view w i).dflt w.reg.dflt) = some (.inl ⟨runner⟩) →
      ∃ ad, w.getBackend (parsableKit fmt other) i (inForce explicit (view w i).dflt w.reg.dflt) = .ok (w, ad) ∧
        w.bes ad = .inl ⟨runner⟩ := by
    intro explicit h
    simp only [view, get_map] at h
    simp only [World.getBackend, view]
    cases hg : (w.circs i).bes.get (inForce explicit (w.circs i).dflt w.reg.dflt) with
    | none => rw [hg] at h; cases h
    | some ad =>
      rw [hg] at h
      simp only [Option.map_some, Option.some.injEq] at h
      exact ⟨ad, rfl, h⟩
  have hname : ∀ explicit : Option String, inForce explicit (view w i).dflt w.reg.dflt = explicit.getD (w.dfltName i) := by
    intro explicit
    simp only [inForce, World.dfltName, view]
    cases explicit <;> cases (w.circs i).dflt <;> rfl
  refine ⟨?_, ?_, ?_, ?_⟩
  · intro explicit h
    obtain ⟨ad, h1, h2⟩ := hown explicit h
    rw [hname] at h1
    simp only [World.step, World.onCirc, hi, if_true]
    cases explicit with
    | none => simp only [selOf, Option.getD_none] at h1 ⊢; rw [h1]; exact hrun ad h2
    | some s => simp only [selOf, Option.getD_some] at h1 ⊢; rw [h1]; exact hrun ad h2
  · intro explicit h1 h2
    rw [(C55_selection (parsableKit fmt other) isAttr w i hi explicit a).2.1 h1 _ h2]
    simp only [parsableKit, ParsableBackend.run, qasmParsableRun_eq, generateBackend]
    rfl
  · intro k ad h1 h2
    simp only [World.step, World.onCirc, hi, if_true, h1]
    exact hrun ad h2
  · intro explicit h
    obtain ⟨ad, h1, h2⟩ := hown explicit h
    rw [hname] at h1
    simp only [World.step, World.onCirc, hi, if_true, h1, h2]
    show (({ w with bes := Function.update w.bes ad (.inl ⟨runner⟩) } : World V M _ _), _) = _
    rw [← h2, Function.update_eq_self, h2]
    rfl

/-- The reader of a name, for all circuits, kept by every action that does not (un)register the name. -/
theorem reader_rules (name : String) (runner : String → A → Except PyErr R) :
    NamedRules (V := V) (M := M) (parsableKit fmt other) isAttr (fun _ _ => True)
      (fun s _ b => s = name → b = .inl ⟨runner⟩)
      (fun w c => w.reg.backends.get name = some (.inl (generateBackend runner)) ∧ ¬ NamesBackend name c) where
  new := by intros; trivial
  newFrom := by intros; trivial
  append := by intros; split <;> trivial
  add := by intros; trivial
  dagger := by intros; trivial
  make := by
    intro w c s cl ops hok hg hs
    subst hs
    rw [hok.1] at hg
    cases hg
    rfl
  ext := fun s a l b h hs => h hs
  run := by
    intro w c s ops n b a _ _ h hs
    rw [h hs]; rfl
  makeCache := by
    intro w c s ops n b a _ _ h hs
    rw [h hs]; rfl
  daggerQ := fun _ _ _ _ _ _ _ _ _ _ h => h

/-- C108 (whole histories): after `register_backend(name, generate_backend(reader))`, as long as the name is not registered or
unregistered again, every run by that name (`run(backend=name)`, a default, or `run_with_name`), of any circuit, made before or after,
sends that circuit's text to this reader. Wanted: without the hypothesis that no circuit has an object of this name yet; see
`C108_stale_refuted`. -/
theorem C108_history_partial (b : ParsableBackend A R ⊕ B) (reg : Registry V M ((Unit → ParsableBackend A R) ⊕ C))
    (h h' : List (Cmd V M ((Unit → ParsableBackend A R) ⊕ C) A)) (name : String) (allow : Bool)
    (runner : String → A → Except PyErr R) :
    let w := (World.start b reg).exec (parsableKit fmt other) isAttr h
    let r := w.step (parsableKit fmt other) isAttr (.registerBackend name (.inl (generateBackend runner)) allow)
    let w' := r.1.exec (parsableKit fmt other) isAttr h'
    r.2 = .ok .unit → (∀ i < w.nCircs, PyDict.get (view w i).bes name = none) → (∀ c ∈ h', ¬ NamesBackend name c) →
    ∀ j < w'.nCircs, ∀ a,
      (∀ explicit, inForce explicit (view w' j).dflt w'.reg.dflt = name →
        (w'.step (parsableKit fmt other) isAttr (.run j (selOf explicit) a)).2 =
          (readerResult fmt runner (view w' j).n (view w' j).ops a).map Out.result) ∧
      (w'.step (parsableKit fmt other) isAttr (.runWith j name a)).2 =
          (readerResult fmt runner (view w' j).n (view w' j).ops a).map Out.result := by
  intro w r w' hr hfree hh' j hj a
  have hwf : w.WF := WF_exec _ _ (WF_start b reg) h
  have hreg : r.1 = { w with reg := { w.reg with backends := w.reg.backends.set name (.inl (generateBackend runner)) } } := by
    simp only [r, World.step, World.regStep, Registry.registerBackend] at hr ⊢
    split_ifs at hr ⊢ <;> simp_all
  have hwf1 : r.1.WF := (frame_step _ _ hwf _).wf
  have hget : r.1.reg.backends.get name = some (.inl (generateBackend runner)) := by
    rw [hreg]; simp [PyDict.get_set]
  have hbes : ∀ i, (view r.1 i) = view w i := by intro i; rw [hreg]; rfl
  have hcirc : NamedCircs (fun _ _ => True) (fun s _ b => s = name → b = .inl ⟨runner⟩) r.1 := by
    intro i hi
    refine ⟨trivial, fun p hp hpn => ?_⟩
    rw [hbes] at hp
    have hn := hfree i (by rw [hreg] at hi; exact hi)
    exfalso
    exact PyDict.get_eq_none.1 hn (List.mem_map.2 ⟨p, hp, hpn⟩)
  have hok : ∀ (l : List (Cmd V M ((Unit → ParsableBackend A R) ⊕ C) A)) w0,
      w0.reg.backends.get name = some (.inl (generateBackend runner)) → (∀ c ∈ l, ¬ NamesBackend name c) →
      OkHist (parsableKit fmt other) isAttr
        (fun w c => w.reg.backends.get name = some (.inl (generateBackend runner)) ∧ ¬ NamesBackend name c) w0 l ∧
      (w0.exec (parsableKit fmt other) isAttr l).reg.backends.get name = some (.inl (generateBackend runner)) := by
    intro l
    induction l with
    | nil => intro w0 h0 _; exact ⟨trivial, h0⟩
    | cons c l ih =>
      intro w0 h0 hl
      have h1 := ih (w0.step (parsableKit fmt other) isAttr c).1
        (by rw [backends_step isAttr _ _ _ _ (hl c (by simp))]; exact h0) (fun c hc => hl c (by simp [hc]))
      exact ⟨⟨⟨h0, hl c (by simp)⟩, h1.1⟩, h1.2⟩
  obtain ⟨h1, h2⟩ := hok h' r.1 hget hh'
  have hall := namedCircs_exec (reader_rules fmt other isAttr name runner) h' r.1 hwf1 hcirc h1
  have key : ∀ explicit, inForce explicit (view w' j).dflt w'.reg.dflt = name →
        (w'.step (parsableKit fmt other) isAttr (.run j (selOf explicit) a)).2 =
          (readerResult fmt runner (view w' j).n (view w' j).ops a).map Out.result := by
    intro explicit hn
    have hc := C108_run fmt other isAttr w' j hj runner a
    cases hg : PyDict.get (view w' j).bes name with
    | none => exact hc.2.1 explicit (by rw [hn]; exact hg) (by rw [hn]; exact h2)
    | some b =>
      have := (hall j hj).2 _ (PyDict.get_mem hg) rfl
      simp only at this
      subst this
      rw [hc.1 explicit (by rw [hn]; exact hg)]
  refine ⟨key, ?_⟩
  have := key (some name) rfl
  simp only [World.step, World.onCirc, hj, if_true, selOf] at this ⊢
  have hhas : w'.reg.backends.has name = true := (has_iff _ _).2 ⟨_, h2⟩
  rw [if_pos hhas]
  exact this

/-- C108 (why the hypothesis is needed): a circuit that has an object of the name keeps it when the name is registered again, so
its runs still go to the old reader. -/
theorem C108_stale (w : World V M ((Unit → ParsableBackend A R) ⊕ C) (ParsableBackend A R ⊕ B)) (i : ℕ) (hi : i < w.nCircs)
    (name : String) (old new : String → A → Except PyErr R) (allow : Bool) (a : A)
    (hown : PyDict.get (view w i).bes name = some (.inl ⟨old⟩)) :
    let w' := (w.step (parsableKit fmt other) isAttr (.registerBackend name (.inl (generateBackend new)) allow)).1
    (w'.step (parsableKit fmt other) isAttr (.run i (.name name) a)).2 =
      (readerResult fmt old (view w i).n (view w i).ops a).map Out.result := by
  intro w'
  have hv : view w' i = view w i ∧ i < w'.nCircs := by
    simp only [w', World.step, World.regStep, Registry.registerBackend]
    split_ifs <;> exact ⟨rfl, hi⟩
  have := (C108_run fmt other isAttr w' i hv.2 old a).1 (some name) (by rw [hv.1]; exact hown)
  simp only [selOf] at this
  rw [this, hv.1]

end

/-- A program with generated backends only, at its start: no name is registered. -/
def readerStart : World Unit Unit ((Unit → ParsableBackend Unit Bool) ⊕ Empty) (ParsableBackend Unit Bool ⊕ Empty) :=
  World.start (.inl ⟨fun _ _ => .ok true⟩) ⟨[], [], [], ""⟩

/-- The kit without other backends. -/
def noReaders : Kit Empty Empty Unit Bool := ⟨id, id, fun b _ _ _ => b.elim, fun b _ _ _ => b.elim⟩

theorem readerResult_empty (fmt : ℝ → String) (x : Bool) :
    readerResult (A := Unit) fmt (fun _ _ => .ok x) 1 [] () = .ok x := by
  unfold readerResult
  have : ∃ t, qaRun fmt 1 [] true = .ok t := ⟨_, rfl⟩
  obtain ⟨t, ht⟩ := this
  rw [ht]; rfl

/-- C108 (refuted without the hypothesis): `c = Circuit(1)`, register `a`, run `c` on it, register another reader under the same
name with `allow_overwrite`: the registration succeeds, but running `c` by that name still asks the old reader. -/
theorem C108_stale_refuted (fmt : ℝ → String) :
    let kit := parsableKit fmt noReaders
    let yes : String → Unit → Except PyErr Bool := fun _ _ => .ok true
    let no : String → Unit → Except PyErr Bool := fun _ _ => .ok false
    let w := readerStart.exec kit (fun _ => false) [.new 1, .registerBackend "a" (.inl (generateBackend yes)) false, .run 0 (.name "a") ()]
    let r := w.step kit (fun _ => false) (.registerBackend "a" (.inl (generateBackend no)) true)
    r.2 = .ok .unit ∧ r.1.reg.backends.get "a" = some (.inl (generateBackend no)) ∧
      (r.1.step kit (fun _ => false) (.run 0 (.name "a") ())).2 = .ok (.result true) ∧
      (readerResult fmt no (view r.1 0).n (view r.1 0).ops ()).map Out.result = .ok (.result false) := by
  intro kit yes no w r
  have h := C108_stale fmt noReaders (fun _ => false) w 0 Nat.one_pos "a" yes no true () rfl
  have h1 : (view w 0).n = 1 ∧ (view w 0).ops = [] := ⟨rfl, rfl⟩
  have h2 : (view r.1 0).n = 1 ∧ (view r.1 0).ops = [] := ⟨rfl, rfl⟩
  refine ⟨rfl, rfl, ?_, ?_⟩
  · refine h.trans ?_
    rw [h1.1, h1.2, readerResult_empty]; rfl
  · rw [h2.1, h2.2, readerResult_empty]; rfl

/-- The hypotheses of `C108_history_partial` hold for a program that makes a circuit, registers a reader, makes another circuit and
runs both. -/
example (fmt : ℝ → String) :
    let kit := parsableKit fmt noReaders
    let yes : String → Unit → Except PyErr Bool := fun _ _ => .ok true
    let w := readerStart.exec kit (fun _ => false) [.new 1]
    let r := w.step kit (fun _ => false) (.registerBackend "a" (.inl (generateBackend yes)) false)
    let h' : List (Cmd Unit Unit ((Unit → ParsableBackend Unit Bool) ⊕ Empty) Unit) :=
      [.new 2, .run 0 (.name "a") (), .dagger 0 false true false, .registerBackend "b" (.inl (generateBackend yes)) false]
    r.2 = .ok .unit ∧ (∀ i < w.nCircs, PyDict.get (view w i).bes "a" = none) ∧ (∀ c ∈ h', ¬ NamesBackend "a" c) ∧
      (r.1.exec kit (fun _ => false) h').nCircs = 3 := by
  intro kit yes w r h'
  refine ⟨rfl, ?_, ?_, rfl⟩
  · intro i hi
    have : i = 0 := by
      have : w.nCircs = 1 := rfl
      omega
    subst this; rfl
  · intro c hc
    simp only [h', List.mem_cons, List.not_mem_nil, or_false] at hc
    rcases hc with rfl | rfl | rfl | rfl <;> simp [NamesBackend]

end Blueqat
