import Verif.Props.Circuit

/-!
# Properties of the registries and of backend selection (C54, C55)
-/

set_option linter.unusedSimpArgs false
set_option linter.unusedVariables false

namespace Blueqat

open Spec

section
variable {V M C B A R : Type}

theorem has_iff {α β : Type} [DecidableEq α] (d : PyDict α β) (k : α) : d.has k = true ↔ ∃ v, d.get k = some v := by
  simp [PyDict.has, Option.isSome_iff_exists]

theorem has_false {α β : Type} [DecidableEq α] (d : PyDict α β) (k : α) : d.has k = false ↔ d.get k = none := by
  simp [PyDict.has]

/-- C54: `register_gate(name, g)` without `allow_overwrite` raises (ValueError) exactly when the name is taken.
When it succeeds — and with `allow_overwrite` it always does — the name is bound to `g`, every other gate name
and all macros, backends and the default are as before. -/
theorem C54_register_gate (isAttr : String → Bool) (r : Registry V M C) (name : String) (g : V) (allow : Bool) :
    ((∃ e, r.registerGate isAttr name g allow = .error e) ↔ allow = false ∧ Taken isAttr r name) ∧
    (∀ e, r.registerGate isAttr name g allow = .error e → e = .valueError) ∧
    (∀ r', r.registerGate isAttr name g allow = .ok r' →
      (∀ k, r'.gates.get k = if k = name then some g else r.gates.get k) ∧
      r'.macros = r.macros ∧ r'.backends = r.backends ∧ r'.dflt = r.dflt) := by
  simp only [Registry.registerGate, Taken, startsRunWith, ← has_iff]
  cases allow
  · by_cases h1 : isAttr name = true <;> by_cases h2 : "run_with_".isPrefixOf name = true <;>
      by_cases h3 : r.gates.has name = true <;> by_cases h4 : r.macros.has name = true <;> simp [h1, h2, h3, h4]
    exact fun k => PyDict.get_set _ _ _ _
  · simp; exact fun k => PyDict.get_set _ _ _ _

/-- C54: the same for `register_macro`. -/
theorem C54_register_macro (isAttr : String → Bool) (r : Registry V M C) (name : String) (f : M) (allow : Bool) :
    ((∃ e, r.registerMacro isAttr name f allow = .error e) ↔ allow = false ∧ Taken isAttr r name) ∧
    (∀ e, r.registerMacro isAttr name f allow = .error e → e = .valueError) ∧
    (∀ r', r.registerMacro isAttr name f allow = .ok r' →
      (∀ k, r'.macros.get k = if k = name then some f else r.macros.get k) ∧
      r'.gates = r.gates ∧ r'.backends = r.backends ∧ r'.dflt = r.dflt) := by
  simp only [Registry.registerMacro, Taken, startsRunWith, ← has_iff]
  cases allow
  · by_cases h1 : isAttr name = true <;> by_cases h2 : "run_with_".isPrefixOf name = true <;>
      by_cases h3 : r.gates.has name = true <;> by_cases h4 : r.macros.has name = true <;> simp [h1, h2, h3, h4]
    exact fun k => PyDict.get_set _ _ _ _
  · simp; exact fun k => PyDict.get_set _ _ _ _

/-- C54: `register_backend(name, c)` without `allow_overwrite` raises (ValueError) exactly when a backend of that
name is registered or the class has an attribute `run_with_<name>`. -/
theorem C54_register_backend (isAttr : String → Bool) (r : Registry V M C) (name : String) (c : C) (allow : Bool) :
    ((∃ e, r.registerBackend isAttr name c allow = .error e) ↔
      allow = false ∧ (isAttr ("run_with_" ++ name) = true ∨ ∃ c', r.backends.get name = some c')) ∧
    (∀ e, r.registerBackend isAttr name c allow = .error e → e = .valueError) ∧
    (∀ r', r.registerBackend isAttr name c allow = .ok r' →
      (∀ k, r'.backends.get k = if k = name then some c else r.backends.get k) ∧
      r'.gates = r.gates ∧ r'.macros = r.macros ∧ r'.dflt = r.dflt) := by
  simp only [Registry.registerBackend, ← has_iff]
  cases allow
  · by_cases h1 : isAttr ("run_with_" ++ name) = true <;> by_cases h3 : r.backends.has name = true <;> simp [h1, h3]
    exact fun k => PyDict.get_set _ _ _ _
  · simp; exact fun k => PyDict.get_set _ _ _ _

/-- C54: `unregister_gate(name)` raises ValueError exactly when the gate is not registered, and otherwise removes
exactly that name. -/
theorem C54_unregister_gate (r : Registry V M C) (name : String) :
    (r.unregisterGate name = .error .valueError ↔ r.gates.get name = none) ∧
    (∀ v, r.gates.get name = some v → ∃ r', r.unregisterGate name = .ok r' ∧
      (∀ k, r'.gates.get k = if k = name then none else r.gates.get k) ∧
      r'.macros = r.macros ∧ r'.backends = r.backends ∧ r'.dflt = r.dflt) := by
  simp only [Registry.unregisterGate, has_false]
  cases h : r.gates.get name with
  | none => simp
  | some v => simp [PyDict.get_del]

/-- C54: the same for `unregister_macro`. -/
theorem C54_unregister_macro (r : Registry V M C) (name : String) :
    (r.unregisterMacro name = .error .valueError ↔ r.macros.get name = none) ∧
    (∀ v, r.macros.get name = some v → ∃ r', r.unregisterMacro name = .ok r' ∧
      (∀ k, r'.macros.get k = if k = name then none else r.macros.get k) ∧
      r'.gates = r.gates ∧ r'.backends = r.backends ∧ r'.dflt = r.dflt) := by
  simp only [Registry.unregisterMacro, has_false]
  cases h : r.macros.get name with
  | none => simp
  | some v => simp [PyDict.get_del]

/-- C54 (refuted for backends): a backend that was just registered under a fresh name cannot be unregistered:
`unregister_backend` looks the name up in the gate table and raises ValueError. And for a gate name that is not
a backend it raises KeyError instead of ValueError. -/
theorem C54_unregister_backend_refuted (isAttr : String → Bool) (r : Registry V M C) (c : C) (name gname : String)
    (v : V) (h1 : r.gates.get name = none) (h2 : r.backends.get name = none)
    (h3 : isAttr ("run_with_" ++ name) = false) (h4 : r.gates.get gname = some v)
    (h5 : r.backends.get gname = none) :
    (∃ r', r.registerBackend isAttr name c false = .ok r' ∧ r'.backends.get name = some c ∧
      r'.unregisterBackend name = .error .valueError) ∧
    r.unregisterBackend gname = .error .keyError := by
  refine ⟨⟨{ r with backends := r.backends.set name c }, ?_, ?_, ?_⟩, ?_⟩
  · simp [Registry.registerBackend, h3, PyDict.has, h2]
  · simp [PyDict.get_set]
  · simp [Registry.unregisterBackend, PyDict.has, h1]
  · simp [Registry.unregisterBackend, PyDict.has, h4, h5]

/-- What `unregister_backend` still guarantees (partial; missing: success for names that are not gate names, and
ValueError for unknown names that are): when it succeeds it removes exactly that backend, and it changes nothing
otherwise. -/
theorem C54_unregister_backend_partial (r r' : Registry V M C) (name : String)
    (h : r.unregisterBackend name = .ok r') :
    (∃ c, r.backends.get name = some c) ∧
    (∀ k, r'.backends.get k = if k = name then none else r.backends.get k) ∧
    r'.gates = r.gates ∧ r'.macros = r.macros ∧ r'.dflt = r.dflt := by
  simp only [Registry.unregisterBackend] at h
  split_ifs at h with h1 h2
  cases h
  refine ⟨?_, fun k => PyDict.get_del _ _ _, rfl, rfl, rfl⟩
  rw [← has_iff]; simpa using h2

/-- C54: after a successful registration without `allow_overwrite`, `circuit.name` is the new gate or macro, for
every name that is not an attribute stored in the instance. -/
theorem C54_available (isAttr isInst : String → Bool) (r r' : Registry V M C) (name : String) (g : V) (f : M)
    (hinst : isInst name = isAttr name) :
    (r.registerGate isAttr name g false = .ok r' → r'.lookup isInst name = .ok (.gate g)) ∧
    (r.registerMacro isAttr name f false = .ok r' → r'.lookup isInst name = .ok (.macro f)) := by
  constructor
  · intro h
    have h0 := C54_register_gate isAttr r name g false
    have hg := (h0.2.2 r' h).1 name
    have hnt : ¬ Taken isAttr r name := fun ht => by
      obtain ⟨e, he⟩ := h0.1.2 ⟨rfl, ht⟩; rw [h] at he; cases he
    have hna : isAttr name = false := by
      cases hb : isAttr name with
      | false => rfl
      | true => exact absurd (.inl hb) hnt
    simp [Registry.lookup, hinst, hna, hg]
  · intro h
    have h0 := C54_register_macro isAttr r name f false
    obtain ⟨hm, hg, -, -⟩ := h0.2.2 r' h
    have hnt : ¬ Taken isAttr r name := fun ht => by
      obtain ⟨e, he⟩ := h0.1.2 ⟨rfl, ht⟩; rw [h] at he; cases he
    have hna : isAttr name = false := by
      cases hb : isAttr name with
      | false => rfl
      | true => exact absurd (.inl hb) hnt
    have hgn : r.gates.get name = none := by
      cases hb : r.gates.get name with
      | none => rfl
      | some v => exact absurd (.inr (.inr (.inl ⟨v, hb⟩))) hnt
    simp [Registry.lookup, hinst, hna, hm name, hg, hgn]

/-- C54 (refuted for instance attributes): a name that is stored in every instance but is no class attribute,
such as `ops`, can be registered without error and yet `circuit.ops` is not the gate. -/
theorem C54_available_refuted (isAttr isInst : String → Bool) (r : Registry V M C) (g : V)
    (h1 : isInst "ops" = true) (h2 : isAttr "ops" = false) (h3 : r.gates.get "ops" = none)
    (h4 : r.macros.get "ops" = none) :
    ∃ r', r.registerGate isAttr "ops" g false = .ok r' ∧ r'.lookup isInst "ops" = .ok .attribute := by
  refine ⟨{ r with gates := r.gates.set "ops" g }, ?_, by simp [Registry.lookup, h1]⟩
  have h5 : "run_with_".isPrefixOf "ops" = false := by decide
  simp [Registry.registerGate, h2, startsRunWith, h5, PyDict.has, h3, h4]

/-- Concrete tables: gate `x`, backend `numpy`, a new backend `mine`. -/
example : (⟨[("x", ())], [], [("numpy", ())], "numpy"⟩ : Registry Unit Unit Unit).registerBackend (fun _ => false)
      "mine" () false = .ok ⟨[("x", ())], [], [("numpy", ()), ("mine", ())], "numpy"⟩ ∧
    (⟨[("x", ())], [], [("numpy", ()), ("mine", ())], "numpy"⟩ : Registry Unit Unit Unit).unregisterBackend "mine" =
      .error .valueError ∧
    (⟨[("x", ())], [], [("numpy", ())], "numpy"⟩ : Registry Unit Unit Unit).unregisterBackend "x" = .error .keyError ∧
    (⟨[("x", ())], [], [("numpy", ())], "numpy"⟩ : Registry Unit Unit Unit).registerGate (fun _ => false) "x" () false =
      .error .valueError := by
  refine ⟨?_, ?_, ?_, ?_⟩ <;>
    simp [Registry.registerBackend, Registry.unregisterBackend, Registry.registerGate, PyDict.has, PyDict.get, PyDict.set]

/-! ## C55 -/

variable (kit : Kit C B A R) (isAttr : String → Bool)

theorem get_map (d : PyDict String ℕ) (f : ℕ → B) (k : String) :
    PyDict.get (d.map (fun p => (p.1, f p.2))) k = (d.get k).map f := by
  induction d with
  | nil => rfl
  | cons p d ih =>
    obtain ⟨a, b⟩ := p
    simp only [List.map_cons, PyDict.get]
    split_ifs
    · rfl
    · exact ih

/-- C55: a run uses the circuit's own instance for the name in force, or a new instance of the class registered
under it; if there is neither, ValueError is raised and nothing changes. -/
theorem C55_selection (w : World V M C B) (i : ℕ) (hi : i < w.nCircs) (explicit : Option String) (a : A) :
    let name := inForce explicit (view w i).dflt w.reg.dflt
    (∀ b, PyDict.get (view w i).bes name = some b →
      (w.step kit isAttr (.run i (selOf explicit) a)).2 =
        ((kit.run b (view w i).ops (view w i).n a).2).map Out.result) ∧
    (PyDict.get (view w i).bes name = none → ∀ c, w.reg.backends.get name = some c →
      (w.step kit isAttr (.run i (selOf explicit) a)).2 =
        ((kit.run (kit.make c) (view w i).ops (view w i).n a).2).map Out.result) ∧
    (PyDict.get (view w i).bes name = none → w.reg.backends.get name = none →
      w.step kit isAttr (.run i (selOf explicit) a) = (w, .error .valueError)) := by
  intro name
  have hstep : w.step kit isAttr (.run i (selOf explicit) a) = (match w.getBackend kit i name with
        | .error e => (w, .error e)
        | .ok (w, addr) => w.runAt kit i addr a) := by
    simp only [World.step, World.onCirc, hi, if_true]
    cases explicit with
    | some s => rfl
    | none =>
      have : name = w.dfltName i := by
        simp only [name, inForce, World.dfltName, view]
        cases (w.circs i).dflt <;> rfl
      rw [this]; rfl
  rw [hstep]
  simp only [view, get_map, World.getBackend]
  refine ⟨?_, ?_, ?_⟩
  · intro b hb
    cases hg : (w.circs i).bes.get name with
    | none => rw [hg] at hb; cases hb
    | some x =>
      rw [hg] at hb
      simp only [Option.map_some, Option.some.injEq] at hb
      simp [World.runAt, hb]
  · intro hn c hc
    cases hg : (w.circs i).bes.get name with
    | some x => rw [hg] at hn; cases hn
    | none => simp [World.runAt, hc]
  · intro hn hc
    cases hg : (w.circs i).bes.get name with
    | some x => rw [hg] at hn; cases hn
    | none => simp [hc]

/-- C55: setting a default to a registered name puts exactly that name in force; to an unknown name raises
ValueError and changes nothing. For the circuit's and for the global default. -/
theorem C55_set_default (w : World V M C B) (i : ℕ) (hi : i < w.nCircs) (s : String) :
    (∀ c, w.reg.backends.get s = some c →
      (w.step kit isAttr (.setDefault i (some s))).2 = .ok .unit ∧
      view (w.step kit isAttr (.setDefault i (some s))).1 i =
        ⟨(view w i).ops, (view w i).n, some s, (view w i).bes⟩ ∧
      (w.step kit isAttr (.setGlobalDefault s)).2 = .ok .unit ∧
      (w.step kit isAttr (.setGlobalDefault s)).1.reg = { w.reg with dflt := s }) ∧
    (w.reg.backends.get s = none →
      w.step kit isAttr (.setDefault i (some s)) = (w, .error .valueError) ∧
      w.step kit isAttr (.setGlobalDefault s) = (w, .error .valueError)) := by
  constructor
  · intro c hc
    simp [World.step, World.onCirc, hi, PyDict.has, hc, view, World.regStep, Registry.setDefault]
  · intro hn
    simp [World.step, World.onCirc, hi, PyDict.has, hn, World.regStep, Registry.setDefault]

/-- C55: no other action changes the global default, and (with C06) no action on another circuit changes a
circuit's default. -/
theorem C55_default_stable (w : World V M C B) (c : Cmd V M C A) (hc : ∀ s, c ≠ .setGlobalDefault s) :
    (w.step kit isAttr c).1.reg.dflt = w.reg.dflt := by
  by_cases ht : touchesTables c = false
  · have := reg_exec kit isAttr [c] w (by simpa using ht)
    exact congrArg Registry.dflt this
  · have hreg : ∀ r : Except PyErr (Registry V M C), (∀ r', r = .ok r' → r'.dflt = w.reg.dflt) →
        (w.regStep (R := R) r).1.reg.dflt = w.reg.dflt := by
      intro r hr
      cases r with
      | error e => rfl
      | ok r' => exact hr r' rfl
    cases c <;> simp only [touchesTables, not_true, not_false_iff, Bool.true_eq_false, Bool.false_eq_true] at ht
    case registerMacro n f a =>
      exact hreg _ (fun r' h => ((C54_register_macro isAttr w.reg n f a).2.2 r' h).2.2.2)
    case registerGate n f a =>
      exact hreg _ (fun r' h => ((C54_register_gate isAttr w.reg n f a).2.2 r' h).2.2.2)
    case registerBackend n f a =>
      exact hreg _ (fun r' h => ((C54_register_backend isAttr w.reg n f a).2.2 r' h).2.2.2)
    case unregisterMacro n =>
      refine hreg _ (fun r' h => ?_)
      simp only [Registry.unregisterMacro] at h; split_ifs at h; cases h; rfl
    case unregisterGate n =>
      refine hreg _ (fun r' h => ?_)
      simp only [Registry.unregisterGate] at h; split_ifs at h; cases h; rfl
    case unregisterBackend n =>
      exact hreg _ (fun r' h => (C54_unregister_backend_partial w.reg r' n h).2.2.2.2)
    case setGlobalDefault s => exact absurd rfl (hc s)

/-- C55 (refuted for None): `circuit.set_default_backend(None)`, documented to return to the global default,
raises ValueError and leaves the circuit's own default in force. -/
theorem C55_set_default_none_refuted (w : World V M C B) (i : ℕ) (hi : i < w.nCircs) :
    w.step kit isAttr (.setDefault i none) = (w, .error .valueError) := by
  simp [World.step, World.onCirc, hi]

/-- One circuit with its own default; the explicit name wins over it. -/
example :
    let w := (World.start 0 ⟨[], [], [("numpy", ()), ("numba", ())], "numpy"⟩ : World Unit Unit Unit ℕ).exec demoKit
      (fun _ => false) [.new 1, .setDefault 0 (some "numba")]
    0 < w.nCircs ∧ (view w 0).dflt = some "numba" ∧ inForce (some "numpy") (view w 0).dflt w.reg.dflt = "numpy" ∧
      inForce none (view w 0).dflt w.reg.dflt = "numba" := by
  simp [World.exec, World.step, World.onCirc, World.alloc, World.start, view, PyDict.has, PyDict.get, inForce]

end

end Blueqat
