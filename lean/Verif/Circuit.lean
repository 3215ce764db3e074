import Verif.Gate
import Verif.Registry
import Mathlib.Logic.Function.Basic

/-!
# Circuits as objects on a heap (blueqat/circuit.py:85-288, blueqat/experimental/operations.py:46-92)

Python objects with identity are addresses: the list `self.ops`, every backend instance and the circuits
themselves live in separate heaps, so that sharing between circuits would be visible. A client program is a
list of commands (`Cmd`); a circuit is named by its number.

Simplifications: `n_qubits` is a natural number; gate objects are immutable values (no modelled code writes to
one); `Circuit(n, ops)` is only called with a list the client does not keep; subclasses of `Circuit` and direct
writes to attributes are not modelled; `V`/`M` (gate classes and macros) are those of `Registry`.
-/

namespace Blueqat

/-- A `Circuit` instance (blueqat/circuit.py:87-91): the address of `ops`, `n_qubits`, `_backends` (name to
address of the instance) and `_default_backend`. -/
structure CircObj where
  ops : ℕ
  n : ℕ
  bes : PyDict String ℕ
  dflt : Option String

/-- What the circuit code needs from backends: the class (`C`) of an instance (`B`), calling the class, and the
methods `run` and `make_cache`. `A` are the run arguments with the random numbers, `R` is the returned value
(blueqat/circuit.py:103,217,228). -/
structure Kit (C B A R : Type) where
  make : C → B
  cls : B → C
  run : B → List Gate → ℕ → A → B × Except PyErr R
  makeCache : B → List Gate → ℕ → A → B × Except PyErr Unit

/-- All objects of the program: three heaps with the next free address, the instances the client made itself,
and the module tables. -/
structure World (V M C B : Type) where
  lists : ℕ → List Gate
  nLists : ℕ
  bes : ℕ → B
  nBes : ℕ
  circs : ℕ → CircObj
  nCircs : ℕ
  insts : List ℕ
  reg : Registry V M C

/-- How `run` was told which backend to use (blueqat/circuit.py:187,210-217). -/
inductive Sel where
  | none
  | name (s : String)
  | inst (k : ℕ)

/-- One client action. -/
inductive Cmd (V M C A : Type) where
  | new (n : ℕ)
  | newFrom (n : ℕ) (ops : List Gate)
  | append (i : ℕ) (g : Gate)
  | appendCtorError (i : ℕ) (e : PyErr)
  | copy (i : ℕ) (copyBackends copyDefault : Bool)
  | add (i j : ℕ)
  | iadd (i j : ℕ)
  | dagger (i : ℕ) (ignore copyBackends copyDefault : Bool)
  | run (i : ℕ) (sel : Sel) (a : A)
  | runWith (i : ℕ) (name : String) (a : A)
  | makeCache (i : ℕ) (name : Option String) (a : A)
  | setDefault (i : ℕ) (name : Option String)
  | newBackend (c : C)
  | registerMacro (name : String) (f : M) (allow : Bool)
  | unregisterMacro (name : String)
  | registerGate (name : String) (g : V) (allow : Bool)
  | unregisterGate (name : String)
  | registerBackend (name : String) (c : C) (allow : Bool)
  | unregisterBackend (name : String)
  | setGlobalDefault (name : String)

/-- What an action returns. -/
inductive Out (R : Type) where
  | unit
  | circuit (i : ℕ)
  | result (r : R)

section
variable {V M C B A R : Type}

/-- `self.circuit.n_qubits = max(gate.get_maximum_index(args) + 1, self.circuit.n_qubits)`
(blueqat/circuit.py:287). -/
def newQubits (mx : ℤ) (n : ℕ) : ℕ := (max (mx + 1) n).toNat

/-- Loop of `dagger` over the reversed operations (blueqat/circuit.py:170-177); the reversal is done by the
caller. -/
noncomputable def daggerOps (ignore : Bool) : List Gate → Except PyErr (List Gate)
  | [] => .ok []
  | g :: gs =>
    match g.dagger with
    | .ok g' =>
      match daggerOps ignore gs with
      | .ok r => .ok (g' :: r)
      | .error e => .error e
    | .error e =>
      if e = .valueError then
        if ignore then daggerOps ignore gs else .error .valueError
      else .error e

/-- `Circuit(n, ops)` with a fresh list (blueqat/circuit.py:87-91): new list, new circuit. -/
def World.alloc (w : World V M C B) (n : ℕ) (ops : List Gate) (bes : PyDict String ℕ)
    (dflt : Option String) : World V M C B :=
  { w with
    lists := Function.update w.lists w.nLists ops
    nLists := w.nLists + 1
    circs := Function.update w.circs w.nCircs ⟨w.nLists, n, bes, dflt⟩
    nCircs := w.nCircs + 1 }

/-- `{k: v.copy() for k, v in self._backends.items()}` (blueqat/circuit.py:148,181; the copy is a deep copy,
blueqat/backends/backendbase.py:25-31). -/
def World.copyBes (w : World V M C B) : PyDict String ℕ → World V M C B × PyDict String ℕ
  | [] => (w, [])
  | (k, a) :: rest =>
    let w1 : World V M C B :=
      { w with bes := Function.update w.bes w.nBes (w.bes a), nBes := w.nBes + 1 }
    let (w2, d) := w1.copyBes rest
    (w2, (k, w.nBes) :: d)

/-- `__get_backend(name)` (blueqat/circuit.py:96-104): the address of the instance. -/
def World.getBackend (kit : Kit C B A R) (w : World V M C B) (i : ℕ) (name : String) :
    Except PyErr (World V M C B × ℕ) :=
  match (w.circs i).bes.get name with
  | some a => .ok (w, a)
  | none =>
    match w.reg.backends.get name with
    | none => .error .valueError
    | some c =>
      .ok ({ w with
        bes := Function.update w.bes w.nBes (kit.make c)
        nBes := w.nBes + 1
        circs := Function.update w.circs i
          { w.circs i with bes := (w.circs i).bes.set name w.nBes } }, w.nBes)

/-- `backend.run(self.ops, self.n_qubits, ...)` (blueqat/circuit.py:217,109). -/
def World.runAt (kit : Kit C B A R) (w : World V M C B) (i addr : ℕ) (a : A) :
    World V M C B × Except PyErr (Out R) :=
  let r := kit.run (w.bes addr) (w.lists (w.circs i).ops) (w.circs i).n a
  ({ w with bes := Function.update w.bes addr r.1 }, r.2.map Out.result)

/-- Name of the backend used when none is given (blueqat/circuit.py:211-215). -/
def World.dfltName (w : World V M C B) (i : ℕ) : String := ((w.circs i).dflt).getD w.reg.dflt

/-- Runs an update of the module tables. -/
def World.regStep (w : World V M C B) (r : Except PyErr (Registry V M C)) :
    World V M C B × Except PyErr (Out R) :=
  match r with
  | .error e => (w, .error e)
  | .ok reg => ({ w with reg := reg }, .ok .unit)

/-- Runs a command on a circuit number; a number the client never received is answered by KeyError (not a
Python behaviour: the client has no such variable). -/
def World.onCirc (w : World V M C B) (i : ℕ) (r : World V M C B × Except PyErr (Out R)) :
    World V M C B × Except PyErr (Out R) :=
  if i < w.nCircs then r else (w, .error .keyError)

/-- `copy` (blueqat/circuit.py:138-159). -/
def World.copyCirc (w : World V M C B) (i : ℕ) (cb cd : Bool) : World V M C B :=
  let d := if cb then w.copyBes (w.circs i).bes else (w, [])
  d.1.alloc (w.circs i).n (w.lists (w.circs i).ops) d.2 (if cd then (w.circs i).dflt else none)

/-- `self.ops += other.ops; self.n_qubits = max(...)` (blueqat/circuit.py:134-135). -/
def World.extend (w : World V M C B) (i j : ℕ) : World V M C B :=
  { w with
    lists := Function.update w.lists (w.circs i).ops (w.lists (w.circs i).ops ++ w.lists (w.circs j).ops)
    circs := Function.update w.circs i { w.circs i with n := max (w.circs i).n (w.circs j).n } }

/-- One client action on the world. `append`: blueqat/circuit.py:283-288 (the operation is stored before
`n_qubits` is computed); `appendCtorError`: the gate's constructor raises at line 285 before the append;
`add`: 124-129; `iadd`: 131-136; `dagger`: 161-185; `run`: 187-217; `runWith`: 106-122; `makeCache`: 219-228;
`setDefault`: 238-258. `runWith` is for a name `run_with_...` that is not registered as a gate or a macro (which needs
`allow_overwrite=True`, see `Registry.registerGate`; `Registry.lookup` has these cases). -/
noncomputable def World.step (kit : Kit C B A R) (isAttr : String → Bool) (w : World V M C B) :
    Cmd V M C A → World V M C B × Except PyErr (Out R)
  | .new n => (w.alloc n [] [] none, .ok (.circuit w.nCircs))
  | .newFrom n ops => (w.alloc n ops [] none, .ok (.circuit w.nCircs))
  | .append i g => w.onCirc i <|
      let w1 := { w with lists := Function.update w.lists (w.circs i).ops (w.lists (w.circs i).ops ++ [g]) }
      match getMaximumIndex g.targets with
      | .error e => (w1, .error e)
      | .ok mx =>
        ({ w1 with circs := Function.update w.circs i { w.circs i with n := newQubits mx (w.circs i).n } },
          .ok (.circuit i))
  | .appendCtorError i e => w.onCirc i (w, .error e)
  | .copy i cb cd => w.onCirc i (w.copyCirc i cb cd, .ok (.circuit w.nCircs))
  | .add i j => w.onCirc i <| w.onCirc j <|
      ((w.copyCirc i true true).extend w.nCircs j, .ok (.circuit w.nCircs))
  | .iadd i j => w.onCirc i <| w.onCirc j (w.extend i j, .ok (.circuit i))
  | .dagger i ign cb cd => w.onCirc i <|
      match daggerOps ign (w.lists (w.circs i).ops).reverse with
      | .error e => (w, .error e)
      | .ok ops =>
        let d := if cb then w.copyBes (w.circs i).bes else (w, [])
        (d.1.alloc (w.circs i).n ops d.2 (if cd then (w.circs i).dflt else none), .ok (.circuit w.nCircs))
  | .run i sel a => w.onCirc i <|
      match sel with
      | .none =>
        match w.getBackend kit i (w.dfltName i) with
        | .error e => (w, .error e)
        | .ok (w, addr) => w.runAt kit i addr a
      | .name s =>
        match w.getBackend kit i s with
        | .error e => (w, .error e)
        | .ok (w, addr) => w.runAt kit i addr a
      | .inst k =>
        match w.insts[k]? with
        | none => (w, .error .keyError)
        | some addr => w.runAt kit i addr a
  | .runWith i name a => w.onCirc i <|
      if w.reg.backends.has name = true then
        match w.getBackend kit i name with
        | .error e => (w, .error e)
        | .ok (w, addr) => w.runAt kit i addr a
      else (w, .error .attributeError)
  | .makeCache i name a => w.onCirc i <|
      match w.getBackend kit i (name.getD (w.dfltName i)) with
      | .error e => (w, .error e)
      | .ok (w, addr) =>
        let r := kit.makeCache (w.bes addr) (w.lists (w.circs i).ops) (w.circs i).n a
        ({ w with bes := Function.update w.bes addr r.1 }, r.2.map (fun _ => Out.unit))
  | .setDefault i name => w.onCirc i <|
      match name with
      | none => (w, .error .valueError)
      | some s =>
        if w.reg.backends.has s = true then
          ({ w with circs := Function.update w.circs i { w.circs i with dflt := some s } }, .ok .unit)
        else (w, .error .valueError)
  | .newBackend c =>
      ({ w with bes := Function.update w.bes w.nBes (kit.make c), nBes := w.nBes + 1,
                insts := w.insts ++ [w.nBes] }, .ok .unit)
  | .registerMacro name f allow => w.regStep (w.reg.registerMacro isAttr name f allow)
  | .unregisterMacro name => w.regStep (w.reg.unregisterMacro name)
  | .registerGate name g allow => w.regStep (w.reg.registerGate isAttr name g allow)
  | .unregisterGate name => w.regStep (w.reg.unregisterGate name)
  | .registerBackend name c allow => w.regStep (w.reg.registerBackend isAttr name c allow)
  | .unregisterBackend name => w.regStep (w.reg.unregisterBackend name)
  | .setGlobalDefault name => w.regStep (w.reg.setDefault name)

/-- A history of actions; exceptions are caught by the client, which carries on. -/
noncomputable def World.exec (kit : Kit C B A R) (isAttr : String → Bool) (w : World V M C B)
    (h : List (Cmd V M C A)) : World V M C B :=
  h.foldl (fun w c => (w.step kit isAttr c).1) w

/-- A program start: no circuit, no backend instance; any module tables. -/
def World.start (b : B) (reg : Registry V M C) : World V M C B :=
  ⟨fun _ => [], 0, fun _ => b, 0, fun _ => ⟨0, 0, [], none⟩, 0, [], reg⟩

end

/-! ## `blueqat.experimental.Ops` (blueqat/experimental/operations.py:46-92) -/

/-- An `Ops` value (lines 46-49): a named tuple, so an immutable value. -/
structure OpsVal where
  n : ℕ
  ops : List Gate

/-- `ops.gate[targets]` (lines 88-92): the maximum index is computed first. -/
def OpsVal.append (o : OpsVal) (g : Gate) : Except PyErr OpsVal :=
  match getMaximumIndex g.targets with
  | .error e => .error e
  | .ok mx => .ok ⟨newQubits mx o.n, o.ops ++ [g]⟩

/-- `ops + ops` (lines 61-64). -/
def OpsVal.add (o p : OpsVal) : OpsVal := ⟨max o.n p.n, o.ops ++ p.ops⟩

/-- `ops.dagger()` (lines 66-68). -/
noncomputable def OpsVal.dagger (o : OpsVal) : Except PyErr OpsVal :=
  match daggerOps false o.ops.reverse with
  | .error e => .error e
  | .ok ops => .ok ⟨o.n, ops⟩

end Blueqat
