import Verif.Gate
import Verif.PyDict
import Mathlib.Data.Real.Basic
import Mathlib.Data.Int.Bitwise
import Mathlib.Data.Nat.Digits.Defs

/-!
# Model of the qgate backend (blueqat/backends/qgate_backend.py)

qgate itself is not modelled. Its simulator object is a record of functions (`QSim`); registers and references are named by
their position in `self.qregs` and `self.refs`. Python and numpy integers are unbounded.
-/

namespace Blueqat

noncomputable section

/-- The members of `qgate.model.gate_type` in the table (lines 18-39). -/
inductive QType where
  | ID | X | Y | Z | H | T | S | RX | RY | RZ | U1 | U2 | U | SWAP
  deriving DecidableEq, Repr

/-- qgate's operator objects as this backend builds them: `Gate` with its type, parameters, adjoint flag, control
registers and register; `MultiQubitGate`; `Measure`. -/
inductive QOp where
  | gate (ty : QType) (params : List ℝ) (adjoint : Bool) (ctrls : List ℕ) (qreg : ℕ)
  | multi (ty : QType) (params : List ℝ) (qreg0 qreg1 : ℕ)
  | measure (ref qreg : ℕ)

/-- An element of a list of length `n`, named by its position: `self.qregs[i]`. -/
def qregAt (n : ℕ) (i : ℤ) : Except PyErr ℕ :=
  if 0 ≤ i ∧ i < n then .ok i.toNat
  else if i < 0 ∧ 0 ≤ i + n then .ok (i + n).toNat
  else .error .indexError

/-- A loop over a generator that puts one object per value into a list (lines 148-150, 155-160): the values come before the
exception of the generator. -/
def qgCollect (n : ℕ) (g : Gen ℤ) (f : ℕ → QOp) : Except PyErr (List QOp) := do
  let regs ← g.vals.mapM (qregAt n)
  match g.err with
  | some e => .error e
  | none => .ok (regs.map f)

/-- `gatetypes.get(op.lowername)` for one-qubit gates (lines 18-33), with `gate.params`, and whether `lowername[1:]` is
`'dg'` (line 108). -/
def qgType1 : G1 → QType × List ℝ × Bool
  | .i => (.ID, [], false)
  | .x => (.X, [], false)
  | .y => (.Y, [], false)
  | .z => (.Z, [], false)
  | .h => (.H, [], false)
  | .t => (.T, [], false)
  | .s => (.S, [], false)
  | .tdg => (.T, [], true)
  | .sdg => (.S, [], true)
  | .rx θ => (.RX, [θ], false)
  | .ry θ => (.RY, [θ], false)
  | .rz θ => (.RZ, [θ], false)
  | .phase θ => (.U1, [θ], false)
  | .u1 lam => (.RZ, [lam], false)
  | .u2 φ lam => (.U2, [φ, lam], false)
  | .u3 θ φ lam => (.U, [θ, φ, lam], false)

/-- The same for two-qubit gates with one control (lines 24-37); `none` if the name is not in the table, or is `swap`. -/
def qgType2 : G2 → Option (QType × List ℝ)
  | .cz => some (.Z, [])
  | .cx => some (.X, [])
  | .crx θ => some (.RX, [θ])
  | .cry θ => some (.RY, [θ])
  | .crz θ => some (.RZ, [θ])
  | .cphase θ => some (.U1, [θ])
  | .cu1 lam => some (.U1, [lam])
  | .cu2 φ lam => some (.U2, [φ, lam])
  | .cu3 θ φ lam => some (.U, [θ, φ, lam])
  | _ => none

/-- `self.qregs[t]` for one element of a tuple of targets. What a list of registers (from a slice) does inside qgate is not
modelled. -/
def qregItem (n : ℕ) : Item → Except PyErr ℕ
  | .atom (.int i) => qregAt n i
  | .atom (.slice _ _ _) => .error .undefinedBehaviour
  | .atom .bad => .error .typeError
  | .tup _ => .error .typeError

/-- The controlled gates of `convert_one_qubit_gate` (lines 113-122). -/
def qgPairs (n : ℕ) (ty : QType) (params : List ℝ) : List (ℤ × ℤ) → Except PyErr (List QOp)
  | [] => .ok []
  | (c, t) :: ps => do
    let ctrl ← qregAt n c
    let qreg ← qregAt n t
    let rest ← qgPairs n ty params ps
    .ok (.gate ty params false [ctrl] qreg :: rest)

/-- A two-qubit gate with one control (lines 87-97, 113-122). -/
def qgControlled (n : ℕ) (k : G2) (T : Targets) : Except PyErr (List QOp) :=
  match qgType2 k with
  | none => .error .assertionError
  | some (ty, params) =>
    match qubitPairs T n with
    | .error e => .error e
    | .ok ps => qgPairs n ty params ps

/-- One round of `convert_operators` (lines 86-97), with `convert_one_qubit_gate`, `convert_multi_qubit_gate` and
`convert_measure` (lines 100-151). Gates that are not in the table end in `assert False`; there is no fallback. -/
def qgConvert (n : ℕ) : Gate → Except PyErr (List QOp)
  | .g1 k T => qgCollect n (slicing T n) (fun q => .gate (qgType1 k).1 (qgType1 k).2.1 (qgType1 k).2.2 [] q)
  | .g2 .swap T =>
    match T with
    | .one _ => .error .typeError
    | .tup [a, b] => do
      let a ← qregItem n a
      let b ← qregItem n b
      .ok [.multi .SWAP [] a b]
    | .tup _ => .error .valueError
  | .g2 k T => qgControlled n k T
  | .g3 .ccx T =>
    match T with
    | .one _ => .error .typeError
    | .tup [a, b, c] => do
      let a ← qregItem n a
      let b ← qregItem n b
      let c ← qregItem n c
      .ok [.gate .X [] false [a, b] c]
    | .tup _ => .error .valueError
  | .g3 _ _ => .error .assertionError
  | .measure T => qgCollect n (slicing T n) (fun q => .measure q q)
  | .reset _ => .error .assertionError

/-- `convert_operators(gates)` (lines 84-98). -/
def qgConvertAll (n : ℕ) : List Gate → Except PyErr (List QOp)
  | [] => .ok []
  | g :: gs => do
    let a ← qgConvert n g
    let b ← qgConvertAll n gs
    .ok (a ++ b)

/-- `isinstance(op, model.Measure)` and `op.qreg` (lines 182-183). -/
def QOp.measured : QOp → Option ℕ
  | .measure _ q => some q
  | _ => none

/-- The list `ops_no_measure` (lines 179-185). -/
def qgNoMeasure (ops : List QOp) : List QOp := ops.filter (fun op => op.measured.isNone)

/-- `sampling_qregs` (lines 178-192): the measured registers, each once, in the order of `self.qregs`. -/
def qgSampled (ops : List QOp) : List ℕ := (ops.filterMap QOp.measured).dedup.insertionSort (· ≤ ·)

/-- `format(x, '0{}b'.format(width))` for `x ≥ 0`: binary digits, at least one, padded with zeros to the width. -/
def formatBin (width x : ℕ) : String :=
  let digits := if x = 0 then ['0'] else ((Nat.digits 2 x).map (fun d => if d = 1 then '1' else '0')).reverse
  String.ofList (List.replicate (width - digits.length) '0' ++ digits)

/-- The loop over `sampling_pos` (lines 209-212): bit `idx` of `v` goes to bit `max_bit_pos - pos`. `idx` is the number of
the first position. -/
def qgPermute (maxBitPos v : ℕ) : ℕ → List ℕ → ℕ → ℕ
  | _, [], permuted => permuted
  | idx, pos :: ps, permuted =>
    qgPermute maxBitPos v (idx + 1) ps (if v &&& (1 <<< idx) ≠ 0 then permuted ||| (1 <<< (maxBitPos - pos)) else permuted)

/-- The loop over the histogram (lines 203-215). -/
def qgStrKeys (n : ℕ) (pos : List ℕ) (hist : PyDict ℕ ℕ) : PyDict String ℕ :=
  hist.foldl (fun (d : PyDict String ℕ) (p : ℕ × ℕ) => d.set (formatBin n (qgPermute (n - 1) p.1 0 pos 0)) p.2) []

/-- The simulator: the state vector after running operators; the histogram of sampling registers (the value has the bit of
the `idx`-th register at bit `idx`), with the given `sampling` method; the values of the references after running. -/
structure QSim (S : Type) where
  states : ℕ → List QOp → S
  sample : ℕ → List QOp → List ℕ → ℕ → String → PyDict ℕ ℕ
  obs : ℕ → List QOp → ℕ → Bool

/-- `sample(sim, ops, shots, sampling_method)` (lines 177-215). -/
def qgSample {S : Type} (sim : QSim S) (n : ℕ) (ops : List QOp) (shots : ℕ) (sampling : String) : PyDict String ℕ :=
  let pos := qgSampled ops
  qgStrKeys n pos (sim.sample n (qgNoMeasure ops) pos shots sampling)

/-- The integer of an observation: bit `idx` is the value of the `idx`-th reference. -/
def qgObsInt (vals : List Bool) : ℕ := vals.foldr (fun b v => 2 * v + b.toNat) 0

/-- `get_state_vector_and_sample(sim, ops)` (lines 217-228). -/
def qgStateAndSample {S : Type} (sim : QSim S) (n : ℕ) (ops : List QOp) : S × PyDict String ℕ :=
  let reversedRefs := (List.range n).reverse
  (sim.states n ops, [(formatBin n (qgObsInt (reversedRefs.map (sim.obs n ops))), 1)])

/-- What `run` returns. -/
inductive QResult (S : Type) where
  | state (s : S)
  | shots (c : PyDict String ℕ)
  | both (s : S) (c : PyDict String ℕ)

/-- `run(gates, n_qubits, returns=, shots=, sampling=, runtime=)` (lines 40-82), with the defaults already filled in.
`Counter` of a dict keeps its items. -/
def qgRun {S : Type} (sim : QSim S) (n : ℕ) (gates : List Gate) (returns : String) (shots : ℕ) (sampling runtime : String) :
    Except PyErr (QResult S) :=
  let r := if shots ≠ 0 ∧ returns = "" then "shots" else if returns = "" then "statevector" else returns
  if runtime ≠ "cuda" ∧ runtime ≠ "cpu" ∧ runtime ≠ "py" then .error .runtimeError
  else do
    let ops ← qgConvertAll n gates
    if r = "statevector" then .ok (.state (sim.states n ops))
    else if r = "shots" then .ok (.shots (qgSample sim n ops shots sampling))
    else if r = "statevector_and_shots" then
      if 1 < shots then .error .runtimeError
      else
        let x := qgStateAndSample sim n ops
        .ok (.both x.1 x.2)
    else .error .runtimeError

/-! ## `BlueqatCompatibleSamplingPool` -/

/-- `l[::2]`. -/
def everyOther {α : Type} : List α → List α
  | [] => []
  | [a] => [a]
  | a :: _ :: l => a :: everyOther l

/-- The inner loop of `sample` (lines 246-258): `bits` rounds left, this one for bit `bitpos`; `rnd` are the random
numbers. numpy's `0 / 0` is nan, which no number is less than; here it is 0, with random numbers that are not negative. -/
def poolDraw (rnd : ℕ → ℝ) : ℕ → ℕ → List ℝ → ℝ → ℕ → ℕ
  | 0, _, _, _, v => v
  | bits + 1, bitpos, redprob, pAll, v =>
    let pZero := (everyOther redprob).sum
    if rnd bitpos < pZero / pAll then poolDraw rnd bits (bitpos + 1) (everyOther redprob) pZero v
    else poolDraw rnd bits (bitpos + 1) (everyOther (redprob.drop 1)) (pAll - pZero) (v ||| (1 <<< bitpos))

/-- The masks of `shift_for_empty_lanes` (lines 268-278). `bits[0]` of an empty list is an IndexError; the method is only
called with lanes. -/
def laneMasks (emptyLanes : List ℕ) : Except PyErr (List ℤ) :=
  let bits : List ℤ := emptyLanes.map (fun lane => 2 ^ lane)
  match bits.head?, bits.getLast? with
  | some b0, some bl =>
    .ok ([b0 - 1] ++
      (List.range (bits.length - 1)).map (fun idx =>
        Int.land (bits.getD (idx + 1) 0 - 1) (Int.lnot (bits.getD idx 0 * 2 - 1))) ++
      [Int.lnot (bl * 2 - 1)])
  | _, _ => .error .indexError

/-- The loop over the masks (lines 280-285) for one value; `v << shift` is `v * 2 ** shift`. -/
def shiftLanes (masks : List ℤ) (v : ℤ) : ℤ :=
  (masks.zipIdx).foldl (fun (acc : ℤ) (p : ℤ × ℕ) => Int.lor acc (Int.land (v * 2 ^ p.2) p.1)) 0

/-- `shift_for_empty_lanes(obs)` (lines 267-285). -/
def shiftForEmptyLanes (emptyLanes : List ℕ) (obs : List ℤ) : Except PyErr (List ℤ) := do
  let masks ← laneMasks emptyLanes
  .ok (obs.map (shiftLanes masks))

/-- `sample(n_samples)` (lines 242-265) up to the construction of qgate's `ObservationList`; `width` is
`len(qreg_ordering)`, sample number `idx` uses the random numbers `rnd idx`. `mask` is not zero iff there are empty lanes
(lines 238-240). -/
def poolSample (prob : List ℝ) (emptyLanes : List ℕ) (width : ℕ) (rnd : ℕ → ℕ → ℝ) (nSamples : ℕ) : Except PyErr (List ℤ) :=
  let obs := (List.range nSamples).map (fun idx => ((poolDraw (rnd idx) width 0 prob 1 0 : ℕ) : ℤ))
  if emptyLanes ≠ [] then shiftForEmptyLanes emptyLanes obs else .ok obs

end

end Blueqat
