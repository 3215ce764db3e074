import Verif.PauliMatrix
import Verif.VqeFloat

/-!
# `simplify`, `to_matrix` and the sparse energy in rounded arithmetic (blueqat/pauli.py, blueqat/vqe.py)

As in `Verif.Pauli`, `Verif.PauliMatrix` and `Verif.Vqe`, but with the arithmetic of the machine, a parameter `P : PauliOps`.
Line numbers are of blueqat/pauli.py unless another file is named. Simplifications as there; also, floating-point numbers are
real numbers (no NaN, no infinities, no signed zero), and elements that a compressed matrix stores at the same place would be
added exactly (`to_matrix` never stores two at one place: the groups have different keys).
-/

namespace Blueqat

/-- The arithmetic of `simplify`, `to_matrix` and `sparse_expectation`. -/
structure PauliOps where
  /-- `*`, `*=` of complex numbers and of arrays element by element (lines 75, 110, 544-545) -/
  mul : ℂ → ℂ → ℂ
  /-- `+=` of complex numbers and of arrays element by element (lines 863, 893), `sum` (line 874) -/
  add : ℂ → ℂ → ℂ
  /-- one entry of `mat.dot(vec)` from the row and the vector (blueqat/vqe.py:332) -/
  dot : List ℂ → List ℂ → ℂ
  /-- `np.vdot(a, b)` for vectors of the same length (blueqat/vqe.py:332) -/
  vdot : List ℂ → List ℂ → ℂ

noncomputable section

/-- Exact arithmetic. -/
def PauliOps.exact : PauliOps where
  mul a b := a * b
  add a b := a + b
  dot a b := (List.zipWith (· * ·) a b).sum
  vdot a b := (List.zipWith (fun x y => (starRingEnd ℂ) x * y) a b).sum

/-- Every operation on floats is rounded by `fl`; products are added up one after the other. -/
def PauliOps.rounded (fl : ℝ → ℝ) : PauliOps where
  mul := (FloatOps.rounded fl id id).mul
  add := (FloatOps.rounded fl id id).add
  dot a b := (List.zipWith (FloatOps.rounded fl id id).mul a b).foldl (FloatOps.rounded fl id id).add 0
  vdot a b := (List.zipWith (fun x y => (FloatOps.rounded fl id id).mul ((starRingEnd ℂ) x) y) a b).foldl
    (FloatOps.rounded fl id id).add 0

/-! ## simplify -/

/-- The product of the letters of one qubit (lines 539-544). -/
def flSimplifyQubit (P : PauliOps) : List PLetter → ℂ × Option PLetter
  | [] => (1, none)
  | p :: ps => ps.foldl (fun (s : ℂ × Option PLetter) q =>
      let r := simplifyMul s.2 (some q)
      (P.mul s.1 r.1, r.2)) (1, some p)

/-- The loop over the qubits (lines 538-550). -/
def flSimplifyLoop (P : PauliOps) (before : PyDict ℕ (List PLetter)) : List ℕ → ℂ × List POp → ℂ × List POp
  | [], s => s
  | n :: ns, (c, ops) =>
    let r := flSimplifyQubit P ((before.get n).getD [])
    let c := castReal (P.mul c r.1)
    let ops := match r.2 with
      | none => ops
      | some p => ops ++ [⟨p, n⟩]
    flSimplifyLoop P before ns (c, ops)

/-- `Term.simplify()` (lines 522-551). -/
def PTerm.flSimplify (P : PauliOps) (t : PTerm) : PTerm :=
  let before := simplifyBefore t.ops
  let r := flSimplifyLoop P before (pySorted (before.map Prod.fst)) (t.coeff, [])
  ⟨r.2, r.1⟩

/-- `d[term.ops] += term.coeff` (line 863). -/
def flDictAdd (P : PauliOps) (d : PyDict (List POp) ℂ) (t : PTerm) : PyDict (List POp) ℂ :=
  d.set t.ops (P.add ((d.get t.ops).getD 0) t.coeff)

/-- The dictionary `d` of `Expr.simplify` (lines 860-863). -/
def PExpr.flSimplifyDict (P : PauliOps) (e : PExpr) : PyDict (List POp) ℂ :=
  (e.terms.map (PTerm.flSimplify P)).foldl (flDictAdd P) []

/-- `Expr.simplify()` (lines 858-865). -/
def PExpr.flSimplify (P : PauliOps) (e : PExpr) : PExpr :=
  let d := e.flSimplifyDict P
  .fromTermsIter (((sortByRepr (d.map Prod.fst)).filter (fun k => decide ((d.get k).getD 0 ≠ 0))).map
    (fun k => ⟨k, (d.get k).getD 0⟩))

/-! ## to_matrix -/

/-- `_kron_1d(a, b)` (lines 69-76). -/
def flKron1d (P : PauliOps) (a b : List ℂ) : Except PyErr (List ℂ) :=
  if b.length = 0 then .error .valueError
  else .ok (a.flatMap (fun x => List.zipWith (fun d y => P.mul d y) (List.replicate b.length x) b))

/-- `_kron_1d_rec(krons, cumsum, lo, hi)` (lines 79-90), the depth bounded as in `kron1dRec`. -/
def flKron1dRec (P : PauliOps) (krons : List (List ℂ)) (cumsum : List ℕ) : ℕ → ℕ → ℕ → Except PyErr (List ℂ)
  | 0, _, _ => .error .recursionError
  | fuel + 1, lo, hi =>
    if hi - lo = 1 then
      match krons[lo]? with
      | none => .error .indexError
      | some a => .ok a
    else if hi - lo = 2 then
      match krons[lo]?, krons[lo + 1]? with
      | some a, some b => flKron1d P a b
      | _, _ => .error .indexError
    else
      match cumsum[lo]?, cumsum[hi - 1]? with
      | some c, some d =>
        let mid := bisectLeft cumsum ((c + d) / 2) lo hi
        if mid = lo then
          match krons[lo]? with
          | none => .error .indexError
          | some a => do
            let b ← flKron1dRec P krons cumsum fuel (lo + 1) hi
            flKron1d P a b
        else do
          let a ← flKron1dRec P krons cumsum fuel lo mid
          let b ← flKron1dRec P krons cumsum fuel mid hi
          flKron1d P a b
      | _, _ => .error .indexError

/-- `t = min(data_list, key=len); t *= coeff` (lines 109-110), as in `scaleFirst`. -/
def flScaleFirst (P : PauliOps) (c : ℂ) (m : ℕ) : List (List ℂ) → List (List ℂ)
  | [] => []
  | a :: l => if a.length = m then a.map (fun x => P.mul x c) :: l else a :: flScaleFirst P c m l

/-- `_term_to_dataarray(term, n_qubits, rowmajor)` (lines 93-113). -/
def flTermToDataarray (P : PauliOps) (t : PTerm) (n : ℕ) (rowmajor : Bool) : Except PyErr (List ℂ) := do
  let paulis ← setPaulis (List.replicate n none) t.ops
  let dataList := (groupRuns paulis).flatMap (runData rowmajor)
  let m ← minLength dataList
  let dataList := (flScaleFirst P t.coeff m dataList).reverse
  let cumsum := cumsumFrom 0 (dataList.map List.length)
  flKron1dRec P dataList cumsum (cumsum.length + 1) 0 cumsum.length

/-- `Term.to_matrix(n_qubits, sparse=...)` (lines 618-643), as `PTerm.toMatrix`. -/
def PTerm.flToMatrix (P : PauliOps) (t : PTerm) (nQubits : ℤ) (sparse : SparseArg) : Except PyErr PyMatrix :=
  if sparse = .other then .error .valueError
  else
    let nQubits := if nQubits = -1 then (t.nQubits : ℤ) else nQubits
    if nQubits = 0 then .ok ⟨sparse, [[t.coeff]]⟩
    else do
      let n := nQubits.toNat
      let dim := 2 ^ n
      let term := t.flSimplify P
      let data ← flTermToDataarray P term n (decide (sparse = .csr))
      if sparse = .csc then
        let rows ← cscRows data (termToIndices term dim) (List.range (dim + 1)) dim
        .ok ⟨sparse, rows⟩
      else if sparse = .csr then
        let rows ← csrRows data (termToIndices term dim) (List.range (dim + 1)) dim
        .ok ⟨sparse, rows⟩
      else
        let rows ← cooRows data (termToIndices term dim) (List.range dim) dim
        .ok ⟨sparse, rows⟩

/-- `val_acc += ...` of one group (lines 892-893). -/
def flGroupValues (P : PauliOps) (n : ℕ) (isCsr : Bool) : List PTerm → List ℂ → Except PyErr (List ℂ)
  | [], acc => .ok acc
  | t :: ts, acc => do
    let d ← flTermToDataarray P t n isCsr
    flGroupValues P n isCsr ts (List.zipWith P.add acc d)

/-- The loop over the groups (lines 889-894). -/
def flFillGroups (P : PauliOps) (n dim nGroups : ℕ) (isCsr : Bool) : ℕ → List (List PTerm) → List ℂ → List ℕ →
    Except PyErr (List ℂ × List ℕ)
  | _, [], vals, inds => .ok (vals, inds)
  | _, [] :: _, _, _ => .error .indexError
  | i, (t :: ts) :: grps, vals, inds => do
    let acc ← flTermToDataarray P t n isCsr
    let inds := setStride nGroups i (termToIndices t dim) inds
    let acc ← flGroupValues P n isCsr ts acc
    let vals := setStride nGroups i acc vals
    flFillGroups P n dim nGroups isCsr (i + 1) grps vals inds

/-- `Expr.to_matrix(n_qubits, sparse=...)` (lines 867-901), as `PExpr.toMatrix`. -/
def PExpr.flToMatrix (P : PauliOps) (junkV : ℕ → ℂ) (junkI : ℕ → ℕ) (e : PExpr) (nQubits : ℤ) (sparse : SparseArg) :
    Except PyErr PyMatrix :=
  if sparse = .other then .error .valueError
  else
    let nQubits := if nQubits = -1 then (e.nQubits : ℤ) else nQubits
    if nQubits = 0 then .ok ⟨sparse, [[(e.terms.map PTerm.coeff).foldl P.add 0]]⟩
    else if nQubits < 0 then .error .typeError
    else do
      let n := nQubits.toNat
      let expr := e.flSimplify P
      let grpkey := fun t : PTerm => xorBits t.ops
      let dim := 2 ^ n
      let isCsr := decide (sparse = .csr)
      let grTerms := groupByKey grpkey
        (expr.terms.mergeSort (fun s t => decide (grpkey s ≤ grpkey t)))
      let nGroups := grTerms.length
      let nVals := nGroups * dim
      let (vals, inds) ← flFillGroups P n dim nGroups isCsr 0 grTerms ((List.range nVals).map junkV)
        ((List.range nVals).map junkI)
      let indptr ← arangeStep (nVals + 1) nGroups
      let rows ← if isCsr then csrRows vals inds indptr dim else cscRows vals inds indptr dim
      .ok ⟨sparse, rows⟩

/-! ## The sparse energy -/

/-- `mat.dot(vec)` (blueqat/vqe.py:332); ValueError if the sizes do not fit. -/
def flMatDot (P : PauliOps) (mat : PyMatrix) (vec : List ℂ) : Except PyErr (List ℂ) :=
  if ∀ r ∈ mat.rows, r.length = vec.length then .ok (mat.rows.map (fun r => P.dot r vec))
  else .error .valueError

/-- `sparse_expectation(mat, vec)` (blueqat/vqe.py:321-332). -/
def flSparseExpectation (P : PauliOps) (mat : PyMatrix) (vec : List ℂ) : Except PyErr ℝ := do
  let w ← flMatDot P mat vec
  let z ← if vec.length = w.length then .ok (P.vdot vec w) else .error .valueError
  .ok z.re

/-- `AnsatzBase.get_energy_sparse(circuit)` (blueqat/vqe.py:62-64); `R` runs the circuit, and `returns="statevector"` is the
default of one run. -/
def flGetEnergySparse (P : PauliOps) (R : StateRunner) (sparse : PyMatrix) (circuit : OpsVal) (rnd : ℕ → ℝ) :
    Except PyErr (ℝ × (ℕ → ℝ)) := do
  let (q, rnd) ← R circuit rnd
  let x ← flSparseExpectation P sparse q
  .ok (x, rnd)

/-- `AnsatzBase.make_sparse()` with the default format (blueqat/vqe.py:33-38). -/
def flMakeSparse (P : PauliOps) (junkV : ℕ → ℂ) (junkI : ℕ → ℕ) (hamiltonian : PExpr) : Except PyErr PyMatrix :=
  hamiltonian.flToMatrix P junkV junkI (-1) .csc

end

end Blueqat
