import Verif.Pauli

/-!
# Model of `to_matrix` (blueqat/pauli.py:69-124, 618-643, 867-901)

Arrays are lists of exact complex numbers, index arrays lists of naturals (the code uses int32 below 31 qubits and int64
from there on, both wide enough; not modelled). A matrix of scipy or numpy is represented by its format and its rows of
entries: which of the entries are stored is not modelled.
-/

namespace Blueqat

noncomputable section

/-- `_kron_1d(a, b)` (pauli.py:69-76): `np.repeat(a, nb).reshape(-1, nb) * b`, flattened. For an empty `b`, `reshape`
raises ValueError. -/
def kron1d (a b : List ℂ) : Except PyErr (List ℂ) :=
  if b.length = 0 then .error .valueError
  else .ok (a.flatMap (fun x => List.zipWith (fun d y => d * y) (List.replicate b.length x) b))

/-- `bisect_left(a, x, lo, hi)` for `hi ≤ len(a)`. Library behaviour (the loop of the bisect module). -/
def bisectLeft (a : List ℕ) (x : ℕ) (lo hi : ℕ) : ℕ :=
  if h : lo < hi then
    let mid := (lo + hi) / 2
    if a.getD mid 0 < x then bisectLeft a x (mid + 1) hi else bisectLeft a x lo mid
  else lo
termination_by hi - lo
decreasing_by all_goals omega

/-- `_kron_1d_rec(krons, cumsum, lo, hi)` (pauli.py:79-90). The first argument bounds the depth of the recursion:
at 0 the model raises RecursionError, as Python does at its own bound. -/
def kron1dRec (krons : List (List ℂ)) (cumsum : List ℕ) : ℕ → ℕ → ℕ → Except PyErr (List ℂ)
  | 0, _, _ => .error .recursionError
  | fuel + 1, lo, hi =>
    if hi - lo = 1 then
      match krons[lo]? with
      | none => .error .indexError
      | some a => .ok a
    else if hi - lo = 2 then
      match krons[lo]?, krons[lo + 1]? with
      | some a, some b => kron1d a b
      | _, _ => .error .indexError
    else
      match cumsum[lo]?, cumsum[hi - 1]? with
      | some c, some d =>
        let mid := bisectLeft cumsum ((c + d) / 2) lo hi
        if mid = lo then
          match krons[lo]? with
          | none => .error .indexError
          | some a => do
            let b ← kron1dRec krons cumsum fuel (lo + 1) hi
            kron1d a b
        else do
          let a ← kron1dRec krons cumsum fuel lo mid
          let b ← kron1dRec krons cumsum fuel mid hi
          kron1d a b
      | _, _ => .error .indexError

/-- `itertools.groupby(l)` as (element, length of the run) pairs. Library behaviour. -/
def groupRuns {α : Type} [DecidableEq α] : List α → List (α × ℕ)
  | [] => []
  | x :: l =>
    match groupRuns l with
    | [] => [(x, 1)]
    | (y, k) :: r => if x = y then (y, k + 1) :: r else (x, 1) :: (y, k) :: r

/-- `for op in term.ops: paulis[op.n] = op.op` (pauli.py:99-100); `none` is `'I'`. -/
def setPaulis : List (Option PLetter) → List POp → Except PyErr (List (Option PLetter))
  | l, [] => .ok l
  | l, o :: ops => if o.n < l.length then setPaulis (l.set o.n (some o.p)) ops else .error .indexError

/-- The arrays a run of equal letters contributes to `data_list` (pauli.py:101-108). -/
def runData (rowmajor : Bool) (g : Option PLetter × ℕ) : List (List ℂ) :=
  match g.1 with
  | some .Y => List.replicate g.2 (if rowmajor then [-Complex.I, Complex.I] else [Complex.I, -Complex.I])
  | some .Z => List.replicate g.2 [1, -1]
  | _ => [List.replicate (2 ^ g.2) 1]

/-- `t = min(data_list, key=len); t *= coeff` (pauli.py:109-110): the first of the shortest arrays is scaled in place.
The second argument is the length of the shortest array. -/
def scaleFirst (c : ℂ) (m : ℕ) : List (List ℂ) → List (List ℂ)
  | [] => []
  | a :: l => if a.length = m then a.map (fun x => x * c) :: l else a :: scaleFirst c m l

/-- The length of the shortest array; `min` of an empty list raises ValueError. -/
def minLength : List (List ℂ) → Except PyErr ℕ
  | [] => .error .valueError
  | a :: l => .ok (l.foldl (fun m b => min m b.length) a.length)

/-- `np.cumsum`. Library behaviour. -/
def cumsumFrom (s : ℕ) : List ℕ → List ℕ
  | [] => []
  | k :: l => (s + k) :: cumsumFrom (s + k) l

/-- `_term_to_dataarray(term, n_qubits, rowmajor)` (pauli.py:93-113). -/
def termToDataarray (t : PTerm) (n : ℕ) (rowmajor : Bool) : Except PyErr (List ℂ) := do
  let paulis ← setPaulis (List.replicate n none) t.ops
  let dataList := (groupRuns paulis).flatMap (runData rowmajor)
  let m ← minLength dataList
  let dataList := (scaleFirst t.coeff m dataList).reverse
  let cumsum := cumsumFrom 0 (dataList.map List.length)
  kron1dRec dataList cumsum (cumsum.length + 1) 0 cumsum.length

/-- `sum(1 << op.n for op in term.ops if op.op in 'XY')` (pauli.py:119, 880). -/
def xorBits (ops : List POp) : ℕ :=
  ((ops.filter (fun o => decide (o.p = .X ∨ o.p = .Y))).map (fun o => 1 <<< o.n)).sum

/-- `_term_to_indices(term, dim, dtype, False)` (pauli.py:124). With `rowcol` the rows are the same array, the columns
are `arange(dim)` (pauli.py:120-123). -/
def termToIndices (t : PTerm) (dim : ℕ) : List ℕ := (List.range dim).map (fun k => k ^^^ xorBits t.ops)

/-! ## scipy.sparse and numpy (library behaviour) -/

/-- The argument `sparse`: `None` or a name; the names of `_sparse_types` (pauli.py:31-39). -/
inductive SparseArg where
  | none | bsr | coo | csc | csr | dia | dok | lil | other
  deriving DecidableEq

/-- A result: the format, and the entries row by row. -/
structure PyMatrix where
  fmt : SparseArg
  rows : List (List ℂ)

/-- The entry `minor` of column (csc) or row (csr) `major` of a compressed matrix: the stored elements
`indptr[major] .. indptr[major+1]-1` whose index is `minor`, added up. -/
def compressedEntry (data : List ℂ) (indices indptr : List ℕ) (major minor : ℕ) : ℂ :=
  ((List.range' (indptr.getD major 0) (indptr.getD (major + 1) 0 - indptr.getD major 0)).map
    (fun k => if indices.getD k 0 = minor then data.getD k 0 else 0)).sum

/-- The checks of the constructors `csc_matrix((data, indices, indptr), shape=(dim, dim))` and `csr_matrix`. -/
def compressedCheck (data : List ℂ) (indices indptr : List ℕ) (dim : ℕ) : Bool :=
  decide (indptr.length = dim + 1 ∧ indptr.getD 0 0 = 0 ∧ indices.length = data.length ∧
    indptr.getD dim 0 ≤ indices.length ∧ ∀ k ∈ indices, k < dim)

/-- `csc_matrix((data, indices, indptr), shape=(dim, dim))`, as its rows. -/
def cscRows (data : List ℂ) (indices indptr : List ℕ) (dim : ℕ) : Except PyErr (List (List ℂ)) :=
  if compressedCheck data indices indptr dim then
    .ok ((List.range dim).map fun i => (List.range dim).map fun j => compressedEntry data indices indptr j i)
  else .error .valueError

/-- `csr_matrix((data, indices, indptr), shape=(dim, dim))`, as its rows. -/
def csrRows (data : List ℂ) (indices indptr : List ℕ) (dim : ℕ) : Except PyErr (List (List ℂ)) :=
  if compressedCheck data indices indptr dim then
    .ok ((List.range dim).map fun i => (List.range dim).map fun j => compressedEntry data indices indptr i j)
  else .error .valueError

/-- `coo_matrix((data, (row, col)), shape=(dim, dim))`, as its rows: elements at the same place are added up. -/
def cooRows (data : List ℂ) (row col : List ℕ) (dim : ℕ) : Except PyErr (List (List ℂ)) :=
  if row.length = data.length ∧ col.length = data.length ∧ (∀ k ∈ row, k < dim) ∧ (∀ k ∈ col, k < dim) then
    .ok ((List.range dim).map fun i => (List.range dim).map fun j =>
      ((List.range data.length).map
        (fun k => if row.getD k 0 = i ∧ col.getD k 0 = j then data.getD k 0 else 0)).sum)
  else .error .valueError

/-- `np.arange(0, stop, step)` for naturals. Library behaviour. -/
def arangeStep (stop step : ℕ) : Except PyErr (List ℕ) :=
  if step = 0 then .error .zeroDivisionError
  else .ok ((List.range ((stop + step - 1) / step)).map (fun k => k * step))

/-! ## Term.to_matrix, Expr.to_matrix -/

/-- `Term.to_matrix(n_qubits, sparse=...)` (pauli.py:618-643), for any integer `n_qubits`. A negative number other
than -1 makes `['I'] * n_qubits` empty. The conversions `m.toarray()` and `_sparse_types[sparse](m)` keep the entries. -/
def PTerm.toMatrix (t : PTerm) (nQubits : ℤ) (sparse : SparseArg) : Except PyErr PyMatrix :=
  if sparse = .other then .error .valueError
  else
    let nQubits := if nQubits = -1 then (t.nQubits : ℤ) else nQubits
    if nQubits = 0 then .ok ⟨sparse, [[t.coeff]]⟩
    else do
      let n := nQubits.toNat
      let dim := 2 ^ n
      let term := t.simplify
      let data ← termToDataarray term n (decide (sparse = .csr))
      if sparse = .csc then
        let rows ← cscRows data (termToIndices term dim) (List.range (dim + 1)) dim
        .ok ⟨sparse, rows⟩
      else if sparse = .csr then
        let rows ← csrRows data (termToIndices term dim) (List.range (dim + 1)) dim
        .ok ⟨sparse, rows⟩
      else
        let rows ← cooRows data (termToIndices term dim) (List.range dim) dim
        .ok ⟨sparse, rows⟩

/-- `_PauliImpl.to_matrix` (pauli.py:320-322). -/
def Pauli.toMatrix (p : Pauli) (nQubits : ℤ) (sparse : SparseArg) : Except PyErr PyMatrix :=
  p.toTerm.toMatrix nQubits sparse

/-- `groupby(l, key=key)`: the runs of equal keys. Library behaviour. -/
def groupByKey {α : Type} (key : α → ℕ) : List α → List (List α)
  | [] => []
  | x :: l =>
    match groupByKey key l with
    | [] => [[x]]
    | [] :: r => [x] :: r
    | (y :: g) :: r => if key x = key y then (x :: y :: g) :: r else [x] :: (y :: g) :: r

/-- `a[start::step] = v` for `len(v)` fitting. Library behaviour. -/
def setStride {α : Type} (step : ℕ) : ℕ → List α → List α → List α
  | _, [], a => a
  | pos, x :: v, a => setStride step (pos + step) v (a.set pos x)

/-- `a += b` on arrays of equal length. Library behaviour. -/
def addArrays (a b : List ℂ) : List ℂ := List.zipWith (fun x y => x + y) a b

/-- `val_acc` of one group (pauli.py:890-893). -/
def groupValues (n : ℕ) (isCsr : Bool) : List PTerm → List ℂ → Except PyErr (List ℂ)
  | [], acc => .ok acc
  | t :: ts, acc => do
    let d ← termToDataarray t n isCsr
    groupValues n isCsr ts (addArrays acc d)

/-- The loop over the groups (pauli.py:889-894); the arguments are `i_grp`, the remaining groups, `vals` and `inds`. -/
def fillGroups (n dim nGroups : ℕ) (isCsr : Bool) : ℕ → List (List PTerm) → List ℂ → List ℕ →
    Except PyErr (List ℂ × List ℕ)
  | _, [], vals, inds => .ok (vals, inds)
  | _, [] :: _, _, _ => .error .indexError
  | i, (t :: ts) :: grps, vals, inds => do
    let acc ← termToDataarray t n isCsr
    let inds := setStride nGroups i (termToIndices t dim) inds
    let acc ← groupValues n isCsr ts acc
    let vals := setStride nGroups i acc vals
    fillGroups n dim nGroups isCsr (i + 1) grps vals inds

/-- `Expr.to_matrix(n_qubits, sparse=...)` (pauli.py:867-901). `junkV` and `junkI` are the contents of the memory that
`np.empty` returns. `eliminate_zeros` keeps the entries. For a negative number other than -1, `dim` is a fraction and
`np.empty` raises TypeError. -/
def PExpr.toMatrix (junkV : ℕ → ℂ) (junkI : ℕ → ℕ) (e : PExpr) (nQubits : ℤ) (sparse : SparseArg) :
    Except PyErr PyMatrix :=
  if sparse = .other then .error .valueError
  else
    let nQubits := if nQubits = -1 then (e.nQubits : ℤ) else nQubits
    if nQubits = 0 then .ok ⟨sparse, [[(e.terms.map PTerm.coeff).sum]]⟩
    else if nQubits < 0 then .error .typeError
    else do
      let n := nQubits.toNat
      let expr := e.simplify
      let grpkey := fun t : PTerm => xorBits t.ops
      let dim := 2 ^ n
      let isCsr := decide (sparse = .csr)
      let grTerms := groupByKey grpkey
        (expr.terms.mergeSort (fun s t => decide (grpkey s ≤ grpkey t)))
      let nGroups := grTerms.length
      let nVals := nGroups * dim
      let (vals, inds) ← fillGroups n dim nGroups isCsr 0 grTerms ((List.range nVals).map junkV)
        ((List.range nVals).map junkI)
      let indptr ← arangeStep (nVals + 1) nGroups
      let rows ← if isCsr then csrRows vals inds indptr dim else cscRows vals inds indptr dim
      .ok ⟨sparse, rows⟩

/-- `_PauliImpl.matrix` and `_PauliCtor.matrix` (pauli.py:315-318, 343-346): `_matrix[op]` (pauli.py:42-47). -/
def Pauli.matrix : Pauli → List (List ℂ)
  | .I => [[1, 0], [0, 1]]
  | .op ⟨.X, _⟩ => [[0, 1], [1, 0]]
  | .op ⟨.Y, _⟩ => [[0, -Complex.I], [Complex.I, 0]]
  | .op ⟨.Z, _⟩ => [[1, 0], [0, -1]]

end

end Blueqat
