import Verif.Qubo

/-!
# Model of blueqat/wq.py: `Opt.add`, `Opt.run` with a numpy QUBO, `Opt.dw`

`self.qubo` is a list of lists or a numpy array. Comparing the two kinds with `[]` is different:
`array != []` compares elementwise with an array of shape `(0,)`. If the array has one column (or none) the shapes are
compatible and the result is an empty array, whose truth value is False; otherwise the shapes do not match and numpy
1.12 to 1.24 answer True (later versions raise ValueError).
-/

namespace Blueqat

noncomputable section

/-- The attribute `qubo` of `Opt` (wq.py:380). -/
inductive QuboVal where
  | rows (r : Rows)
  | array (m : NpMat)

/-- `len(qubo)`. -/
def QuboVal.len : QuboVal → ℕ
  | .rows r => r.length
  | .array m => m.rows

/-- The truth value of `qubo != []` (wq.py:485, 536, 574). -/
def QuboVal.neEmpty : QuboVal → Bool
  | .rows r => decide (r ≠ [])
  | .array m => decide (1 < m.cols)

/-- The truth value of `qubo == []` (wq.py:476). Comparing an array gives an empty array or, for shapes that do not match,
False. -/
def QuboVal.eqEmpty : QuboVal → Bool
  | .rows r => decide (r = [])
  | .array _ => false

/-- `np.array(qubo)`. Lists whose rows have different lengths are refused here (numpy makes an array of objects). Library
behaviour. -/
def QuboVal.toArray : QuboVal → Except PyErr NpMat
  | .array m => .ok m
  | .rows [] => .ok ⟨0, 0, fun _ _ => 0⟩
  | .rows (r :: rs) =>
    if rs.all (fun r' => decide (r'.length = r.length)) then
      .ok ⟨rs.length + 1, r.length, fun i j => ((r :: rs).getD i []).getD j 0⟩
    else .error .valueError

/-- The rows of an array, for the functions that index it with `[i][j]`. -/
def NpMat.toRows (m : NpMat) : Rows := (List.range m.rows).map (fun i => (List.range m.cols).map (m.ent i))

/-- `M * m`. Library behaviour. -/
def NpMat.scale (M : ℝ) (m : NpMat) : NpMat := { m with ent := fun i j => M * m.ent i j }

/-- `a + b`; arrays of different shapes are refused (numpy's repetition of a single row or column is not modelled).
Library behaviour. -/
def NpMat.plus (a b : NpMat) : Except PyErr NpMat :=
  if a.rows = b.rows ∧ a.cols = b.cols then .ok (a.add b) else .error .valueError

/-- `add(qubo, M)` (wq.py:469-478) for a QUBO that is not a string: the attribute `qubo` afterwards. -/
def optAdd (self : QuboVal) (qubo : QuboVal) (M : ℝ) : Except PyErr QuboVal :=
  if self.len = qubo.len then do
    let a ← self.toArray
    let b ← qubo.toArray
    let s ← a.plus (b.scale M)
    pure (.array s)
  else if self.eqEmpty then do
    let b ← qubo.toArray
    pure (.array (b.scale M))
  else pure self

/-- `Opt.run` (wq.py:480-524) for either kind of `qubo`: `qi` reads it with `[i][j]`. The field `qubo` of `o` is not
used. -/
def Opt.runVal (o : Opt) (q : QuboVal) (shots : ℕ) (fast : Bool) (target : ℝ) (r : Rand) (fuel : ℕ) :
    Except PyErr (Option (SAResult × ELog)) :=
  match q with
  | .rows rs => ({ o with qubo := rs } : Opt).run shots fast target r fuel
  | .array m =>
    if q.neEmpty then ({ o with qubo := m.toRows } : Opt).run shots fast target r fuel
    else ({ o with qubo := [] } : Opt).run shots fast target r fuel

/-! ## D-Wave -/

/-- A D-Wave solver: its nodes, its undirected edges (pairs of nodes), and the first sample of `sample_ising`. -/
structure DwSolver where
  nodes : List ℕ
  edges : List (ℕ × ℕ)
  sampleIsing : PyDict ℕ ℝ → PyDict (ℕ × ℕ) ℝ → List ℤ

/-- `linear` (wq.py:578-582): the fields are collected for the nodes, then numbered from 0. -/
def dwLinear (nodes : List ℕ) (J : NpMat) : PyDict ℕ ℝ :=
  let larr := (nodes.filter (fun i => decide (i < J.rows))).map (fun i => J.ent i i)
  (List.range larr.length).foldl (fun d k => d.set k (larr.getD k 0)) []

/-- `quad` (wq.py:584-592). -/
def dwQuad (edges : List (ℕ × ℕ)) (J : NpMat) : PyDict (ℕ × ℕ) ℝ :=
  (edges.filter (fun e => decide (e.1 < J.rows ∧ e.2 < J.rows))).foldl (fun d e => d.set e (J.ent e.1 e.2)) []

/-- `int((s+1)/2)` of an integer (wq.py:596): division, then rounding towards zero. -/
def dwBit (s : ℤ) : ℤ := (s + 1).tdiv 2

/-- `dw()` (wq.py:567-596) with the solver found (the client and its configuration are not modelled). -/
def optDw (o : Opt) (q : QuboVal) (solver : DwSolver) : Except PyErr (List ℤ) :=
  match (match q, q.neEmpty with
    | .rows rs, _ => ({ o with qubo := rs } : Opt).prepare
    | .array m, true => ({ o with qubo := m.toRows } : Opt).prepare
    | .array _, false => .ok o) with
  | .error e => .error e
  | .ok o =>
    .ok (((solver.sampleIsing (dwLinear solver.nodes o.J) (dwQuad solver.edges o.J)).take o.J.rows).map dwBit)

end

end Blueqat
