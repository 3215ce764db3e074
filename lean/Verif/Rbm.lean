import Verif.WqOpt

/-!
# Model of blueqat/wq.py: layered (restricted Boltzmann machine) QUBOs and their training

Random numbers come from arbitrary streams; the training data are lists of integers; the QUBO is a numpy array, which is what
`setRBM` and `fit` store.
-/

namespace Blueqat

noncomputable section

/-- `rands(rands_ele)` (wq.py:303-314): entry `(i, j)` of `np.random.rand(n, n)` is draw number `i n + j`. -/
def wqRands (n : ℕ) (rnd : ℕ → ℝ) : NpMat := (⟨n, n, fun i j => rnd (i * n + j)⟩ : NpMat).triu 0

/-- The body of the loops of `dbms` (wq.py:326-329); the second component counts the random numbers used. -/
def dbmsPut (w : ℝ) (rnd : ℕ → ℝ) (i : ℕ) (s : NpMat × ℕ) (j : ℕ) : NpMat × ℕ :=
  open Classical in if w = 0 then (s.1.put i j (rnd s.2), s.2 + 1) else (s.1.put i j w, s.2)

/-- One layer (wq.py:324-329): `a` units from number `cc` on, the next layer has `b`. -/
def dbmsLayer (w : ℝ) (rnd : ℕ → ℝ) (cc a b : ℕ) (s : NpMat × ℕ) : NpMat × ℕ :=
  (List.range' cc a).foldl (fun s i => (List.range' (cc + a) b).foldl (dbmsPut w rnd i) s) s

/-- The loop over the layers (wq.py:322-330), as a recursion over the remaining sizes. -/
def dbmsLayers (w : ℝ) (rnd : ℕ → ℝ) : List ℕ → ℕ → NpMat × ℕ → NpMat × ℕ
  | a :: b :: rest, cc, s => dbmsLayers w rnd (b :: rest) (cc + a) (dbmsLayer w rnd cc a b s)
  | _, _, s => s

/-- `dbms(dbms_arr, weight_init)` (wq.py:316-331). `np.sum([])` is the float 0.0, which `np.random.rand` and `range` refuse. -/
def wqDbms (sizes : List ℕ) (w : ℝ) (rnd : ℕ → ℝ) : Except PyErr NpMat :=
  open Classical in
  if sizes = [] then .error .typeError
  else
    let n := sizes.sum
    let start := if w = 0 then (npDiag ((List.range n).map rnd), n) else (npDiag (List.replicate n 0.5), 0)
    .ok (dbmsLayers w rnd sizes 0 start).1

/-- `sigm(x)` (wq.py:333-334). -/
def sigm (x : ℝ) : ℝ := 1 / (1 + Real.exp (-x))

/-- `rbm_hmodel(vdata, dbms_mat1)` (wq.py:336-345). -/
def rbmHmodel (v : List ℝ) (m : NpMat) : List ℝ :=
  (List.range' v.length (m.rows - v.length)).map (fun i =>
    sigm ((List.range v.length).foldl (fun s j => s + m.ent j i * v.getD j 0) (m.ent i i)))

/-- `rbm_data_qubo(vdata, dbms_mat1)` (wq.py:347-355) for a list `vdata` (with a numpy array `vdata + hdata` would be a sum). -/
def rbmDataQubo (v : List ℝ) (m : NpMat) : NpMat :=
  let h := rbmHmodel v m
  (List.range v.length).foldl (fun d i =>
    (List.range' v.length (m.rows - v.length)).foldl (fun d j => d.put i j (v.getD i 0 * h.getD (j - v.length) 0)) d)
    (npDiag (v ++ h))

/-- The loops of `rbm_model_qubo` (wq.py:607-610). The indices of `result` and `weight_qubo` must be below `n`. -/
def rbmWeights (visible hidden n : ℕ) (result : List (List ℤ)) : Except PyErr NpMat :=
  (List.range visible).foldlM (fun w i =>
    (List.range' visible hidden).foldlM (fun w j =>
      result.foldlM (fun (w : NpMat) q =>
        if i < n ∧ j < n then .ok (w.put i j (w.ent i j + (q.getD i 0 : ℝ) * (q.getD j 0 : ℝ)))
        else .error .indexError) w) w) (npZeros n)

/-- `rbm_model_qubo(shots, targetT)` (wq.py:603-611) after the run; `n` is the number of spins. With one shot the result is one
list of bits and `np.sum` is a number, with no shot it is 0.0; `np.diag` refuses both. -/
def rbmModelQubo (visible hidden n shots : ℕ) (res : SAResult) : Except PyErr NpMat :=
  match res with
  | .single _ => .error .valueError
  | .many result =>
    if shots = 0 then .error .valueError
    else do
      let bias := (List.range n).map (fun k => (result.map (fun q => (q.getD k 0 : ℝ))).sum / shots)
      let w ← rbmWeights visible hidden n result
      pure ((npDiag bias).add (w.scale (1 / shots)))

/-- One epoch of `fit` (wq.py:615-620) with the datum `v` and random numbers `r`: the new `self.qubo`; `none`: the run has not
ended after `fuel` temperatures. -/
def fitStep (o : Opt) (visible hidden : ℕ) (m : NpMat) (v : List ℤ) (shots : ℕ) (target alpha eps : ℝ) (r : Rand)
    (fuel : ℕ) : Except PyErr (Option NpMat) := do
  let vin := v.map (fun i => ((i - 1) * (-1) : ℤ))
  let data := rbmDataQubo (vin.map (fun i : ℤ => (i : ℝ))) m
  match ← o.runVal (.array m) shots true target r fuel with
  | none => pure none
  | some res => do
    let model ← rbmModelQubo visible hidden m.rows shots res.1
    let diff ← data.plus (model.scale (-1))
    let new ← (m.scale alpha).plus (diff.scale eps)
    pure (some new)

/-- `fit(vdata, shots, targetT, alpha, epsilon, epoch)` (wq.py:613-622) after `setRBM` (wq.py:598-601). `xs` are the draws
`np.random.randint(0, len(vdata))`, one per epoch, `rs` the random numbers of the runs. -/
def rbmFit (o : Opt) (visible hidden : ℕ) (vdata : List (List ℤ)) (shots : ℕ) (target alpha eps : ℝ) (fuel : ℕ) :
    List (ℕ × Rand) → NpMat → Except PyErr (Option NpMat)
  | [], m => .ok (some m)
  | (x, r) :: rest, m =>
    if vdata = [] then .error .valueError
    else do
      match ← fitStep o visible hidden m (vdata.getD (x % vdata.length) []) shots target alpha eps r fuel with
      | none => pure none
      | some m' => rbmFit o visible hidden vdata shots target alpha eps fuel rest m'

end

end Blueqat
