import Verif.Pauli
import Mathlib.Analysis.SpecialFunctions.Log.Basic
import Mathlib.Analysis.Complex.Trigonometric

/-!
# Model of blueqat/wq.py: QUBO matrices, annealing

Numbers are exact reals. A QUBO given by the user is a list of lists; numpy matrices and vectors are their sizes and an
entry function (entries outside the size are never read).
-/

namespace Blueqat

noncomputable section

/-- A Python list of lists of numbers. -/
abbrev Rows := List (List ℝ)

/-- `rows[i][j]` for non-negative indices. -/
def Rows.entry (q : Rows) (i j : ℕ) : Except PyErr ℝ :=
  match q[i]? with
  | none => .error .indexError
  | some r =>
    match r[j]? with
    | none => .error .indexError
    | some v => .ok v

/-- A two-dimensional numpy array. -/
structure NpMat where
  rows : ℕ
  cols : ℕ
  ent : ℕ → ℕ → ℝ

/-- `m[i][j] = v`. -/
def NpMat.put (m : NpMat) (i j : ℕ) (v : ℝ) : NpMat :=
  { m with ent := fun a b => if a = i ∧ b = j then v else m.ent a b }

/-- A one-dimensional numpy array of integers. -/
structure NpInts where
  dim : ℕ
  ent : ℕ → ℤ

/-- `np.triu(m, k)` for `k ≥ 0`. Library behaviour. -/
def NpMat.triu (m : NpMat) (k : ℕ) : NpMat := { m with ent := fun i j => if i + k ≤ j then m.ent i j else 0 }

/-- `m.T`. Library behaviour. -/
def NpMat.transpose (m : NpMat) : NpMat := ⟨m.cols, m.rows, fun i j => m.ent j i⟩

/-- `a + b` for arrays of the same shape. Library behaviour. -/
def NpMat.add (a b : NpMat) : NpMat := { a with ent := fun i j => a.ent i j + b.ent i j }

/-- `np.diag(list)`. Library behaviour. -/
def npDiag (d : List ℝ) : NpMat := ⟨d.length, d.length, fun i j => if i = j then d.getD i 0 else 0⟩

/-- `np.zeros((n, n))`. Library behaviour. -/
def npZeros (n : ℕ) : NpMat := ⟨n, n, fun _ _ => 0⟩

/-- `np.outer(a, b)`. Library behaviour. -/
def npOuter (a b : List ℝ) : NpMat := ⟨a.length, b.length, fun i j => a.getD i 0 * b.getD j 0⟩

/-- A numpy index into an axis of length `n`: negative indices count from the end. Library behaviour. -/
def npIdx (n : ℕ) (i : ℤ) : Except PyErr ℕ :=
  if 0 ≤ i ∧ i < n then .ok i.toNat
  else if -(n : ℤ) ≤ i ∧ i < 0 then .ok (i + n).toNat
  else .error .indexError

/-! ## Conversion to Pauli operators -/

/-- `pauli(qubo)` (wq.py:18-29). -/
def wqPauli (q : Rows) : Except PyErr PVal :=
  if q.all (fun r => decide (r.length = q.length)) then
    (List.range q.length).foldlM (fun h i => do
      let d ← q.entry i i
      let h := pvAdd h (pvMul (quboBit i) (.num (.real d)))
      (List.range' (i + 1) (q.length - (i + 1))).foldlM (fun h j => do
        let a ← q.entry i j
        let b ← q.entry j i
        pure (pvAdd h (pvMul (pvMul (quboBit i) (quboBit j)) (.num (.real (a + b)))))) h) (.num (.real 0))
  else .error .assertionError

/-! ## Energies -/

/-- `Ei(q3, j3)` (wq.py:194-199): `sum(q3[i]*q3[i+1:]*j3[i][i+1:])` is the inner loop. -/
def ei (q : NpInts) (j : NpMat) : ℝ :=
  (List.range q.dim).foldl (fun e i =>
    e + (q.ent i : ℝ) * j.ent i i +
      ((List.range' (i + 1) (q.dim - (i + 1))).map (fun k => (q.ent i : ℝ) * q.ent k * j.ent i k)).sum) 0

/-- `Ei_sqa(q, J, T, P, G)` (wq.py:201-206). `q` has `P` rows of length `N`. -/
def eiSqa (q : ℕ → NpInts) (j : NpMat) (T : ℝ) (P : ℕ) (G : ℝ) : ℝ :=
  (List.range P).foldl (fun e p =>
    e + ei (q p) j / P +
      T / 2 * Real.log (1 / Real.tanh (G / T / P)) *
        ((List.range (q p).dim).map (fun x => ((q p).ent x : ℝ) * (q ((p + 1 + P) % P)).ent x)).sum) 0

/-! ## Builders -/

/-- The loop `for i in range(len(selarr)): selmat[selarr[i]] += 1` (wq.py:236-237). -/
def selCounts (n : ℕ) (arr : List ℤ) : Except PyErr (ℕ → ℝ) :=
  arr.foldlM (fun m a => do
    let i ← npIdx n a
    pure (fun k => if k = i then m k + 1 else m k)) (fun _ => 0)

/-- `sel(selN, selK, selarr)` (wq.py:208-239). -/
def wqSel (n : ℕ) (k : ℝ) (arr : List ℤ) : Except PyErr NpMat := do
  let res := (npDiag (List.replicate n (1 - 2 * k))).add ((⟨n, n, fun _ _ => 2⟩ : NpMat).triu 1)
  let m ← selCounts n arr
  pure { res with ent := fun i j => res.ent i j - 0.5 * (npDiag ((List.range n).map m)).ent i j }

/-- `mul(mulA, mulB)` (wq.py:241-242). -/
def wqMul (a b : List ℝ) : NpMat := ((npOuter a b).triu 0).add ((npOuter a b).triu 1)

/-- `sqr(sqrA)` (wq.py:244-245). -/
def wqSqr (a : List ℝ) : NpMat := ((npOuter a a).triu 0).add ((npOuter a a).triu 1)

/-- `net(narr, nnet)` (wq.py:247-266) for edges given as pairs: the pair is sorted, then `mat[lo][hi] = 1`. The
assignment `narr[i] = np.sort(narr[i])` into the caller's list is not modelled. -/
def wqNet (edges : List (ℤ × ℤ)) (n : ℕ) : Except PyErr NpMat :=
  edges.foldlM (fun m e => do
    let i ← npIdx n (min e.1 e.2)
    let j ← npIdx n (max e.1 e.2)
    pure (m.put i j 1)) (npZeros n)

/-- `diag(diag_ele)` (wq.py:275-287). -/
def wqDiag (d : List ℝ) : NpMat := npDiag d

/-- `zeros(zeros_ele)` (wq.py:289-301). -/
def wqZeros (n : ℕ) : NpMat := npZeros n

/-! ## The optimizer -/

/-- The attribute `E` of `Opt`: a list of energies, or a list of such lists. -/
inductive ELog where
  | flat (es : List ℝ)
  | nested (ess : List (List ℝ))

/-- `Opt` (wq.py:358-394), without the D-Wave and RBM attributes. -/
structure Opt where
  Ts : ℝ := 5
  Tf : ℝ := 0.02
  Gs : ℝ := 10
  Gf : ℝ := 0.02
  tro : ℕ := 8
  R : ℝ := 0.95
  ite : ℕ := 1000
  qubo : Rows := []
  J : NpMat := npZeros 0
  ep : ℝ := 0
  E : List ℝ := []

/-- `reJ()` (wq.py:396-397). -/
def reJ (j : NpMat) : NpMat := (j.triu 0).add (j.triu 1).transpose

/-- The first loop of `qi` (wq.py:401-404): the entries above the diagonal. -/
def qiUpper (q : Rows) (nn : ℕ) : Except PyErr NpMat :=
  (List.range nn).foldlM (fun J i =>
    (List.range' (i + 1) (nn - (i + 1))).foldlM (fun (J : NpMat) j => do
      let v ← q.entry i j
      pure (J.put i j (v / 4))) J) ⟨nn, nn, fun _ _ => 1⟩

/-- The second loop of `qi` (wq.py:408-415): the diagonal. -/
def qiDiag (q : Rows) (nn : ℕ) (J : NpMat) : Except PyErr NpMat :=
  (List.range nn).foldlM (fun J i => do
    let s ← (List.range nn).foldlM (fun s j => do
      if i = j then
        let v ← q.entry i i
        pure (s + v * 0.5)
      else pure (s + J.ent i j)) (0 : ℝ)
    pure (J.put i i s)) J

/-- The third loop of `qi` (wq.py:417-422): the offset. -/
def qiOffset (nn : ℕ) (J : NpMat) : ℝ :=
  (List.range nn).foldl (fun ep i =>
    (List.range' (i + 1) (nn - (i + 1))).foldl (fun ep j => ep - J.ent i j) (ep + J.ent i i)) 0

/-- `qi()` (wq.py:399-424): couplings and offset. `np.random.choice([1., 1.], nn)` is a row of ones. -/
def qi (q : Rows) : Except PyErr (NpMat × ℝ) := do
  let nn := q.length
  let J ← qiUpper q nn
  let J := (J.triu 0).add (J.triu 1).transpose
  let J ← qiDiag q nn J
  pure (J.triu 0, qiOffset nn J)

/-- `if self.qubo != []: self.qi()` (wq.py:485-486, 536-537). -/
def Opt.prepare (o : Opt) : Except PyErr Opt :=
  if o.qubo = [] then .ok o
  else do
    let r ← qi o.qubo
    pure { o with J := r.1, ep := r.2 }

/-- The random numbers a run draws: `np.random.choice([-1, 1])`, `np.random.randint(0, N)` (as `ints k % N`) and
`np.random.rand()`. Every sequence of results arises from some streams. -/
structure Rand where
  signs : ℕ → Bool
  ints : ℕ → ℕ
  reals : ℕ → ℝ

/-- Draw `n` signs. -/
def Rand.spins (r : Rand) (n : ℕ) : NpInts × Rand :=
  (⟨n, fun i => if r.signs i then 1 else -1⟩, { r with signs := fun i => r.signs (i + n) })

/-- Draw `k` integers below `n`. -/
def Rand.sites (r : Rand) (n k : ℕ) : List ℕ × Rand :=
  ((List.range k).map (fun i => r.ints i % n), { r with ints := fun i => r.ints (i + k) })

/-- Draw a real. -/
def Rand.real (r : Rand) : ℝ × Rand := (r.reals 0, { r with reals := fun i => r.reals (i + 1) })

/-- `q[x] *= -1`. -/
def NpInts.flip (q : NpInts) (x : ℕ) : NpInts := { q with ent := fun i => if i = x then q.ent i * -1 else q.ent i }

/-- `q2 = np.ones(N)*q[x]; q2[x] = 1; dE = -2*np.sum(q*q2*J[:,x])` (wq.py:507-509). -/
def saDelta (J : NpMat) (q : NpInts) (x : ℕ) : ℝ :=
  -2 * ((List.range q.dim).map (fun j =>
    (q.ent j : ℝ) * (if j = x then 1 else (q.ent x : ℝ)) * J.ent j x)).sum

/-- `if dE < 0 or np.exp(-dE/T) > np.random.rand()` (wq.py:511, 556): the random number is drawn only if `dE ≥ 0`. -/
def accept (dE T : ℝ) (r : Rand) : Prop × Rand :=
  (dE < 0 ∨ Real.exp (-dE / T) > r.real.1, open Classical in if dE < 0 then r else r.real.2)

open Classical in
/-- One iteration of the loop over `x_list` (wq.py:506-512). -/
def saStep (J : NpMat) (T : ℝ) (s : NpInts × Rand) (x : ℕ) : NpInts × Rand :=
  let a := accept (saDelta J s.1 x) T s.2
  (if a.1 then s.1.flip x else s.1, a.2)

open Classical in
/-- The loop `while T>targetT` (wq.py:504-514) with at most `fuel` rounds; `none`: not finished. `JU` is `self.J`. -/
def saLoop (J JU : NpMat) (ep R target : ℝ) (ite : ℕ) :
    ℕ → ℝ → NpInts → Rand → List ℝ → Option (NpInts × Rand × List ℝ)
  | fuel, T, q, r, es =>
    if T > target then
      match fuel with
      | 0 => none
      | fuel + 1 =>
        let xs := r.sites q.dim ite
        let s := xs.1.foldl (saStep J T) (q, xs.2)
        saLoop J JU ep R target ite fuel (T * R) s.1 s.2 (es ++ [ei s.1 JU + ep])
    else some (q, r, es)

/-- `qtemp = (np.asarray(q,int)+1)/2; [int(s) for s in qtemp]` (wq.py:516-517). -/
def toBits (q : NpInts) : List ℤ := (List.range q.dim).map (fun i => (q.ent i + 1).tdiv 2)

/-- The loop over the shots (wq.py:499-521). -/
def saShots (o : Opt) (J : NpMat) (R target : ℝ) (ite fuel : ℕ) :
    ℕ → Rand → List (List ℝ) → List (List ℤ) → Option (List (List ℝ) × List (List ℤ) × Rand)
  | 0, r, E, qq => some (E, qq, r)
  | k + 1, r, E, qq =>
    let q := r.spins J.rows
    match saLoop J o.J o.ep R target ite fuel o.Ts q.1 q.2 [ei q.1 o.J + o.ep] with
    | none => none
    | some (q, r, es) => saShots o J R target ite fuel k r (E ++ [es]) (qq ++ [toBits q])

/-- What `run` returns: one list of bits for one shot, otherwise the list of them. -/
inductive SAResult where
  | single (bits : List ℤ)
  | many (bits : List (List ℤ))

open Classical in
/-- `Opt.run(shots, sampler, targetT)` (wq.py:480-524) with at most `fuel` temperatures per shot; `none`: not finished.
The second component is the attribute `E` afterwards. With no spins `np.random.randint(0, 0, ite)` raises ValueError if
a sweep draws numbers. -/
def Opt.run (o : Opt) (shots : ℕ) (fast : Bool) (target : ℝ) (r : Rand) (fuel : ℕ) :
    Except PyErr (Option (SAResult × ELog)) := do
  let o ← o.prepare
  let J := reJ o.J
  let ite := if fast then 100 else o.ite
  let R := if fast then 0.75 else o.R
  if J.rows = 0 ∧ shots ≠ 0 ∧ ite ≠ 0 ∧ o.Ts > target then .error .valueError
  else
    match saShots o J R target ite fuel shots r [] [] with
    | none => pure none
    | some (E, qq, _) =>
      if shots = 1 then
        match qq, E with
        | q :: _, es :: _ => pure (some (.single q, .flat es))
        | _, _ => .error .indexError
      else pure (some (.many qq, .nested E))

/-- The change `dE` computed by `sqa` (wq.py:546-554) for slice `y` and site `x`. -/
def sqaDelta (J : NpMat) (T : ℝ) (P : ℕ) (G : ℝ) (q : ℕ → NpInts) (x y : ℕ) : ℝ :=
  (List.range (q y).dim).foldl (fun dE j =>
    if j = x then dE + -2 * ((q y).ent x : ℝ) * J.ent x x / P
    else dE + -2 * ((q y).ent j : ℝ) * (q y).ent x * J.ent j x / P) 0 +
  ((q y).ent x : ℝ) * ((q ((P + y - 1) % P)).ent x + (q ((y + 1) % P)).ent x) *
    Real.log (1 / Real.tanh (G / T / P)) * T

open Classical in
/-- One iteration of the inner loop of `sqa` (wq.py:544-557). -/
def sqaStep (J : NpMat) (T : ℝ) (P : ℕ) (G : ℝ) (s : (ℕ → NpInts) × Rand) : (ℕ → NpInts) × Rand :=
  let x := s.2.sites J.rows 1
  let y := x.2.sites P 1
  let x := x.1.headD 0
  let a := accept (sqaDelta J T P G s.1 x (y.1.headD 0)) T y.2
  (if a.1 then fun p => if p = y.1.headD 0 then (s.1 p).flip x else s.1 p else s.1, a.2)

/-- `n` iterations of the inner loop. -/
def sqaSweep (J : NpMat) (T : ℝ) (P : ℕ) (G : ℝ) : ℕ → (ℕ → NpInts) × Rand → (ℕ → NpInts) × Rand
  | 0, s => s
  | n + 1, s => sqaSweep J T P G n (sqaStep J T P G s)

open Classical in
/-- The loop `while G>self.Gf` of `sqa` (wq.py:542-559). -/
def sqaLoop (J : NpMat) (ep T Gf R : ℝ) (P ite : ℕ) :
    ℕ → ℝ → (ℕ → NpInts) × Rand → List ℝ → Option ((ℕ → NpInts) × List ℝ)
  | fuel, G, s, es =>
    if G > Gf then
      match fuel with
      | 0 => none
      | fuel + 1 =>
        let s := sqaSweep J T P G ite s
        sqaLoop J ep T Gf R P ite fuel (G * R) s (es ++ [eiSqa s.1 J T P G + ep])
    else some (s.1, es)

/-- The initial spins of `sqa` (wq.py:540): `P` rows of `N` signs. -/
def sqaInit (P N : ℕ) (r : Rand) : (ℕ → NpInts) × Rand :=
  (fun p => ⟨N, fun i => if r.signs (p * N + i) then 1 else -1⟩, { r with signs := fun i => r.signs (i + P * N) })

open Classical in
/-- `Opt.sqa()` (wq.py:530-561): the final spins and the attribute `E`, which is appended to. `tro` and the number of
spins are positive here; otherwise `np.random.randint(0)` raises ValueError. -/
def Opt.sqa (o : Opt) (r : Rand) (fuel : ℕ) : Except PyErr (Option ((ℕ → NpInts) × List ℝ)) := do
  let o ← o.prepare
  let J := reJ o.J
  let s := sqaInit o.tro J.rows r
  if (J.rows = 0 ∨ o.tro = 0) ∧ o.ite ≠ 0 ∧ o.Gs > o.Gf then .error .valueError
  else pure (sqaLoop J o.ep o.Tf o.Gf o.R o.tro o.ite fuel o.Gs s
    (o.E ++ [eiSqa s.1 J o.Tf o.tro o.Gs + o.ep]))

end

end Blueqat
