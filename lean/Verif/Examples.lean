import Verif.VqeRun

/-!
# Model of `/repo/examples`

The three problems that the examples solve with QAOA: the Hamiltonians, the `Vqe` objects and the functions that read the
outcome. Nodes of graphs are natural numbers, numbers are exact reals. `powell` is the minimizer that
`vqe.get_scipy_minimizer` makes from the options in the file, `dflt` the one of `Vqe.__init__`; `a` are the arguments and random numbers of the
run in `QaoaAnsatz.__init__`. Printing is not modelled.
-/

namespace Blueqat

noncomputable section

variable {V M C B A R : Type}

/-- `vqe.Vqe(vqe.QaoaAnsatz(hamiltonian, n_step), minimizer, sampler)` (maxcut_qaoa.py:22, numpartition_qaoa.py:19,
factoring_qaoa.py:44). -/
def vqeOfQaoa (kit : Kit C B A R) (isAttr : String → Bool) (dflt : ℕ → Minimizer) (hamiltonian : PVal) (nStep : ℕ)
    (minimizer : Option (ℕ → Minimizer)) (sampler : Option Sampler) (a : A) (w : World V M C B) :
    World V M C B × Except PyErr VqeObj :=
  match QaoaAnsatz.new kit isAttr hamiltonian nStep none none a w with
  | (w, .error e) => (w, .error e)
  | (w, .ok q) => (w, .ok (VqeObj.new dflt (q.toAnsatz kit isAttr w) minimizer sampler))

/-! ## maxcut_qaoa.py -/

/-- The Hamiltonian of `maxcut_qaoa` (examples/maxcut_qaoa.py:17-20; qaoa_via_ibmq.py:18-21 and qaoa_via_qgate.py:17-20 are
the same). -/
def maxcutHamiltonian (edges : List (ℕ × ℕ)) : PVal :=
  edges.foldl (fun hamiltonian e => pvAdd hamiltonian (pvMul (.pauli (.op ⟨.Z, e.1⟩)) (.pauli (.op ⟨.Z, e.2⟩))))
    (pvMul (.pauli .I) (.num (.real 0)))

/-- `maxcut_qaoa(n_step, edges, minimizer, sampler)` (examples/maxcut_qaoa.py:3-22; qaoa_via_ibmq.py:4-23 and
qaoa_via_qgate.py:3-22 are the same). -/
def maxcutQaoa (kit : Kit C B A R) (isAttr : String → Bool) (dflt powell : ℕ → Minimizer) (nStep : ℕ) (edges : List (ℕ × ℕ))
    (minimizer : Option (ℕ → Minimizer)) (sampler : Option Sampler) (a : A) (w : World V M C B) :
    World V M C B × Except PyErr VqeObj :=
  vqeOfQaoa kit isAttr dflt (maxcutHamiltonian edges) nStep (some (minimizer.getD powell))
    (some (sampler.getD nonSamplingSampler)) a w

/-! ## numpartition_qaoa.py -/

/-- The Hamiltonian of `numpartition_qaoa` (examples/numpartition_qaoa.py:14-17). -/
def numpartitionHamiltonian (nums : List ℝ) : Except PyErr PVal :=
  let hamiltonian := nums.zipIdx.foldl
    (fun hamiltonian p => pvAdd hamiltonian (pvMul (.pauli (.op ⟨.Z, p.2⟩)) (.num (.real p.1)))) (.expr .zero)
  match pvPow hamiltonian 2 with
  | .error e => .error e
  | .ok (.expr e) => .ok (.expr e.simplify)
  | .ok _ => .error .attributeError

/-- `numpartition_qaoa(n_step, nums, minimizer, sampler)` (examples/numpartition_qaoa.py:7-19). -/
def numpartitionQaoa (kit : Kit C B A R) (isAttr : String → Bool) (dflt : ℕ → Minimizer) (nStep : ℕ) (nums : List ℝ)
    (minimizer : Option (ℕ → Minimizer)) (sampler : Option Sampler) (a : A) (w : World V M C B) :
    World V M C B × Except PyErr VqeObj :=
  match numpartitionHamiltonian nums with
  | .error e => (w, .error e)
  | .ok hamiltonian => vqeOfQaoa kit isAttr dflt hamiltonian nStep minimizer sampler a w

/-- `group0` and `group1` of the main program (examples/numpartition_qaoa.py:32-34): the string `result` has one character
for every bit, and `zip` stops at the shorter of the two. -/
def partitionGroups (nums : List ℝ) (bits : List ℕ) : List ℝ × List ℝ :=
  (((nums.zip bits).filter (fun p => p.2 = 0)).map Prod.fst, ((nums.zip bits).filter (fun p => p.2 = 1)).map Prod.fst)

/-! ## factoring_qaoa.py -/

/-- The loop of `get_nbit` (examples/factoring_qaoa.py:14-15), at most `fuel` times. -/
def getNbitLoop (n : ℕ) : ℕ → ℕ → ℕ
  | 0, m => m
  | fuel + 1, m => if 2 ^ m < n then getNbitLoop n fuel (m + 1) else m

/-- `get_nbit(n)` (examples/factoring_qaoa.py:12-16). The loop ends before `m` exceeds `n`, since `n < 2^n`. -/
def getNbit (n : ℕ) : ℕ := getNbitLoop n n 1

/-- `n1_bits` (examples/factoring_qaoa.py:18). `int(num**0.5)` is the integer part of the exact square root; with
floating-point numbers this is so for `num < 2**52`. -/
def factoringBits1 (num : ℕ) : ℕ := getNbit num.sqrt - 1

/-- `n2_bits` (examples/factoring_qaoa.py:19). -/
def factoringBits2 (num : ℕ) : ℕ := getNbit num.sqrt

/-- `mk_expr(offset, n)` (examples/factoring_qaoa.py:21-25). -/
def mkExpr (offset n : ℕ) : PVal :=
  (List.range n).foldl (fun expr i => pvAdd expr (pvMul (.num (.real (2 ^ (i + 1)))) (quboBit (i + offset))))
    (.expr (.fromNumber 1))

/-- The loops `for b in bits[...]` of `bitseparator` (examples/factoring_qaoa.py:29-34, 35-40): the state is `(p, m)`. -/
def separatorLoop (bits : List ℕ) : ℕ :=
  (bits.foldl (fun s b => (if b ≠ 0 then s.1 + 2 ^ s.2 else s.1, s.2 + 1)) ((1, 1) : ℕ × ℕ)).1

/-- `bitseparator(bits)` (examples/factoring_qaoa.py:27-41). -/
def bitseparator (num : ℕ) (bits : List ℕ) : Except PyErr (ℕ × ℕ) :=
  if bits.length = factoringBits1 num + factoringBits2 num then
    .ok (separatorLoop (bits.take (factoringBits1 num)), separatorLoop (bits.drop (factoringBits1 num)))
  else .error .assertionError

/-- The Hamiltonian of `factoring_qaoa` (examples/factoring_qaoa.py:43). -/
def factoringHamiltonian (num : ℕ) : Except PyErr PVal :=
  pvPow (pvSub (.num (.real num))
    (pvMul (mkExpr 0 (factoringBits1 num)) (mkExpr (factoringBits1 num) (factoringBits2 num)))) 2

/-- `factoring_qaoa(n_step, num, minimizer, sampler)` (examples/factoring_qaoa.py:4-44). -/
def factoringQaoa (kit : Kit C B A R) (isAttr : String → Bool) (dflt : ℕ → Minimizer) (nStep num : ℕ)
    (minimizer : Option (ℕ → Minimizer)) (sampler : Option Sampler) (a : A) (w : World V M C B) :
    World V M C B × Except PyErr (VqeObj × (List ℕ → Except PyErr (ℕ × ℕ))) :=
  match factoringHamiltonian num with
  | .error e => (w, .error e)
  | .ok hamiltonian =>
    match vqeOfQaoa kit isAttr dflt hamiltonian nStep minimizer sampler a w with
    | (w, .error e) => (w, .error e)
    | (w, .ok v) => (w, .ok (v, bitseparator num))

/-- The loop of the main program over `result.most_common(100)` (examples/factoring_qaoa.py:50-55): the factors printed. It
ends after the first pair whose product is `num`. -/
def factoringReport (num : ℕ) : List (List ℕ) → Except PyErr (List (ℕ × ℕ))
  | [] => .ok []
  | bits :: rest =>
    match bitseparator num bits with
    | .error e => .error e
    | .ok (p, q) =>
      if p * q = num then .ok [(p, q)]
      else
        match factoringReport num rest with
        | .error e => .error e
        | .ok l => .ok ((p, q) :: l)

end

end Blueqat
