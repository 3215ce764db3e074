import Verif.WqOpt
import Mathlib.Algebra.MvPolynomial.Variables

/-!
# Model of blueqat/wq.py: QUBOs given as sympy polynomials

Modelled: `Opt.expand_qubo`, `Opt.qubo_to_matrix`, `Opt.add` of a string, `optx`, `optm`. An expanded sympy expression in
the symbols `q0, q1, ...` is a polynomial: sympy keeps sums with one term for every product of powers. Symbols are
identified with their numbers. Coefficients are real numbers (simplification: sympy keeps integers, fractions and floats
apart). Not modelled: other symbols than `q<number>`, functions and negative powers. Symbols have no assumptions (those of
a string, of `make_qs`).
-/

namespace Blueqat

noncomputable section

open Classical MvPolynomial

/-- The text of a polynomial, as the user writes it: what `sympify` reads (`^` and `**` are both powers). -/
inductive PolyText where
  | num (c : ℝ)
  | sym (i : ℕ)
  | neg (a : PolyText)
  | add (a b : PolyText)
  | sub (a b : PolyText)
  | mul (a b : PolyText)
  | pow (a : PolyText) (n : ℕ)

/-- An expanded expression in the symbols `q0, q1, ...`. -/
abbrev SymPoly := MvPolynomial ℕ ℝ

/-- `sympy.expand(text)` (wq.py:37, 50, 461). Library behaviour. -/
def PolyText.expand : PolyText → SymPoly
  | .num c => C c
  | .sym i => X i
  | .neg a => -a.expand
  | .add a b => a.expand + b.expand
  | .sub a b => a.expand - b.expand
  | .mul a b => a.expand * b.expand
  | .pow a n => a.expand ^ n

/-- The exponent of `(x**e).subs(x**k, x)`: a power of a symbol without assumptions is replaced if `k` divides the
exponent. Library behaviour. -/
def powSubs (k e : ℕ) : ℕ := if k ∣ e then e / k else e

/-- `f.subs(j**k, j)` (wq.py:41, 56, 466): in every product, then like terms are collected. Library behaviour. -/
def subsPow (f : SymPoly) (j k : ℕ) : SymPoly :=
  ∑ m ∈ f.support, monomial (m.update j (powSubs k (m j))) (f.coeff m)

/-- `sympy.poly(f).degree()` (wq.py:462): the degree in the first generator, which is the symbol with the smallest number.
A number has no generators. Library behaviour. -/
def polyDegree (f : SymPoly) : Except PyErr ℕ :=
  if h : f.vars.Nonempty then .ok (f.degreeOf (f.vars.min' h)) else .error .generatorsNeeded

/-- `expand_qubo(qubo)` (wq.py:456-467) for an expanded expression. `ord` is the order in which a set of symbols is
enumerated. -/
def expandQubo (ord : Finset ℕ → List ℕ) (f : SymPoly) : Except PyErr SymPoly := do
  let deg ← polyDegree f
  pure ((List.range deg).foldl (fun f i => (ord f.vars).foldl (fun f j => subsPow f j (deg - i)) f) f)

/-- `f.coeff(x)` for the product `x` of the symbols in `S` (wq.py:62, 64, 447, 449): the other factors of the terms that have
all the symbols of `S` to the first power. Library behaviour. -/
def symCoeff (f : SymPoly) (S : Finset ℕ) : SymPoly :=
  ∑ m ∈ f.support.filter (fun m => ∀ i ∈ S, m i = 1), monomial (m.filter (fun i => i ∉ S)) (f.coeff m)

/-- `float(p)`, used when a numpy array is assigned to. Library behaviour. -/
def symFloat (p : SymPoly) : Except PyErr ℝ :=
  if p.vars = ∅ then .ok (p.coeff 0) else .error .typeError

/-- `optm[i][j] = value` for a symbolic value, with numpy's bounds check (wq.py:62, 65, 447, 452). -/
def putSym (m : NpMat) (i j : ℕ) (v : SymPoly) : Except PyErr NpMat :=
  if m.rows ≤ i ∨ m.cols ≤ j then .error .indexError
  else do
    let x ← symFloat v
    pure (m.put i j x)

/-- The body of the loops of `qubo_to_matrix` (wq.py:446-452). `sympy.re(...)` with 0 for every symbol is the constant
term. -/
def qmEntry (f : SymPoly) (m : NpMat) (i j : ℕ) : Except PyErr NpMat :=
  if i ≠ j then putSym m i j (symCoeff f {i, j})
  else putSym m i i (C ((symCoeff f {i}).coeff 0))

/-- `qubo_to_matrix(qubo)` (wq.py:434-454). -/
def quboToMatrix (ord : Finset ℕ → List ℕ) (f : SymPoly) : Except PyErr NpMat := do
  let f ← expandQubo ord f
  let m ← (ord f.vars).foldlM (fun m i => (ord f.vars).foldlM (fun m j => qmEntry f m i j) m) (npZeros f.vars.card)
  pure (m.triu 0)

/-- `add(qubo, M)` (wq.py:469-478) for a string. -/
def optAddText (ord : Finset ℕ → List ℕ) (self : QuboVal) (qubo : PolyText) (M : ℝ) : Except PyErr QuboVal := do
  let f ← expandQubo ord qubo.expand
  let m ← quboToMatrix ord f
  optAdd self (.array m) M

/-- `optx(quboh)` (wq.py:31-42). `sympy.var('')` raises ValueError; otherwise it has no effect on the result. -/
def optx (ord : Finset ℕ → List ℕ) (quboh : PolyText) : Except PyErr SymPoly :=
  let f := quboh.expand
  if f.vars = ∅ then .error .valueError
  else .ok ((ord f.vars).foldl (fun f j => subsPow f j 2) f)

/-- `sympy.poly(f).coeff_monomial(1)` (wq.py:64-65). Library behaviour. -/
def polyConst (f : SymPoly) : Except PyErr SymPoly :=
  if f.vars = ∅ then .error .generatorsNeeded else .ok (C (f.coeff 0))

/-- One round of the loop of `optm` (wq.py:60-65). -/
def optmRow (f : SymPoly) (n : ℕ) (m : NpMat) (i : ℕ) : Except PyErr NpMat := do
  let m ← (List.range' (i + 1) (n - (i + 1))).foldlM (fun m j => putSym m i j (symCoeff f {i, j})) m
  let c ← polyConst (symCoeff f {i})
  putSym m i i c

/-- `optm(quboh, numM)` (wq.py:44-67). -/
def optm (ord : Finset ℕ → List ℕ) (quboh : PolyText) (n : ℕ) : Except PyErr NpMat :=
  let f := quboh.expand
  if n = 0 then .error .valueError
  else
    let f := (ord f.vars).foldl (fun f j => subsPow f j 2) f
    (List.range n).foldlM (optmRow f n) (npZeros n)

end

end Blueqat
