import Verif.Qubo
import Verif.PyDict

/-!
# Model of blueqat/wq.py: expressions with bits as sympy symbols

Modelled: `nbody_separation`, `qn_to_qubo`. An expanded sympy sum is the list of its arguments. A product is its numeric
coefficient (1: absent from `arg.args`) and its symbols, with multiplicity (`x**2` is `x` twice). Symbols are identified
with their names. Not modelled: sympy's own simplification and its order of arguments.
-/

namespace Blueqat

noncomputable section

/-- An argument of a sympy sum: a symbol, a number, a product (`Mul`), or a power of a symbol (`Pow`). -/
inductive SArg (V : Type) where
  | sym (v : V)
  | num (c : ℝ)
  | mul (c : ℝ) (vs : List V)
  | pow (v : V) (k : ℕ)

/-- A sympy expression: a sum (`sympy.Add`) or anything else. -/
inductive SExpr (V : Type) where
  | add (args : List (SArg V))
  | single (arg : SArg V)

/-- A product of a number and symbols. -/
structure Mono where
  c : ℝ
  vs : List String

/-! ## `nbody_separation` (wq.py:94-145) -/

/-- The local variables `mapping`, `constraints` and `i_var`. -/
structure NbState where
  mapping : PyDict (String × String) String
  constraints : List Mono
  used : ℕ

/-- `arg.subs(v1*v2, v)` for a product of different symbols. Library behaviour. -/
def substProd (vs : List String) (v1 v2 v : String) : List String :=
  if v1 ∈ vs ∧ v2 ∈ vs then v :: (vs.erase v1).erase v2 else vs

/-- `3*v + v1*v2 - 2*v1*v - 2*v2*v` (wq.py:138). -/
def nbodyPenalty (v1 v2 v : String) : List Mono := [⟨3, [v]⟩, ⟨1, [v1, v2]⟩, ⟨-2, [v1, v]⟩, ⟨-2, [v2, v]⟩]

/-- The body of the loop over pairs (wq.py:129-140). -/
def nbodyPair (qs : List String) (s : NbState × List String) (p : String × String) :
    Except PyErr (NbState × List String) :=
  match s.1.mapping.get (p.1, p.2) with
  | some v => .ok (s.1, substProd s.2 p.1 p.2 v)
  | none =>
    match qs[s.1.used]? with
    | none => .error .indexError
    | some v => .ok (⟨s.1.mapping.set (p.1, p.2) v, s.1.constraints ++ nbodyPenalty p.1 p.2 v, s.1.used + 1⟩,
        substProd s.2 p.1 p.2 v)

/-- `zip(it, it)` for one iterator `it` over a collection. Library behaviour. -/
def pairUp {α : Type} : List α → List (α × α)
  | a :: b :: rest => (a, b) :: pairUp rest
  | _ => []

/-- `while len(syms) > 2` (wq.py:126-141) with at most `fuel` rounds; `none`: not finished. `ord k` is the order in which the
`k`-th set of symbols is iterated. -/
def nbodyLoop (qs : List String) (ord : ℕ → List String → List String) :
    ℕ → ℕ → NbState → List String → Except PyErr (Option (NbState × List String × ℕ))
  | fuel, k, s, vs =>
    if vs.dedup.length > 2 then
      match fuel with
      | 0 => .ok none
      | fuel + 1 => do
        let r ← (pairUp (ord k vs.dedup)).foldlM (nbodyPair qs) (s, vs)
        nbodyLoop qs ord fuel (k + 1) r.1 r.2
    else .ok (some (s, vs, k))

/-- The loop over `expr.args` (wq.py:117-144); `new` is `new_expr`. -/
def nbodyArgs (qs : List String) (ord : ℕ → List String → List String) (fuel : ℕ) :
    ℕ → NbState → List Mono → List (SArg String) → Except PyErr (Option (NbState × List Mono))
  | _, s, new, [] => .ok (some (s, new))
  | k, s, new, .sym v :: args => nbodyArgs qs ord fuel k s (new ++ [⟨1, [v]⟩]) args
  | k, s, new, .num c :: args => nbodyArgs qs ord fuel k s (new ++ [⟨c, []⟩]) args
  | _, _, _, .pow _ _ :: _ => .error .assertionError
  | k, s, new, .mul c vs :: args => do
    match ← nbodyLoop qs ord fuel k s vs with
    | none => pure none
    | some (s, vs, k) => nbodyArgs qs ord fuel k s (new ++ [⟨c, vs⟩]) args

/-- `nbody_separation(expr, qs)` (wq.py:94-145): `new_expr`, `constraints` and `mapping`. -/
def nbodySeparation (expr : SExpr String) (qs : List String) (ord : ℕ → List String → List String) (fuel : ℕ) :
    Except PyErr (Option (List Mono × List Mono × PyDict (String × String) String)) :=
  match expr with
  | .single _ => .error .assertionError
  | .add args => do
    match ← nbodyArgs qs ord fuel 0 ⟨[], [], 0⟩ [] args with
    | none => pure none
    | some (s, new) => pure (some (new, s.constraints, s.mapping))

/-! ## `qn_to_qubo` (wq.py:147-188); the symbol `q`i is the number `i` -/

/-- `arg.free_symbols`. Library behaviour. -/
def SArg.freeSymbols {V : Type} [DecidableEq V] : SArg V → List V
  | .sym v => [v]
  | .num _ => []
  | .mul _ vs => vs.dedup
  | .pow v _ => [v]

open Classical in
/-- `len(arg.args)`. Library behaviour. -/
def SArg.argsLen {V : Type} [DecidableEq V] : SArg V → ℕ
  | .sym _ => 0
  | .num _ => 0
  | .mul c vs => (if c = 1 then 0 else 1) + vs.dedup.length
  | .pow _ _ => 2

/-- `qubo[i][j] = v` on a list of lists (indices in range here). -/
def Rows.put (q : Rows) (i j : ℕ) (v : ℝ) : Rows := q.modify i (fun r => r.set j v)

/-- The body of the loop of `qn_to_qubo` (wq.py:164-187). With two symbols the indices differ, because symbols are their
indices; so the branch `i == j` is not reached. With one symbol and one argument there is nothing of sympy's to match. -/
def qnArg (q : Rows) (arg : SArg ℕ) : Except PyErr Rows :=
  match arg.freeSymbols with
  | [] => .ok q
  | [i] =>
    if arg.argsLen = 2 then
      match arg with
      | .mul c _ => .ok (q.put i i c)
      | _ => .error .assertionError
    else .error .valueError
  | [i, j] =>
    match arg with
    | .mul c _ => if arg.argsLen = 3 then .ok (q.put (min i j) (max i j) c) else .ok q
    | _ => .error .assertionError
  | _ => .error .assertionError

/-- `max(map(to_i, expr.free_symbols)) + 1`; `max` of nothing is a ValueError. -/
def qnSize (args : List (SArg ℕ)) : Except PyErr ℕ :=
  match args.flatMap SArg.freeSymbols with
  | [] => .error .valueError
  | v :: vs => .ok ((v :: vs).foldl max 0 + 1)

/-- `qn_to_qubo(expr)` (wq.py:147-188). -/
def qnToQubo (expr : SExpr ℕ) : Except PyErr Rows :=
  match expr with
  | .single _ => .error .assertionError
  | .add args => do
    let n ← qnSize args
    args.foldlM qnArg (List.replicate n (List.replicate n 0))

end

end Blueqat
