import Verif.Qubo
import Verif.Numpy

/-!
# Model of blueqat/wq.py: `make_qs` and `counter`
-/

namespace Blueqat

/-- `sympy.symbols(" ".join(names))`, a single symbol put into a tuple (wq.py:83-92). Symbols are identified with their
names, which contain no spaces. An empty text raises ValueError. Library behaviour. -/
def sympySymbols (names : List String) : Except PyErr (List String) :=
  if names = [] then .error .valueError else .ok names

/-- `make_qs(n, m)` (wq.py:68-92) for numbers that are not negative. -/
def makeQs (n : ℕ) (m : Option ℕ) : Except PyErr (List String) :=
  match m with
  | none => sympySymbols ((List.range n).map (fun i => "q" ++ toString i))
  | some m => sympySymbols ((List.range' n (m - n)).map (fun i => "q" ++ toString i))

/-- `''.join([str(x) for x in row])` (wq.py:272). -/
def rowText (row : List ℤ) : String := String.join (row.map toString)

/-- `counter(narr)` (wq.py:268-273) of what `Opt.run` returns. A single list of numbers is no list of lists: iterating
over a number raises TypeError. -/
def wqCounter : SAResult → Except PyErr Counter
  | .many rows => .ok ((rows.map rowText).foldl Counter.add [])
  | .single [] => .ok []
  | .single (_ :: _) => .error .typeError

end Blueqat
