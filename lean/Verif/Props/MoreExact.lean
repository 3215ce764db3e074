import Verif.Props.Sympy
import Verif.Props.PauliIdentity
import Verif.Props.PauliRepr

/-!
# C26, C73 and C80 for all circuits, expressions and terms
-/

set_option linter.unusedSimpArgs false
set_option linter.unusedVariables false

namespace Blueqat

open Spec

/-- C26, exactly: for two circuits whose unitaries differ by a global phase, `to_unitary(ignore_global=True)` returns the same matrix if
and only if the unitaries have a non-zero diagonal entry or are equal anyway. -/
theorem C26_exact (n : ℕ) (gates gates' : List Gate) (M M' : SMat) (z : ℂ)
    (h : syRun n gates false = .ok M) (h' : syRun n gates' false = .ok M') (hz : ‖z‖ = 1)
    (hs : M'.rows = scaleRows z M.rows) :
    ∃ N N', syRun n gates true = .ok N ∧ syRun n gates' true = .ok N' ∧
      (N.rows = N'.rows ↔ HasDiagonal M.rows ∨ M.rows = M'.rows) := by
  by_cases hd : HasDiagonal M.rows
  · obtain ⟨N, N', h1, h2, h3⟩ := C26_ignore_global_partial n gates gates' M M' z h h' hz hs hd
    exact ⟨N, N', h1, h2, fun _ => .inl hd, fun _ => h3⟩
  · refine ⟨_, _, syRun_true h, syRun_true h', ?_⟩
    obtain ⟨hdim, he⟩ := rows_scale hs
    have h0 : ∀ i < M.dim, M.ent i i = 0 := by
      intro i hi
      by_contra hne
      exact hd ⟨i, by simpa [SMat.rows] using hi, by simpa [SMat.rows, hi] using hne⟩
    have f1 : (List.range M.dim).find? (fun i => decide (M.ent i i ≠ 0)) = none := by
      rw [List.find?_eq_none]
      intro i hi; simp [h0 i (List.mem_range.1 hi)]
    have f2 : (List.range M'.dim).find? (fun i => decide (M'.ent i i ≠ 0)) = none := by
      rw [hdim, List.find?_eq_none]
      intro i hi
      have := List.mem_range.1 hi
      simp [he i this i this, h0 i this]
    simp only [syIgnoreGlobal, f1, f2]
    exact ⟨.inr, fun hh => hh.resolve_left hd⟩

/-- Both sides occur: X and -iX (`rx(π)`) differ by a phase and have no diagonal; the two results differ. -/
example : ∃ N N', syRun 1 [.g1 .x (.one (.int 0))] true = .ok N ∧ syRun 1 [.g1 (.rx Real.pi) (.one (.int 0))] true = .ok N' ∧
    N.rows ≠ N'.rows := by
  obtain ⟨N, N', h1, h2, h3⟩ := C26_exact 1 [.g1 .x (.one (.int 0))] [.g1 (.rx Real.pi) (.one (.int 0))] _ _ (-Complex.I)
    (syRun_one rfl) (syRun_one rfl) (by simp) (by rw [rows_lit, rows_lit]; simp [scaleRows])
  refine ⟨N, N', h1, h2, fun h => ?_⟩
  rcases h3.1 h with hd | hd
  · rw [rows_lit] at hd
    obtain ⟨i, hi, hne⟩ := hd
    simp at hi
    interval_cases i <;> simp at hne
  · rw [rows_lit, rows_lit] at hd
    simp at hd
    have := congrArg Complex.im hd
    simp at this

/-- C73, exactly: after `simplify()`, `is_identity` is true of the identity and of zero and of nothing else; without it, only of
those. -/
theorem C73_exact (e : PExpr) :
    (e.simplify.isIdentity = true ↔ exprOp e = 1 ∨ exprOp e = 0) ∧ (e.isIdentity = true → exprOp e = 1 ∨ exprOp e = 0) := by
  have key : ∀ s : PExpr, s.isIdentity = true → exprOp s = 1 ∨ exprOp s = 0 := by
    rintro ⟨ts⟩ hi
    rcases ts with _ | ⟨⟨ops, c⟩, _ | ⟨u, ts⟩⟩
    · right; simp [exprOp]
    · left
      simp [PExpr.isIdentity] at hi
      rw [hi.1, hi.2, one_expr_op]
    · simp [PExpr.isIdentity] at hi
  refine ⟨⟨fun h => ?_, ?_⟩, key e⟩
  · have := key _ h
    rwa [exprSimplify_op] at this
  · rintro (h | h)
    · exact (C73_expr_partial e (by rw [h]; exact operator_one_ne)).2 h
    · have h0 : exprOp e = exprOp ⟨[]⟩ := by rw [h]; simp [exprOp]
      rw [simplify_canonical h0]
      simp [PExpr.simplify, PExpr.simplifyDict, PExpr.fromTermsIter, PExpr.isIdentity, sortByRepr]

/-- `X[0]*X[0] - 1` is zero and reported to be the identity after `simplify()`. -/
example : (⟨[⟨[⟨.X, 0⟩, ⟨.X, 0⟩], 1⟩, ⟨[], -1⟩]⟩ : PExpr).simplify.isIdentity = true :=
  (C73_exact _).1.2 (.inr (by simp [exprOp, termOp, wordOp_cons, wordOp_nil, opOp_sq]; module))

theorem simplifyLoop_zero (before : PyDict ℕ (List PLetter)) (ns : List ℕ) : ∀ (c : ℂ) (ops : List POp),
    simplifyLoop before ns (0, ops) = (0, (simplifyLoop before ns (c, ops)).2) := by
  induction ns with
  | nil => intro c ops; rfl
  | cons n ns ih =>
    intro c ops
    have h0 : castReal (0 * (simplifyQubit ((before.get n).getD [])).1) = 0 := by simp [castReal]
    simp only [simplifyLoop, h0]
    exact ih _ _

/-- C80, terms with coefficient 0: the text `0*I` is a term, and it compares equal to the given one exactly if the operators of the
latter multiply to a multiple of the identity. -/
theorem C80_zero (lit : List Char → Option PyNum) (hl : PlainLit lit) (fmt : ℂ → String) (t : PTerm) (h0 : t.coeff = 0) :
    ∃ F s, readPauli lit (t.repr fmt) = some F ∧ F.py = .ok (.term s) ∧
      (pvEq (.term s) (.term t) = some (.ok true) ↔ ∃ z : ℂ, wordOp t.ops = z • (1 : Operator)) := by
  have h00 := factorText_lit hl (s := "0") hl.zero
  have h := productText (.cons h00 (.cons (factorText_I lit) .nil))
  refine ⟨.mul (.num (.real 0)) (.pauli .I), ⟨[], 0⟩, ?_, ?_, ?_⟩
  · have e : PTerm.repr fmt t = pyJoin "*" ["0", "I"] := by simp [PTerm.repr, h0, pyJoin]
    rw [readPauli, e, spaced_free h.free, splitChar_none _ _ h.blank]
    simp only [h.plus, List.foldl_cons, List.foldl_nil, readSum]
  · simp [Formula.py, bind, Except.bind, pvMul, PTerm.fromPauli, PyNum.val]
  · obtain ⟨ops, c⟩ := t
    simp only at h0
    subst h0
    have h1 : (⟨[], 0⟩ : PTerm).simplify = ⟨[], 0⟩ := simplify_of_normal _ List.Pairwise.nil
    have h2 : (⟨ops, 0⟩ : PTerm).simplify = ⟨(⟨ops, 1⟩ : PTerm).simplify.ops, 0⟩ := by
      simp only [PTerm.simplify, simplifyLoop_zero _ _ 1]
    have h3 := C73_term_partial ⟨ops, 1⟩ (by rw [termOp, one_smul]; exact wordOp_ne _)
    rw [termOp, one_smul] at h3
    rw [← h3]
    simp only [pvEq, PTerm.eq, h1, h2, PTerm.isIdentity, decide_eq_true_eq, Option.some.injEq, Except.ok.injEq, Bool.or_eq_true]
    constructor
    · rintro (h | h)
      · simp only [PTerm.mk.injEq, and_true] at h
        subst h
        rw [simplify_of_normal (⟨[], 1⟩ : PTerm) List.Pairwise.nil]
      · simpa using h.symm
    · intro h
      right
      rw [h]

end Blueqat
