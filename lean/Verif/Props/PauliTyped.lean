import Verif.PauliTyped
import Verif.Props.Diagonal

/-!
# C100: angles of time evolutions and QAOA circuits are floats
-/

set_option linter.unusedSimpArgs false
set_option linter.unusedVariables false

namespace Blueqat

noncomputable section

/-- The term without the class of its coefficient. -/
def NTerm.value (t : NTerm) : PTerm := ⟨t.ops, t.coeff.val⟩

/-- The expression without the classes of its coefficients. -/
def NExpr.value (e : NExpr) : PExpr := ⟨e.terms.map NTerm.value⟩

/-- The number is an int or a float. -/
def PyNum.IsReal : PyNum → Prop
  | .real _ => True
  | .cplx _ => False

theorem times_val (a b : PyNum) : (a.times b).val = a.val * b.val := lift_val (fun x y => x * y) (by simp) a b

theorem plus_val (a b : PyNum) : (a.plus b).val = a.val + b.val := lift_val (fun x y => x + y) (by simp) a b

theorem castFloat_val (x : PyNum) : (castFloat x).val = castReal x.val := by
  rw [castFloat, castReal]
  split_ifs <;> rfl

theorem castFloat_class (x : PyNum) : (castFloat x).IsReal ↔ (castFloat x).val.im = 0 := by
  rw [castFloat]
  split_ifs with h
  · simp [PyNum.IsReal, PyNum.val]
  · cases x with
    | real x => simp [PyNum.val] at h
    | cplx z => simpa [PyNum.IsReal, PyNum.val] using h

theorem mulMapN_value (a b : PLetter) : ((mulMapN a b).1.val, (mulMapN a b).2) = mulMap a b := by
  cases a <;> cases b <;> simp [mulMapN, mulMap, PyNum.val]

theorem simplifyMulN_value (a b : Option PLetter) :
    (simplifyMulN a b).1.val = (simplifyMul a b).1 ∧ (simplifyMulN a b).2 = (simplifyMul a b).2 := by
  cases a with
  | none => exact ⟨by simp [simplifyMulN, simplifyMul, PyNum.val], rfl⟩
  | some a =>
    cases b with
    | none => exact ⟨by simp [simplifyMulN, simplifyMul, PyNum.val], rfl⟩
    | some b => simp only [simplifyMulN, simplifyMul, ← mulMapN_value, and_self]

theorem simplifyQubitN_value (l : List PLetter) :
    (simplifyQubitN l).1.val = (simplifyQubit l).1 ∧ (simplifyQubitN l).2 = (simplifyQubit l).2 := by
  cases l with
  | nil => exact ⟨by simp [simplifyQubitN, simplifyQubit, PyNum.val], rfl⟩
  | cons p ps =>
    simp only [simplifyQubitN, simplifyQubit]
    have key : ∀ (ps : List PLetter) (s : PyNum × Option PLetter) (s' : ℂ × Option PLetter), s.1.val = s'.1 → s.2 = s'.2 →
        (ps.foldl (fun (s : PyNum × Option PLetter) q => (s.1.times (simplifyMulN s.2 (some q)).1, (simplifyMulN s.2 (some q)).2)) s).1.val =
          (ps.foldl (fun (s : ℂ × Option PLetter) q => (s.1 * (simplifyMul s.2 (some q)).1, (simplifyMul s.2 (some q)).2)) s').1 ∧
        (ps.foldl (fun (s : PyNum × Option PLetter) q => (s.1.times (simplifyMulN s.2 (some q)).1, (simplifyMulN s.2 (some q)).2)) s).2 =
          (ps.foldl (fun (s : ℂ × Option PLetter) q => (s.1 * (simplifyMul s.2 (some q)).1, (simplifyMul s.2 (some q)).2)) s').2 := by
      intro ps
      induction ps with
      | nil => intro s s' h1 h2; exact ⟨h1, h2⟩
      | cons q ps ih =>
        intro s s' h1 h2
        simp only [List.foldl_cons]
        obtain ⟨e1, e2⟩ := simplifyMulN_value s.2 (some q)
        exact ih _ _ (by rw [times_val, h1, e1, h2]) (by rw [e2, h2])
    exact key ps (.real 1, some p) (1, some p) (by simp [PyNum.val]) rfl

theorem simplifyLoopN_value (before : PyDict ℕ (List PLetter)) (ns : List ℕ) (c : PyNum) (ops : List POp) :
    (simplifyLoopN before ns (c, ops)).1.val = (simplifyLoop before ns (c.val, ops)).1 ∧
    (simplifyLoopN before ns (c, ops)).2 = (simplifyLoop before ns (c.val, ops)).2 := by
  induction ns generalizing c ops with
  | nil => exact ⟨rfl, rfl⟩
  | cons n ns ih =>
    obtain ⟨e1, e2⟩ := simplifyQubitN_value ((before.get n).getD [])
    simp only [simplifyLoopN, simplifyLoop]
    have := ih (castFloat (c.times (simplifyQubitN ((before.get n).getD [])).1))
      (match (simplifyQubitN ((before.get n).getD [])).2 with
        | none => ops
        | some p => ops ++ [⟨p, n⟩])
    rw [castFloat_val, times_val, e1] at this
    rw [e2] at this ⊢
    exact this

theorem simplifyLoopN_class (before : PyDict ℕ (List PLetter)) (ns : List ℕ) (hns : ns ≠ []) (c : PyNum) (ops : List POp) :
    (simplifyLoopN before ns (c, ops)).1.IsReal ↔ (simplifyLoopN before ns (c, ops)).1.val.im = 0 := by
  induction ns generalizing c ops with
  | nil => exact absurd rfl hns
  | cons n ns ih =>
    simp only [simplifyLoopN]
    by_cases h : ns = []
    · subst h
      exact castFloat_class _
    · exact ih h _ _

/-- C100. The class of a coefficient does not influence its value: `simplify` of a term, whatever the class of its coefficient,
is the one of C32. -/
theorem C100_term_value (t : NTerm) : t.simplify.value = t.value.simplify := by
  obtain ⟨h1, h2⟩ := simplifyLoopN_value (simplifyBefore t.ops) (pySorted ((simplifyBefore t.ops).map Prod.fst)) t.coeff []
  simp only [NTerm.simplify, NTerm.value, PTerm.simplify, h1, h2]

theorem set_ne_nil {α β : Type} [DecidableEq α] (d : PyDict α β) (a : α) (b : β) : d.set a b ≠ [] := by
  intro h
  have := PyDict.get_set d a a b
  rw [h] at this
  simp [PyDict.get] at this

theorem simplifyBefore_ne_nil (ops : List POp) (h : ops ≠ []) : pySorted ((simplifyBefore ops).map Prod.fst) ≠ [] := by
  have key : simplifyBefore ops ≠ [] := by
    obtain ⟨o, l, rfl⟩ : ∃ o l, ops = l ++ [o] := by
      rcases List.eq_nil_or_concat ops with h' | ⟨l, o, h'⟩
      · exact absurd h' h
      · exact ⟨o, l, by simpa using h'⟩
    rw [simplifyBefore, List.foldl_append]
    exact set_ne_nil _ _ _
  intro h0
  have h1 : ((simplifyBefore ops).map Prod.fst).length = 0 := by
    rw [← List.length_mergeSort (le := fun a b => decide (a ≤ b)), show List.mergeSort _ _ = pySorted _ from rfl, h0]; rfl
  rw [List.length_map, List.length_eq_zero_iff] at h1
  exact key h1

/-- **C100.** When `simplify` of a term gives a float (or int): for a term with operators exactly if the resulting coefficient is
real; a term without operators keeps its number. -/
theorem C100_class (t : NTerm) : t.simplify.coeff.IsReal ↔
    (t.ops = [] ∧ t.coeff.IsReal) ∨ (t.ops ≠ [] ∧ t.value.simplify.coeff.im = 0) := by
  by_cases h : t.ops = []
  · have : t.simplify.coeff = t.coeff := by simp [NTerm.simplify, h, simplifyBefore, pySorted, simplifyLoopN]
    simp [this, h]
  · have e := congrArg PTerm.coeff (C100_term_value t)
    rw [← e]
    simp only [h, false_and, ne_eq, not_false_eq_true, true_and, false_or]
    exact simplifyLoopN_class _ _ (simplifyBefore_ne_nil t.ops h) t.coeff []

theorem loadAll_plain (gs : List Gate) (l : List NGate) :
    loadAll (gs.map .plain ++ l) = (loadAll l).map (fun xs => gs ++ xs) := by
  induction gs with
  | nil => cases h : loadAll l <;> simp [h, Except.map]
  | cons g gs ih =>
    simp only [List.map_cons, List.cons_append, loadAll, NGate.load, ih, bind, Except.bind]
    cases loadAll l <;> rfl

theorem load_evolution (ops : List POp) (x t : ℝ) :
    loadAll (evolutionGatesN ops (.real x) t) = .ok (evolutionGates ops x t) := by
  rw [evolutionGatesN, evolutionGates]
  cases ops.getLast? with
  | none => rfl
  | some last =>
    simp only [List.append_assoc]
    rw [loadAll_plain]
    have : loadAll ((ladderDown ops ++ basisGates (Real.pi / 2) ops).map .plain) =
        .ok (ladderDown ops ++ basisGates (Real.pi / 2) ops) := by
      have := loadAll_plain (ladderDown ops ++ basisGates (Real.pi / 2) ops) []
      simpa [loadAll, Except.map] using this
    simp only [List.cons_append, List.nil_append, loadAll, PyNum.times, PyNum.lift, NGate.load, this, bind, Except.bind, Except.map]
    simp

/-- **C100.** `get_time_evolution` for every term, whatever the class of its coefficient: ValueError if the simplified coefficient
is not real; otherwise the angles of the circuit are floats, for every time the backend accepts all operations and they are
the ones of C39. -/
theorem C100_evolution (t : NTerm) :
    (t.value.simplify.coeff.im ≠ 0 ∧ t.getTimeEvolution = .error .valueError ∧ t.value.evolutionClosure = .error .valueError) ∨
    ∃ f g, t.getTimeEvolution = .ok f ∧ t.value.evolutionClosure = .ok g ∧ ∀ time, loadAll (f time) = .ok (g time) := by
  have e := C100_term_value t
  have e1 : t.simplify.ops = t.value.simplify.ops := congrArg PTerm.ops e
  have e2 : t.simplify.coeff.val = t.value.simplify.coeff := congrArg PTerm.coeff e
  by_cases h : t.value.simplify.coeff.im = 0
  · right
    refine ⟨_, _, by rw [NTerm.getTimeEvolution, e2, if_neg (by simpa using h)],
      by rw [PTerm.evolutionClosure, if_neg (by simpa using h)], fun time => ?_⟩
    by_cases h0 : t.ops = []
    · have h1 : t.simplify.ops = [] := by simp [NTerm.simplify, h0, simplifyBefore, pySorted, simplifyLoopN]
      rw [← e1, h1]
      rfl
    · have hr := (C100_class t).2 (.inr ⟨h0, h⟩)
      cases hc : t.simplify.coeff with
      | cplx z => rw [hc] at hr; exact absurd hr id
      | real x =>
        rw [load_evolution, e1, ← e2, hc]
        rfl
  · exact .inl ⟨h, by rw [NTerm.getTimeEvolution, e2, if_pos h], by rw [PTerm.evolutionClosure, if_pos h]⟩

/-- A dictionary of numbers without their classes. -/
def dictValue (d : PyDict (List POp) PyNum) : PyDict (List POp) ℂ := d.map (fun p => (p.1, p.2.val))

theorem dictValue_get (d : PyDict (List POp) PyNum) (k : List POp) :
    (dictValue d).get k = (d.get k).map PyNum.val := by
  induction d with
  | nil => rfl
  | cons p d ih =>
    simp only [dictValue, List.map_cons, PyDict.get] at ih ⊢
    split_ifs
    · rfl
    · exact ih

theorem dictValue_set (d : PyDict (List POp) PyNum) (k : List POp) (v : PyNum) :
    dictValue (d.set k v) = (dictValue d).set k v.val := by
  induction d with
  | nil => rfl
  | cons p d ih =>
    simp only [dictValue, List.map_cons, PyDict.set] at ih ⊢
    split_ifs
    · rfl
    · simp only [List.map_cons, ih]

theorem dictAddN_value (d : PyDict (List POp) PyNum) (t : NTerm) :
    dictValue (dictAddN d t) = dictAdd (dictValue d) t.value := by
  rw [dictAddN, dictAdd, dictValue_set, plus_val, dictValue_get]
  have : ((d.get t.ops).getD (.real 0)).val = ((d.get t.ops).map PyNum.val).getD 0 := by
    cases d.get t.ops <;> simp [PyNum.val]
  rw [this]
  rfl

/-- C100. `simplify` of an expression likewise. -/
theorem C100_expr_value (e : NExpr) : e.simplify.value = e.value.simplify := by
  have hd : ∀ (ts : List NTerm) (d : PyDict (List POp) PyNum),
      dictValue (ts.foldl dictAddN d) = (ts.map NTerm.value).foldl dictAdd (dictValue d) := by
    intro ts
    induction ts with
    | nil => intro d; rfl
    | cons t ts ih => intro d; rw [List.foldl_cons, ih, dictAddN_value]; rfl
  have h1 : e.value.simplifyDict = dictValue ((e.terms.map NTerm.simplify).foldl dictAddN []) := by
    rw [hd, PExpr.simplifyDict, NExpr.value]
    simp only [List.map_map]
    congr 1
    exact List.map_congr_left (fun t _ => (C100_term_value t).symm)
  generalize hD : (e.terms.map NTerm.simplify).foldl dictAddN [] = D at h1
  have hk : (dictValue D).map Prod.fst = D.map Prod.fst := by simp [dictValue]
  have hg : ∀ k, ((dictValue D).get k).getD 0 = ((D.get k).getD (.real 0)).val := by
    intro k
    rw [dictValue_get]
    cases D.get k <;> simp [PyNum.val]
  have hL : e.simplify.value = ⟨((((sortByRepr (D.map Prod.fst)).filter
      (fun k => decide (((D.get k).getD (.real 0)).val ≠ 0))).map
      (fun k => (⟨k, (D.get k).getD (.real 0)⟩ : NTerm))).filter (fun t => decide (t.coeff.val ≠ 0))).map NTerm.value⟩ := by
    rw [NExpr.value, NExpr.simplify]
    simp only [hD]
  rw [hL, PExpr.simplify]
  simp only [PExpr.fromTermsIter, h1, hk, hg]
  congr 1
  generalize List.filter _ (sortByRepr _) = l
  induction l with
  | nil => rfl
  | cons k l ih =>
    simp only [List.map_cons, List.filter_cons]
    split_ifs with h
    · simp only [List.map_cons, ih]; rfl
    · exact ih

theorem closuresN (ts : List NTerm) :
    (evolutionClosuresN ts = .error .valueError ∧ evolutionClosures (ts.map fun t => .term t.value) = .error .valueError) ∨
    ∃ fs gs, evolutionClosuresN ts = .ok fs ∧ evolutionClosures (ts.map fun t => .term t.value) = .ok gs ∧
      List.Forall₂ (fun f g => ∀ time, loadAll (f time) = .ok (g time)) fs gs := by
  induction ts with
  | nil => exact .inr ⟨[], [], rfl, rfl, .nil⟩
  | cons t ts ih =>
    simp only [List.map_cons, evolutionClosuresN, evolutionClosures, PVal.evolutionClosure]
    rcases C100_evolution t with ⟨-, h1, h2⟩ | ⟨f, g, h1, h2, h3⟩
    · exact .inl ⟨by rw [h1]; rfl, by rw [h2]; rfl⟩
    · rcases ih with ⟨e1, e2⟩ | ⟨fs, gs, e1, e2, e3⟩
      · exact .inl ⟨by rw [h1, e1]; rfl, by rw [h2, e2]; rfl⟩
      · exact .inr ⟨f :: fs, g :: gs, by rw [h1, e1]; rfl, by rw [h2, e2]; rfl, .cons h3 e3⟩

/-- **C100.** The time evolutions of a `QaoaAnsatz` for every expression, whatever the classes of its coefficients: either
ValueError, as in C46, or a function for every term, and all their operations have float angles and are the ones of C46. -/
theorem C100_qaoa (e : NExpr) :
    (evolutionClosuresN e.simplify.terms = .error .valueError ∧
      evolutionClosures (e.value.simplify.terms.map .term) = .error .valueError) ∨
    ∃ fs gs, evolutionClosuresN e.simplify.terms = .ok fs ∧ evolutionClosures (e.value.simplify.terms.map .term) = .ok gs ∧
      List.Forall₂ (fun f g => ∀ time, loadAll (f time) = .ok (g time)) fs gs := by
  have := closuresN e.simplify.terms
  rw [show (e.simplify.terms.map fun t => PVal.term t.value) = e.value.simplify.terms.map .term by
    rw [← C100_expr_value, NExpr.value, List.map_map]; rfl] at this
  exact this

/-- C100. The conversion to float is needed: in `Y[0]*X[0]*Y[0]`, which is `-X[0]`, the product of the factors is the complex
number `-1+0j`; multiplied with the float `t` it would give a complex angle, which the backend does not accept. -/
theorem C100_cast_needed (t : ℝ) :
    ∃ z, simplifyQubitN [.Y, .X, .Y] = (.cplx z, some .X) ∧ z = -1 ∧
      loadAll (evolutionGatesN [⟨.X, 0⟩] (.cplx z) t) = .error .typeError := by
  refine ⟨_, rfl, ?_, rfl⟩
  simp [PyNum.val, simplifyMulN, mulMapN, PyNum.times, PyNum.lift]

/-! ## Examples -/

/-- `2j*X[0]*Y[0]`, which is `-2*Z[0]`, has a float coefficient after `simplify`. -/
example : (⟨[⟨.X, 0⟩, ⟨.Y, 0⟩], .cplx (2 * Complex.I)⟩ : NTerm).simplify.coeff.IsReal := by
  rw [C100_class]
  right
  refine ⟨by simp, ?_⟩
  simp [NTerm.value, PTerm.simplify, simplifyBefore, PyDict.set, PyDict.get, pySorted, simplifyLoop, simplifyQubit, simplifyMul,
    mulMap, castReal, PyNum.val]

/-- `Term((), 1+0j)` keeps its complex coefficient. -/
example : ¬ (⟨[], .cplx 1⟩ : NTerm).simplify.coeff.IsReal := by
  rw [C100_class]
  simp [PyNum.IsReal]

end

end Blueqat
