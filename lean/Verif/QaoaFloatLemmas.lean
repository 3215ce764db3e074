import Verif.Spec.QaoaFloat
import Verif.QaoaLemmas
import Verif.AngleLemmas
import Verif.PauliFloatLemmas

/-!
# Lemmas: circuits with perturbed angles
-/

set_option linter.unusedSimpArgs false
set_option linter.unusedVariables false

namespace Blueqat

open Spec

noncomputable section

/-- The gates `gs'` are `gs` with changed angles: they denote valid unitary operations with angles up to `Θ`, in `N` passes,
and together differ by at most `η`. -/
def Shift (n : ℕ) (η Θ : ℝ) (N : ℕ) (gs gs' : List Gate) : Prop :=
  ∃ es es', GatesDenote n gs es ∧ GatesDenote n gs' es' ∧ (∀ e ∈ es, e.Valid n) ∧
    (∀ e ∈ es', e.Valid n ∧ e.IsUnitary ∧ ∀ x ∈ e.angles, |x| ≤ Θ) ∧ passes es' = N ∧
    ∀ ψ, gap n (unitaries phDoc es' ψ) (unitaries phDoc es ψ) ≤ η * Real.sqrt (normSqN n ψ)

theorem phDoc_norm (x : ℝ) : ‖phDoc x‖ = 1 := by simp [phDoc]

theorem gap_unitaries_doc {n : ℕ} (es : List Elem) (hv : ∀ e ∈ es, e.Valid n) (ψ χ : Vec) :
    gap n (unitaries phDoc es ψ) (unitaries phDoc es χ) = gap n ψ χ := by
  induction es generalizing ψ χ with
  | nil => rfl
  | cons e es ih =>
    simp only [unitaries, List.foldl_cons] at ih ⊢
    rw [ih (fun e he => hv e (by simp [he])), gap_elem phDoc_norm e (hv e (by simp))]

theorem unitaries_normSq {n : ℕ} (es : List Elem) (hv : ∀ e ∈ es, e.Valid n) (ψ : Vec) :
    normSqN n (unitaries phDoc es ψ) = normSqN n ψ :=
  (isom_unitaries (ph := phDoc) phDoc_norm es hv).norm ψ

theorem passes_app (es fs : List Elem) : passes (es ++ fs) = passes es + passes fs := by simp [passes]

theorem unitaries_app (es fs : List Elem) (ψ : Vec) : unitaries phDoc (es ++ fs) ψ = unitaries phDoc fs (unitaries phDoc es ψ) := by
  simp [unitaries]

theorem Shift.nil (n : ℕ) (Θ : ℝ) : Shift n 0 Θ 0 [] [] :=
  ⟨[], [], rfl, rfl, by simp, by simp, rfl, fun ψ => by simp [gap_self]⟩

theorem Shift.append {n : ℕ} {η ζ Θ : ℝ} {N K : ℕ} {gs gs' hs hs' : List Gate} (h1 : Shift n η Θ N gs gs')
    (h2 : Shift n ζ Θ K hs hs') : Shift n (η + ζ) Θ (N + K) (gs ++ hs) (gs' ++ hs') := by
  obtain ⟨es, es', a1, a2, a3, a4, a5, a6⟩ := h1
  obtain ⟨fs, fs', b1, b2, b3, b4, b5, b6⟩ := h2
  refine ⟨es ++ fs, es' ++ fs', gatesDenote_append a1 b1, gatesDenote_append a2 b2, ?_, ?_, by rw [passes_app, a5, b5], ?_⟩
  · intro e he; rcases List.mem_append.1 he with h | h
    · exact a3 e h
    · exact b3 e h
  · intro e he; rcases List.mem_append.1 he with h | h
    · exact a4 e h
    · exact b4 e h
  · intro ψ
    rw [unitaries_app, unitaries_app]
    refine (gap_triangle n _ (unitaries phDoc fs' (unitaries phDoc es ψ)) _).trans ?_
    rw [gap_unitaries_doc fs' (fun e he => (b4 e he).1)]
    have := b6 (unitaries phDoc es ψ)
    rw [unitaries_normSq es a3] at this
    have := a6 ψ
    rw [add_mul]
    linarith

theorem Shift.flatMap {α : Type} {n : ℕ} {Θ : ℝ} (l : List α) (f f' : α → List Gate) (η : α → ℝ) (N : α → ℕ)
    (h : ∀ a ∈ l, Shift n (η a) Θ (N a) (f a) (f' a)) :
    Shift n (l.map η).sum Θ (l.map N).sum (l.flatMap f) (l.flatMap f') := by
  induction l with
  | nil => exact .nil n Θ
  | cons a l ih =>
    simp only [List.flatMap_cons, List.map_cons, List.sum_cons]
    exact (h a (by simp)).append (ih (fun b hb => h b (by simp [hb])))

theorem Shift.mono {n : ℕ} {η ζ Θ : ℝ} {N : ℕ} {gs gs' : List Gate} (h1 : Shift n η Θ N gs gs') (h : η ≤ ζ) :
    Shift n ζ Θ N gs gs' := by
  obtain ⟨es, es', a1, a2, a3, a4, a5, a6⟩ := h1
  exact ⟨es, es', a1, a2, a3, a4, a5, fun ψ => (a6 ψ).trans (mul_le_mul_of_nonneg_right h (Real.sqrt_nonneg _))⟩

/-- Gates without angles. -/
theorem Shift.same {n : ℕ} {Θ : ℝ} {gs : List Gate} {es : List Elem} (hd : GatesDenote n gs es)
    (hv : ∀ e ∈ es, e.Valid n ∧ e.IsUnitary ∧ ∀ x ∈ e.angles, |x| ≤ Θ) : Shift n 0 Θ (passes es) gs gs :=
  ⟨es, es, hd, hd, fun e he => (hv e he).1, hv, rfl, fun ψ => by simp [gap_self]⟩

theorem denote_on1 (n : ℕ) (k : G1) (t : ℕ) : GatesDenote n [on1 k t] [.one k t] := by
  simpa using gatesDenote_cons (gateDenotes_on1 n k t) (gs := []) (es := []) rfl

theorem Shift.h {n t : ℕ} {Θ : ℝ} (ht : t < n) : Shift n 0 Θ 1 [on1 .h t] [on1 .h t] :=
  Shift.same (denote_on1 n .h t) (by simp [Elem.Valid, Elem.IsUnitary, Elem.angles, ht])

theorem Shift.cx {n c t : ℕ} {Θ : ℝ} (hc : c < n) (ht : t < n) (hne : c ≠ t) : Shift n 0 Θ 1 [on2 .cx c t] [on2 .cx c t] :=
  Shift.same (es := [.two .cx c t]) (by simpa using gatesDenote_cons (gateDenotes_on2 n .cx c t hne) (gs := []) (es := []) rfl)
    (by simp [Elem.Valid, Elem.IsUnitary, Elem.angles, hc, ht, hne])

theorem Shift.rx {n t : ℕ} {Θ : ℝ} (ht : t < n) (u v : ℝ) (hv : |v| ≤ Θ) :
    Shift n (|v - u| / 2) Θ 1 [on1 (.rx u) t] [on1 (.rx v) t] :=
  ⟨_, _, denote_on1 n _ t, denote_on1 n _ t, by simp [Elem.Valid, ht], by simp [Elem.Valid, Elem.IsUnitary, Elem.angles, ht, hv],
    rfl, fun ψ => gap_RX ht v u ψ⟩

theorem Shift.rz {n t : ℕ} {Θ : ℝ} (ht : t < n) (u v : ℝ) (hv : |v| ≤ Θ) :
    Shift n (|v - u| / 2) Θ 1 [on1 (.rz u) t] [on1 (.rz v) t] :=
  ⟨_, _, denote_on1 n _ t, denote_on1 n _ t, by simp [Elem.Valid, ht], by simp [Elem.Valid, Elem.IsUnitary, Elem.angles, ht, hv],
    rfl, fun ψ => gap_RZ ht v u ψ⟩

/-- A rotation of all qubits. -/
theorem Shift.rxAll (n : ℕ) {Θ : ℝ} (u v : ℝ) (hv : |v| ≤ Θ) :
    Shift n (n * (|v - u| / 2)) Θ n [onAll (.rx u)] [onAll (.rx v)] := by
  have hd : ∀ θ, GatesDenote n [onAll (.rx θ)] ((List.range n).map (.one (.rx θ))) := fun θ =>
    ⟨_, [], ⟨List.range n, sliceAll_denotes n, rfl⟩, rfl, by simp⟩
  refine ⟨_, _, hd u, hd v, ?_, ?_, ?_, ?_⟩
  · intro e he
    obtain ⟨t, ht, rfl⟩ := List.mem_map.1 he
    simpa [Elem.Valid] using ht
  · intro e he
    obtain ⟨t, ht, rfl⟩ := List.mem_map.1 he
    exact ⟨by simpa [Elem.Valid] using ht, trivial, by simpa [Elem.angles] using hv⟩
  · simp [passes, Elem.passes, Function.comp_def]
  · have h : ∀ l : List ℕ, (∀ t ∈ l, t < n) → ∀ ψ, gap n (unitaries phDoc (l.map (.one (.rx v))) ψ)
        (unitaries phDoc (l.map (.one (.rx u))) ψ) ≤ l.length * (|v - u| / 2) * Real.sqrt (normSqN n ψ) := by
      intro l hl
      induction l with
      | nil => intro ψ; simp [gap_self]
      | cons t l ih =>
        intro ψ
        have e : ∀ θ, unitaries phDoc ((t :: l).map (.one (.rx θ))) ψ = unitaries phDoc (l.map (.one (.rx θ))) (app (mRX θ) t ψ) :=
          fun θ => rfl
        rw [e, e]
        refine (gap_triangle n _ (unitaries phDoc (l.map (.one (.rx v))) (app (mRX u) t ψ)) _).trans ?_
        have hvl : ∀ e ∈ l.map (Elem.one (.rx v)), e.Valid n := by
          intro e he
          obtain ⟨s, hs, rfl⟩ := List.mem_map.1 he
          exact hl s (by simp [hs])
        rw [gap_unitaries_doc _ hvl]
        have h1 := gap_RX (hl t (by simp)) v u ψ
        have h2 := ih (fun s hs => hl s (by simp [hs])) (app (mRX u) t ψ)
        have h3 : normSqN n (app (mRX u) t ψ) = normSqN n ψ :=
          unitaries_normSq [.one (.rx u) t] (by simpa [Elem.Valid] using hl t (by simp)) ψ
        rw [h3] at h2
        refine (add_le_add h1 h2).trans (le_of_eq ?_)
        simp only [List.length_cons]
        push_cast
        ring
    intro ψ
    simpa using h (List.range n) (by simp) ψ

/-! ## The evolution of a term -/

theorem shift_basis {n : ℕ} {Θ : ℝ} (u v : ℝ) (hv : |v| ≤ Θ) (ops : List POp) (hq : ∀ o ∈ ops, o.n < n) :
    Shift n (yCount ops * (|v - u| / 2)) Θ (xyCount ops) (basisGates u ops) (basisGates v ops) := by
  induction ops with
  | nil => simpa [yCount, xyCount, basisGates] using Shift.nil n Θ
  | cons o ops ih =>
    have ih := ih (fun x hx => hq x (by simp [hx]))
    have ho := hq o (by simp)
    obtain ⟨p, k⟩ := o
    cases p with
    | X =>
      have := (Shift.h (Θ := Θ) ho).append ih
      simp only [yCount, xyCount, basisGates, List.filter_cons] at this ⊢
      simpa [add_comm] using this
    | Y =>
      have := (Shift.rx (Θ := Θ) ho u v hv).append ih
      simp only [yCount, xyCount, basisGates, List.filter_cons] at this ⊢
      simp only [reduceCtorEq, or_true, decide_true, if_true, List.length_cons, List.cons_append, List.nil_append] at this ⊢
      push_cast
      rw [add_comm 1] at this
      refine this.mono (le_of_eq ?_)
      ring
    | Z =>
      simp only [yCount, xyCount, basisGates, List.filter_cons] at ih ⊢
      simpa using ih

theorem shift_ladder {n : ℕ} {Θ : ℝ} (ops : List POp) (hn : NormalWord ops) (hq : ∀ o ∈ ops, o.n < n) :
    ∀ l : List ℕ, (∀ i ∈ l, 1 ≤ i ∧ i < ops.length) →
    Shift n 0 Θ l.length (l.filterMap (fun i => match ops[i - 1]?, ops[i]? with
      | some a, some b => some (on2 .cx a.n b.n)
      | _, _ => none)) (l.filterMap (fun i => match ops[i - 1]?, ops[i]? with
      | some a, some b => some (on2 .cx a.n b.n)
      | _, _ => none)) := by
  intro l hl
  induction l with
  | nil => exact Shift.nil n Θ
  | cons i l ih =>
    obtain ⟨h1, h2⟩ := hl i (by simp)
    have ih := ih (fun j hj => hl j (by simp [hj]))
    have e1 : ops[i - 1]? = some ops[i - 1] := List.getElem?_eq_getElem (by omega)
    have e2 : ops[i]? = some ops[i] := List.getElem?_eq_getElem h2
    have hne : ops[i - 1].n ≠ ops[i].n := by
      have := List.pairwise_iff_getElem.1 hn (i - 1) i (by omega) h2 (by omega)
      omega
    have := (Shift.cx (Θ := Θ) (hq _ (List.getElem_mem (by omega : i - 1 < ops.length))) (hq _ (List.getElem_mem h2)) hne).append ih
    rw [List.filterMap_cons, e1, e2]
    simpa [add_comm] using this

theorem evolution_angle {O : AngleOps} {ε : ℝ} (hO : AngleAccurate O ε) (hε : 0 ≤ ε) (c τ τ' : ℝ) (k : ℕ)
    (hτ : |τ' - τ| ≤ ((1 + ε) ^ k - 1) * |τ|) :
    |O.mul (O.mul (-2) c) τ' - (-2 * c * τ)| ≤ ((1 + ε) ^ (k + 2) - 1) * (2 * |c| * |τ|) := by
  have h1 := hO.mul (-2) c
  have h2 := hO.mul (O.mul (-2) c) τ'
  set a := O.mul (-2) c with ha
  have hK : 1 ≤ (1 + ε) ^ k := one_le_pow₀ (by linarith)
  have e1 : |(-2 : ℝ) * c| = 2 * |c| := by rw [abs_mul]; norm_num
  rw [e1] at h1
  have hτ' : |τ'| ≤ (1 + ε) ^ k * |τ| := by
    have := abs_add_le (τ' - τ) τ
    rw [sub_add_cancel] at this
    linarith
  have ha' : |a| ≤ (1 + ε) * (2 * |c|) := by
    have := abs_add_le (a - -2 * c) (-2 * c)
    rw [sub_add_cancel, e1] at this
    linarith
  have e2 : O.mul a τ' - -2 * c * τ = (O.mul a τ' - a * τ') + (a - -2 * c) * τ' + -2 * c * (τ' - τ) := by ring
  rw [e2]
  have h3 : |a * τ'| ≤ (1 + ε) * (2 * |c|) * ((1 + ε) ^ k * |τ|) := by
    rw [abs_mul]; exact mul_le_mul ha' hτ' (abs_nonneg _) (by positivity)
  have h4 : |(a - -2 * c) * τ'| ≤ ε * (2 * |c|) * ((1 + ε) ^ k * |τ|) := by
    rw [abs_mul]; exact mul_le_mul h1 hτ' (abs_nonneg _) (by positivity)
  have h5 : |-2 * c * (τ' - τ)| ≤ 2 * |c| * (((1 + ε) ^ k - 1) * |τ|) := by
    rw [abs_mul, e1]; exact mul_le_mul_of_nonneg_left hτ (by positivity)
  have h6 := h2.trans (mul_le_mul_of_nonneg_left h3 hε)
  refine (abs_add_three _ _ _).trans ((add_le_add_three h6 h4 h5).trans (le_of_eq ?_))
  ring

theorem abs_le_of_near {x y M η : ℝ} (h : |x - y| ≤ (η - 1) * M) (hy : |y| ≤ M) : |x| ≤ η * M := by
  have := abs_add_le (x - y) y
  rw [sub_add_cancel] at this
  linarith

theorem shift_evolution {n : ℕ} {Θ ε : ℝ} {O : AngleOps} (hO : AngleAccurate O ε) (hε : 0 ≤ ε) (ops : List POp)
    (hn : NormalWord ops) (hq : ∀ o ∈ ops, o.n < n) (c τ τ' : ℝ) (k : ℕ) (hτ : |τ' - τ| ≤ ((1 + ε) ^ k - 1) * |τ|)
    (hΘ : (1 + ε) * (Real.pi / 2) ≤ Θ) (hΘ' : (1 + ε) ^ (k + 2) * (2 * |c| * |τ|) ≤ Θ) :
    Shift n (((1 + ε) ^ (k + 2) - 1) * |τ| * |c| + ε * (Real.pi / 2) * yCount ops) Θ (wordPasses ops)
      (evolutionGates ops c τ) (flEvolutionGates O ops c τ') := by
  have hK : 1 ≤ (1 + ε) ^ (k + 2) := one_le_pow₀ (by linarith)
  rcases List.eq_nil_or_concat ops with rfl | ⟨l, last, rfl⟩
  · refine (Shift.nil n Θ).mono ?_
    simp only [yCount, List.filter_nil, List.length_nil, Nat.cast_zero, mul_zero, add_zero]
    have := sub_nonneg.2 hK
    positivity
  · set ops := l.concat last with hops
    have hlen : ops.length = l.length + 1 := by simp [hops]
    have hpi := Real.pi_pos
    have hpos : 0 ≤ Real.pi / 2 := by linarith
    have hang := evolution_angle hO hε c τ τ' k hτ
    have hrz := abs_le_of_near hang (by rw [abs_mul, abs_mul]; norm_num)
    have hhp : |O.halfPi| ≤ (1 + ε) * (Real.pi / 2) :=
      abs_le_of_near (y := Real.pi / 2) (by rw [add_sub_cancel_left]; exact hO.halfPi) (by rw [abs_of_nonneg hpos])
    have hl : last.n < n := hq last (by simp [hops])
    have hlast : ops.getLast? = some last := by simp [hops]
    have b1 := shift_basis (Θ := Θ) (-(Real.pi / 2)) (-O.halfPi) (by rw [abs_neg]; exact hhp.trans hΘ) ops hq
    have b2 := shift_basis (Θ := Θ) (Real.pi / 2) O.halfPi (hhp.trans hΘ) ops hq
    have u := shift_ladder (Θ := Θ) ops hn hq (List.range' 1 (ops.length - 1)) (by
      intro i hi; rw [List.mem_range'_1] at hi; omega)
    have d := shift_ladder (Θ := Θ) ops hn hq (List.range' 1 (ops.length - 1)).reverse (by
      intro i hi; rw [List.mem_reverse, List.mem_range'_1] at hi; omega)
    have r := Shift.rz (Θ := Θ) hl (-2 * c * τ) (O.mul (O.mul (-2) c) τ') (hrz.trans hΘ')
    have all := (((b1.append u).append r).append d).append b2
    simp only [List.length_range', List.length_reverse] at all
    have e1 : evolutionGates ops c τ = basisGates (-(Real.pi / 2)) ops ++ ladderUp ops ++ [on1 (.rz (-2 * c * τ)) last.n] ++
        ladderDown ops ++ basisGates (Real.pi / 2) ops := by simp only [evolutionGates, hlast]
    have e2 : flEvolutionGates O ops c τ' = basisGates (-O.halfPi) ops ++ ladderUp ops ++
        [on1 (.rz (O.mul (O.mul (-2) c) τ')) last.n] ++ ladderDown ops ++ basisGates O.halfPi ops := by
      simp only [flEvolutionGates, hlast]
    have e3 : xyCount ops + (ops.length - 1) + 1 + (ops.length - 1) + xyCount ops = wordPasses ops := by
      rw [wordPasses]; omega
    rw [e3] at all
    rw [e1, e2]
    refine Shift.mono all ?_
    have h1 : |-O.halfPi - -(Real.pi / 2)| = |O.halfPi - Real.pi / 2| := by rw [← abs_neg]; congr 1; ring
    rw [h1]
    have h2 : (yCount ops : ℝ) * (|O.halfPi - Real.pi / 2| / 2) ≤ yCount ops * (ε * (Real.pi / 2) / 2) :=
      mul_le_mul_of_nonneg_left (by linarith [hO.halfPi]) (by positivity)
    have h3 : |O.mul (O.mul (-2) c) τ' - -2 * c * τ| / 2 ≤ ((1 + ε) ^ (k + 2) - 1) * |τ| * |c| := by
      refine (div_le_div_of_nonneg_right hang (by norm_num)).trans (le_of_eq ?_)
      ring
    linarith

/-! ## Lists of terms -/

/-- The evolution closures of a list of simplified terms, in machine arithmetic. -/
def flClosuresOf (O : AngleOps) (ts : List PTerm) : List (ℝ → List Gate) := ts.map (fun t => flEvolutionGates O t.ops t.coeff.re)

theorem shift_closures {n : ℕ} {Θ ε : ℝ} {O : AngleOps} (hO : AngleAccurate O ε) (hε : 0 ≤ ε) (ts : List PTerm)
    (hn : ∀ t ∈ ts, NormalWord t.ops) (hb : qubitsOfAll (ts.map PTerm.ops) ≤ n) (τ τ' : ℝ) (k : ℕ)
    (hτ : |τ' - τ| ≤ ((1 + ε) ^ k - 1) * |τ|) (hΘ : (1 + ε) * (Real.pi / 2) ≤ Θ)
    (hΘ' : ∀ t ∈ ts, (1 + ε) ^ (k + 2) * (2 * ‖t.coeff‖ * |τ|) ≤ Θ) :
    Shift n (evolutionShift ε k ts τ) Θ (ts.map (fun t => wordPasses t.ops)).sum
      ((closuresOf ts).flatMap (fun f => f τ)) ((flClosuresOf O ts).flatMap (fun f => f τ')) := by
  have hK : 1 ≤ (1 + ε) ^ (k + 2) := one_le_pow₀ (by linarith)
  have hre : ∀ t : PTerm, |t.coeff.re| ≤ ‖t.coeff‖ := fun t => Complex.abs_re_le_norm _
  rw [closuresOf, flClosuresOf, List.flatMap_map, List.flatMap_map]
  refine (Shift.flatMap ts _ _ (fun t => ((1 + ε) ^ (k + 2) - 1) * |τ| * ‖t.coeff‖ + ε * (Real.pi / 2) * yCount t.ops)
    (fun t => wordPasses t.ops) (fun t ht => ?_)).mono (le_of_eq ?_)
  · refine (shift_evolution hO hε t.ops (hn t ht)
      (fun o ho => (lt_qubitsOfAll (List.mem_map_of_mem ht) ho).trans_le hb) _ τ τ' k hτ hΘ ?_).mono ?_
    · refine le_trans ?_ (hΘ' t ht)
      have := hre t
      gcongr
    · have := hre t
      have := sub_nonneg.2 hK
      gcongr
  · rw [evolutionShift, coeffTotal, yTotal]
    clear hn hb hΘ'
    induction ts with
    | nil => simp
    | cons t ts ih =>
      simp only [List.map_cons, List.sum_cons, ih]
      push_cast
      ring

end

end Blueqat
