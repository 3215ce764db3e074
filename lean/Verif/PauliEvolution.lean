import Verif.PauliCircuit
import Verif.Spec.Evolution
import Verif.PauliSimplify
import Verif.FallbackGates
import Verif.AppendLemmas
import Mathlib.Tactic.NoncommRing
import Mathlib.Tactic.Module
import Mathlib.Algebra.Group.Commute.Defs
import Mathlib.Analysis.SpecialFunctions.Trigonometric.Basic

/-!
# Helper lemmas: circuits appended by Pauli terms
-/

set_option linter.unusedSimpArgs false
set_option linter.unusedVariables false

namespace Blueqat

open Spec

noncomputable section

/-! ## Appending -/

/-- A gate on literal qubit numbers. -/
inductive Lit : Gate → List ℕ → Prop where
  | one (k : G1) (t : ℕ) : Lit (on1 k t) [t]
  | two (k : G2) (c t : ℕ) : Lit (on2 k c t) [c, t]

theorem append_lit {g : Gate} {qs : List ℕ} (h : Lit g qs) (c : OpsVal) :
    c.append g = .ok ⟨max c.n (qs.foldr (fun q m => max (q + 1) m) 0), c.ops ++ [g]⟩ := by
  cases h with
  | one k t =>
    have h1 : getMaximumIndex (on1 k t).targets = .ok (t : ℤ) := by
      simp [on1, Gate.targets, getMaximumIndex, Targets.ofInt, maximumIdxSingle]
    simp only [OpsVal.append, h1]
    congr 2
    simp only [newQubits, List.foldr]; omega
  | two k a b =>
    have h1 : getMaximumIndex (on2 k a b).targets = .ok (max (a : ℤ) b) := by
      simp [on2, Gate.targets, Targets.ofPair, getMaximumIndex, maxOver, maximumIdxSingle]
    simp only [OpsVal.append, h1]
    congr 2
    simp only [newQubits, List.foldr]; omega

theorem appendAll_lit (gs : List (Gate × List ℕ)) (h : ∀ p ∈ gs, Lit p.1 p.2) (c : OpsVal) :
    c.appendAll (gs.map Prod.fst) =
      .ok ⟨max c.n ((gs.flatMap Prod.snd).foldr (fun q m => max (q + 1) m) 0), c.ops ++ gs.map Prod.fst⟩ := by
  induction gs generalizing c with
  | nil => simp [OpsVal.appendAll]
  | cons p gs ih =>
    simp only [List.map_cons, OpsVal.appendAll, append_lit (h p (by simp)), bind, Except.bind]
    rw [ih (fun q hq => h q (by simp [hq]))]
    simp only [List.append_assoc, List.cons_append, List.nil_append, List.flatMap_cons]
    congr 2
    have : ∀ (l : List ℕ) (m : ℕ), l.foldr (fun q m => max (q + 1) m) m =
        max (l.foldr (fun q m => max (q + 1) m) 0) m := by
      intro l m
      induction l with
      | nil => simp
      | cons a l ih => simp only [List.foldr_cons]; omega
    rw [List.foldr_append, this p.2 (List.foldr _ 0 (List.flatMap Prod.snd gs)), max_assoc]

/-! ## Gates that act as operators -/

theorem actsAs_nil (n : ℕ) : ActsAs n [] 1 := ⟨[], rfl, by simp, fun _ _ => rfl⟩

theorem actsAs_append {n : ℕ} {gs hs : List Gate} {A B : Operator} (h1 : ActsAs n gs A) (h2 : ActsAs n hs B) :
    ActsAs n (gs ++ hs) (B * A) := by
  obtain ⟨es, d1, v1, u1⟩ := h1
  obtain ⟨fs, d2, v2, u2⟩ := h2
  refine ⟨es ++ fs, gatesDenote_append d1 d2, ?_, ?_⟩
  · intro e he
    rcases List.mem_append.1 he with h | h
    · exact v1 e h
    · exact v2 e h
  · intro ph ψ
    rw [unitaries_append, u1, u2]; rfl

theorem actsAs_on1 {n t : ℕ} (k : G1) (ht : t < n) : ActsAs n [on1 k t] (matAt (matrix1 k) t) :=
  ⟨[.one k t], by simpa using gatesDenote_cons (gateDenotes_on1 n k t) (gs := []) (es := []) rfl,
    by simp [Elem.Valid, Elem.IsUnitary, ht], fun _ _ => rfl⟩

/-- CNOT as an operator. -/
def cxOp (c t : ℕ) : Operator where
  toFun := ctrl c (app mX t)
  map_add' ψ χ := by rw [ctrl_app_mX, ctrl_app_mX, ctrl_app_mX]; rfl
  map_smul' z ψ := by rw [ctrl_app_mX, ctrl_app_mX]; rfl

theorem cxOp_apply (c t : ℕ) (ψ : Vec) : cxOp c t ψ = fun i => ψ (if i.testBit c then flipBit t i else i) :=
  ctrl_app_mX c t ψ

theorem actsAs_cx {n c t : ℕ} (hc : c < n) (ht : t < n) (h : c ≠ t) : ActsAs n [on2 .cx c t] (cxOp c t) :=
  ⟨[.two .cx c t], by simpa using gatesDenote_cons (gateDenotes_on2 n .cx c t h) (gs := []) (es := []) rfl,
    by simp [Elem.Valid, Elem.IsUnitary, hc, ht, h], fun _ _ => rfl⟩

theorem cxOp_sq {c t : ℕ} (h : c ≠ t) : cxOp c t * cxOp c t = 1 := by
  refine LinearMap.ext fun ψ => ?_
  funext i
  simp only [Module.End.mul_apply, cxOp_apply, Module.End.one_apply]
  by_cases hc : i.testBit c <;> simp [hc, testBit_flipBit_ne h, testBit_flipBit_ne h.symm]

theorem cxOp_comm {c t q : ℕ} (hc : q ≠ c) (ht : q ≠ t) (M : M2) : Commute (cxOp c t) (matAt M q) := by
  refine LinearMap.ext fun ψ => ?_
  funext i
  simp only [Module.End.mul_apply, cxOp_apply, matAt_apply, app]
  by_cases h : i.testBit c <;> by_cases hq : i.testBit q <;>
    simp [h, hq, testBit_flipBit_ne hc, testBit_flipBit_ne hc.symm, testBit_flipBit_ne ht,
      testBit_flipBit_ne ht.symm, flipBit_comm t q]

theorem cxOp_Z {c t : ℕ} (h : c ≠ t) : cxOp c t * matAt mZ t * cxOp c t = matAt mZ c * matAt mZ t := by
  refine LinearMap.ext fun ψ => ?_
  funext i
  simp only [Module.End.mul_apply, cxOp_apply, matAt_apply, app, mZ]
  by_cases hc : i.testBit c <;> by_cases ht : i.testBit t <;>
    simp [hc, ht, testBit_flipBit_ne h, testBit_flipBit_ne h.symm]

/-! ## Denotations are unique -/

theorem natMap_inj {L M : List ℕ} (h : L.map (fun q : ℕ => (q : ℤ)) = M.map (fun q : ℕ => (q : ℤ))) : L = M :=
  List.map_injective_iff.2 (fun a b hab => by simpa using hab) h

theorem targetsDenote_unique {n : ℕ} {T : Targets} {L M : List ℤ} (h1 : TargetsDenote n T L)
    (h2 : TargetsDenote n T M) : L = M := by
  have a := (slicing_eq_iff n T L).2 h1
  have b := (slicing_eq_iff n T M).2 h2
  rw [a] at b; simpa using b

theorem itemDenotes_unique {n : ℕ} {x : Item} {L M : List ℤ} (h1 : ItemDenotes n x L)
    (h2 : ItemDenotes n x M) : L = M := by
  have a := (slicingItem_eq_iff n x L).2 h1
  have b := (slicingItem_eq_iff n x M).2 h2
  rw [a] at b; simpa using b

theorem pairsDenote_unique {n : ℕ} {T : Targets} {p q : List (ℤ × ℤ)} (h1 : PairsDenote n T p)
    (h2 : PairsDenote n T q) : p = q := by
  obtain ⟨a, b, cs, ts, rfl, ha, hb, -, rfl, -⟩ := h1
  obtain ⟨a', b', cs', ts', he, ha', hb', -, rfl, -⟩ := h2
  simp at he
  obtain ⟨rfl, rfl⟩ := he
  rw [itemDenotes_unique ha ha', itemDenotes_unique hb hb']

theorem gateDenotes_unique {n : ℕ} {g : Gate} {es fs : List Elem} (h1 : GateDenotes n g es)
    (h2 : GateDenotes n g fs) : es = fs := by
  cases g with
  | g1 k T =>
    obtain ⟨L, hL, rfl⟩ := h1; obtain ⟨M, hM, rfl⟩ := h2
    rw [natMap_inj (targetsDenote_unique hL hM)]
  | measure T =>
    obtain ⟨L, hL, rfl⟩ := h1; obtain ⟨M, hM, rfl⟩ := h2
    rw [natMap_inj (targetsDenote_unique hL hM)]
  | reset T =>
    obtain ⟨L, hL, rfl⟩ := h1; obtain ⟨M, hM, rfl⟩ := h2
    rw [natMap_inj (targetsDenote_unique hL hM)]
  | g2 k T =>
    obtain ⟨L, hL, rfl⟩ := h1; obtain ⟨M, hM, rfl⟩ := h2
    have h := pairsDenote_unique hL hM
    have : L = M := List.map_injective_iff.2 (fun a b hab => by
      simp at hab; exact Prod.ext hab.1 hab.2) h
    rw [this]
  | g3 k T =>
    obtain ⟨a, b, c, rfl, rfl⟩ := h1; obtain ⟨a', b', c', he, rfl⟩ := h2
    simp at he
    obtain ⟨rfl, rfl, rfl⟩ := he
    rfl

theorem gatesDenote_unique {n : ℕ} {gs : List Gate} {es fs : List Elem} (h1 : GatesDenote n gs es)
    (h2 : GatesDenote n gs fs) : es = fs := by
  induction gs generalizing es fs with
  | nil => simp only [GatesDenote] at h1 h2; rw [h1, h2]
  | cons g gs ih =>
    obtain ⟨a, b, ha, hb, rfl⟩ := h1
    obtain ⟨a', b', ha', hb', rfl⟩ := h2
    rw [gateDenotes_unique ha ha', ih hb hb']

theorem actsAs_unique {n : ℕ} {gs : List Gate} {A B : Operator} (h1 : ActsAs n gs A) (h2 : ActsAs n gs B) : A = B := by
  obtain ⟨es, d1, -, u1⟩ := h1
  obtain ⟨fs, d2, -, u2⟩ := h2
  obtain rfl := gatesDenote_unique d1 d2
  refine LinearMap.ext fun ψ => ?_
  rw [← u1 phDoc, ← u2 phDoc]

/-! ## C40 -/

theorem gate_matrix (p : PLetter) : matrix1 p.gate = letterM p := by cases p <;> rfl

theorem actsAs_word {n : ℕ} (ops : List POp) (h : ∀ o ∈ ops, o.n < n) :
    ActsAs n (ops.reverse.map (fun o => on1 o.p.gate o.n)) (wordOp ops) := by
  induction ops with
  | nil => exact actsAs_nil n
  | cons o ops ih =>
    have h1 := actsAs_append (ih (fun x hx => h x (by simp [hx]))) (actsAs_on1 o.p.gate (h o (by simp)))
    simp only [List.reverse_cons, List.map_append, List.map_cons, List.map_nil]
    rw [gate_matrix] at h1
    simpa [wordOp, opOp] using h1

/-! ## The ladder -/

/-- The product of `Z` on the qubits of the word. -/
def zWord (ops : List POp) : Operator := (ops.map (fun o => matAt mZ o.n)).prod

theorem zWord_cons (o : POp) (l : List POp) : zWord (o :: l) = matAt mZ o.n * zWord l := by simp [zWord]

theorem zWord_comm (A : Operator) (l : List POp) (h : ∀ o ∈ l, Commute A (matAt mZ o.n)) : Commute A (zWord l) := by
  induction l with
  | nil => simp [zWord]
  | cons o l ih =>
    rw [zWord_cons]
    exact (h o (by simp)).mul_right (ih (fun x hx => h x (by simp [hx])))

theorem ladderUp_nil : ladderUp [] = [] := rfl
theorem ladderUp_one (a : POp) : ladderUp [a] = [] := rfl

theorem range'_succ_map (s k : ℕ) : List.range' (s + 1) k = (List.range' s k).map (· + 1) := by
  induction k generalizing s with
  | zero => simp
  | succ k ih => simp [List.range'_succ, ih]

theorem ladderUp_cons (a b : POp) (l : List POp) :
    ladderUp (a :: b :: l) = on2 .cx a.n b.n :: ladderUp (b :: l) := by
  simp only [ladderUp, List.length_cons, Nat.add_sub_cancel]
  rw [List.range'_succ]
  simp only [List.filterMap_cons, Nat.sub_self, List.getElem?_cons_zero, List.getElem?_cons_succ]
  congr 1
  rw [range'_succ_map, List.filterMap_map]
  refine List.filterMap_congr (fun i hi => ?_)
  have : 1 ≤ i := by simp at hi; omega
  obtain ⟨i, rfl⟩ : ∃ j, i = j + 1 := ⟨i - 1, by omega⟩
  simp

theorem ladderDown_eq (ops : List POp) : ladderDown ops = (ladderUp ops).reverse := by
  simp [ladderDown, ladderUp, List.filterMap_reverse]

theorem ladderDown_cons (a b : POp) (l : List POp) :
    ladderDown (a :: b :: l) = ladderDown (b :: l) ++ [on2 .cx a.n b.n] := by
  simp [ladderDown_eq, ladderUp_cons]

/-! ## Matrices -/

theorem rz_exp (θ : ℝ) (q : ℕ) : matAt (mRZ (-2 * θ)) q = expI θ (matAt mZ q) := by
  refine LinearMap.ext fun ψ => ?_
  funext i
  have e1 : cis θ = Real.cos θ + Complex.I * Real.sin θ := by
    rw [cis, Complex.exp_mul_I]; push_cast; ring
  have e2 : cis (-θ) = Real.cos θ - Complex.I * Real.sin θ := by
    rw [cis, Complex.exp_mul_I]; push_cast; rw [Complex.cos_neg, Complex.sin_neg]; ring
  have a1 : -(-2 * θ / 2) = θ := by ring
  have a2 : (-2 * θ / 2) = -θ := by ring
  simp only [expI, matAt_apply, app, mRZ, a1, a2, neg_neg, e1, e2, mZ, LinearMap.add_apply, LinearMap.smul_apply,
    Module.End.one_apply, Pi.add_apply, Pi.smul_apply, smul_eq_mul]
  split_ifs <;> ring

theorem rx_conj : mRX (Real.pi / 2) * mZ * mRX (-(Real.pi / 2)) =
    ⟨(-1) * mY.a, (-1) * mY.b, (-1) * mY.c, (-1) * mY.d⟩ := by
  have c4 : Real.cos (Real.pi / 2 / 2) = √2 / 2 := by
    rw [show Real.pi / 2 / 2 = Real.pi / 4 by ring, Real.cos_pi_div_four]
  have s4 : Real.sin (Real.pi / 2 / 2) = √2 / 2 := by
    rw [show Real.pi / 2 / 2 = Real.pi / 4 by ring, Real.sin_pi_div_four]
  have h2 : ((√2 : ℝ) : ℂ) ^ 2 = 2 := by
    rw [sq, ← Complex.ofReal_mul, Real.mul_self_sqrt (by norm_num)]; norm_num
  have hI : Complex.I ^ 2 = -1 := Complex.I_sq
  ext <;> simp only [mRX, mZ, mY, M2.mul_def, neg_div, Real.cos_neg, Real.sin_neg, c4, s4] <;> push_cast <;> ring_nf <;>
    simp only [h2, hI] <;> ring

theorem rx_inv : mRX (Real.pi / 2) * mRX (-(Real.pi / 2)) = 1 := by
  rw [mRX_mul, add_neg_cancel, mRX_zero]

/-! ## Basis changes -/

/-- The basis change of one operator: `H` for X, `RX(θ)` for Y, nothing for Z. -/
def basisM (θ : ℝ) : PLetter → M2
  | .X => mH
  | .Y => mRX θ
  | .Z => 1

/-- The basis changes of a word. -/
def basisOp (θ : ℝ) : List POp → Operator
  | [] => 1
  | o :: l => basisOp θ l * matAt (basisM θ o.p) o.n

theorem actsAs_basis {n : ℕ} (θ : ℝ) (ops : List POp) (h : ∀ o ∈ ops, o.n < n) :
    ActsAs n (basisGates θ ops) (basisOp θ ops) := by
  induction ops with
  | nil => exact actsAs_nil n
  | cons o ops ih =>
    have h1 := ih (fun x hx => h x (by simp [hx]))
    obtain ⟨p, q⟩ := o
    have hq : q < n := h ⟨p, q⟩ (by simp)
    cases p with
    | X => exact actsAs_append (actsAs_on1 .h hq) h1
    | Y => exact actsAs_append (actsAs_on1 (.rx θ) hq) h1
    | Z => simpa [basisGates, basisOp, basisM, matAt_one] using h1

theorem basisOp_comm (θ : ℝ) (M : M2) (q : ℕ) (l : List POp) (h : ∀ o ∈ l, q ≠ o.n) :
    Commute (matAt M q) (basisOp θ l) := by
  induction l with
  | nil => exact Commute.one_right _
  | cons o l ih =>
    exact (ih (fun x hx => h x (by simp [hx]))).mul_right (matAt_comm (h o (by simp)) _ _)

theorem basis_conj (p : PLetter) :
    basisM (Real.pi / 2) p * mZ * basisM (-(Real.pi / 2)) p =
      ⟨(if p = .Y then -1 else 1) * (letterM p).a, (if p = .Y then -1 else 1) * (letterM p).b,
        (if p = .Y then -1 else 1) * (letterM p).c, (if p = .Y then -1 else 1) * (letterM p).d⟩ := by
  cases p with
  | X => simp [basisM, letterM, mul_assoc, mH_Z_mH]
  | Y => simpa [basisM, letterM] using rx_conj
  | Z => simp [basisM, letterM]

theorem basis_inv (p : PLetter) : basisM (Real.pi / 2) p * basisM (-(Real.pi / 2)) p = 1 := by
  cases p with
  | X => exact mH_mH
  | Y => exact rx_inv
  | Z => exact one_mul _

theorem basisOp_inv (ops : List POp) (hn : ops.Pairwise (fun a b => a.n ≠ b.n)) :
    basisOp (Real.pi / 2) ops * basisOp (-(Real.pi / 2)) ops = 1 := by
  induction ops with
  | nil => exact one_mul _
  | cons o l ih =>
    obtain ⟨h1, h2⟩ := List.pairwise_cons.1 hn
    have hc := basisOp_comm (-(Real.pi / 2)) (basisM (Real.pi / 2) o.p) o.n l h1
    simp only [basisOp]
    rw [mul_assoc, ← mul_assoc (matAt _ _), hc.eq, mul_assoc, matAt_mul, basis_inv, matAt_one, mul_one, ih h2]

theorem basisOp_zWord (ops : List POp) (hn : ops.Pairwise (fun a b => a.n ≠ b.n)) :
    basisOp (Real.pi / 2) ops * zWord ops * basisOp (-(Real.pi / 2)) ops = ((-1 : ℂ) ^ yCount ops) • wordOp ops := by
  induction ops with
  | nil => simp [basisOp, zWord, yCount, wordOp]
  | cons o l ih =>
    obtain ⟨h1, h2⟩ := List.pairwise_cons.1 hn
    have c1 := basisOp_comm (-(Real.pi / 2)) (basisM (-(Real.pi / 2)) o.p) o.n l h1
    have c2 : Commute (matAt (basisM (-(Real.pi / 2)) o.p) o.n) (zWord l) :=
      zWord_comm _ _ (fun x hx => matAt_comm (h1 x hx) _ _)
    have c3 := basisOp_comm (Real.pi / 2) (letterM o.p) o.n l h1
    have e : matAt (basisM (Real.pi / 2) o.p) o.n * matAt mZ o.n * matAt (basisM (-(Real.pi / 2)) o.p) o.n =
        (if o.p = .Y then (-1 : ℂ) else 1) • opOp o := by
      rw [matAt_mul, matAt_mul, basis_conj, matAt_smul]; rfl
    have hcount : ((-1 : ℂ) ^ yCount (o :: l)) = (if o.p = .Y then (-1 : ℂ) else 1) * (-1) ^ yCount l := by
      by_cases hy : o.p = .Y <;> simp [yCount, hy, pow_succ]
    calc basisOp (Real.pi / 2) (o :: l) * zWord (o :: l) * basisOp (-(Real.pi / 2)) (o :: l)
        = basisOp (Real.pi / 2) l * (matAt (basisM (Real.pi / 2) o.p) o.n * matAt mZ o.n *
            (zWord l * (basisOp (-(Real.pi / 2)) l * matAt (basisM (-(Real.pi / 2)) o.p) o.n))) := by
          simp only [basisOp, zWord_cons, mul_assoc]
      _ = basisOp (Real.pi / 2) l * (matAt (basisM (Real.pi / 2) o.p) o.n * matAt mZ o.n *
            matAt (basisM (-(Real.pi / 2)) o.p) o.n * (zWord l * basisOp (-(Real.pi / 2)) l)) := by
          rw [← c1.eq, ← mul_assoc (zWord l), ← c2.eq]; simp only [mul_assoc]
      _ = (if o.p = .Y then (-1 : ℂ) else 1) • (basisOp (Real.pi / 2) l * opOp o * (zWord l * basisOp (-(Real.pi / 2)) l)) := by
          rw [e]; simp only [smul_mul_assoc, mul_smul_comm, mul_assoc]
      _ = (if o.p = .Y then (-1 : ℂ) else 1) • (opOp o * (basisOp (Real.pi / 2) l * zWord l * basisOp (-(Real.pi / 2)) l)) := by
          rw [opOp, ← c3.eq]; simp only [mul_assoc]
      _ = _ := by
          rw [ih h2, mul_smul_comm, smul_smul, hcount]
          simp only [wordOp, List.map_cons, List.prod_cons]

/-! ## The middle part -/

theorem middle_op {n : ℕ} (θ : ℝ) : ∀ (ops : List POp) (last : POp), ops.Pairwise (fun a b => a.n ≠ b.n) →
    (∀ o ∈ ops, o.n < n) → ops.getLast? = some last →
    ActsAs n (ladderUp ops ++ [on1 (.rz (-2 * θ)) last.n] ++ ladderDown ops) (expI θ (zWord ops))
  | [], last, _, _, hl => by simp at hl
  | [a], last, hn, hb, hl => by
    simp at hl; subst hl
    have h1 := actsAs_on1 (.rz (-2 * θ)) (hb a (by simp))
    simp only [matrix1, rz_exp] at h1
    simpa [ladderUp_one, ladderDown_eq, zWord] using h1
  | a :: b :: l, last, hn, hb, hl => by
    obtain ⟨h1, h2⟩ := List.pairwise_cons.1 hn
    obtain ⟨h3, h4⟩ := List.pairwise_cons.1 h2
    have hab := h1 b (by simp)
    have ih := middle_op θ (b :: l) last h2 (fun o ho => hb o (by simp at ho ⊢; tauto)) (by simpa using hl)
    have hcx := actsAs_cx (hb a (by simp)) (hb b (by simp)) hab
    have h5 := actsAs_append (actsAs_append hcx ih) hcx
    have e : cxOp a.n b.n * (expI θ (zWord (b :: l)) * cxOp a.n b.n) = expI θ (zWord (a :: b :: l)) := by
      have hc : Commute (cxOp a.n b.n) (zWord l) :=
        zWord_comm _ _ (fun o ho => cxOp_comm (Ne.symm (h1 o (by simp [ho]))) (Ne.symm (h3 o ho)) _)
      have hz : cxOp a.n b.n * (zWord (b :: l) * cxOp a.n b.n) = zWord (a :: b :: l) := by
        rw [zWord_cons, zWord_cons, zWord_cons, mul_assoc (matAt mZ b.n), ← hc.eq, ← mul_assoc, ← mul_assoc, cxOp_Z hab,
          mul_assoc]
      simp only [expI, add_mul, mul_add, smul_mul_assoc, mul_smul_comm, one_mul, cxOp_sq hab, hz]
    rw [e] at h5
    simpa [ladderUp_cons, ladderDown_cons] using h5

theorem evolution_op {n : ℕ} (ops : List POp) (c t : ℝ) (hn : ops.Pairwise (fun a b => a.n ≠ b.n))
    (hb : ∀ o ∈ ops, o.n < n) (h0 : ops ≠ []) :
    ActsAs n (evolutionGates ops c t) (expI (c * t) (((-1 : ℂ) ^ yCount ops) • wordOp ops)) := by
  obtain ⟨last, hl⟩ : ∃ last, ops.getLast? = some last := by
    cases h : ops.getLast? with
    | none => simp at h; exact absurd h h0
    | some x => exact ⟨x, rfl⟩
  have h1 := actsAs_append (actsAs_append (actsAs_basis (-(Real.pi / 2)) ops hb) (middle_op (c * t) ops last hn hb hl))
    (actsAs_basis (Real.pi / 2) ops hb)
  have e : basisOp (Real.pi / 2) ops * (expI (c * t) (zWord ops) * basisOp (-(Real.pi / 2)) ops) =
      expI (c * t) (((-1 : ℂ) ^ yCount ops) • wordOp ops) := by
    rw [← basisOp_zWord ops hn]
    simp only [expI, add_mul, mul_add, smul_mul_assoc, mul_smul_comm, one_mul, basisOp_inv ops hn, mul_assoc]
  rw [e] at h1
  simpa [evolutionGates, hl, mul_assoc] using h1

/-! ## The number of qubits -/

theorem lit_basis (θ : ℝ) (ops : List POp) : ∃ gs : List (Gate × List ℕ), gs.map Prod.fst = basisGates θ ops ∧
    (∀ p ∈ gs, Lit p.1 p.2 ∧ ∀ q ∈ p.2, q ∈ ops.map POp.n) := by
  induction ops with
  | nil => exact ⟨[], rfl, by simp⟩
  | cons o ops ih =>
    obtain ⟨gs, h1, h2⟩ := ih
    obtain ⟨p, q⟩ := o
    have h3 : ∀ p' ∈ gs, Lit p'.1 p'.2 ∧ ∀ x ∈ p'.2, x ∈ ((⟨p, q⟩ : POp) :: ops).map POp.n :=
      fun x hx => ⟨(h2 x hx).1, fun y hy => List.mem_cons_of_mem _ ((h2 x hx).2 y hy)⟩
    cases p with
    | X =>
      refine ⟨(on1 .h q, [q]) :: gs, by simp [basisGates, h1], ?_⟩
      intro x hx
      rcases List.mem_cons.1 hx with rfl | hx
      · exact ⟨.one _ _, by simp⟩
      · exact h3 x hx
    | Y =>
      refine ⟨(on1 (.rx θ) q, [q]) :: gs, by simp [basisGates, h1], ?_⟩
      intro x hx
      rcases List.mem_cons.1 hx with rfl | hx
      · exact ⟨.one _ _, by simp⟩
      · exact h3 x hx
    | Z => exact ⟨gs, by simp [basisGates, h1], h3⟩

theorem lit_ladder : ∀ (ops : List POp), ∃ gs : List (Gate × List ℕ), gs.map Prod.fst = ladderUp ops ∧
    (∀ p ∈ gs, Lit p.1 p.2 ∧ ∀ q ∈ p.2, q ∈ ops.map POp.n) ∧
    (∀ o ∈ ops.dropLast, ∃ p ∈ gs, o.n ∈ p.2)
  | [] => ⟨[], rfl, by simp, by simp⟩
  | [a] => ⟨[], rfl, by simp, by simp⟩
  | a :: b :: l => by
    obtain ⟨gs, h1, h2, h4⟩ := lit_ladder (b :: l)
    refine ⟨(on2 .cx a.n b.n, [a.n, b.n]) :: gs, by simp [ladderUp_cons, h1], ?_, ?_⟩
    · intro x hx
      rcases List.mem_cons.1 hx with rfl | hx
      · exact ⟨.two _ _ _, by simp⟩
      · exact ⟨(h2 x hx).1, fun y hy => List.mem_cons_of_mem _ ((h2 x hx).2 y hy)⟩
    · intro o ho
      simp only [List.dropLast_cons₂, List.mem_cons] at ho
      rcases ho with rfl | ho
      · exact ⟨_, List.mem_cons_self, by simp⟩
      · obtain ⟨p, hp, hq⟩ := h4 o ho
        exact ⟨p, List.mem_cons_of_mem _ hp, hq⟩

theorem lit_evolution (ops : List POp) (c t : ℝ) : ∃ gs : List (Gate × List ℕ),
    gs.map Prod.fst = evolutionGates ops c t ∧ (∀ p ∈ gs, Lit p.1 p.2 ∧ ∀ q ∈ p.2, q ∈ ops.map POp.n) ∧
    (∀ o ∈ ops, ∃ p ∈ gs, o.n ∈ p.2) := by
  cases hl : ops.getLast? with
  | none =>
    have : ops = [] := by simpa using hl
    subst this
    exact ⟨[], by simp [evolutionGates], by simp, by simp⟩
  | some last =>
    obtain ⟨g1, a1, b1⟩ := lit_basis (-(Real.pi / 2)) ops
    obtain ⟨g2, a2, b2, c2⟩ := lit_ladder ops
    obtain ⟨g3, a3, b3⟩ := lit_basis (Real.pi / 2) ops
    have hm : last ∈ ops := List.mem_of_getLast? hl
    refine ⟨g1 ++ g2 ++ [(on1 (.rz (-2 * c * t)) last.n, [last.n])] ++ g2.reverse ++ g3, ?_, ?_, ?_⟩
    · simp [evolutionGates, hl, a1, a2, a3, ladderDown_eq]
    · intro p hp
      simp only [List.mem_append, List.mem_singleton, List.mem_reverse] at hp
      rcases hp with (((h | h) | h) | h) | h
      · exact b1 p h
      · exact b2 p h
      · subst h
        exact ⟨.one _ _, by simpa using ⟨last, hm, rfl⟩⟩
      · exact b2 p h
      · exact b3 p h
    · intro o ho
      have : ops = ops.dropLast ++ [last] := by
        have h0 : ops ≠ [] := List.ne_nil_of_mem ho
        rw [List.getLast?_eq_some_getLast h0] at hl
        have h1 : ops.getLast h0 = last := by simpa using hl
        rw [← h1, List.dropLast_append_getLast]
      rw [this] at ho
      rcases List.mem_append.1 ho with h | h
      · obtain ⟨p, hp, hq⟩ := c2 o h
        exact ⟨p, by simp [hp], hq⟩
      · simp at h; subst h
        exact ⟨_, by simp; right; right; left; rfl, by simp⟩

/-- Literal gates only on the given qubits, each of which is used. -/
theorem maxSucc_eq (l m : List ℕ) (h1 : ∀ q ∈ l, q ∈ m) (h2 : ∀ q ∈ m, q ∈ l) :
    l.foldr (fun q r => max (q + 1) r) 0 = m.foldr (fun q r => max (q + 1) r) 0 := by
  have le : ∀ (l : List ℕ) (b : ℕ), l.foldr (fun q r => max (q + 1) r) 0 ≤ b ↔ ∀ q ∈ l, q + 1 ≤ b := by
    intro l b
    induction l with
    | nil => simp
    | cons a l ih => simp [ih]
  refine le_antisymm ?_ ?_
  · rw [le]; intro q hq; exact (le m _).1 (le_refl _) q (h1 q hq)
  · rw [le]; intro q hq; exact (le l _).1 (le_refl _) q (h2 q hq)

theorem lt_maxSucc {q : ℕ} {l : List ℕ} (h : q ∈ l) : q < l.foldr (fun q r => max (q + 1) r) 0 := by
  induction l with
  | nil => simp at h
  | cons a l ih =>
    rcases List.mem_cons.1 h with rfl | h
    · simp only [List.foldr_cons]; omega
    · have := ih h
      simp only [List.foldr_cons]; omega

end

end Blueqat
