import Verif.Spec.Rounding
import Verif.NumpyRefine

/-! Lemmas: what the rounded loop bodies compute, amplitude by amplitude. -/

set_option linter.unusedSimpArgs false
set_option linter.unusedVariables false

namespace Blueqat

open Spec

noncomputable section

variable (F : FloatOps)

/-- Two functions of the amplitude pair of qubit `t`, one for each of the new amplitudes. -/
def appF (f0 f1 : ℂ → ℂ → ℂ) (t : ℕ) (ψ : Vec) : Vec := fun i =>
  if i.testBit t then f1 (ψ (flipBit t i)) (ψ i) else f0 (ψ i) (ψ (flipBit t i))

theorem flMulAt_vec (n : ℕ) (ψ : Vec) (p : ℕ → Bool) (z : ℂ) :
    flMulAt F (vec n ψ) (maskOf n p) z = vec n (fun i => if p i then F.mul (ψ i) z else ψ i) := by
  simp only [flMulAt, vec, maskOf, List.zipWith_map, List.zipWith_self]

theorem flAddA_map (l : List ℕ) (ψ χ : Vec) :
    flAddA F (l.map ψ) (l.map χ) = .ok (l.map fun i => F.add (ψ i) (χ i)) := by
  simp [flAddA, broadcast2, List.zipWith_map, List.zipWith_self]

theorem flSubA_map (l : List ℕ) (ψ χ : Vec) :
    flSubA F (l.map ψ) (l.map χ) = .ok (l.map fun i => F.sub (ψ i) (χ i)) := by
  simp [flSubA, broadcast2, List.zipWith_map, List.zipWith_self]

theorem flSmulA_map (z : ℂ) (l : List ℕ) (ψ : Vec) : flSmulA F z (l.map ψ) = l.map fun i => F.mul z (ψ i) := by
  simp [flSmulA, Function.comp_def]

theorem flMulS_map (z : ℂ) (l : List ℕ) (ψ : Vec) : flMulS F (l.map ψ) z = l.map fun i => F.mul (ψ i) z := by
  simp [flMulS, Function.comp_def]

theorem flMulS_vec (n : ℕ) (z : ℂ) (ψ : Vec) : flMulS F (vec n ψ) z = vec n fun i => F.mul (ψ i) z :=
  flMulS_map F z _ ψ

theorem flDivS_vec (n : ℕ) (x : ℝ) (ψ : Vec) : flDivS F (vec n ψ) x = vec n fun i => F.div (ψ i) x := by
  simp [flDivS, vec, Function.comp_def]

theorem flBodyY_vec {n t : ℕ} (ht : t < n) (ψ : Vec) (b : Arr) (hb : b.length = 2 ^ n) :
    flBodyY F n t (vec n ψ, b) =
      .ok (vec n (appF (fun _ y => F.mul (-Complex.I) y) (fun x _ => F.mul Complex.I x) t ψ), vec n ψ) := by
  obtain ⟨β, rfl⟩ := buf_vec hb
  simp only [flBodyY, shl1_nat, ok_bind, maskEq_eq, maskNe_eq]
  rw [sel_t1 ht, sel_t0 ht, flSmulA_map, flSmulA_map, asg_vec, ok_bind, asg_vec, ok_bind, pure_ok]
  congr 2
  apply vec_congr; intro i hi
  by_cases h : i.testBit t <;> simp [h, appF]

theorem flBodyRot_vec {n t : ℕ} (a00 a01 a10 a11 : ℂ) (ht : t < n) (ψ : Vec) (b : Arr) (hb : b.length = 2 ^ n) :
    flBodyRot F a00 a01 a10 a11 n t (vec n ψ, b) =
      .ok (vec n (appF (fun x y => F.add (F.mul a00 x) (F.mul a01 y)) (fun x y => F.add (F.mul a10 x) (F.mul a11 y)) t ψ),
        vec n ψ) := by
  obtain ⟨β, rfl⟩ := buf_vec hb
  simp only [flBodyRot, shl1_nat, ok_bind, maskEq_eq, maskNe_eq]
  have e0 : flAddA F (flSmulA F a00 (sel (vec n ψ) (maskOf n fun i => !i.testBit t)))
      (flSmulA F a01 (sel (vec n ψ) (maskOf n fun i => i.testBit t))) =
      .ok (((List.range (2 ^ n)).filter (fun i => !i.testBit t)).map
        fun i => F.add (F.mul a00 (ψ i)) (F.mul a01 (ψ (flipBit t i)))) := by
    rw [sel_vec, sel_t1 ht, flSmulA_map, flSmulA_map, flAddA_map]
  have e1 : flAddA F (flSmulA F a10 (sel (vec n ψ) (maskOf n fun i => !i.testBit t)))
      (flSmulA F a11 (sel (vec n ψ) (maskOf n fun i => i.testBit t))) =
      .ok (((List.range (2 ^ n)).filter (fun i => i.testBit t)).map
        fun i => F.add (F.mul a10 (ψ (flipBit t i))) (F.mul a11 (ψ i))) := by
    rw [sel_t0 ht, sel_vec, flSmulA_map, flSmulA_map, flAddA_map]
  rw [e0, ok_bind, asg_vec, ok_bind, e1, ok_bind, asg_vec, ok_bind, pure_ok]
  congr 2
  apply vec_congr; intro i hi
  by_cases h : i.testBit t <;> simp [h, appF]

theorem flBodyH_vec {n t : ℕ} (ht : t < n) (ψ : Vec) (b : Arr) (hb : b.length = 2 ^ n) :
    flBodyH F n t (vec n ψ, b) =
      .ok (vec n (appF (fun x y => F.mul (F.add x y) F.sqrt2Inv) (fun x y => F.mul (F.sub x y) F.sqrt2Inv) t ψ),
        vec n ψ) := by
  obtain ⟨β, rfl⟩ := buf_vec hb
  simp only [flBodyH, shl1_nat, ok_bind, maskEq_eq, maskNe_eq]
  have e0 : flAddA F (sel (vec n ψ) (maskOf n fun i => !i.testBit t))
      (sel (vec n ψ) (maskOf n fun i => i.testBit t)) =
      .ok (((List.range (2 ^ n)).filter (fun i => !i.testBit t)).map fun i => F.add (ψ i) (ψ (flipBit t i))) := by
    rw [sel_vec, sel_t1 ht, flAddA_map]
  have e1 : flSubA F (sel (vec n ψ) (maskOf n fun i => !i.testBit t))
      (sel (vec n ψ) (maskOf n fun i => i.testBit t)) =
      .ok (((List.range (2 ^ n)).filter (fun i => i.testBit t)).map fun i => F.sub (ψ (flipBit t i)) (ψ i)) := by
    rw [sel_t0 ht, sel_vec, flSubA_map]
  rw [e0, ok_bind, asg_vec, ok_bind, e1, ok_bind, asg_vec, ok_bind, flMulS_vec, pure_ok]
  congr 2
  apply vec_congr; intro i hi
  by_cases h : i.testBit t <;> simp [h, appF]

theorem flBodyU3_vec {n t : ℕ} (a00 a01 a10 a11 : ℂ) (ht : t < n) (ψ : Vec) (b : Arr) :
    flBodyU3 F a00 a01 a10 a11 n t (vec n ψ, b) =
      .ok (vec n (appF (fun x y => F.sub (F.mul x a00) (F.mul y a01)) (fun x y => F.add (F.mul x a10) (F.mul y a11)) t ψ),
        vec n ψ) := by
  simp only [flBodyU3, shl1_nat, ok_bind, maskEq_eq, maskNe_eq]
  rw [sel_vec, flMulS_map, asg_vec, ok_bind, sel_vec, sel_t1 ht, flMulS_map, flSubA_map, ok_bind, asg_vec, ok_bind]
  have e1 : flMulS F (((List.range (2 ^ n)).filter fun i => !i.testBit t).map ψ) a10 =
      ((List.range (2 ^ n)).filter fun i => i.testBit t).map fun i => F.mul (ψ (flipBit t i)) a10 := by
    rw [← sel_vec, sel_t0 ht, flMulS_map]
  have e2 : flMulS F (((List.range (2 ^ n)).filter fun i => !i.testBit t).map fun i => ψ (flipBit t i)) a11 =
      ((List.range (2 ^ n)).filter fun i => i.testBit t).map fun i => F.mul (ψ i) a11 := by
    rw [← sel_t1 ht, sel_vec, flMulS_map]
  rw [e1, e2, asg_vec, ok_bind, sel_vec, flAddA_map, ok_bind, asg_vec, ok_bind, pure_ok]
  congr 2
  apply vec_congr; intro i hi
  by_cases h : i.testBit t <;> simp [h, appF]

theorem flBodyPhase_vec {n t : ℕ} (z : ℂ) (ψ : Vec) :
    flBodyPhase F z n t (vec n ψ) = .ok (vec n (appF (fun x _ => x) (fun _ y => F.mul y z) t ψ)) := by
  simp only [flBodyPhase, shl1_nat, ok_bind, maskNe_eq, flMulAt_vec, pure_ok]
  rfl

theorem flBodyRZ_vec {n t : ℕ} (z w : ℂ) (ψ : Vec) :
    flBodyRZ F z w n t (vec n ψ) = .ok (vec n (appF (fun x _ => F.mul x z) (fun _ y => F.mul y w) t ψ)) := by
  simp only [flBodyRZ, shl1_nat, ok_bind, maskNe_eq, maskEq_eq, flMulAt_vec, pure_ok]
  congr 1
  apply vec_congr; intro i hi
  by_cases h : i.testBit t <;> simp [h, appF]

theorem flBodyCPhase_vec {n c t : ℕ} (z : ℂ) (ψ : Vec) :
    flBodyCPhase F z n c t (vec n ψ) = .ok (vec n (ctrl c (appF (fun x _ => x) (fun _ y => F.mul y z) t) ψ)) := by
  simp only [flBodyCPhase, shl1_nat, ok_bind, maskNe_eq, maskAnd_eq, flMulAt_vec, pure_ok]
  congr 1
  apply vec_congr; intro i hi
  by_cases hc : i.testBit c <;> by_cases h : i.testBit t <;> simp [h, hc, appF, ctrl]

theorem flBodyCRZ_vec {n c t : ℕ} (z w : ℂ) (ψ : Vec) :
    flBodyCRZ F z w n c t (vec n ψ) =
      .ok (vec n (ctrl c (appF (fun x _ => F.mul x z) (fun _ y => F.mul y w) t) ψ)) := by
  simp only [flBodyCRZ, shl1_nat, ok_bind, maskNe_eq, maskEq_eq, maskAnd_eq, flMulAt_vec, pure_ok]
  congr 1
  apply vec_congr; intro i hi
  by_cases hc : i.testBit c <;> by_cases h : i.testBit t <;> simp [h, hc, appF, ctrl]

theorem flBodyCRot_vec {n c t : ℕ} (a00 a01 a10 a11 : ℂ) (hct : c ≠ t) (ht : t < n) (ψ : Vec) (b : Arr) :
    flBodyCRot F a00 a01 a10 a11 n c t (vec n ψ, b) =
      .ok (vec n (ctrl c (appF (fun x y => F.add (F.mul a00 x) (F.mul a01 y))
        (fun x y => F.add (F.mul a10 x) (F.mul a11 y)) t) ψ), vec n ψ) := by
  have hc : ∀ i, (flipBit t i).testBit c = i.testBit c := testBit_flipBit_ne hct.symm
  simp only [flBodyCRot, shl1_nat, ok_bind, maskEq_eq, maskNe_eq, maskAnd_eq]
  have c0 : (fun i : ℕ => !i.testBit t && i.testBit c) = fun i => i.testBit c && !i.testBit t := by
    funext i; exact Bool.and_comm _ _
  have c1 : (fun i : ℕ => i.testBit t && i.testBit c) = fun i => i.testBit c && i.testBit t := by
    funext i; exact Bool.and_comm _ _
  rw [c0, c1]
  have e0 : flAddA F (flSmulA F a00 (sel (vec n ψ) (maskOf n fun i => i.testBit c && !i.testBit t)))
      (flSmulA F a01 (sel (vec n ψ) (maskOf n fun i => i.testBit c && i.testBit t))) =
      .ok (((List.range (2 ^ n)).filter (fun i => i.testBit c && !i.testBit t)).map
        fun i => F.add (F.mul a00 (ψ i)) (F.mul a01 (ψ (flipBit t i)))) := by
    rw [sel_vec, sel_one_flip n t ht (fun i => i.testBit c) hc, flSmulA_map, flSmulA_map, flAddA_map]
  have e1 : flAddA F (flSmulA F a10 (sel (vec n ψ) (maskOf n fun i => i.testBit c && !i.testBit t)))
      (flSmulA F a11 (sel (vec n ψ) (maskOf n fun i => i.testBit c && i.testBit t))) =
      .ok (((List.range (2 ^ n)).filter (fun i => i.testBit c && i.testBit t)).map
        fun i => F.add (F.mul a10 (ψ (flipBit t i))) (F.mul a11 (ψ i))) := by
    rw [sel_zero_flip n t ht (fun i => i.testBit c) hc, sel_vec, flSmulA_map, flSmulA_map, flAddA_map]
  rw [e0, ok_bind, asg_vec, ok_bind, e1, ok_bind, asg_vec, ok_bind, pure_ok]
  congr 2
  apply vec_congr; intro i hi
  by_cases hc : i.testBit c <;> by_cases h : i.testBit t <;> simp [h, hc, appF, ctrl]

theorem flGateCCZ_vec {n a b c : ℕ} (ψ : Vec) (ctx : NpCtx) (hq : ctx.qubits = vec n ψ) :
    flGateCCZ F n (.tup [.atom (.int a), .atom (.int b), .atom (.int c)]) ctx =
      .ok { ctx with qubits := vec n (ctrl a (ctrl b (appF (fun x _ => x) (fun _ y => F.mul y (-1)) c)) ψ) } := by
  simp only [flGateCCZ, unpack3, ok_bind, shl1Item, shl1_nat, maskNe_eq, maskAnd_eq, hq, flMulAt_vec, pure_ok]
  congr 2
  apply vec_congr; intro i hi
  simp only [ctrl, appF]
  by_cases h1 : i.testBit a <;> by_cases h2 : i.testBit b <;> by_cases h3 : i.testBit c <;>
    simp [h1, h2, h3]

/-! ## Exact arithmetic -/

theorem flAction_exact (n : ℕ) : flAction .exact n = npAction n := by
  have hY : flBodyY .exact = bodyY := by
    funext n t s
    simp only [flBodyY, bodyY, neg_mul, one_mul, show flSmulA .exact = smulA from rfl]
  funext g
  rcases g with ⟨k, T⟩ | ⟨k, T⟩ | ⟨k, T⟩ | T | T <;> try cases k
  all_goals
    first
    | rfl
    | (simp only [flAction, npAction, flGateY, npGateY, hY]; done)
    | (simp only [flAction, npAction, npGateRX, npGateCRX, neg_mul, one_mul]
       simp only [← neg_mul]
       rfl)

end

end Blueqat
