import Verif.FallbackOps
import Verif.TargetsLemmas

/-!
# Fallback gate lists denote the same operator
-/

set_option linter.unusedSimpArgs false
set_option linter.unusedVariables false

namespace Spec

open Complex
open Blueqat

noncomputable section

/-! ## Denotation of gate lists -/

theorem gatesDenote_append {n : ℕ} {gs hs : List Gate} {es fs : List Elem}
    (h1 : GatesDenote n gs es) (h2 : GatesDenote n hs fs) : GatesDenote n (gs ++ hs) (es ++ fs) := by
  induction gs generalizing es with
  | nil => simp only [GatesDenote] at h1; subst h1; simpa using h2
  | cons g gs ih =>
    obtain ⟨e₁, e₂, hg, hgs, rfl⟩ := h1
    exact ⟨e₁, e₂ ++ fs, hg, ih hgs, by simp⟩

theorem gatesDenote_append_iff {n : ℕ} {gs hs : List Gate} {es : List Elem} :
    GatesDenote n (gs ++ hs) es ↔ ∃ e₁ e₂, GatesDenote n gs e₁ ∧ GatesDenote n hs e₂ ∧ es = e₁ ++ e₂ := by
  constructor
  · induction gs generalizing es with
    | nil => intro h; exact ⟨[], es, rfl, h, rfl⟩
    | cons g gs ih =>
      rintro ⟨e₁, e₂, hg, hgs, rfl⟩
      obtain ⟨f₁, f₂, h1, h2, rfl⟩ := ih hgs
      exact ⟨e₁ ++ f₁, f₂, ⟨e₁, f₁, hg, h1, rfl⟩, h2, by simp⟩
  · rintro ⟨e₁, e₂, h1, h2, rfl⟩; exact gatesDenote_append h1 h2

theorem unitaries_append (ph : ℝ → ℂ) (es fs : List Elem) (ψ : Vec) :
    unitaries ph (es ++ fs) ψ = unitaries ph fs (unitaries ph es ψ) := by
  simp [unitaries, List.foldl_append]

theorem steps_append (ph : ℝ → ℂ) (n : ℕ) (es fs : List Elem) (s : MState) :
    steps ph n (es ++ fs) s = steps ph n fs (steps ph n es s) := by
  simp [steps, List.foldl_append]

theorem steps_unitary (ph : ℝ → ℂ) (n : ℕ) (es : List Elem) (h : ∀ e ∈ es, e.IsUnitary) (s : MState) :
    steps ph n es s = { s with psi := unitaries ph es s.psi } := by
  induction es generalizing s with
  | nil => rfl
  | cons e es ih =>
    have he : e.step ph n s = { s with psi := e.unitary ph s.psi } := by
      have := h e (by simp)
      cases e <;> simp_all [Elem.step, Elem.IsUnitary]
    simp only [steps, unitaries, List.foldl_cons] at *
    rw [he, ih (fun e he => h e (by simp [he]))]

theorem pyIndex_natCast (n : ℤ) (q : ℕ) : pyIndex n (q : ℤ) = q := by
  simp [pyIndex]

theorem gateDenotes_on1 (n : ℕ) (k : G1) (t : ℕ) : GateDenotes n (on1 k t) [.one k t] :=
  ⟨[t], by simp [Targets.ofInt, TargetsDenote, AtomDenotes, pyIndex_natCast], rfl⟩

theorem gateDenotes_on2 (n : ℕ) (k : G2) (c t : ℕ) (h : c ≠ t) : GateDenotes n (on2 k c t) [.two k c t] := by
  refine ⟨[(c, t)], ?_, rfl⟩
  refine ⟨.atom (.int c), .atom (.int t), [(c : ℤ)], [(t : ℤ)], rfl, ?_, ?_, rfl, rfl, ?_⟩
  · simp [ItemDenotes, AtomDenotes, pyIndex_natCast]
  · simp [ItemDenotes, AtomDenotes, pyIndex_natCast]
  · simpa using h

theorem gatesDenote_cons {n : ℕ} {g : Gate} {gs : List Gate} {e es : List Elem}
    (h1 : GateDenotes n g e) (h2 : GatesDenote n gs es) : GatesDenote n (g :: gs) (e ++ es) :=
  ⟨e, es, h1, h2, rfl⟩

/-! ## Linearity -/

theorem ctrl_lin (c : ℕ) (U : Vec → Vec)
    (hU : ∀ z w ψ χ, U (fun i => z * ψ i + w * χ i) = fun i => z * U ψ i + w * U χ i) (z w : ℂ) (ψ χ : Vec) :
    ctrl c U (fun i => z * ψ i + w * χ i) = fun i => z * ctrl c U ψ i + w * ctrl c U χ i := by
  funext i; simp only [ctrl]
  by_cases h : i.testBit c <;> simp [h, hU]

theorem elem_lin (ph : ℝ → ℂ) (e : Elem) (z w : ℂ) (ψ χ : Vec) :
    e.unitary ph (fun i => z * ψ i + w * χ i) = fun i => z * e.unitary ph ψ i + w * e.unitary ph χ i := by
  have hs : ∀ a b z w ψ χ, swapOp a b (fun i => z * ψ i + w * χ i) =
      fun i => z * swapOp a b ψ i + w * swapOp a b χ i := fun _ _ _ _ _ _ => rfl
  have hE : ∀ P θ a b, expPP P θ a b (fun i => z * ψ i + w * χ i) =
      fun i => z * expPP P θ a b ψ i + w * expPP P θ a b χ i := by
    intro P θ a b
    funext i; simp only [expPP, app_lin]; ring
  cases e with
  | one k t => exact app_lin _ _ _ _ _ _
  | two k c t =>
    have hc : ∀ M, ctrl c (app M t) (fun i => z * ψ i + w * χ i) =
        fun i => z * ctrl c (app M t) ψ i + w * ctrl c (app M t) χ i :=
      fun M => ctrl_lin c _ (app_lin M t) z w ψ χ
    cases k <;> simp only [Elem.unitary, op2, hc, hE, hs]
    funext i; ring
  | three k a b c =>
    cases k
    · exact ctrl_lin a _ (ctrl_lin b _ (app_lin _ _)) z w ψ χ
    · exact ctrl_lin a _ (ctrl_lin b _ (app_lin _ _)) z w ψ χ
    · exact ctrl_lin a _ (hs b c) z w ψ χ
  | meas => rfl
  | reset => rfl

theorem elem_smul (ph : ℝ → ℂ) (e : Elem) (z : ℂ) (ψ : Vec) :
    e.unitary ph (fun i => z * ψ i) = fun i => z * e.unitary ph ψ i := by
  have := elem_lin ph e z 0 ψ ψ; simpa using this

theorem unitaries_smul (ph : ℝ → ℂ) (es : List Elem) (z : ℂ) (ψ : Vec) :
    unitaries ph es (fun i => z * ψ i) = fun i => z * unitaries ph es ψ i := by
  induction es generalizing ψ with
  | nil => rfl
  | cons e es ih =>
    simp only [unitaries, List.foldl_cons] at *
    rw [elem_smul, ih]

theorem unitaries_lin (ph : ℝ → ℂ) (es : List Elem) (z w : ℂ) (ψ χ : Vec) :
    unitaries ph es (fun i => z * ψ i + w * χ i) =
      fun i => z * unitaries ph es ψ i + w * unitaries ph es χ i := by
  induction es generalizing ψ χ with
  | nil => rfl
  | cons e es ih =>
    simp only [unitaries, List.foldl_cons] at *
    rw [elem_lin, ih]

/-! ## One gate of a fallback list at a time -/

/-- `gs` denotes valid unitary operations that together act as `U`. -/
def Implements (n : ℕ) (gs : List Gate) (ph : ℝ → ℂ) (U : Vec → Vec) : Prop :=
  ∃ es, GatesDenote n gs es ∧ (∀ e ∈ es, e.Valid n ∧ e.IsUnitary) ∧ ∀ ψ, unitaries ph es ψ = U ψ

theorem implements_append {n : ℕ} {gs hs : List Gate} {ph : ℝ → ℂ} {U V : Vec → Vec}
    (h1 : Implements n gs ph U) (h2 : Implements n hs ph V) :
    Implements n (gs ++ hs) ph (fun ψ => V (U ψ)) := by
  obtain ⟨e, he, hv, hu⟩ := h1
  obtain ⟨f, hf, hw, hq⟩ := h2
  refine ⟨e ++ f, gatesDenote_append he hf, ?_, ?_⟩
  · intro x hx
    rcases List.mem_append.1 hx with h | h
    · exact hv x h
    · exact hw x h
  · intro ψ; rw [unitaries_append, hu, hq]

theorem implements_nil (n : ℕ) (ph : ℝ → ℂ) : Implements n [] ph id := ⟨[], rfl, by simp, fun _ => rfl⟩

theorem implements_on1 {n t : ℕ} (ph : ℝ → ℂ) (k : G1) (ht : t < n) :
    Implements n [on1 k t] ph (app (matrix1 k) t) :=
  ⟨[.one k t], gatesDenote_cons (gateDenotes_on1 n k t) rfl, by simpa [Elem.Valid, Elem.IsUnitary] using ht,
    fun ψ => rfl⟩

theorem implements_on2 {n c t : ℕ} (ph : ℝ → ℂ) (k : G2) (hc : c < n) (ht : t < n) (h : c ≠ t) :
    Implements n [on2 k c t] ph (op2 ph k c t) :=
  ⟨[.two k c t], gatesDenote_cons (gateDenotes_on2 n k c t h) rfl,
    by simp [Elem.Valid, Elem.IsUnitary, hc, ht, h], fun ψ => rfl⟩

theorem implements_cons {n : ℕ} {g : Gate} {hs : List Gate} {ph : ℝ → ℂ} {U V : Vec → Vec}
    (h1 : Implements n [g] ph U) (h2 : Implements n hs ph V) :
    Implements n (g :: hs) ph (fun ψ => V (U ψ)) := implements_append h1 h2

theorem implements_congr {n : ℕ} {gs : List Gate} {ph : ℝ → ℂ} {U V : Vec → Vec}
    (h1 : Implements n gs ph U) (h : ∀ ψ, U ψ = V ψ) : Implements n gs ph V := by
  obtain ⟨e, he, hv, hu⟩ := h1
  exact ⟨e, he, hv, fun ψ => (hu ψ).trans (h ψ)⟩

/-- Every one-qubit fallback except that of PhaseGate is exact. -/
theorem g1_fallbackOn {n t : ℕ} (ph : ℝ → ℂ) (k : G1) (f : ℤ → List Gate) (hf : k.fallbackOn = some f)
    (hk : ∀ θ, k ≠ .phase θ) (ht : t < n) : Implements n (f t) ph (app (matrix1 k) t) := by
  cases k <;> simp only [G1.fallbackOn, reduceCtorEq, Option.some.injEq] at hf <;> subst hf
  · exact implements_on1 ph (.phase (Real.pi / 4)) ht
  · refine implements_congr (implements_on1 ph _ ht) fun ψ => ?_
    simp only [matrix1, mTdg_eq]
  · refine implements_congr (implements_on1 ph _ ht) fun ψ => ?_
    simp only [matrix1, mS_eq]
  · refine implements_congr (implements_on1 ph _ ht) fun ψ => ?_
    simp only [matrix1, mSdg_eq]
  · exact absurd rfl (hk _)
  · refine implements_congr (implements_on1 ph _ ht) fun ψ => ?_
    simp only [matrix1, mU3_zero]
  · exact implements_on1 ph _ ht

/-- Every two-qubit fallback is exact when CU1 carries the simulator's global phase; the value of `ph` on
other gates does not matter. -/
theorem g2_fallbackOn {n c t : ℕ} (ph : ℝ → ℂ) (k : G2) (f : ℤ → ℤ → List Gate) (hf : k.fallbackOn = some f)
    (hk : ∀ lam, k = .cu1 lam → ph lam = cis (-(lam / 4))) (hc : c < n) (ht : t < n) (h : c ≠ t) :
    Implements n (f c t) ph (op2 ph k c t) := by
  have one : ∀ k, Implements n [on1 k (t : ℤ)] ph (app (matrix1 k) t) := fun k => implements_on1 ph k ht
  have onec : ∀ k, Implements n [on1 k (c : ℤ)] ph (app (matrix1 k) c) := fun k => implements_on1 ph k hc
  have two : ∀ k, Implements n [on2 k (c : ℤ) (t : ℤ)] ph (op2 ph k c t) :=
    fun k => implements_on2 ph k hc ht h
  have two' : ∀ k, Implements n [on2 k (t : ℤ) (c : ℤ)] ph (op2 ph k t c) :=
    fun k => implements_on2 ph k ht hc h.symm
  cases k <;> simp only [G2.fallbackOn, reduceCtorEq, Option.some.injEq] at hf <;> subst hf
  · exact implements_congr (implements_cons (one _) (implements_cons (two _) (one _)))
      fun ψ => fb_cy h ψ
  · exact implements_congr (implements_cons (one _) (implements_cons (two _) (one _)))
      fun ψ => fb_ch h ψ
  · exact implements_congr
      (implements_cons (one _) (implements_cons (two _) (implements_cons (one _) (two _))))
      fun ψ => fb_crx h _ ψ
  · exact implements_congr
      (implements_cons (one _) (implements_cons (two _) (implements_cons (one _) (two _))))
      fun ψ => fb_cry h _ ψ
  · exact implements_congr
      (implements_cons (one _) (implements_cons (two _) (implements_cons (one _) (two _))))
      fun ψ => fb_crz h _ ψ
  · exact implements_congr (implements_cons (two _) (onec _)) fun ψ => fb_cphase h _ ψ
  · exact implements_congr (implements_cons (onec _) (implements_cons (one _) (implements_cons (two _)
      (implements_cons (onec _) (one _))))) fun ψ => fb_rxx h _ ψ
  · exact implements_congr (implements_cons (onec _) (implements_cons (one _) (implements_cons (two _)
      (implements_cons (onec _) (one _))))) fun ψ => fb_ryy h _ ψ
  · exact implements_congr (implements_cons (two _) (implements_cons (one _) (two _)))
      fun ψ => fb_rzz h _ ψ
  · exact implements_congr (implements_cons (two _) (implements_cons (two' _) (two _)))
      fun ψ => fb_swap h ψ
  · rename_i lam
    refine implements_congr (implements_cons (onec _) (implements_cons (two _) (implements_cons (one _)
      (implements_cons (two _) (one _))))) fun ψ => ?_
    simp only [op2, hk lam rfl]
    exact fb_cu1 h lam ψ
  · exact implements_congr (two _) fun ψ => rfl
  · exact implements_congr (implements_cons (one _) (implements_cons (two _) (implements_cons (one _)
      (implements_cons (two _) (one _))))) fun ψ => fb_cu3 h _ _ _ ψ

theorem onItem_natCast (k : G1) (t : ℕ) : onItem k (.atom (.int t)) = on1 k t := rfl
theorem onItems_natCast (k : G2) (c t : ℕ) : onItems k (.atom (.int c)) (.atom (.int t)) = on2 k c t := rfl

theorem toffoli_fallback {n a b t : ℕ} (ph : ℝ → ℂ) (ha : a < n) (hb : b < n) (ht : t < n)
    (hab : a ≠ b) (hat : a ≠ t) (hbt : b ≠ t) :
    Implements n (toffoliFallback (.atom (.int a)) (.atom (.int b)) (.atom (.int t))) ph
      (op3 .ccx a b t) := by
  simp only [toffoliFallback, onItem_natCast, onItems_natCast]
  have one : ∀ k, Implements n [on1 k (t : ℤ)] ph (app (matrix1 k) t) := fun k => implements_on1 ph k ht
  have onea : ∀ k, Implements n [on1 k (a : ℤ)] ph (app (matrix1 k) a) := fun k => implements_on1 ph k ha
  have oneb : ∀ k, Implements n [on1 k (b : ℤ)] ph (app (matrix1 k) b) := fun k => implements_on1 ph k hb
  have twoa : ∀ k, Implements n [on2 k (a : ℤ) (t : ℤ)] ph (op2 ph k a t) :=
    fun k => implements_on2 ph k ha ht hat
  have twob : ∀ k, Implements n [on2 k (b : ℤ) (t : ℤ)] ph (op2 ph k b t) :=
    fun k => implements_on2 ph k hb ht hbt
  have twoab : ∀ k, Implements n [on2 k (a : ℤ) (b : ℤ)] ph (op2 ph k a b) :=
    fun k => implements_on2 ph k ha hb hab
  exact implements_congr (implements_cons (one _) (implements_cons (twob _) (implements_cons (one _)
    (implements_cons (twoa _) (implements_cons (one _) (implements_cons (twob _) (implements_cons (one _)
    (implements_cons (twoa _) (implements_cons (oneb _) (implements_cons (one _) (implements_cons (one _)
    (implements_cons (twoab _) (implements_cons (onea _) (implements_cons (oneb _) (twoab _)))))))))))))))
    fun ψ => fb_ccx hab hat hbt ψ

theorem gateDenotes_three (n : ℕ) (k : G3) (a b c : ℕ) :
    GateDenotes n (.g3 k (.tup [.atom (.int a), .atom (.int b), .atom (.int c)])) [.three k a b c] :=
  ⟨a, b, c, rfl, rfl⟩

theorem cswap_fallback {n a b t : ℕ} (ph : ℝ → ℂ) (ha : a < n) (hb : b < n) (ht : t < n)
    (hab : a ≠ b) (hat : a ≠ t) (hbt : b ≠ t) :
    Implements n [onItems .cx (.atom (.int t)) (.atom (.int b)),
      .g3 .ccx (.tup [.atom (.int a), .atom (.int b), .atom (.int t)]),
      onItems .cx (.atom (.int t)) (.atom (.int b))] ph (op3 .cswap a b t) := by
  simp only [onItems_natCast]
  have two : ∀ k, Implements n [on2 k (t : ℤ) (b : ℤ)] ph (op2 ph k t b) :=
    fun k => implements_on2 ph k ht hb hbt.symm
  have three : Implements n [.g3 .ccx (.tup [.atom (.int a), .atom (.int b), .atom (.int t)])] ph
      (op3 .ccx a b t) :=
    ⟨[.three .ccx a b t], gatesDenote_cons (gateDenotes_three n .ccx a b t) rfl,
      by simp [Elem.Valid, Elem.IsUnitary, ha, hb, ht, hab, hat, hbt], fun ψ => rfl⟩
  exact implements_congr (implements_cons (two _) (implements_cons three (two _)))
    fun ψ => fb_cswap hab hat hbt ψ

/-! ## The whole fallback of a gate object -/

theorem pairsDenote_iff (n : ℕ) (T : Targets) (ps : List (ℤ × ℤ)) :
    qubitPairs T n = .ok ps ↔ PairsDenote n T ps := by
  constructor
  · intro h
    match T, h with
    | .tup [a, b], h =>
      simp only [qubitPairs] at h
      split at h
      · cases h
      · rename_i cs hc
        split at h
        · cases h
        · rename_i ts ht
          rw [toList_eq_ok_iff, slicingItem_eq_iff] at hc ht
          split_ifs at h with h1 h2
          · cases h
            refine ⟨a, b, cs, ts, rfl, hc, ht, by simpa using h1, rfl, ?_⟩
            intro p hp hpp
            exact h2 (by rw [List.any_eq_true]; exact ⟨p, hp, by simpa using hpp⟩)
    | .one _, h => simp [qubitPairs] at h
    | .tup [], h => simp [qubitPairs] at h
    | .tup [_], h => simp [qubitPairs] at h
    | .tup (_ :: _ :: _ :: _), h => simp [qubitPairs] at h
  · rintro ⟨a, b, cs, ts, rfl, hc, ht, hl, rfl, hne⟩
    rw [← slicingItem_eq_iff, ← toList_eq_ok_iff] at hc ht
    simp only [qubitPairs, hc, ht]
    rw [if_neg (by simpa using hl), if_neg]
    rw [List.any_eq_true]
    rintro ⟨p, hp, hpp⟩
    exact hne p hp (by simpa using hpp)

theorem implements_flatMap {α : Type} {n : ℕ} (ph : ℝ → ℂ) (xs : List α) (f : α → List Gate)
    (e : α → Elem) (h : ∀ x ∈ xs, Implements n (f x) ph ((e x).unitary ph)) :
    Implements n (xs.flatMap f) ph (unitaries ph (xs.map e)) := by
  induction xs with
  | nil => exact implements_nil n ph
  | cons x xs ih =>
    simp only [List.flatMap_cons]
    exact implements_congr (implements_append (h x (by simp)) (ih (fun y hy => h y (by simp [hy]))))
      fun ψ => rfl

/-- Soundness of the fallback of any gate object with valid targets, except PhaseGate. -/
theorem fallback_implements {n : ℕ} (ph : ℝ → ℂ) (g : Gate) (es : List Elem) (gs : List Gate)
    (hd : GateDenotes n g es) (hv : ∀ e ∈ es, e.Valid n) (hf : g.fallback n = .ok gs)
    (hphase : ∀ θ T, g ≠ .g1 (.phase θ) T)
    (hcu1 : ∀ lam T, g = .g2 (.cu1 lam) T → ph lam = cis (-(lam / 4))) :
    Implements n gs ph (unitaries ph es) := by
  cases g with
  | measure T => simp [Gate.fallback] at hf
  | reset T => simp [Gate.fallback] at hf
  | g3 k T =>
    obtain ⟨a, b, c, rfl, rfl⟩ := hd
    have hv' := hv _ (List.mem_singleton.2 rfl)
    obtain ⟨ha, hb, hc, hab, hac, hbc⟩ := hv'
    cases k <;> simp only [Gate.fallback, unpack3, Except.ok.injEq, reduceCtorEq] at hf <;> subst hf
    · exact toffoli_fallback ph ha hb hc hab hac hbc
    · exact cswap_fallback ph ha hb hc hab hac hbc
  | g2 k T =>
    obtain ⟨L, hL, rfl⟩ := hd
    rw [← pairsDenote_iff] at hL
    simp only [Gate.fallback] at hf
    split at hf
    · cases hf
    · rename_i f hfo
      rw [hL] at hf
      simp only [Except.ok.injEq] at hf
      subst hf
      rw [List.flatMap_map]
      apply implements_flatMap
      intro p hp
      have := hv (.two k p.1 p.2) (List.mem_map.2 ⟨p, hp, rfl⟩)
      exact g2_fallbackOn ph k f hfo (fun lam h => hcu1 lam T (by rw [h])) this.1 this.2.1 this.2.2
  | g1 k T =>
    obtain ⟨L, hL, rfl⟩ := hd
    rw [← slicing_eq_iff, ← toList_eq_ok_iff] at hL
    by_cases hki : k = .i
    · subst hki
      simp only [Gate.fallback, Except.ok.injEq] at hf
      subst hf
      refine implements_congr (implements_nil n ph) fun ψ => ?_
      clear hL hv
      induction L generalizing ψ with
      | nil => rfl
      | cons q L ih =>
        simp only [List.map_cons, unitaries, List.foldl_cons] at *
        have : (Elem.one .i q).unitary ph ψ = ψ := app_one q ψ
        rw [this]; exact ih ψ
    · have hf' : (match k.fallbackOn with
        | none => .error .notImplementedError
        | some f =>
          match (slicing T n).toList with
          | .error e => .error e
          | .ok ts => .ok (ts.flatMap f)) = (Except.ok gs : Except PyErr (List Gate)) := by
        rw [← hf]; cases k <;> first | exact absurd rfl hki | rfl
      split at hf'
      · cases hf'
      · rename_i f hfo
        rw [hL] at hf'
        simp only [Except.ok.injEq] at hf'
        subst hf'
        rw [List.flatMap_map]
        apply implements_flatMap
        intro q hq
        have := hv (.one k q) (List.mem_map.2 ⟨q, hq, rfl⟩)
        exact g1_fallbackOn ph k f hfo (fun θ h => hphase θ T (by rw [h])) this

end

end Spec
