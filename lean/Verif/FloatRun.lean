import Verif.FloatMeasure

/-! Lemmas: rounding errors along a run. -/

set_option linter.unusedSimpArgs false
set_option linter.unusedVariables false

namespace Spec

open Blueqat

noncomputable section

/-! ## Fallbacks need no more passes -/

theorem passes_append (es fs : List Elem) : passes (es ++ fs) = passes es + passes fs := by
  simp [passes]

theorem passes_cons (e : Elem) (es : List Elem) : passes (e :: es) = e.passes + passes es := by
  simp [passes]

/-- A list of operations stands for another without more passes or larger angles. -/
def Cheaper (Θ : ℝ) (fs es : List Elem) : Prop := passes fs ≤ passes es ∧ (AnglesLE Θ es → AnglesLE Θ fs)

theorem Cheaper.append {Θ : ℝ} {a b c d : List Elem} (h1 : Cheaper Θ a b) (h2 : Cheaper Θ c d) :
    Cheaper Θ (a ++ c) (b ++ d) := by
  refine ⟨by rw [passes_append, passes_append]; exact add_le_add h1.1 h2.1, fun h e he => ?_⟩
  rcases List.mem_append.1 he with h' | h'
  · exact h1.2 (fun e he => h e (by simp [he])) e h'
  · exact h2.2 (fun e he => h e (by simp [he])) e h'

theorem flatMap_cheaper {α : Type} {n : ℕ} {Θ : ℝ} (xs : List α) (f : α → List Gate) (e : α → Elem)
    (h : ∀ x ∈ xs, ∃ fs, GatesDenote n (f x) fs ∧ Cheaper Θ fs [e x]) :
    ∃ fs, GatesDenote n (xs.flatMap f) fs ∧ Cheaper Θ fs (xs.map e) := by
  induction xs with
  | nil => exact ⟨[], rfl, le_refl _, fun h => h⟩
  | cons x xs ih =>
    obtain ⟨f1, h1, h2⟩ := h x (by simp)
    obtain ⟨f2, h3, h4⟩ := ih fun y hy => h y (by simp [hy])
    exact ⟨f1 ++ f2, by rw [List.flatMap_cons]; exact gatesDenote_append h1 h3, h2.append h4⟩

theorem g1_cheaper {n t : ℕ} {Θ : ℝ} (hΘ : Real.pi / 2 ≤ Θ) (k : G1) (f : ℤ → List Gate) (hf : k.fallbackOn = some f) :
    ∃ fs, GatesDenote n (f t) fs ∧ Cheaper Θ fs [.one k t] := by
  have hpi := Real.pi_pos
  cases k <;> simp only [G1.fallbackOn, Option.some.injEq, reduceCtorEq] at hf <;> subst hf <;>
    (refine ⟨_, on1_denote _ t rfl, le_refl _, fun h => ?_⟩
     simp only [AnglesLE, List.mem_cons, List.not_mem_nil, or_false, forall_eq_or_imp, forall_eq, Elem.angles, abs_le,
       false_imp_iff, implies_true, and_true, true_and] at h ⊢
     try simp only [← and_assoc] at h ⊢
     (repeat' constructor) <;> (try simp only [and_assoc] at h) <;> linarith)

theorem g2_cheaper {n c t : ℕ} {Θ : ℝ} (hΘ : Real.pi / 2 ≤ Θ) (hne : c ≠ t) (k : G2) (f : ℤ → ℤ → List Gate)
    (hf : k.fallbackOn = some f) (hn : ∀ θ, k ≠ .cphase θ ∧ k ≠ .crx θ ∧ k ≠ .cry θ ∧ k ≠ .crz θ) :
    ∃ fs, GatesDenote n (f c t) fs ∧ Cheaper Θ fs [.two k c t] := by
  have hpi := Real.pi_pos
  have hne' := hne.symm
  have mid : ∀ {gs : List Gate} {fs es : List Elem}, GatesDenote n gs fs →
      passes fs ≤ passes es → (AnglesLE Θ es → AnglesLE Θ fs) →
      ∃ fs, GatesDenote n gs fs ∧ Cheaper Θ fs es := fun h1 h2 h3 => ⟨_, h1, h2, h3⟩
  cases k <;> simp only [G2.fallbackOn, Option.some.injEq, reduceCtorEq] at hf <;> subst hf <;>
    first
    | exact absurd rfl (hn _).1
    | exact absurd rfl (hn _).2.1
    | exact absurd rfl (hn _).2.2.1
    | exact absurd rfl (hn _).2.2.2
    | apply mid <;>
      first
      | (dsimp only
         repeat (first | apply on1_denote | apply on2_denote _ hne | apply on2_denote _ hne')
         exact rfl)
      | skip
  all_goals
    first
    | (norm_num [passes, Elem.passes]; done)
    | (simp only [AnglesLE, List.mem_cons, List.not_mem_nil, or_false, forall_eq_or_imp, forall_eq, Elem.angles,
        false_imp_iff, implies_true, and_true, true_and, imp_self]; done)
    | (simp only [AnglesLE, List.mem_cons, List.not_mem_nil, or_false, forall_eq_or_imp, forall_eq, Elem.angles,
        false_imp_iff, implies_true, and_true, true_and, abs_le]
       intros
       simp only [← and_assoc] at *
       (repeat' constructor) <;> (try simp only [and_assoc] at *) <;> norm_num <;> linarith)

theorem cswap_cheaper {n a b t : ℕ} {Θ : ℝ} (hbt : b ≠ t) :
    ∃ fs, GatesDenote n [onItems .cx (.atom (.int t)) (.atom (.int b)),
      .g3 .ccx (.tup [.atom (.int a), .atom (.int b), .atom (.int t)]),
      onItems .cx (.atom (.int t)) (.atom (.int b))] fs ∧ Cheaper Θ fs [.three .cswap a b t] := by
  simp only [onItems_natCast]
  refine ⟨_, on2_denote _ hbt.symm (gatesDenote_cons (gateDenotes_three n .ccx a b t)
    (on2_denote _ hbt.symm rfl)), ?_, ?_⟩
  · norm_num [passes, Elem.passes]
  · simp [AnglesLE, Elem.angles]

/-- What a gate without a method of its own is replaced by needs no more passes and has no larger angles. -/
theorem fallback_cheaper {n : ℕ} {Θ : ℝ} (hΘ : Real.pi / 2 ≤ Θ) (F : FloatOps) (g : Gate) (es : List Elem) (gs : List Gate)
    (hnone : flAction F n g = none) (hd : GateDenotes n g es) (hv : ∀ e ∈ es, e.Valid n) (hf : g.fallback n = .ok gs) :
    ∃ fs, GatesDenote n gs fs ∧ Cheaper Θ fs es := by
  cases g with
  | measure T => simp [Gate.fallback] at hf
  | reset T => simp [Gate.fallback] at hf
  | g3 k T =>
    obtain ⟨a, b, c, rfl, rfl⟩ := hd
    obtain ⟨ha, hb, hc, hab, hac, hbc⟩ := hv _ (List.mem_singleton.2 rfl)
    cases k <;> simp only [flAction, reduceCtorEq] at hnone
    simp only [Gate.fallback, unpack3, Except.ok.injEq] at hf
    subst hf
    exact cswap_cheaper hbc
  | g2 k T =>
    obtain ⟨L, hL, rfl⟩ := hd
    rw [← pairsDenote_iff] at hL
    simp only [Gate.fallback] at hf
    split at hf
    · cases hf
    · rename_i f hfo
      rw [hL] at hf
      simp only [Except.ok.injEq] at hf
      subst hf
      rw [List.flatMap_map]
      refine flatMap_cheaper L _ (fun p => .two k p.1 p.2) fun p hp => ?_
      refine g2_cheaper hΘ (hv (.two k p.1 p.2) (List.mem_map.2 ⟨p, hp, rfl⟩)).2.2 k f hfo fun θ => ?_
      refine ⟨?_, ?_, ?_, ?_⟩ <;> rintro rfl <;> simp [flAction] at hnone
  | g1 k T =>
    obtain ⟨L, hL, rfl⟩ := hd
    rw [← slicing_eq_iff, ← toList_eq_ok_iff] at hL
    by_cases hki : k = .i
    · subst hki
      simp only [Gate.fallback, Except.ok.injEq] at hf
      subst hf
      exact ⟨[], rfl, Nat.zero_le _, fun _ => by simp [AnglesLE]⟩
    · have hf' : (match k.fallbackOn with
        | none => .error .notImplementedError
        | some f =>
          match (slicing T n).toList with
          | .error e => .error e
          | .ok ts => .ok (ts.flatMap f)) = (Except.ok gs : Except PyErr (List Gate)) := by
        rw [← hf]; cases k <;> first | exact absurd rfl hki | rfl
      split at hf'
      · cases hf'
      · rename_i f hfo
        rw [hL] at hf'
        simp only [Except.ok.injEq] at hf'
        subst hf'
        rw [List.flatMap_map]
        exact flatMap_cheaper L _ (fun q => .one k q) fun q hq => g1_cheaper hΘ k f hfo

/-! ## The relation -/

variable {F : FloatOps} {ε ν Θ u : ℝ}

/-- The simulator's context is within `B` of the machine state. -/
structure FRel (n : ℕ) (ctx : NpCtx) (s : MState) (B : ℝ) : Prop where
  qubits : ∃ φ, ctx.qubits = vec n φ ∧ gap n φ s.psi ≤ B
  buf : ctx.buf.length = 2 ^ n
  cregs : ctx.cregs = cregList n s.creg
  rnd : ctx.rnd = s.rnd
  good : Good n s

theorem FRel.mono {n : ℕ} {ctx : NpCtx} {s : MState} {B B' : ℝ} (h : FRel n ctx s B) (hB : B ≤ B') : FRel n ctx s B' := by
  obtain ⟨φ, h1, h2⟩ := h.qubits
  exact ⟨⟨φ, h1, h2.trans hB⟩, h.buf, h.cregs, h.rnd, h.good⟩

theorem FRel.save {n : ℕ} {ctx : NpCtx} {s : MState} {B : ℝ} (h : FRel n ctx s B) (b : Bool) :
    FRel n { ctx with saveCache := b } s B := ⟨h.qubits, h.buf, h.cregs, h.rnd, h.good⟩

theorem FRel.nonneg {n : ℕ} {ctx : NpCtx} {s : MState} {B : ℝ} (h : FRel n ctx s B) : 0 ≤ B := by
  obtain ⟨φ, h1, h2⟩ := h.qubits
  exact (gap_nonneg _ _ _).trans h2

theorem errBound_append (ε ν Θ : ℝ) (n : ℕ) (es fs : List Elem) (s : MState) (B : ℝ) :
    errBound ε ν Θ n (es ++ fs) s B = errBound ε ν Θ n fs (steps phSim n es s) (errBound ε ν Θ n es s B) := by
  induction es generalizing s B with
  | nil => rfl
  | cons e es ih => simp only [List.cons_append, errBound, ih]; rfl

theorem allClear_append (ε ν Θ : ℝ) (n : ℕ) (es fs : List Elem) (s : MState) (B : ℝ) :
    AllClear ε ν Θ n (es ++ fs) s B ↔
      AllClear ε ν Θ n es s B ∧ AllClear ε ν Θ n fs (steps phSim n es s) (errBound ε ν Θ n es s B) := by
  induction es generalizing s B with
  | nil => simp [AllClear, steps, errBound]
  | cons e es ih =>
    simp only [List.cons_append, AllClear, ih, and_assoc]; rfl

theorem errStep_unitary (ε ν Θ : ℝ) (n : ℕ) (s : MState) (B : ℝ) (e : Elem) (he : e.IsUnitary) :
    e.errStep ε ν Θ n s B = (1 + passErr ε Θ) ^ e.passes * (1 + B) - 1 := by
  cases e <;> first | rfl | exact absurd he (by simp [Elem.IsUnitary])

theorem errBound_unitary (ε ν Θ : ℝ) (n : ℕ) (es : List Elem) (hu : ∀ e ∈ es, e.IsUnitary) (s : MState) (B : ℝ) :
    errBound ε ν Θ n es s B = (1 + passErr ε Θ) ^ passes es * (1 + B) - 1 := by
  induction es generalizing s B with
  | nil => simp [errBound, passes]
  | cons e es ih =>
    simp only [errBound]
    rw [ih (fun e he => hu e (by simp [he])), errStep_unitary _ _ _ _ _ _ _ (hu e (by simp)), passes_cons, pow_add]
    ring

theorem allClear_unitary (ε ν Θ : ℝ) (n : ℕ) (es : List Elem) (hu : ∀ e ∈ es, e.IsUnitary) (s : MState) (B : ℝ) :
    AllClear ε ν Θ n es s B := by
  induction es generalizing s B with
  | nil => trivial
  | cons e es ih =>
    refine ⟨?_, ih (fun e he => hu e (by simp [he])) _ _⟩
    have := hu e (by simp)
    cases e <;> first | trivial | exact absurd this (by simp [Elem.IsUnitary])

/-- One pass: the error grows by the factor of the pass. -/
theorem pass_near {n : ℕ} {κ B : ℝ} (hκ : 0 ≤ κ) {K U : Vec → Vec} {φ χ : Vec} (h : gap n φ χ ≤ B) (h1 : normSqN n χ = 1)
    (hK : gap n (K φ) (U φ) ≤ κ * Real.sqrt (normSqN n φ)) (hU : gap n (U φ) (U χ) = gap n φ χ) :
    gap n (K φ) (U χ) ≤ (1 + κ) * (1 + B) - 1 := by
  have h2 := gap_triangle n (K φ) (U φ) (U χ)
  have h3 := mul_le_mul_of_nonneg_left (norm_le_gap h h1) hκ
  rw [hU] at h2
  linarith

theorem fold_pair {α : Type} (κ : ℝ) (f : α → Vec → Vec) (L : List α) : ∀ (χ : Vec) (B : ℝ),
    L.foldl (fun (p : Vec × ℝ) a => (f a p.1, (1 + κ) * (1 + p.2) - 1)) (χ, B) =
      (L.foldl (fun χ a => f a χ) χ, (1 + κ) ^ L.length * (1 + B) - 1) := by
  induction L with
  | nil => intro χ B; simp
  | cons a L ih =>
    intro χ B
    rw [List.foldl_cons, List.foldl_cons, ih, List.length_cons]
    congr 1; ring

theorem passErr_eq (hS : Small ε Θ u) : passErr ε Θ = 44 * u := by rw [passErr, ← hS.eq]; ring

theorem FRel.of_psi {n : ℕ} {ctx : NpCtx} {s : MState} {B : ℝ} (h : FRel n ctx s B) {q b : Arr} {es : List Elem} {φ : Vec}
    {m : ℕ} (hu : ∀ e ∈ es, e.IsUnitary) (hv : ∀ e ∈ es, e.Valid n) (hm : passes es = m)
    (hq : q = vec n φ) (hφ : gap n φ (unitaries phSim es s.psi) ≤ (1 + passErr ε Θ) ^ m * (1 + B) - 1)
    (hb : b.length = 2 ^ n) :
    FRel n { ctx with qubits := q, buf := b } (steps phSim n es s) (errBound ε ν Θ n es s B) := by
  have hg : Good n (steps phSim n es s) := good_steps norm_phSim es hv s h.good
  rw [errBound_unitary ε ν Θ n es hu, hm]
  rw [steps_unitary phSim n es hu] at hg ⊢
  exact ⟨⟨φ, hq, hφ⟩, hb, h.cregs, h.rnd, hg⟩

theorem passes_map {α : Type} (L : List α) (e : α → Elem) (h : ∀ a ∈ L, (e a).passes = 1) : passes (L.map e) = L.length := by
  induction L with
  | nil => rfl
  | cons a L ih =>
    rw [List.map_cons, passes_cons, h a (by simp), ih fun b hb => h b (by simp [hb]), List.length_cons, add_comm]

theorem swapLoop1_float (hS : Small ε Θ u) {n : ℕ} (body : ℕ → ℤ → Bufs → Except PyErr Bufs) (k : G1) (K : ℕ → Vec → Vec)
    (hp : ∀ t, (Elem.one k t).passes = 1)
    (hb : ∀ t < n, ∀ ψ b, b.length = 2 ^ n → body n (t : ℤ) (vec n ψ, b) = .ok (vec n (K t ψ), vec n ψ))
    (hK : ∀ t < n, (∀ x ∈ (Elem.one k t).angles, |x| ≤ Θ) → ∀ ψ,
      gap n (K t ψ) (app (matrix1 k) t ψ) ≤ 44 * u * Real.sqrt (normSqN n ψ))
    {T : Targets} {es : List Elem} (hd : GateDenotes n (.g1 k T) es) (hv : ∀ e ∈ es, e.Valid n) (hA : AnglesLE Θ es)
    {ctx : NpCtx} {s : MState} {B : ℝ} (hR : FRel n ctx s B) :
    ∃ ctx', swapLoop1 body n T ctx = .ok ctx' ∧ FRel n ctx' (steps phSim n es s) (errBound ε ν Θ n es s B) := by
  obtain ⟨L, hL, rfl⟩ := hd
  obtain ⟨φ0, hφ0, hg0⟩ := hR.qubits
  obtain ⟨⟨q, b⟩, h1, ⟨φ, h2, h3⟩, h4, h5⟩ := forGen_refine hL (body n)
    (fun t (p : Vec × ℝ) => (app (matrix1 k) t p.1, (1 + 44 * u) * (1 + p.2) - 1))
    (fun s p => (∃ φ, s.1 = vec n φ ∧ gap n φ p.1 ≤ p.2) ∧ s.2.length = 2 ^ n ∧ normSqN n p.1 = 1) (by
      rintro t ht ⟨q, b⟩ ⟨χ, B⟩ ⟨⟨φ, hq, hφ⟩, hbl, hn⟩
      simp only at hq hbl hn hφ
      subst hq
      have htn : t < n := hv (.one k t) (List.mem_map.2 ⟨t, ht, rfl⟩)
      refine ⟨_, hb t htn φ b hbl, ⟨K t φ, rfl, ?_⟩, by simp, ?_⟩
      · exact pass_near (by have := hS.u_nn; linarith) hφ hn
          (hK t htn (hA (.one k t) (List.mem_map.2 ⟨t, ht, rfl⟩)) φ) (gap_app htn (unit_matrix1 k) φ χ)
      · exact ((isom_app htn (unit_matrix1 k)).norm χ).trans hn)
    (ctx.qubits, ctx.buf) (s.psi, B) ⟨⟨φ0, hφ0, hg0⟩, hR.buf, hR.good.1⟩
  rw [fold_pair] at h3
  refine ⟨{ ctx with qubits := q, buf := b }, ?_, ?_⟩
  · simp only [swapLoop1, h1]
  · refine hR.of_psi (by simp [Elem.IsUnitary]) hv (passes_map L _ fun t _ => hp t) h2 ?_ h4
    rw [unitaries_map, passErr_eq hS]; exact h3

theorem inPlaceLoop1_float (hS : Small ε Θ u) {n : ℕ} (body : ℕ → ℤ → Arr → Except PyErr Arr) (k : G1) (K : ℕ → Vec → Vec)
    (hp : ∀ t, (Elem.one k t).passes = 1)
    (hb : ∀ t < n, ∀ ψ, body n (t : ℤ) (vec n ψ) = .ok (vec n (K t ψ)))
    (hK : ∀ t < n, (∀ x ∈ (Elem.one k t).angles, |x| ≤ Θ) → ∀ ψ,
      gap n (K t ψ) (app (matrix1 k) t ψ) ≤ 44 * u * Real.sqrt (normSqN n ψ))
    {T : Targets} {es : List Elem} (hd : GateDenotes n (.g1 k T) es) (hv : ∀ e ∈ es, e.Valid n) (hA : AnglesLE Θ es)
    {ctx : NpCtx} {s : MState} {B : ℝ} (hR : FRel n ctx s B) :
    ∃ ctx', inPlaceLoop1 body n T ctx = .ok ctx' ∧ FRel n ctx' (steps phSim n es s) (errBound ε ν Θ n es s B) := by
  obtain ⟨L, hL, rfl⟩ := hd
  obtain ⟨φ0, hφ0, hg0⟩ := hR.qubits
  obtain ⟨q, h1, ⟨φ, h2, h3⟩, h5⟩ := forGen_refine hL (body n)
    (fun t (p : Vec × ℝ) => (app (matrix1 k) t p.1, (1 + 44 * u) * (1 + p.2) - 1))
    (fun s p => (∃ φ, s = vec n φ ∧ gap n φ p.1 ≤ p.2) ∧ normSqN n p.1 = 1) (by
      rintro t ht q ⟨χ, B⟩ ⟨⟨φ, hq, hφ⟩, hn⟩
      simp only at hq hn hφ
      subst hq
      have htn : t < n := hv (.one k t) (List.mem_map.2 ⟨t, ht, rfl⟩)
      refine ⟨_, hb t htn φ, ⟨K t φ, rfl, ?_⟩, ?_⟩
      · exact pass_near (by have := hS.u_nn; linarith) hφ hn
          (hK t htn (hA (.one k t) (List.mem_map.2 ⟨t, ht, rfl⟩)) φ) (gap_app htn (unit_matrix1 k) φ χ)
      · exact ((isom_app htn (unit_matrix1 k)).norm χ).trans hn)
    ctx.qubits (s.psi, B) ⟨⟨φ0, hφ0, hg0⟩, hR.good.1⟩
  rw [fold_pair] at h3
  refine ⟨{ ctx with qubits := q }, ?_, ?_⟩
  · simp only [inPlaceLoop1, h1]
  · refine hR.of_psi (b := ctx.buf) (by simp [Elem.IsUnitary]) hv (passes_map L _ fun t _ => hp t) h2 ?_ hR.buf
    rw [unitaries_map, passErr_eq hS]; exact h3

theorem gap_two {n c t : ℕ} (k : G2) (hc : c < n) (ht : t < n) (h : c ≠ t) (φ χ : Vec) :
    gap n (op2 phSim k c t φ) (op2 phSim k c t χ) = gap n φ χ :=
  gap_elem norm_phSim (.two k c t) ⟨hc, ht, h⟩ φ χ

theorem swapLoop2_float (hS : Small ε Θ u) {n : ℕ} (body : ℕ → ℤ → ℤ → Bufs → Except PyErr Bufs) (k : G2)
    (K : ℕ → ℕ → Vec → Vec) (hp : ∀ c t, (Elem.two k c t).passes = 1)
    (hb : ∀ c t, c < n → t < n → c ≠ t → ∀ ψ b, b.length = 2 ^ n →
      body n (c : ℤ) (t : ℤ) (vec n ψ, b) = .ok (vec n (K c t ψ), vec n ψ))
    (hK : ∀ c t, c < n → t < n → c ≠ t → (∀ x ∈ (Elem.two k c t).angles, |x| ≤ Θ) → ∀ ψ,
      gap n (K c t ψ) (op2 phSim k c t ψ) ≤ 44 * u * Real.sqrt (normSqN n ψ))
    {T : Targets} {es : List Elem} (hd : GateDenotes n (.g2 k T) es) (hv : ∀ e ∈ es, e.Valid n) (hA : AnglesLE Θ es)
    {ctx : NpCtx} {s : MState} {B : ℝ} (hR : FRel n ctx s B) :
    ∃ ctx', swapLoop2 body n T ctx = .ok ctx' ∧ FRel n ctx' (steps phSim n es s) (errBound ε ν Θ n es s B) := by
  obtain ⟨L, hL, rfl⟩ := hd
  obtain ⟨φ0, hφ0, hg0⟩ := hR.qubits
  obtain ⟨⟨q, b⟩, h1, ⟨φ, h2, h3⟩, h4, h5⟩ := forPairs_refine hL (body n)
    (fun c t (p : Vec × ℝ) => (op2 phSim k c t p.1, (1 + 44 * u) * (1 + p.2) - 1))
    (fun s p => (∃ φ, s.1 = vec n φ ∧ gap n φ p.1 ≤ p.2) ∧ s.2.length = 2 ^ n ∧ normSqN n p.1 = 1) (by
      rintro p hpL ⟨q, b⟩ ⟨χ, B⟩ ⟨⟨φ, hq, hφ⟩, hbl, hn⟩
      simp only at hq hbl hn hφ
      subst hq
      obtain ⟨v1, v2, v3⟩ := hv (.two k p.1 p.2) (List.mem_map.2 ⟨p, hpL, rfl⟩)
      refine ⟨_, hb p.1 p.2 v1 v2 v3 φ b hbl, ⟨K p.1 p.2 φ, rfl, ?_⟩, by simp, ?_⟩
      · exact pass_near (by have := hS.u_nn; linarith) hφ hn
          (hK p.1 p.2 v1 v2 v3 (hA (.two k p.1 p.2) (List.mem_map.2 ⟨p, hpL, rfl⟩)) φ) (gap_two k v1 v2 v3 φ χ)
      · exact ((isom_op2 norm_phSim k v1 v2 v3).norm χ).trans hn)
    (ctx.qubits, ctx.buf) (s.psi, B) ⟨⟨φ0, hφ0, hg0⟩, hR.buf, hR.good.1⟩
  rw [fold_pair (44 * u) (fun (p : ℕ × ℕ) χ => op2 phSim k p.1 p.2 χ)] at h3
  refine ⟨{ ctx with qubits := q, buf := b }, ?_, ?_⟩
  · simp only [swapLoop2, h1]
  · refine hR.of_psi (unitary_two k L) hv (passes_map L _ fun t _ => hp _ _) h2 ?_ h4
    rw [unitaries_map, passErr_eq hS]; exact h3

theorem inPlaceLoop2_float (hS : Small ε Θ u) {n : ℕ} (body : ℕ → ℤ → ℤ → Arr → Except PyErr Arr) (k : G2)
    (K : ℕ → ℕ → Vec → Vec) (hp : ∀ c t, (Elem.two k c t).passes = 1)
    (hb : ∀ c t, c < n → t < n → c ≠ t → ∀ ψ, body n (c : ℤ) (t : ℤ) (vec n ψ) = .ok (vec n (K c t ψ)))
    (hK : ∀ c t, c < n → t < n → c ≠ t → (∀ x ∈ (Elem.two k c t).angles, |x| ≤ Θ) → ∀ ψ,
      gap n (K c t ψ) (op2 phSim k c t ψ) ≤ 44 * u * Real.sqrt (normSqN n ψ))
    {T : Targets} {es : List Elem} (hd : GateDenotes n (.g2 k T) es) (hv : ∀ e ∈ es, e.Valid n) (hA : AnglesLE Θ es)
    {ctx : NpCtx} {s : MState} {B : ℝ} (hR : FRel n ctx s B) :
    ∃ ctx', inPlaceLoop2 body n T ctx = .ok ctx' ∧ FRel n ctx' (steps phSim n es s) (errBound ε ν Θ n es s B) := by
  obtain ⟨L, hL, rfl⟩ := hd
  obtain ⟨φ0, hφ0, hg0⟩ := hR.qubits
  obtain ⟨q, h1, ⟨φ, h2, h3⟩, h5⟩ := forPairs_refine hL (body n)
    (fun c t (p : Vec × ℝ) => (op2 phSim k c t p.1, (1 + 44 * u) * (1 + p.2) - 1))
    (fun s p => (∃ φ, s = vec n φ ∧ gap n φ p.1 ≤ p.2) ∧ normSqN n p.1 = 1) (by
      rintro p hpL q ⟨χ, B⟩ ⟨⟨φ, hq, hφ⟩, hn⟩
      simp only at hq hn hφ
      subst hq
      obtain ⟨v1, v2, v3⟩ := hv (.two k p.1 p.2) (List.mem_map.2 ⟨p, hpL, rfl⟩)
      refine ⟨_, hb p.1 p.2 v1 v2 v3 φ, ⟨K p.1 p.2 φ, rfl, ?_⟩, ?_⟩
      · exact pass_near (by have := hS.u_nn; linarith) hφ hn
          (hK p.1 p.2 v1 v2 v3 (hA (.two k p.1 p.2) (List.mem_map.2 ⟨p, hpL, rfl⟩)) φ) (gap_two k v1 v2 v3 φ χ)
      · exact ((isom_op2 norm_phSim k v1 v2 v3).norm χ).trans hn)
    ctx.qubits (s.psi, B) ⟨⟨φ0, hφ0, hg0⟩, hR.good.1⟩
  rw [fold_pair (44 * u) (fun (p : ℕ × ℕ) χ => op2 phSim k p.1 p.2 χ)] at h3
  refine ⟨{ ctx with qubits := q }, ?_, ?_⟩
  · simp only [inPlaceLoop2, h1]
  · refine hR.of_psi (b := ctx.buf) (unitary_two k L) hv (passes_map L _ fun t _ => hp _ _) h2 ?_ hR.buf
    rw [unitaries_map, passErr_eq hS]; exact h3

end

end Spec
