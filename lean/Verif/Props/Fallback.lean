import Verif.FallbackGates

/-!
# C10: fallback decompositions are equivalent to the gate
-/

set_option linter.unusedSimpArgs false

namespace Blueqat

open Spec

noncomputable section

/-- C10 (exact part). Whatever a backend replaces a gate by (other than PhaseGate and CU1), the replacement
has valid targets again and acts on every state vector exactly as the gate. -/
theorem C10_fallback_exact (n : ℕ) (g : Gate) (es : List Elem) (gs : List Gate)
    (hd : GateDenotes n g es) (hv : ∀ e ∈ es, e.Valid n) (hf : g.fallback n = .ok gs)
    (hphase : ∀ θ T, g ≠ .g1 (.phase θ) T) (hcu1 : ∀ lam T, g ≠ .g2 (.cu1 lam) T) (ph : ℝ → ℂ) :
    ∃ fs, GatesDenote n gs fs ∧ (∀ e ∈ fs, e.Valid n ∧ e.IsUnitary) ∧
      ∀ ψ, unitaries ph fs ψ = unitaries ph es ψ :=
  fallback_implements ph g es gs hd hv hf hphase (fun lam T h => absurd h (hcu1 lam T))

/-- Non-vacuity of `C10_fallback_exact`: the Toffoli gate on qubits 2, 0, 1 of a three-qubit register. -/
example : ∃ gs, (Gate.g3 .ccx (.tup [.atom (.int 2), .atom (.int 0), .atom (.int 1)])).fallback 3 = .ok gs ∧
    GateDenotes 3 (.g3 .ccx (.tup [.atom (.int 2), .atom (.int 0), .atom (.int 1)])) [.three .ccx 2 0 1] ∧
    (Elem.three .ccx 2 0 1).Valid 3 ∧ gs.length = 15 :=
  ⟨_, rfl, ⟨2, 0, 1, rfl, rfl⟩, by simp [Elem.Valid], rfl⟩

/-- helper: a fallback that is exact up to the factor `u` per qubit (pair) is exact up to a power of `u`. -/
theorem implements_flatMap_smul {α : Type} {n : ℕ} (ph : ℝ → ℂ) (u : ℂ) (xs : List α) (f : α → List Gate)
    (e : α → Elem) (h : ∀ x ∈ xs, Implements n (f x) ph (fun ψ i => u * (e x).unitary ph ψ i)) :
    Implements n (xs.flatMap f) ph (fun ψ i => u ^ xs.length * unitaries ph (xs.map e) ψ i) := by
  induction xs with
  | nil => exact implements_congr (implements_nil n ph) fun ψ => by funext i; simp [unitaries]
  | cons x xs ih =>
    simp only [List.flatMap_cons]
    refine implements_congr (implements_append (h x (by simp)) (ih (fun y hy => h y (by simp [hy]))))
      fun ψ => ?_
    simp only [unitaries_smul]
    funext i
    simp only [unitaries, List.map_cons, List.foldl_cons, List.length_cons]
    ring

/-- C10 (up to phase). For every gate, PhaseGate and CU1 included, the replacement acts on every state
vector as the documented gate up to one global phase. -/
theorem C10_fallback_up_to_phase (n : ℕ) (g : Gate) (es : List Elem) (gs : List Gate)
    (hd : GateDenotes n g es) (hv : ∀ e ∈ es, e.Valid n) (hf : g.fallback n = .ok gs) :
    ∃ fs u, GatesDenote n gs fs ∧ (∀ e ∈ fs, e.Valid n ∧ e.IsUnitary) ∧ ‖u‖ = (1 : ℝ) ∧
      ∀ ψ i, unitaries phDoc fs ψ i = u * unitaries phDoc es ψ i := by
  by_cases hphase : ∃ θ T, g = .g1 (.phase θ) T
  · obtain ⟨θ, T, rfl⟩ := hphase
    obtain ⟨L, hL, rfl⟩ := hd
    rw [← slicing_eq_iff, ← toList_eq_ok_iff] at hL
    simp only [Gate.fallback, G1.fallbackOn, hL, Except.ok.injEq] at hf
    subst hf
    rw [List.flatMap_map]
    have := implements_flatMap_smul (n := n) phDoc (cis (-(θ / 2))) L
      (fun q : ℕ => [on1 (.rz θ) (q : ℤ)]) (Elem.one (.phase θ)) (by
        intro q hq
        have hq' := hv (.one (.phase θ) q) (List.mem_map.2 ⟨q, hq, rfl⟩)
        refine implements_congr (implements_on1 phDoc (.rz θ) hq') fun ψ => ?_
        funext i
        have e : cis (-(θ / 2)) * cis θ = cis (θ / 2) := by rw [← cis_add]; congr 1; ring
        simp only [Elem.unitary, matrix1, mRZ, mPhase, app]
        by_cases hb : i.testBit q <;> simp [hb]
        rw [← mul_assoc, e])
    obtain ⟨fs, h1, h2, h3⟩ := this
    exact ⟨fs, cis (-(θ / 2)) ^ L.length, h1, h2, by simp [norm_cis], fun ψ i => by rw [h3]⟩
  by_cases hcu1 : ∃ lam T, g = .g2 (.cu1 lam) T
  · obtain ⟨lam, T, rfl⟩ := hcu1
    obtain ⟨L, hL, rfl⟩ := hd
    rw [← pairsDenote_iff] at hL
    simp only [Gate.fallback, G2.fallbackOn, hL, Except.ok.injEq] at hf
    subst hf
    rw [List.flatMap_map]
    have := implements_flatMap_smul (n := n) phDoc (cis (-(lam / 4))) L
      (fun p : ℕ × ℕ => [on1 (.u1 (lam / 2)) (p.1 : ℤ), on2 .cx (p.1 : ℤ) (p.2 : ℤ),
        on1 (.u1 (-lam / 2)) (p.2 : ℤ), on2 .cx (p.1 : ℤ) (p.2 : ℤ), on1 (.u1 (lam / 2)) (p.2 : ℤ)])
      (fun p => Elem.two (.cu1 lam) p.1 p.2) (by
        intro p hp
        obtain ⟨hc, ht, h⟩ := hv (.two (.cu1 lam) p.1 p.2) (List.mem_map.2 ⟨p, hp, rfl⟩)
        refine implements_congr (implements_cons (implements_on1 phDoc _ hc)
          (implements_cons (implements_on2 phDoc _ hc ht h) (implements_cons (implements_on1 phDoc _ ht)
          (implements_cons (implements_on2 phDoc _ hc ht h) (implements_on1 phDoc _ ht))))) fun ψ => ?_
        simp only [Elem.unitary, op2, phDoc, one_mul]
        exact fb_cu1 h lam ψ)
    obtain ⟨fs, h1, h2, h3⟩ := this
    exact ⟨fs, cis (-(lam / 4)) ^ L.length, h1, h2, by simp [norm_cis], fun ψ i => by rw [h3]⟩
  · obtain ⟨fs, h1, h2, h3⟩ := C10_fallback_exact n g es gs hd hv hf
      (fun θ T h => hphase ⟨θ, T, h⟩) (fun lam T h => hcu1 ⟨lam, T, h⟩) phDoc
    exact ⟨fs, 1, h1, h2, by simp, fun ψ i => by rw [h3, one_mul]⟩

/-- Non-vacuity of `C10_fallback_up_to_phase`: CU1 on qubits 1, 0. -/
example (lam : ℝ) : ∃ gs, (Gate.g2 (.cu1 lam) (.tup [.atom (.int 1), .atom (.int 0)])).fallback 2 = .ok gs ∧
    GateDenotes 2 (.g2 (.cu1 lam) (.tup [.atom (.int 1), .atom (.int 0)])) [.two (.cu1 lam) 1 0] ∧
    (Elem.two (.cu1 lam) 1 0).Valid 2 ∧ gs.length = 5 :=
  ⟨_, rfl, gateDenotes_on2 2 (.cu1 lam) 1 0 (by decide), by simp [Elem.Valid], rfl⟩

/-- The fallbacks that exist: every gate class of the gate set except CX, CZ, CCZ, the elementary rotations
and Paulis, measurement and reset has one, so `C10` is about all the others. -/
theorem C10_has_fallback (n : ℕ) (g : Gate) (es : List Elem) (hd : GateDenotes n g es) :
    (∃ gs, g.fallback n = .ok gs) ∨ g.fallback n = .error .notImplementedError := by
  cases g with
  | measure T => right; rfl
  | reset T => right; rfl
  | g3 k T =>
    obtain ⟨a, b, c, rfl, rfl⟩ := hd
    cases k
    · exact .inl ⟨_, rfl⟩
    · exact .inr rfl
    · exact .inl ⟨_, rfl⟩
  | g2 k T =>
    obtain ⟨L, hL, rfl⟩ := hd
    rw [← pairsDenote_iff] at hL
    cases k <;> simp [Gate.fallback, G2.fallbackOn, hL]
  | g1 k T =>
    obtain ⟨L, hL, rfl⟩ := hd
    rw [← slicing_eq_iff, ← toList_eq_ok_iff] at hL
    cases k <;> simp [Gate.fallback, G1.fallbackOn, hL]

end

end Blueqat
