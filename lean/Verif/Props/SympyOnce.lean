import Verif.Spec.Once
import Verif.Props.Sympy
import Verif.PauliEvolution

/-!
# Property C24: exactly when `to_unitary` agrees with simulation
-/

set_option linter.unusedSimpArgs false
set_option linter.unusedVariables false

namespace Blueqat

open Spec

theorem sympyOwn_iff (k : G1) : SympyOwn k ↔ (sySympyGate k).isSome = true := by
  cases k <;> simp [SympyOwn, sySympyGate]

/-- A gate with the targets written once. -/
noncomputable def onceGate (n : ℕ) : Gate → Gate
  | .g1 k T => if (sySympyGate k).isSome then
      (match (slicing T n).toList with
      | .ok L => .g1 k (.tup (L.dedup.map fun q => .atom (.int q)))
      | .error _ => .g1 k T)
    else .g1 k T
  | g => g

theorem atomsDenote_naturals {n : ℕ} (L : List ℕ) (h : ∀ q ∈ L, q < n) :
    AtomsDenote n (L.map fun q : ℕ => Atom.int (q : ℤ)) (L.map (fun q : ℕ => (q : Int))) := by
  induction L with
  | nil => rfl
  | cons q L ih =>
    refine ⟨[(q : ℤ)], _, ?_, ih (fun q hq => h q (by simp [hq])), rfl⟩
    have := h q (by simp)
    simp [AtomDenotes, pyIndex]

theorem dedup_naturals (L : List ℕ) : (L.map (fun q : ℕ => (q : ℤ))).dedup = L.dedup.map (fun q : ℕ => (q : ℤ)) :=
  List.dedup_map_of_injective Nat.cast_injective L

theorem targetsDenote_naturals {n : ℕ} (L : List ℕ) (h : ∀ q ∈ L, q < n) :
    TargetsDenote n (.tup (L.map fun q : ℕ => Item.atom (.int (q : ℤ)))) (L.map (fun q : ℕ => (q : Int))) :=
  ⟨L.map fun q : ℕ => Atom.int (q : ℤ), by simp [List.map_map, Function.comp_def], atomsDenote_naturals L h⟩

theorem onceGate_g1 {n : ℕ} {k : G1} {T : Targets} {L : List ℕ} (hk : SympyOwn k)
    (hL : TargetsDenote n T (L.map (fun q : ℕ => (q : Int)))) :
    onceGate n (.g1 k T) = .g1 k (.tup (L.dedup.map fun q : ℕ => Item.atom (.int (q : ℤ)))) := by
  have hT := (toList_eq_ok_iff _ _).2 ((slicing_eq_iff n T _).2 hL)
  simp only [onceGate, (sympyOwn_iff k).1 hk, if_true, hT]
  rw [dedup_naturals, List.map_map]; rfl

theorem onceGate_other {n : ℕ} {k : G1} {T : Targets} (hk : ¬ SympyOwn k) : onceGate n (.g1 k T) = .g1 k T := by
  rw [sympyOwn_iff] at hk
  simp [onceGate, hk]

/-- The backend does the same with the targets written once. -/
theorem onceGate_run {n : ℕ} {g : Gate} {es : List Elem} (hd : GateDenotes n g es) (hv : ∀ e ∈ es, e.Valid n) (M : SMat) :
    runGate (syAction n) n recursionLimit g M = runGate (syAction n) n recursionLimit (onceGate n g) M := by
  cases g with
  | g1 k T =>
    by_cases hk : SympyOwn k
    · obtain ⟨L, hL, rfl⟩ := hd
      have hlt : ∀ t ∈ L, t < n := fun t ht => hv (.one k t) (List.mem_map.2 ⟨t, ht, rfl⟩)
      obtain ⟨G, hG⟩ := Option.isSome_iff_exists.1 ((sympyOwn_iff k).1 hk)
      have hT := (toList_eq_ok_iff _ _).2 ((slicing_eq_iff n T _).2 hL)
      have hL' := targetsDenote_naturals L.dedup (fun q hq => hlt q (List.mem_dedup.1 hq))
      have hT' := (toList_eq_ok_iff _ _).2 ((slicing_eq_iff n _ _).2 hL')
      rw [onceGate_g1 hk hL, runGate_native (a := syGate1 n G T) (by simp [syAction, hG]),
        runGate_native (a := syGate1 n G _) (by simp [syAction, hG]; rfl)]
      simp only [syGate1, hT, hT', syOneQubit]
      simp only [bind, Except.bind, List.mem_map, List.mem_dedup]
    · rw [onceGate_other hk]
  | g2 k T => rfl
  | g3 k T => rfl
  | measure T => rfl
  | reset T => rfl

theorem once_denotes {n : ℕ} {g : Gate} {es os : List Elem} (hd : GateDenotes n g es) (ho : GateOnce n g os) (hv : ∀ e ∈ es, e.Valid n) :
    GateDenotes n (onceGate n g) os ∧ (∀ e, e ∈ os ↔ e ∈ es) ∧ ((∀ T, g ≠ .g3 .ccz T) → SyOk n (onceGate n g)) := by
  cases g with
  | g1 k T =>
    obtain ⟨L, hL, rfl⟩ := hd
    have hlt : ∀ t ∈ L, t < n := fun t ht => hv (.one k t) (List.mem_map.2 ⟨t, ht, rfl⟩)
    obtain ⟨L', hL', h⟩ := ho
    obtain rfl : L' = L := by
      have := targetsDenote_unique hL' hL
      exact List.map_injective_iff.2 Nat.cast_injective this
    rcases h with ⟨hk, rfl⟩ | ⟨hk, rfl⟩
    · have hd' := targetsDenote_naturals L'.dedup (fun q hq => hlt q (List.mem_dedup.1 hq))
      rw [onceGate_g1 hk hL]
      refine ⟨⟨_, hd', rfl⟩, fun e => by simp [List.mem_dedup], fun _ _ L2 hL2 => ?_⟩
      rw [targetsDenote_unique hL2 hd']
      exact (List.nodup_dedup L').map Nat.cast_injective
    · rw [onceGate_other hk]
      exact ⟨⟨L', hL, rfl⟩, fun _ => Iff.rfl, fun _ h => absurd ((sympyOwn_iff k).2 h) hk⟩
  | g2 k T =>
    obtain ⟨L, hL, rfl⟩ := hd
    obtain ⟨L', hL', rfl⟩ := ho
    have : GateDenotes n (.g2 k T) (L.map fun p => .two k p.1 p.2) := ⟨L, hL, rfl⟩
    have h2 := gatesDenote_unique (gs := [.g2 k T]) ⟨_, [], ⟨L, hL, rfl⟩, rfl, rfl⟩ ⟨_, [], ⟨L', hL', rfl⟩, rfl, rfl⟩
    simp only [List.append_nil] at h2
    exact ⟨⟨L', hL', rfl⟩, fun e => by rw [h2], fun _ => trivial⟩
  | g3 k T =>
    have h2 := gatesDenote_unique (gs := [.g3 k T]) ⟨_, [], hd, rfl, rfl⟩ ⟨_, [], ho, rfl, rfl⟩
    simp only [List.append_nil] at h2
    subst h2
    refine ⟨hd, fun e => Iff.rfl, fun h => ?_⟩
    cases k <;> first | trivial | exact absurd rfl (h T)
  | measure T =>
    have h2 := gatesDenote_unique (gs := [.measure T]) ⟨_, [], hd, rfl, rfl⟩ ⟨_, [], ho, rfl, rfl⟩
    simp only [List.append_nil] at h2
    subst h2
    exact ⟨hd, fun e => Iff.rfl, fun h => trivial⟩
  | reset T =>
    have h2 := gatesDenote_unique (gs := [.reset T]) ⟨_, [], hd, rfl, rfl⟩ ⟨_, [], ho, rfl, rfl⟩
    simp only [List.append_nil] at h2
    subst h2
    exact ⟨hd, fun e => Iff.rfl, fun h => trivial⟩

theorem onceGates {n : ℕ} (gates : List Gate) : ∀ (es os : List Elem), GatesDenote n gates es → GatesOnce n gates os →
    (∀ e ∈ es, e.Valid n) → NoCcz gates →
    GatesDenote n (gates.map (onceGate n)) os ∧ (∀ e, e ∈ os ↔ e ∈ es) ∧ (∀ g ∈ gates.map (onceGate n), SyOk n g) ∧
      ∀ M, runGates (syAction n) n recursionLimit gates M = runGates (syAction n) n recursionLimit (gates.map (onceGate n)) M := by
  induction gates with
  | nil =>
    intro es os h1 h2 _ _
    simp only [GatesDenote] at h1
    simp only [GatesOnce] at h2
    subst h1 h2
    exact ⟨rfl, fun _ => Iff.rfl, by simp, fun _ => rfl⟩
  | cons g gates ih =>
    rintro es os ⟨e1, e2, h1, h2, rfl⟩ ⟨o1, o2, k1, k2, rfl⟩ hv hz
    have hv1 : ∀ e ∈ e1, e.Valid n := fun e he => hv e (by simp [he])
    obtain ⟨a1, a2, a3⟩ := once_denotes h1 k1 hv1
    obtain ⟨b1, b2, b3, b4⟩ := ih e2 o2 h2 k2 (fun e he => hv e (by simp [he])) (fun T hT => hz T (by simp [hT]))
    refine ⟨⟨o1, o2, a1, b1, rfl⟩, fun e => by simp [a2, b2], ?_, fun M => ?_⟩
    · intro g' hg'
      simp only [List.map_cons, List.mem_cons] at hg'
      rcases hg' with rfl | hg'
      · exact a3 (fun T h => hz T (by simp [h]))
      · exact b3 g' hg'
    · simp only [runGates, List.map_cons, List.foldlM_cons] at b4 ⊢
      rw [onceGate_run h1 hv1 M]
      simp only [bind, Except.bind]
      cases runGate (syAction n) n recursionLimit (onceGate n g) M with
      | error e => rfl
      | ok M' => exact b4 M'

/-- C24, exactly: for every circuit of unitary gates on at least one qubit, `to_unitary()` is the matrix of the operations `os` in
which a qubit that is named several times in one gate counts once (for the gates with a method of their own, `SympyOwn`). So it
agrees with simulation if and only if this makes no difference. -/
theorem C24_exact (n : ℕ) (hn : 0 < n) (gates : List Gate) (es os : List Elem) (hd : GatesDenote n gates es)
    (ho : GatesOnce n gates os) (hv : ∀ e ∈ es, e.Valid n) (hu : ∀ e ∈ es, e.IsUnitary) (hz : NoCcz gates) :
    (∃ M, syRun n gates false = .ok M ∧ IsSquare (2 ^ n) M.rows ∧
      ∀ ψ, matVec M.rows (amplitudes n ψ) = amplitudes n (unitaries phSim os ψ)) ∧
    (UnitaryMatches n gates ↔ ∀ ψ, amplitudes n (unitaries phSim es ψ) = amplitudes n (unitaries phSim os ψ)) := by
  obtain ⟨h1, h2, h3, h4⟩ := onceGates gates es os hd ho hv hz
  obtain ⟨M, m1, m2, m3⟩ := syRun_matrix hn h1 (fun e he => hv e ((h2 e).1 he)) (fun e he => hu e ((h2 e).1 he)) h3
  have hrun : syRun n gates false = .ok M := by
    rw [← m1]; simp only [syRun, h4]
  have hmat : ∀ ψ, matVec M.rows (amplitudes n ψ) = amplitudes n (unitaries phSim os ψ) := by
    intro ψ
    rw [matVec_rows m2, ← vec_eq_amplitudes, ← vec_eq_amplitudes]
    exact (vec_congr (m3 ψ)).symm
  refine ⟨⟨M, hrun, rows_square m2, hmat⟩, ?_, ?_⟩
  · rintro ⟨M', k1, -, k3⟩ ψ
    rw [hrun, Except.ok.injEq] at k1
    subst k1
    obtain ⟨ctx, c1, c2⟩ := k3 ψ (List.replicate (2 ^ n) 0) (by simp) [] false (fun _ => 0)
    obtain ⟨b', s', -, h⟩ := npRunGates_state gates es hd hv hu ψ (List.replicate (2 ^ n) 0) (by simp) [] false (fun _ => 0)
    rw [vec_eq_amplitudes, c1, Except.ok.injEq] at h
    subst h
    rw [hmat] at c2
    rw [← c2, vec_eq_amplitudes]
  · intro hsame
    refine ⟨M, hrun, rows_square m2, fun ψ buf hb cregs save rnd => ?_⟩
    obtain ⟨b', s', -, h⟩ := npRunGates_state gates es hd hv hu ψ buf hb cregs save rnd
    refine ⟨_, by rw [← vec_eq_amplitudes]; exact h, ?_⟩
    rw [hmat, ← hsame, ← vec_eq_amplitudes]

/-- Circuits without qubits: `to_unitary()` agrees with simulation if and only if no gate of `SympyOwn` occurs; otherwise it
raises TypeError (reduce of an empty sequence). -/
theorem C24_no_qubits_exact (gates : List Gate) (hd : GatesDenote 0 gates []) :
    (UnitaryMatches 0 gates ↔ ∀ k T, Gate.g1 k T ∈ gates → ¬ SympyOwn k) ∧
    ((∃ k T, Gate.g1 k T ∈ gates ∧ SympyOwn k) → syRun 0 gates false = .error .typeError) := by
  have herr : ∀ gates : List Gate, GatesDenote 0 gates [] → ∀ M,
      ((∃ k T, Gate.g1 k T ∈ gates ∧ SympyOwn k) → runGates (syAction 0) 0 recursionLimit gates M = .error .typeError) ∧
      ((∀ k T, Gate.g1 k T ∈ gates → ¬ SympyOwn k) → runGates (syAction 0) 0 recursionLimit gates M = .ok M) := by
    intro gates
    induction gates with
    | nil => intro _ M; exact ⟨fun h => by obtain ⟨k, T, h, -⟩ := h; exact absurd h List.not_mem_nil, fun _ => rfl⟩
    | cons g gates ih =>
      rintro ⟨e1, e2, h1, h2, h⟩ M
      obtain ⟨rfl, rfl⟩ : e1 = [] ∧ e2 = [] := by simpa using h.symm
      obtain ⟨i1, i2⟩ := ih h2 M
      by_cases hg : ∃ k T, g = .g1 k T ∧ SympyOwn k
      · obtain ⟨k, T, rfl, hk⟩ := hg
        obtain ⟨L, hL, hL0⟩ := h1
        obtain rfl : L = [] := by simpa using hL0.symm
        obtain ⟨G, hG⟩ := Option.isSome_iff_exists.1 ((sympyOwn_iff k).1 hk)
        have hT := (toList_eq_ok_iff _ _).2 ((slicing_eq_iff 0 T _).2 hL)
        refine ⟨fun _ => ?_, fun hno => absurd hk (hno k T (by simp))⟩
        simp only [runGates, List.foldlM_cons]
        rw [runGate_native (a := syGate1 0 G T) (by simp [syAction, hG])]
        simp only [syGate1]
        erw [hT]
        rfl
      · have hone : runGate (syAction 0) 0 recursionLimit g M = .ok M := by
          cases g with
          | g1 k T =>
            have hk : ¬ SympyOwn k := fun h => hg ⟨k, T, rfl, h⟩
            obtain ⟨L, hL, hL0⟩ := h1
            obtain rfl : L = [] := by simpa using hL0.symm
            have hT := (toList_eq_ok_iff _ _).2 ((slicing_eq_iff 0 T _).2 hL)
            have hstep : ∀ fuel, runGate (syAction 0) 0 (fuel + 1) (.g1 k T) M = .ok M := by
              intro fuel
              have hno : syAction 0 (.g1 k T) = none := by
                cases k <;> simp [SympyOwn] at hk <;> rfl
              have hf : (Gate.g1 k T).fallback 0 = .ok [] := by
                cases k <;> simp [SympyOwn] at hk <;> simp only [Gate.fallback, G1.fallbackOn] <;> (try erw [hT]) <;> rfl
              simp only [runGate, hno, hf]
              rfl
            exact hstep 999
          | g2 k T =>
            obtain ⟨L, hL, hL0⟩ := h1
            obtain rfl : L = [] := by simpa using hL0.symm
            rw [← pairsDenote_iff] at hL
            have hstep : ∀ fuel, runGate (syAction 0) 0 (fuel + 1) (.g2 k T) M = .ok M := by
              intro fuel
              cases hact : syAction 0 (.g2 k T) with
              | some a =>
                simp only [runGate, hact]
                cases k <;> simp only [syAction, Option.some.injEq, reduceCtorEq] at hact <;> subst hact <;>
                  simp only [syGate2] <;> erw [hL] <;> rfl
              | none =>
                have hf : (Gate.g2 k T).fallback 0 = .ok [] := by
                  cases k <;> simp only [syAction, reduceCtorEq] at hact <;> simp only [Gate.fallback, G2.fallbackOn] <;> erw [hL] <;> rfl
                simp only [runGate, hact, hf]
                rfl
            exact hstep 999
          | g3 k T => obtain ⟨a, b, c, -, h⟩ := h1; cases h
          | measure T => exact runGate_native rfl M
          | reset T => exact runGate_native rfl M
        constructor
        · rintro ⟨k, T, hm, hk⟩
          simp only [List.mem_cons] at hm
          rcases hm with rfl | hm
          · exact absurd ⟨k, T, rfl, hk⟩ hg
          · simp only [runGates, List.foldlM_cons, hone]; exact i1 ⟨k, T, hm, hk⟩
        · intro hno
          simp only [runGates, List.foldlM_cons, hone]
          exact i2 (fun k T hm => hno k T (by simp [hm]))
  have hcase : (∃ k T, Gate.g1 k T ∈ gates ∧ SympyOwn k) → syRun 0 gates false = .error .typeError := by
    intro h
    simp only [syRun, (herr gates hd _).1 h]; rfl
  refine ⟨⟨?_, ?_⟩, hcase⟩
  · rintro ⟨M, h1, -⟩ k T hm hk
    rw [hcase ⟨k, T, hm, hk⟩] at h1
    cases h1
  · intro hno
    have hrun : syRun 0 gates false = .ok (SMat.eye (2 ^ 0)) := by
      simp only [syRun, (herr gates hd _).2 hno]; rfl
    refine ⟨_, hrun, rows_square rfl, fun ψ buf hb cregs save rnd => ?_⟩
    obtain ⟨b', s', -, h⟩ := npRunGates_state gates [] hd (by simp) (by simp) ψ buf hb cregs save rnd
    refine ⟨_, by rw [← vec_eq_amplitudes]; exact h, ?_⟩
    rw [matVec_rows (n := 0) rfl, ← vec_eq_amplitudes]
    exact vec_congr (mv_eye ψ)

/-- `x[0, 0]` on one qubit meets the hypotheses: it denotes X twice, and X once for the symbolic backend; `s[0, 0]` is not
affected. -/
example : GatesDenote 1 [.g1 .x (.tup [.atom (.int 0), .atom (.int 0)]), .g1 .s (.tup [.atom (.int 0), .atom (.int 0)])]
      [.one .x 0, .one .x 0, .one .s 0, .one .s 0] ∧
    GatesOnce 1 [.g1 .x (.tup [.atom (.int 0), .atom (.int 0)]), .g1 .s (.tup [.atom (.int 0), .atom (.int 0)])]
      [.one .x 0, .one .s 0, .one .s 0] := by
  have h : TargetsDenote ((1 : ℕ) : ℤ) (.tup [.atom (.int 0), .atom (.int 0)]) (([0, 0] : List ℕ).map (fun q : ℕ => (q : Int))) := by
    rw [← slicing_eq_iff]; rfl
  refine ⟨⟨[.one .x 0, .one .x 0], [.one .s 0, .one .s 0], ⟨[0, 0], h, rfl⟩, ⟨_, [], ⟨[0, 0], h, rfl⟩, rfl, rfl⟩, rfl⟩,
    ⟨[.one .x 0], [.one .s 0, .one .s 0], ⟨[0, 0], h, .inl ⟨trivial, rfl⟩⟩, ⟨_, [], ⟨[0, 0], h, .inr ⟨fun h => h, rfl⟩⟩, rfl, rfl⟩, rfl⟩⟩

/-- Circuits without qubits: `x[:]` is such a circuit. -/
example : GatesDenote 0 [.g1 .x (.one (.slice none none none))] [] := C24_no_qubits_refuted.1

end Blueqat
