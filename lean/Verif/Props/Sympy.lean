import Verif.SympyLemmas
import Verif.Experimental
import Verif.Props.Compose
import Mathlib.Tactic.IntervalCases

/-!
# C24 (`to_unitary` agrees with simulation), C26 (`ignore_global` of the sympy backend), C27 (`circuit_to_unitary`)
-/

set_option linter.unusedSimpArgs false
set_option linter.unusedVariables false

namespace Blueqat

open Spec

open Finset

/-! ## C24 -/

theorem rows_square {d : ℕ} {M : SMat} (h : M.dim = d) : IsSquare d M.rows := by
  refine ⟨by simp [SMat.rows, h], ?_⟩
  intro r hr
  simp only [SMat.rows, List.mem_map] at hr
  obtain ⟨i, -, rfl⟩ := hr
  simp [h]

theorem zipWith_map_range (d : ℕ) (f g : ℕ → ℂ) :
    (List.zipWith (· * ·) ((List.range d).map f) ((List.range d).map g)).sum = ∑ k ∈ range d, f k * g k := by
  rw [List.zipWith_map, List.zipWith_self, sum_list_range]

theorem matVec_rows {n : ℕ} {M : SMat} (h : M.dim = 2 ^ n) (ψ : Vec) :
    matVec M.rows (amplitudes n ψ) = amplitudes n (mv (2 ^ n) M ψ) := by
  simp only [matVec, SMat.rows, h, amplitudes, List.map_map]
  refine List.map_congr_left fun i _ => ?_
  simp only [Function.comp_apply, zipWith_map_range, mv]

theorem mv_eye {n : ℕ} (ψ : Vec) : ∀ i < 2 ^ n, ψ i = mv (2 ^ n) (SMat.eye (2 ^ n)) ψ i := by
  intro i hi
  simp only [mv, SMat.eye, ite_mul, one_mul, zero_mul]
  rw [sum_ite_eq]; simp [hi]

/-- No one-qubit gate of the list names a qubit twice in its subscript. -/
def NoRepeat (n : ℕ) (gates : List Gate) : Prop :=
  ∀ k T L, Gate.g1 k T ∈ gates → TargetsDenote n T L → L.Nodup

/-- No `ccz` (there is no circuit method for it, and the symbolic backend does not know it). -/
def NoCcz (gates : List Gate) : Prop := ∀ T, Gate.g3 .ccz T ∉ gates

/-- What C24 claims of one circuit: `to_unitary()` returns a `2^n` by `2^n` matrix, and the numpy backend turns
any state (any amplitudes, whatever is in its scratch buffer, classical register and flags) into that matrix times
the state. -/
def UnitaryMatches (n : ℕ) (gates : List Gate) : Prop :=
  ∃ M, syRun n gates false = .ok M ∧ IsSquare (2 ^ n) M.rows ∧
    ∀ (ψ : Vec) (buf : Arr), buf.length = 2 ^ n → ∀ (cregs : List ℕ) (save : Bool) (rnd : ℕ → ℝ),
      ∃ ctx, runGates (npAction n) n recursionLimit gates ⟨amplitudes n ψ, buf, cregs, save, rnd⟩ = .ok ctx ∧
        ctx.qubits = matVec M.rows (amplitudes n ψ)

/-- C24 in full: every circuit of unitary gates with valid targets. -/
def C24_full : Prop := ∀ (n : ℕ) (gates : List Gate) (es : List Elem), GatesDenote n gates es →
  (∀ e ∈ es, e.Valid n) → (∀ e ∈ es, e.IsUnitary) → NoCcz gates → UnitaryMatches n gates

theorem syOk_of {n : ℕ} {gates : List Gate} (hr : NoRepeat n gates) (hz : NoCcz gates) : ∀ g ∈ gates, SyOk n g := by
  intro g hg
  cases g with
  | g1 k T => exact fun _ L hL => hr k T L hg hL
  | g3 k T => cases k <;> first | trivial | exact absurd hg (hz T)
  | g2 => trivial
  | measure => trivial
  | reset => trivial

theorem syRun_matrix {n : ℕ} (hn : 0 < n) {gates : List Gate} {es : List Elem} (hd : GatesDenote n gates es)
    (hv : ∀ e ∈ es, e.Valid n) (hu : ∀ e ∈ es, e.IsUnitary) (hq : ∀ g ∈ gates, SyOk n g) :
    ∃ M, syRun n gates false = .ok M ∧ M.dim = 2 ^ n ∧
      ∀ ψ, ∀ i < 2 ^ n, unitaries phSim es ψ i = mv (2 ^ n) M ψ i := by
  have key : ∀ ψ, ∃ M, runGates (syAction n) n recursionLimit gates (SMat.eye (2 ^ n)) = .ok M ∧
      SyRel ψ n M (steps phSim n es ⟨ψ, fun _ => false, fun _ => 0⟩) := fun ψ =>
    syRunGates_refine hn ψ gates es hd hv hu hq (SMat.eye (2 ^ n)) ⟨ψ, fun _ => false, fun _ => 0⟩ ⟨rfl, mv_eye ψ⟩
  obtain ⟨M, hM, hR⟩ := key 0
  refine ⟨M, by simp only [syRun, hM]; rfl, hR.dim, ?_⟩
  intro ψ i hi
  obtain ⟨M', hM', hR'⟩ := key ψ
  have : M' = M := by rw [hM] at hM'; exact (Except.ok.inj hM').symm
  subst this
  have := hR'.eq i hi
  rw [steps_unitary phSim n es hu] at this
  exact this

/-- C24 for circuits with at least one qubit whose one-qubit gates do not name a qubit twice: `to_unitary()` times
any vector is what the numpy backend does to that vector. Gates without a method of their own in either backend
are included. -/
theorem C24_to_unitary_partial (n : ℕ) (hn : 0 < n) (gates : List Gate) (es : List Elem) (hd : GatesDenote n gates es)
    (hv : ∀ e ∈ es, e.Valid n) (hu : ∀ e ∈ es, e.IsUnitary) (hz : NoCcz gates) (hr : NoRepeat n gates) :
    UnitaryMatches n gates := by
  obtain ⟨M, h1, h2, h3⟩ := syRun_matrix hn hd hv hu (syOk_of hr hz)
  refine ⟨M, h1, rows_square h2, ?_⟩
  intro ψ buf hb cregs save rnd
  obtain ⟨b', s', -, h⟩ := npRunGates_state gates es hd hv hu ψ buf hb cregs save rnd
  refine ⟨_, by rw [← vec_eq_amplitudes]; exact h, ?_⟩
  rw [matVec_rows h2, ← vec_eq_amplitudes]
  exact vec_congr (h3 ψ)

/-- The hypotheses hold for `Circuit(2).h[:].cu1(0.3)[0, 1]`. -/
example : GatesDenote 2 [.g1 .h (.one (.slice none none none)), .g2 (.cu1 0.3) (.tup [.atom (.int 0), .atom (.int 1)])]
    [.one .h 0, .one .h 1, .two (.cu1 0.3) 0 1] ∧
    NoRepeat 2 [.g1 .h (.one (.slice none none none)), .g2 (.cu1 0.3) (.tup [.atom (.int 0), .atom (.int 1)])] := by
  have hs : TargetsDenote ((2 : ℕ) : ℤ) (.one (.slice none none none)) (([0, 1] : List ℕ).map (fun q : ℕ => (q : Int))) := by
    rw [← slicing_eq_iff]; simp [slicing, slicingSinglevalue, sliceIndices, loopUp]
  constructor
  · refine ⟨[.one .h 0, .one .h 1], [.two (.cu1 0.3) 0 1], ⟨[0, 1], hs, rfl⟩,
      ⟨[.two (.cu1 0.3) 0 1], [], ⟨[(0, 1)], ?_, rfl⟩, rfl, rfl⟩, rfl⟩
    rw [← pairsDenote_iff]; rfl
  · intro k T L hg hL
    simp only [List.mem_cons, Gate.g1.injEq, reduceCtorEq, List.not_mem_nil, or_false] at hg
    obtain ⟨-, rfl⟩ := hg
    have h2 : slicing (.one (.slice none none none)) ((2 : ℕ) : ℤ) = ⟨L, none⟩ := (slicing_eq_iff 2 _ L).2 hL
    rw [(slicing_eq_iff 2 _ _).2 hs] at h2
    have := congrArg Gen.vals h2
    simp only at this
    rw [← this]; decide

theorem runGate_native {σ : Type} {act : Gate → Option (σ → Except PyErr σ)} {n : ℕ} {g : Gate}
    {a : σ → Except PyErr σ} (h : act g = some a) (s : σ) : runGate act n recursionLimit g s = a s := by
  have : ∀ fuel, runGate act n (fuel + 1) g s = a s := fun fuel => by simp only [runGate, h]
  exact this 999

/-- `x[0, 0]` on one qubit: the symbolic backend applies X once. -/
theorem syRun_xx : syRun 1 [.g1 .x (.tup [.atom (.int 0), .atom (.int 0)])] false =
    .ok ((SMat.lit 0 1 1 0).mul (SMat.eye 2)) := by
  simp only [syRun, runGates, List.foldlM_cons, List.foldlM_nil]
  rw [runGate_native (a := syGate1 1 (.lit 0 1 1 0) (.tup [.atom (.int 0), .atom (.int 0)])) rfl]
  rfl

/-- C24 is false in general: `Circuit(1).x[0, 0]` flips the qubit twice on the numpy backend, but its
`to_unitary()` is X. -/
theorem C24_to_unitary_refuted : ¬ C24_full := by
  intro h
  have hd : GatesDenote 1 [.g1 .x (.tup [.atom (.int 0), .atom (.int 0)])] [.one .x 0, .one .x 0] := by
    refine ⟨[.one .x 0, .one .x 0], [], ⟨[0, 0], ?_, rfl⟩, rfl, rfl⟩
    rw [← slicing_eq_iff]; rfl
  have hv : ∀ e ∈ [Elem.one .x 0, Elem.one .x 0], e.Valid 1 := by simp [Elem.Valid]
  have hu : ∀ e ∈ [Elem.one .x 0, Elem.one .x 0], e.IsUnitary := by simp [Elem.IsUnitary]
  obtain ⟨M, h1, -, h3⟩ := h 1 _ _ hd hv hu (by intro T; simp)
  rw [syRun_xx, Except.ok.injEq] at h1
  subst h1
  obtain ⟨ctx, hc, he⟩ := h3 (basis 0) [0, 0] rfl [] false (fun _ => 0)
  obtain ⟨b', s', -, hn⟩ := npRunGates_state _ _ hd hv hu (basis 0) [0, 0] rfl [] false (fun _ => 0)
  rw [vec_eq_amplitudes, hc, Except.ok.injEq] at hn
  subst hn
  have e0 := congrArg (fun l : List ℂ => l.getD 0 0) he
  have e1 : unitaries phSim [.one .x 0, .one .x 0] (basis 0) = basis 0 := app_inv 0 (matrix1_dagger .x) (basis 0)
  simp [e1, vec, List.range_succ, basis, matVec, SMat.rows, SMat.mul, SMat.lit, SMat.eye, amplitudes] at e0

/-- C24 also fails without qubits: `Circuit().x[:]` (no qubit addressed) runs on the numpy backend, but
`to_unitary()` raises TypeError. -/
theorem C24_no_qubits_refuted : GatesDenote 0 [.g1 .x (.one (.slice none none none))] [] ∧
    syRun 0 [.g1 .x (.one (.slice none none none))] false = .error .typeError := by
  have hs : slicing (.one (.slice none none none)) ((0 : ℕ) : ℤ) = ⟨[], none⟩ := by
    simp [slicing, slicingSinglevalue, sliceIndices, loopUp]
  constructor
  · refine ⟨[], [], ⟨[], ?_, rfl⟩, rfl, rfl⟩
    rw [← slicing_eq_iff]; exact hs
  · simp only [syRun, runGates, List.foldlM_cons, List.foldlM_nil]
    rw [runGate_native (a := syGate1 0 (.lit 0 1 1 0) (.one (.slice none none none))) rfl]
    simp only [syGate1, hs, Gen.toList]
    rfl

/-! ## C26 -/

/-- Some diagonal entry is not zero. -/
def HasDiagonal (rows : List (List ℂ)) : Prop := ∃ i, i < rows.length ∧ (rows.getD i []).getD i 0 ≠ 0

/-- C26 in full: circuits whose unitaries differ by a global phase have the same unitary with `ignore_global`. -/
def C26_full : Prop := ∀ (n : ℕ) (gates gates' : List Gate) (M M' : SMat) (z : ℂ), syRun n gates false = .ok M →
  syRun n gates' false = .ok M' → ‖z‖ = 1 → M'.rows = scaleRows z M.rows →
  ∃ N N', syRun n gates true = .ok N ∧ syRun n gates' true = .ok N' ∧ N.rows = N'.rows

theorem syRun_true {n : ℕ} {gates : List Gate} {M : SMat} (h : syRun n gates false = .ok M) :
    syRun n gates true = .ok (syIgnoreGlobal M) := by
  simp only [syRun] at *
  cases hr : runGates (syAction n) n recursionLimit gates (SMat.eye (2 ^ n)) with
  | error e => rw [hr] at h; exact absurd h (by simp [bind, Except.bind])
  | ok x =>
    rw [hr] at h
    have : x = M := Except.ok.inj h
    subst this
    rfl

theorem rows_entry {M : SMat} {i j : ℕ} (hi : i < M.dim) (hj : j < M.dim) : (M.rows.getD i []).getD j 0 = M.ent i j := by
  simp [SMat.rows, List.getD_eq_getElem?_getD, hi, hj]

theorem rows_scale {M M' : SMat} {z : ℂ} (h : M'.rows = scaleRows z M.rows) :
    M'.dim = M.dim ∧ ∀ i < M.dim, ∀ j < M.dim, M'.ent i j = z * M.ent i j := by
  have hd : M'.dim = M.dim := by
    have := congrArg List.length h; simpa [SMat.rows, scaleRows] using this
  refine ⟨hd, fun i hi j hj => ?_⟩
  rw [← rows_entry (M := M') (by omega) (by omega), h]
  simp [scaleRows, SMat.rows, List.getD_eq_getElem?_getD, hi, hj]

theorem rows_congr {M M' : SMat} (hd : M.dim = M'.dim) (h : ∀ i < M.dim, ∀ j < M.dim, M.ent i j = M'.ent i j) :
    M.rows = M'.rows := by
  simp only [SMat.rows, ← hd]
  exact List.map_congr_left fun i hi => List.map_congr_left fun j hj => h i (List.mem_range.1 hi) j (List.mem_range.1 hj)

theorem find_congr {d : ℕ} {p q : ℕ → Bool} (h : ∀ i < d, p i = q i) :
    (List.range d).find? p = (List.range d).find? q := by
  have : ∀ l : List ℕ, (∀ i ∈ l, p i = q i) → l.find? p = l.find? q := by
    intro l
    induction l with
    | nil => intro; rfl
    | cons x l ih => intro hl; simp only [List.find?_cons, hl x (by simp), ih fun i hi => hl i (by simp [hi])]
  exact this _ fun i hi => h i (List.mem_range.1 hi)

/-- C26 for circuits whose unitary has a non-zero diagonal entry: with `ignore_global` both circuits give the same
matrix. -/
theorem C26_ignore_global_partial (n : ℕ) (gates gates' : List Gate) (M M' : SMat) (z : ℂ)
    (h : syRun n gates false = .ok M) (h' : syRun n gates' false = .ok M') (hz : ‖z‖ = 1)
    (hs : M'.rows = scaleRows z M.rows) (hdiag : HasDiagonal M.rows) :
    ∃ N N', syRun n gates true = .ok N ∧ syRun n gates' true = .ok N' ∧ N.rows = N'.rows := by
  refine ⟨_, _, syRun_true h, syRun_true h', ?_⟩
  obtain ⟨hd, he⟩ := rows_scale hs
  have hz0 : z ≠ 0 := by intro h0; rw [h0] at hz; simp at hz
  have hf : (List.range M'.dim).find? (fun i => decide (M'.ent i i ≠ 0)) =
      (List.range M.dim).find? (fun i => decide (M.ent i i ≠ 0)) := by
    rw [hd]; apply find_congr
    intro i hi; simp [he i hi i hi, hz0]
  simp only [syIgnoreGlobal, hf]
  cases hq : (List.range M.dim).find? (fun i => decide (M.ent i i ≠ 0)) with
  | none =>
    obtain ⟨i, hi, hne⟩ := hdiag
    have hi' : i < M.dim := by simpa [SMat.rows] using hi
    rw [rows_entry hi' hi'] at hne
    have := List.find?_eq_none.1 hq i (List.mem_range.2 hi')
    simp [hne] at this
  | some i =>
    have hi := List.mem_range.1 (List.mem_of_find?_eq_some hq)
    have hne : M.ent i i ≠ 0 := by simpa using List.find?_some hq
    apply rows_congr
    · exact hd.symm
    · intro a ha b hb
      simp only [SMat.scale, he i hi i hi, he a ha b hb, norm_mul, hz, one_mul]
      field_simp

theorem syRun_one {k : G1} {G : SMat} (h : sySympyGate k = some G) :
    syRun 1 [.g1 k (.one (.int 0))] false = .ok (G.mul (SMat.eye 2)) := by
  simp only [syRun, runGates, List.foldlM_cons, List.foldlM_nil]
  rw [runGate_native (a := syGate1 1 G (.one (.int 0))) (by simp only [syAction, h]; rfl)]
  rfl

theorem rows_lit (a b c d : ℂ) : ((SMat.lit a b c d).mul (SMat.eye 2)).rows = [[a, b], [c, d]] := by
  simp [SMat.rows, SMat.mul, SMat.lit, SMat.eye, List.range_succ]

/-- The hypotheses hold for `rz(θ)` and `phase(θ)`, which differ by the phase `e^{iθ/2}`. -/
example (θ : ℝ) : ∃ M M' : SMat, syRun 1 [.g1 (.rz θ) (.one (.int 0))] false = .ok M ∧
    syRun 1 [.g1 (.phase θ) (.one (.int 0))] false = .ok M' ∧ ‖cis (θ / 2)‖ = 1 ∧
    M'.rows = scaleRows (cis (θ / 2)) M.rows ∧ HasDiagonal M.rows := by
  refine ⟨_, _, syRun_one rfl, syRun_one rfl, norm_cis _, ?_, ?_⟩
  · rw [rows_lit, rows_lit]
    have e1 : cis (θ / 2) * Complex.exp (-(Complex.I * θ) / 2) = 1 := by
      simp only [cis, ← Complex.exp_add]; rw [← Complex.exp_zero]; congr 1; push_cast; ring
    have e2 : cis (θ / 2) * Complex.exp (Complex.I * θ / 2) = Complex.exp (Complex.I * θ) := by
      simp only [cis, ← Complex.exp_add]; congr 1; push_cast; ring
    simp [scaleRows, e1, e2]
  · rw [rows_lit]; exact ⟨0, by simp, by simp [Complex.exp_ne_zero]⟩

/-- Whatever the circuit, `ignore_global` changes the matrix only by a global phase, and the first non-zero
diagonal entry becomes a positive number. -/
theorem C26_global_phase (n : ℕ) (gates : List Gate) (M : SMat) (h : syRun n gates false = .ok M) :
    ∃ (N : SMat) (z : ℂ), syRun n gates true = .ok N ∧ ‖z‖ = 1 ∧ N.rows = scaleRows z M.rows ∧
      ∀ i < N.dim, N.ent i i ≠ 0 → (∀ j < i, N.ent j j = 0) → ∃ r : ℝ, 0 < r ∧ N.ent i i = r := by
  refine ⟨syIgnoreGlobal M, ?_⟩
  simp only [syIgnoreGlobal]
  cases hq : (List.range M.dim).find? (fun i => decide (M.ent i i ≠ 0)) with
  | none =>
    refine ⟨1, by rw [syRun_true h, syIgnoreGlobal, hq], by simp, by simp [scaleRows], ?_⟩
    intro i hi hne
    have := List.find?_eq_none.1 hq i (List.mem_range.2 hi)
    simp [hne] at this
  | some i =>
    have hi := List.mem_range.1 (List.mem_of_find?_eq_some hq)
    have hne : M.ent i i ≠ 0 := by simpa using List.find?_some hq
    have hn0 : ((‖M.ent i i‖ : ℝ) : ℂ) ≠ 0 := by simpa using hne
    refine ⟨(‖M.ent i i‖ : ℂ) / M.ent i i, by rw [syRun_true h, syIgnoreGlobal, hq], ?_, ?_, ?_⟩
    · rw [norm_div]; simp [hne]
    · simp only [SMat.rows, SMat.scale, scaleRows, List.map_map]
      refine List.map_congr_left fun a _ => ?_
      simp only [Function.comp_apply, List.map_map]
      exact List.map_congr_left fun b _ => by simp only [Function.comp_apply, mul_comm]
    · intro j hj hnj hlt
      have hji : j = i := by
        have h1 : ¬ i < j := fun hij => by
          have := hlt i hij
          simp only [SMat.scale, mul_eq_zero, div_eq_zero_iff] at this
          tauto
        have h2 : ¬ j < i := fun hji => by
          have hz : M.ent j j = 0 := by
            have := (List.find?_eq_some_iff_getElem.1 hq)
            obtain ⟨-, k, hk, hki, hmin⟩ := this
            simp only [List.getElem_range] at hki
            subst hki
            have := hmin j hji
            simpa using this
          simp [SMat.scale, hz] at hnj
        omega
      subst hji
      refine ⟨‖M.ent j j‖, by simpa using hne, ?_⟩
      simp only [SMat.scale]; field_simp

/-- C26 is false in general: X and `rx(π)` = -iX have a zero diagonal, and `ignore_global` changes neither. -/
theorem C26_ignore_global_refuted : ¬ C26_full := by
  intro h
  obtain ⟨N, N', h1, h2, h3⟩ := h 1 [.g1 .x (.one (.int 0))] [.g1 (.rx Real.pi) (.one (.int 0))] _ _ (-Complex.I)
    (syRun_one rfl) (syRun_one rfl) (by simp) (by rw [rows_lit, rows_lit]; simp [scaleRows])
  rw [syRun_true (syRun_one rfl), Except.ok.injEq] at h1 h2
  have key : ∀ b c : ℂ, syIgnoreGlobal ((SMat.lit 0 b c 0).mul (SMat.eye 2)) = (SMat.lit 0 b c 0).mul (SMat.eye 2) := by
    intro b c
    have : (List.range ((SMat.lit 0 b c 0).mul (SMat.eye 2)).dim).find?
        (fun i => decide (((SMat.lit 0 b c 0).mul (SMat.eye 2)).ent i i ≠ 0)) = none := by
      rw [List.find?_eq_none]
      intro i hi
      have : i < 2 := List.mem_range.1 hi
      interval_cases i <;> simp [SMat.mul, SMat.lit, SMat.eye, List.range_succ]
    simp only [syIgnoreGlobal, this]
  have e : Complex.cos (((Real.pi : ℝ) : ℂ) / 2) = 0 := by simp
  simp only [e] at h2
  rw [key] at h1 h2
  rw [← h1, ← h2, rows_lit, rows_lit] at h3
  have := congrArg (fun l : List (List ℂ) => (l.getD 0 []).getD 1 0) h3
  simp at this
  have := congrArg Complex.re this
  simp at this

end Blueqat
