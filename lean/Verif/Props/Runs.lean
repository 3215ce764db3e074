import Verif.Props.Leftover
import Verif.Props.Negative
import Verif.Props.InRange
import Verif.Props.Compose
import Verif.Props.Targets
import Verif.Props.Numba

/-!
# C111: which circuits run
-/

set_option linter.unusedSimpArgs false
set_option linter.unusedVariables false

namespace Blueqat

open Spec

noncomputable section

theorem ints_mentioned {v : ℤ} {T : Targets} (h : v ∈ intsOf T) : Mentions v T := by
  have hm : ∀ a : Atom, v ∈ (match a with | .int i => [i] | _ => []) → a = .int v := by
    intro a ha
    cases a <;> simp at ha
    subst ha; rfl
  simp only [intsOf, List.mem_flatMap] at h
  obtain ⟨a, ha, hv⟩ := h
  have := hm a hv
  subst this
  cases T with
  | one b => simp only [atomsOf, List.mem_singleton] at ha; exact ha.symm
  | tup xs =>
    simp only [atomsOf, List.mem_flatMap] at ha
    obtain ⟨x, hx, hax⟩ := ha
    refine ⟨x, hx, ?_⟩
    cases x with
    | atom b => simp only [List.mem_singleton] at hax; exact .inl (by rw [hax])
    | tup as => exact .inr ⟨as, rfl, hax⟩

theorem nat_list {n : ℕ} {L : List ℤ} (h : ∀ q ∈ L, 0 ≤ q ∧ q < n) :
    ∃ M : List ℕ, L = M.map (fun q : ℕ => (q : ℤ)) ∧ ∀ q ∈ M, q < n := by
  refine ⟨L.map Int.toNat, ?_, ?_⟩
  · rw [List.map_map]
    conv_lhs => rw [← List.map_id L]
    refine List.map_congr_left fun q hq => ?_
    have := h q hq
    simp only [id, Function.comp_apply]; omega
  · intro q hq
    obtain ⟨v, hv, rfl⟩ := List.mem_map.1 hq
    have := h v hv
    omega

theorem nat_pairs {n : ℕ} {L : List (ℤ × ℤ)} (h : ∀ p ∈ L, (0 ≤ p.1 ∧ p.1 < n) ∧ 0 ≤ p.2 ∧ p.2 < n) :
    ∃ M : List (ℕ × ℕ), L = M.map (fun p : ℕ × ℕ => ((p.1 : ℤ), (p.2 : ℤ))) ∧ ∀ p ∈ M, p.1 < n ∧ p.2 < n := by
  refine ⟨L.map fun p => (p.1.toNat, p.2.toNat), ?_, ?_⟩
  · rw [List.map_map]
    conv_lhs => rw [← List.map_id L]
    refine List.map_congr_left fun p hp => ?_
    have := h p hp
    simp only [id, Function.comp_apply]
    ext <;> simp <;> omega
  · intro p hp
    obtain ⟨v, hv, rfl⟩ := List.mem_map.1 hp
    have := h v hv
    constructor <;> simp only <;> omega

/-- The subscript of the gate can be read to its end. -/
def Reads (n : ℕ) : Gate → Prop
  | .g1 _ T => (slicing T n).err = none
  | .measure T => (slicing T n).err = none
  | .reset T => (slicing T n).err = none
  | .g2 _ T => ∃ ps, qubitPairs T n = .ok ps
  | .g3 _ _ => True

/-- A gate with a method of its own that runs: all of its subscript can be read. -/
theorem gate_reads {n : ℕ} {g : Gate} (hn : npHas g = true) {ctx ctx' : NpCtx} (h : npRunGate n g ctx = .ok ctx') :
    Reads n g := by
  have hrun : ∀ a, npAction n g = some a → a ctx = .ok ctx' := by
    intro a ha
    have step : ∀ fuel, runGate (npAction n) n (fuel + 1) g ctx = a ctx := by
      intro fuel; simp only [runGate, ha]
    rw [← step 999]; exact h
  have hgen : ∀ (T : Targets) {σ : Type} (body : ℤ → σ → Except PyErr σ) (s s' : σ),
      forGen (slicing T n) body s = .ok s' → (slicing T n).err = none := by
    intro T σ body s s' hs
    by_contra hne
    obtain ⟨e, he⟩ := forGen_err (g := slicing T n) (Option.isSome_iff_ne_none.2 hne) body s
    rw [he] at hs; cases hs
  have hin : ∀ (T : Targets) (body : ℕ → ℤ → Arr → Except PyErr Arr), inPlaceLoop1 body n T ctx = .ok ctx' →
      (slicing T n).err = none := by
    intro T body hl
    simp only [inPlaceLoop1] at hl
    split at hl
    · cases hl
    · rename_i hs; exact hgen T _ _ _ hs
  have hsw : ∀ (T : Targets) (body : ℕ → ℤ → Bufs → Except PyErr Bufs), swapLoop1 body n T ctx = .ok ctx' →
      (slicing T n).err = none := by
    intro T body hl
    simp only [swapLoop1] at hl
    split at hl
    · cases hl
    · rename_i hs; exact hgen T _ _ _ hs
  have hpr : ∀ (T : Targets) {σ : Type} (body : ℤ → ℤ → σ → Except PyErr σ) (s s' : σ),
      forPairs (qubitPairs T n) body s = .ok s' → ∃ ps, qubitPairs T n = .ok ps := by
    intro T σ body s s' hs
    cases hq : qubitPairs T n with
    | error e => rw [hq] at hs; cases hs
    | ok ps => exact ⟨ps, rfl⟩
  have hin2 : ∀ (T : Targets) (body : ℕ → ℤ → ℤ → Arr → Except PyErr Arr), inPlaceLoop2 body n T ctx = .ok ctx' →
      ∃ ps, qubitPairs T n = .ok ps := by
    intro T body hl
    simp only [inPlaceLoop2] at hl
    split at hl
    · cases hl
    · rename_i hs; exact hpr T _ _ _ hs
  have hsw2 : ∀ (T : Targets) (body : ℕ → ℤ → ℤ → Bufs → Except PyErr Bufs), swapLoop2 body n T ctx = .ok ctx' →
      ∃ ps, qubitPairs T n = .ok ps := by
    intro T body hl
    simp only [swapLoop2] at hl
    split at hl
    · cases hl
    · rename_i hs; exact hpr T _ _ _ hs
  cases g with
  | g1 k T =>
    cases k <;> simp only [npHas, Bool.false_eq_true] at hn <;>
      first
      | exact hin T _ (hrun _ rfl)
      | exact hsw T _ (hrun _ rfl)
  | g2 k T =>
    cases k <;> simp only [npHas, Bool.false_eq_true] at hn <;>
      first
      | exact hin2 T _ (hrun _ rfl)
      | exact hsw2 T _ (hrun _ rfl)
  | g3 k T => trivial
  | measure T =>
    have := hrun _ rfl
    simp only [npGateMeasure] at this
    split at this
    · cases this
    · rename_i hs; exact hgen T _ _ _ hs
  | reset T =>
    have := hrun _ rfl
    simp only [npGateReset] at this
    split at this
    · cases this
    · rename_i hs; exact hgen T _ _ _ hs

/-- A one- or two-qubit gate other than `i`, a measurement or a reset that runs, natively or by fallback: all of its subscript can be
read. -/
theorem gate_reads_any {n : ℕ} {g : Gate} (hi : ∀ T, g ≠ .g1 .i T) {ctx ctx' : NpCtx} (h : npRunGate n g ctx = .ok ctx') :
    Reads n g := by
  by_cases hn : npHas g = true
  · exact gate_reads hn h
  have hfb : npAction n g = none → ∃ gs, g.fallback n = .ok gs := by
    intro ha
    have hf := runGate_fallback n 999 g ctx ha
    change npRunGate n g ctx = _ at hf
    rw [h] at hf
    cases hg : g.fallback n with
    | error e => rw [hg] at hf; cases hf
    | ok gs => exact ⟨gs, rfl⟩
  cases g with
  | g1 k T =>
    have ha : npAction n (.g1 k T) = none := by
      cases k <;> first | rfl | exact absurd rfl hn
    obtain ⟨gs, hgs⟩ := hfb ha
    show (slicing T n).err = none
    by_contra hne
    obtain ⟨e, he⟩ := Option.ne_none_iff_exists'.1 hne
    have ht : (slicing T n).toList = .error e := by simp only [Gen.toList, he]
    cases hf : k.fallbackOn with
    | none => cases k <;> first | exact absurd rfl (hi T) | simp [Gate.fallback, hf] at hgs
    | some f => cases k <;> first | exact absurd rfl (hi T) | simp [Gate.fallback, hf, ht] at hgs
  | g2 k T =>
    have ha : npAction n (.g2 k T) = none := by
      cases k <;> first | rfl | exact absurd rfl hn
    obtain ⟨gs, hgs⟩ := hfb ha
    cases hq : qubitPairs T n with
    | ok ps => exact ⟨ps, hq⟩
    | error e =>
      cases hf : k.fallbackOn with
      | none => simp [Gate.fallback, hf] at hgs
      | some f => simp [Gate.fallback, hf, hq] at hgs
  | g3 k T => trivial
  | measure T => exact absurd rfl hn
  | reset T => exact absurd rfl hn

/-- A gate whose subscript can be read, with indices of the register only, stands for operations on different qubits of it. -/
theorem reads_denotes {n : ℕ} {g : Gate} (h3 : ∀ k T, g ≠ .g3 k T) (hres : ResolvesInside n g)
    (hread : Reads n g) :
    ∃ es, GateDenotes n g es ∧ ∀ e ∈ es, e.Valid n := by
  cases g with
  | g1 k T =>
    obtain ⟨M, hM, hlt⟩ := nat_list hres
    refine ⟨M.map (Elem.one k), ⟨M, (slicing_eq_iff n T _).1 ?_, rfl⟩, ?_⟩
    · have hr : (slicing T n).err = none := hread
      rw [← hM, ← hr]
    · intro e he; obtain ⟨q, hq, rfl⟩ := List.mem_map.1 he; exact hlt q hq
  | measure T =>
    obtain ⟨M, hM, hlt⟩ := nat_list hres
    refine ⟨M.map Elem.meas, ⟨M, (slicing_eq_iff n T _).1 ?_, rfl⟩, ?_⟩
    · have hr : (slicing T n).err = none := hread
      rw [← hM, ← hr]
    · intro e he; obtain ⟨q, hq, rfl⟩ := List.mem_map.1 he; exact hlt q hq
  | reset T =>
    obtain ⟨M, hM, hlt⟩ := nat_list hres
    refine ⟨M.map Elem.reset, ⟨M, (slicing_eq_iff n T _).1 ?_, rfl⟩, ?_⟩
    · have hr : (slicing T n).err = none := hread
      rw [← hM, ← hr]
    · intro e he; obtain ⟨q, hq, rfl⟩ := List.mem_map.1 he; exact hlt q hq
  | g3 k T => exact absurd rfl (h3 k T)
  | g2 k T =>
    obtain ⟨ps, hps⟩ := hread
    obtain ⟨a, b, cs, ts, rfl, ha, hb, hl, rfl, hne⟩ := (C03_pairs n T ps).1 hps
    have h12 := hres a b rfl
    rw [(slicingItem_eq_iff n a cs).2 ha, (slicingItem_eq_iff n b ts).2 hb] at h12
    obtain ⟨M, hM, hlt⟩ := nat_pairs (n := n) (L := cs.zip ts)
      (fun p hp => ⟨h12.1 _ (List.of_mem_zip hp).1, h12.2 _ (List.of_mem_zip hp).2⟩)
    refine ⟨M.map fun p => .two k p.1 p.2, ⟨M, ⟨a, b, cs, ts, rfl, ha, hb, hl, hM.symm, ?_⟩, rfl⟩, ?_⟩
    · rw [← hM]; exact hne
    · intro e he
      obtain ⟨p, hp, rfl⟩ := List.mem_map.1 he
      refine ⟨(hlt p hp).1, (hlt p hp).2, fun heq => ?_⟩
      refine hne ((p.1 : ℤ), (p.2 : ℤ)) ?_ (by simp [heq])
      rw [hM]
      exact List.mem_map.2 ⟨p, hp, rfl⟩

/-- A gate with a method of its own that runs stands for operations on different qubits of the register. -/
theorem gate_ok_denotes {n : ℕ} {g : Gate} (hn : npHas g = true) (h3 : ∀ k T, g ≠ .g3 k T)
    (hin : ∀ v ∈ intsOf g.targets, v < n) {ctx ctx' : NpCtx} (h : npRunGate n g ctx = .ok ctx') :
    ∃ es, GateDenotes n g es ∧ ∀ e ∈ es, e.Valid n := by
  have hlow : ∀ v ∈ intsOf g.targets, -(n : ℤ) ≤ v := by
    intro v hv
    by_contra hc
    obtain ⟨e, he⟩ := C56_below_partial n g hn v (by omega) (ints_mentioned hv) ctx
    rw [he] at h; cases h
  have hres : ResolvesInside n g := by
    refine resolvesInside_of_written n g fun v hv => ⟨?_, hin v hv⟩
    cases g <;> first | exact hlow v hv | exact absurd rfl (h3 _ _)
  exact reads_denotes h3 hres (gate_reads hn h)

theorem gates_ok {n : ℕ} (gates : List Gate) : ∀ (be be' : NpBackend) (s s' : NpCtx),
    npGates n gates be s = (be', .ok s') → ∀ g ∈ gates, ∃ c c', npRunGate n g c = .ok c' := by
  induction gates with
  | nil => intro be be' s s' h g hg; simp at hg
  | cons p gates ih =>
    intro be be' s s' h g hg
    simp only [npGates] at h
    cases hp : npRunGate n p s with
    | error e => rw [hp] at h; simp at h
    | ok c =>
      rcases List.mem_cons.1 hg with rfl | hg
      · exact ⟨s, c, hp⟩
      · rw [hp] at h
        simp only at h
        split_ifs at h
        · exact ih _ _ _ _ h g hg
        · exact ih _ _ _ _ h g hg

theorem run_gates_ok {n : ℕ} {gates : List Gate} {rnd : ℕ → ℝ} {r : NpVal × (ℕ → ℝ)}
    (hr : freshRun n gates ⟨none, none, false, rnd⟩ = .ok r) (g : Gate) (hg : g ∈ gates) : ∃ c c', npRunGate n g c = .ok c' := by
  have hparse : npParse none none = .ok (1, "statevector") := by decide
  simp only [freshRun, npRunArgs, hparse] at hr
  rw [show (1 : ℤ).toNat = 0 + 1 from rfl] at hr
  cases hrun : npRun n gates (0 + 1) NpBackend.new rnd with
  | mk b x =>
    rw [hrun] at hr
    cases x with
    | error e => simp at hr
    | ok y =>
      rw [npRun, npShots] at hrun
      cases hp : npPrepare n (NpBackend.new.clearIfInvalid n).cache (npNewCtx n rnd) with
      | error e => simp [hp] at hrun
      | ok s =>
        simp only [hp] at hrun
        have hd : gates.drop ((NpBackend.new.clearIfInvalid n).cacheIdx + 1).toNat = gates := by
          simp [NpBackend.new, NpBackend.clearIfInvalid]
        rw [hd] at hrun
        cases hg' : npGates n gates (NpBackend.new.clearIfInvalid n) s with
        | mk b2 x2 =>
          rw [hg'] at hrun
          cases x2 with
          | error e => simp at hrun
          | ok c => exact gates_ok gates _ _ _ _ hg' g hg

theorem gates_denote {n : ℕ} (gates : List Gate) (h : ∀ g ∈ gates, ∃ es, GateDenotes n g es ∧ ∀ e ∈ es, e.Valid n) :
    ∃ es, GatesDenote n gates es ∧ ∀ e ∈ es, e.Valid n := by
  induction gates with
  | nil => exact ⟨[], rfl, by simp⟩
  | cons g gates ih =>
    obtain ⟨e1, h1, v1⟩ := h g (by simp)
    obtain ⟨e2, h2, v2⟩ := ih fun g hg => h g (by simp [hg])
    exact ⟨e1 ++ e2, ⟨e1, e2, h1, h2, rfl⟩, fun e he => (List.mem_append.1 he).elim (v1 e) (v2 e)⟩

/-- C111 in full: a circuit without indices beyond the register runs exactly if its gates stand for operations on qubits of the
register. -/
def C111_full : Prop :=
  ∀ (n : ℕ) (gates : List Gate) (rnd : ℕ → ℝ), InUnit rnd → (∀ g ∈ gates, ∀ v ∈ intsOf g.targets, v < n) →
    ((∃ r, freshRun n gates ⟨none, none, false, rnd⟩ = .ok r) ↔ ∃ es, GatesDenote n gates es ∧ ∀ e ∈ es, e.Valid n)

/-- C111 for circuits of gates that the numpy simulator implements itself (without three-qubit gates), none of which names an index
beyond the register: a circuit runs exactly if each gate stands for operations on qubits of the register, two-qubit gates on two different
ones. -/
theorem C111_native_partial (n : ℕ) (gates : List Gate) (hn : ∀ g ∈ gates, npHas g = true) (h3 : ∀ g ∈ gates, ∀ k T, g ≠ .g3 k T)
    (hin : ∀ g ∈ gates, ∀ v ∈ intsOf g.targets, v < n) (rnd : ℕ → ℝ) (hrnd : InUnit rnd) :
    (∃ r, freshRun n gates ⟨none, none, false, rnd⟩ = .ok r) ↔ ∃ es, GatesDenote n gates es ∧ ∀ e ∈ es, e.Valid n := by
  constructor
  · rintro ⟨r, hr⟩
    refine gates_denote gates fun g hg => ?_
    obtain ⟨c, c', hc⟩ := run_gates_ok hr g hg
    exact gate_ok_denotes (hn g hg) (h3 g hg) (hin g hg) hc
  · rintro ⟨es, hd, hv⟩
    exact ⟨_, fresh_state hd hv rnd hrnd⟩

/-- C111 for all one- and two-qubit gates other than `i`, native or by fallback, measurements and resets, all with written indices from
`-n` to `n - 1`. Missing: `i`, three-qubit gates and, for fallback gates, indices below `-n`; for these it is false
(`C111_identity_refuted`, `C111_ccz_refuted`, `C56_tdg_refuted`). -/
theorem C111_inside_partial (n : ℕ) (gates : List Gate) (hi : ∀ g ∈ gates, ∀ T, g ≠ .g1 .i T) (h3 : ∀ g ∈ gates, ∀ k T, g ≠ .g3 k T)
    (hin : ∀ g ∈ gates, WrittenInRange n g) (rnd : ℕ → ℝ) (hrnd : InUnit rnd) :
    (∃ r, freshRun n gates ⟨none, none, false, rnd⟩ = .ok r) ↔ ∃ es, GatesDenote n gates es ∧ ∀ e ∈ es, e.Valid n := by
  constructor
  · rintro ⟨r, hr⟩
    refine gates_denote gates fun g hg => ?_
    obtain ⟨c, c', hc⟩ := run_gates_ok hr g hg
    exact reads_denotes (h3 g hg) (resolvesInside_of_written n g (hin g hg)) (gate_reads_any (hi g hg) hc)
  · rintro ⟨es, hd, hv⟩
    exact ⟨_, fresh_state hd hv rnd hrnd⟩

/-- `tdg[1]`, `swap[0, -1]` and `rxx(θ)[0, 1]` on two qubits are such gates. -/
example (θ : ℝ) : ∀ g ∈ [Gate.g1 .tdg (.one (.int 1)), .g2 .swap (.tup [.atom (.int 0), .atom (.int (-1))]),
    .g2 (.rxx θ) (.tup [.atom (.int 0), .atom (.int 1)])],
    (∀ T, g ≠ .g1 .i T) ∧ (∀ k T, g ≠ .g3 k T) ∧ WrittenInRange 2 g := by
  simp [WrittenInRange, Gate.targets, intsOf, atomsOf, lowest]
  constructor <;> intro v <;> omega

/-- C111 is false of the code: `i[-5]` runs on one qubit. -/
theorem C111_identity_refuted : ¬ C111_full := by
  intro h
  have h1 := h 1 [.g1 .i (.one (.int (-5)))] (fun _ => 0) (fun k => by simp) (by simp [Gate.targets, intsOf, atomsOf])
  obtain ⟨es, ⟨e1, e2, ⟨L, hL, -⟩, -⟩, -⟩ := h1.1 ⟨_, rfl⟩
  have h2 : L.map (fun q : ℕ => (q : ℤ)) = [pyIndex 1 (-5)] := hL
  cases L with
  | nil => simp at h2
  | cons a L => simp [pyIndex] at h2

/-- C111 is false of the code: `ccz[0, 0, 1]` runs. -/
theorem C111_ccz_refuted : ¬ C111_full := by
  intro h
  have h1 := h 2 [.g3 .ccz (.tup [.atom (.int 0), .atom (.int 0), .atom (.int 1)])] (fun _ => 0) (fun k => by simp)
    (by simp [Gate.targets, intsOf, atomsOf]; omega)
  obtain ⟨es, ⟨e1, e2, ⟨a, b, c, hT, rfl⟩, -, rfl⟩, hv⟩ := h1.1 ⟨_, rfl⟩
  have hab := hv (.three .ccz a b c) (by simp)
  simp at hT
  obtain ⟨h4, h5, h6⟩ := hT
  exact hab.2.2.2.1 (by omega)

/-- C111 for `ccz` (exact): it runs exactly if the subscript is a tuple of three integers that are not negative; they may be equal. -/
theorem C111_ccz_exact (n : ℕ) (T : Targets) (ctx : NpCtx) :
    (∃ ctx', npRunGate n (.g3 .ccz T) ctx = .ok ctx') ↔
      ∃ a b c : ℕ, T = .tup [.atom (.int a), .atom (.int b), .atom (.int c)] := by
  have hrun : npRunGate n (.g3 .ccz T) ctx = npGateCCZ n T ctx := by
    have step : ∀ fuel, runGate (npAction n) n (fuel + 1) (.g3 .ccz T) ctx = npGateCCZ n T ctx := by
      intro fuel; simp only [runGate, npAction]
    exact step 999
  have hitem : ∀ (x : Item) (b : ℕ), shl1Item x = .ok b → ∃ a : ℕ, x = .atom (.int a) := by
    intro x b hx
    match x, hx with
    | .atom (.int i), hx =>
      by_cases hi : i < 0
      · have h0 : shl1Item (.atom (.int i)) = .error .valueError := shl1_neg hi
        rw [h0] at hx; cases hx
      · exact ⟨i.toNat, by congr 2; omega⟩
    | .atom (.slice _ _ _), hx => cases hx
    | .atom .bad, hx => cases hx
    | .tup _, hx => cases hx
  rw [hrun]
  constructor
  · rintro ⟨ctx', h⟩
    match T, h with
    | .one a, h => cases h
    | .tup [], h => cases h
    | .tup [x], h => cases h
    | .tup [x, y], h => cases h
    | .tup (x :: y :: z :: u :: xs), h => cases h
    | .tup [x, y, z], h =>
      simp only [npGateCCZ, unpack3, bind, Except.bind] at h
      cases h1 : shl1Item x with
      | error e => simp only [h1] at h; cases h
      | ok b1 =>
        cases h2 : shl1Item y with
        | error e => simp only [h1, h2] at h; cases h
        | ok b2 =>
          cases h3 : shl1Item z with
          | error e => simp only [h1, h2, h3] at h; cases h
          | ok b3 =>
            obtain ⟨a, rfl⟩ := hitem _ _ h1
            obtain ⟨b, rfl⟩ := hitem _ _ h2
            obtain ⟨c, rfl⟩ := hitem _ _ h3
            exact ⟨a, b, c, rfl⟩
  · rintro ⟨a, b, c, rfl⟩
    have hs : ∀ a : ℕ, ∃ m, shl1Item (.atom (.int a)) = .ok m := by
      intro a
      have : ¬ ((a : ℤ) < 0) := by omega
      exact ⟨_, by simp only [shl1Item, shl1, this, if_false]; rfl⟩
    obtain ⟨m1, h1⟩ := hs a
    obtain ⟨m2, h2⟩ := hs b
    obtain ⟨m3, h3⟩ := hs c
    exact ⟨_, by simp only [npGateCCZ, unpack3, bind, Except.bind, h1, h2, h3]; rfl⟩

/-- C111, with an object that has run the circuit or a beginning of it before: the same circuits run. -/
theorem C111_again_partial (n : ℕ) (gates : List Gate) (hn : ∀ g ∈ gates, npHas g = true) (h3 : ∀ g ∈ gates, ∀ k T, g ≠ .g3 k T)
    (hin : ∀ g ∈ gates, ∀ v ∈ intsOf g.targets, v < n) (rnd : ℕ → ℝ) (hrnd : InUnit rnd) (be : NpBackend) (hb : CacheInv gates be) :
    (∃ r, (npRunArgs n gates be ⟨none, none, false, rnd⟩).2 = .ok r) ↔ ∃ es, GatesDenote n gates es ∧ ∀ e ∈ es, e.Valid n := by
  rw [(npRunArgs_spec n gates be hb _).2]
  exact C111_native_partial n gates hn h3 hin rnd hrnd

/-- The same on the numba backend. -/
theorem nb_gate_reads {n : ℕ} {g : Gate} (hi : ∀ T, g ≠ .g1 .i T) {ctx ctx' : NbCtx} (h : nbRunGate n g ctx = .ok ctx') : Reads n g := by
  have hnat : ∀ a, nbAction n g = some a → a ctx = .ok ctx' := by
    intro a ha
    have step : ∀ fuel, runGate (nbAction n) n (fuel + 1) g ctx = a ctx := by
      intro fuel; simp only [runGate, ha]
    rw [← step 999]; exact h
  have hfb : nbAction n g = none → ∃ gs, g.fallback n = .ok gs := by
    intro ha
    cases hg : g.fallback n with
    | ok gs => exact ⟨gs, rfl⟩
    | error e =>
      have step : ∀ fuel, runGate (nbAction n) n (fuel + 1) g ctx = .error e := by
        intro fuel; simp only [runGate, ha, hg]
      have := step 999
      change nbRunGate n g ctx = _ at this
      rw [h] at this; cases this
  have hgen : ∀ (T : Targets) {σ : Type} (body : ℤ → σ → Except PyErr σ) (s s' : σ),
      forGen (slicing T n) body s = .ok s' → (slicing T n).err = none := by
    intro T σ body s s' hs
    by_contra hne
    obtain ⟨e, he⟩ := forGen_err (g := slicing T n) (Option.isSome_iff_ne_none.2 hne) body s
    rw [he] at hs; cases hs
  cases g with
  | g1 k T =>
    show (slicing T n).err = none
    cases hb : nbBody1 k with
    | some b =>
      have ha := hnat _ (by simp only [nbAction, nbArr, hb, Option.map_some]; rfl)
      cases hf : forGen (slicing T n) (nbKernel1 b n) ctx.qubits with
      | error e => rw [hf] at ha; cases ha
      | ok q => exact hgen T _ _ _ hf
    | none =>
      obtain ⟨gs, hgs⟩ := hfb (by simp only [nbAction, nbArr, hb, Option.map_none])
      by_contra hne
      obtain ⟨e, he⟩ := Option.ne_none_iff_exists'.1 hne
      have ht : (slicing T n).toList = .error e := by simp only [Gen.toList, he]
      cases hf : k.fallbackOn with
      | none => cases k <;> first | exact absurd rfl (hi T) | simp [Gate.fallback, hf] at hgs
      | some f => cases k <;> first | exact absurd rfl (hi T) | simp [Gate.fallback, hf, ht] at hgs
  | g2 k T =>
    cases hq : qubitPairs T n with
    | ok ps => exact ⟨ps, hq⟩
    | error e =>
      cases hb : nbBody2 k with
      | some b =>
        have ha := hnat _ (by simp only [nbAction, nbArr, hb, Option.map_some]; rfl)
        simp only [hq, forPairs] at ha
        cases ha
      | none =>
        obtain ⟨gs, hgs⟩ := hfb (by simp only [nbAction, nbArr, hb, Option.map_none])
        cases hf : k.fallbackOn with
        | none => simp [Gate.fallback, hf] at hgs
        | some f => simp [Gate.fallback, hf, hq] at hgs
  | g3 k T => trivial
  | measure T => exact hgen T _ _ _ (hnat _ rfl)
  | reset T => exact hgen T _ _ _ (hnat _ rfl)

theorem nbPlain_ran {n : ℕ} (gates : List Gate) : ∀ (c c' : NbCtx), nbPlain n gates c = .ok c' →
    ∀ g ∈ gates, ∃ c c', nbRunGate n g c = .ok c' := by
  induction gates with
  | nil => intro c c' h g hg; simp at hg
  | cons p gates ih =>
    intro c c' h g hg
    simp only [nbPlain] at h
    cases hp : nbRunGate n p c with
    | error e => rw [hp] at h; cases h
    | ok c1 =>
      rw [hp] at h
      rcases List.mem_cons.1 hg with rfl | hg
      · exact ⟨c, c1, hp⟩
      · exact ih _ _ h g hg

/-- C111 on the numba backend, on at most 64 qubits, whatever the object has run before: `run()` of a circuit of one- and two-qubit
gates other than `i`, measurements and resets with written indices from `-n` to `n - 1` succeeds exactly if the gates stand for
operations on qubits of the register. -/
theorem C111_numba_partial (n : ℕ) (h64 : n ≤ 64) (gates : List Gate) (hi : ∀ g ∈ gates, ∀ T, g ≠ .g1 .i T)
    (h3 : ∀ g ∈ gates, ∀ k T, g ≠ .g3 k T) (hin : ∀ g ∈ gates, WrittenInRange n g) (be : NbBackend) (hb : NbCacheInv gates be)
    (en : Bool) (rnd : ℕ → ℝ) (hrnd : InUnit rnd) :
    (∃ r, (nbRunArgs n gates be ⟨none, none, en, false, rnd, none⟩).2 = .ok r) ↔
      ∃ es, GatesDenote n gates es ∧ ∀ e ∈ es, e.Valid n := by
  have hsame : (nbRunArgs n gates be ⟨none, none, en, false, rnd, none⟩).2 =
      (nbRunArgs n gates NbBackend.new ⟨none, none, en, false, rnd, none⟩).2 := by
    rw [(nbRunArgs_spec n gates be hb _ rfl).2, (nbRunArgs_spec n gates NbBackend.new (nbCacheInv_new gates) _ rfl).2]
  rw [hsame]
  constructor
  · rintro ⟨r, hr⟩
    refine gates_denote gates fun g hg => ?_
    rw [(nbRunArgs_spec n gates NbBackend.new (nbCacheInv_new gates) _ rfl).2, nbPlainRun] at hr
    have hparse : nbParse none none = .ok (1, "statevector") := by decide
    simp only [hparse] at hr
    rw [show (1 : ℤ).toNat = 0 + 1 from rfl, nbPlainShots] at hr
    cases hp : nbPlain n gates ⟨q0 n, List.replicate n 0, rnd⟩ with
    | error e => simp only [hp] at hr; cases hr
    | ok c1 =>
      obtain ⟨c, c', hc⟩ := nbPlain_ran gates _ _ hp g hg
      exact reads_denotes (h3 g hg) (resolvesInside_of_written n g (hin g hg)) (nb_gate_reads (hi g hg) hc)
  · rintro ⟨es, hd, hv⟩
    rw [C23_numba_eq_numpy n h64 gates es hd hv _ rfl (.inl hrnd)]
    exact ⟨_, fresh_state hd hv rnd hrnd⟩

/-- `x[-1]`, `cx[0, 1]` and `m[:]` on two qubits: the hypotheses hold and the circuit runs. -/
example (rnd : ℕ → ℝ) (hrnd : InUnit rnd) :
    ∃ r, freshRun 2 [.g1 .x (.one (.int (-1))), .g2 .cx (.tup [.atom (.int 0), .atom (.int 1)]), .measure (.one (.slice none none none))]
      ⟨none, none, false, rnd⟩ = .ok r := by
  refine (C111_native_partial 2 _ (by simp [npHas]) (by simp) (by simp [Gate.targets, intsOf, atomsOf]; omega) rnd hrnd).2
    ⟨[.one .x 1, .two .cx 0 1, .meas 0, .meas 1],
      ⟨[.one .x 1], [.two .cx 0 1, .meas 0, .meas 1], ⟨[1], (slicing_eq_iff 2 _ _).1 rfl, rfl⟩,
        ⟨[.two .cx 0 1], [.meas 0, .meas 1], ⟨[(0, 1)], (C03_pairs 2 _ _).1 rfl, rfl⟩,
          ⟨[.meas 0, .meas 1], [], ⟨[0, 1], (slicing_eq_iff 2 _ _).1 (by simp [slicing, slicingSinglevalue, sliceIndices]; rw [loopUp, loopUp, loopUp]; simp), rfl⟩, rfl, rfl⟩, rfl⟩, rfl⟩, by simp [Elem.Valid]⟩

/-- `x[-3]` and `cx[1, (0, 1)]` on two qubits: the hypotheses hold and the circuits do not run. -/
example (rnd : ℕ → ℝ) (hrnd : InUnit rnd) :
    (¬ ∃ r, freshRun 2 [.g1 .x (.one (.int (-3)))] ⟨none, none, false, rnd⟩ = .ok r) ∧
    ¬ ∃ r, freshRun 2 [.g2 .cx (.tup [.atom (.int 1), .tup [.int 0, .int 1]])] ⟨none, none, false, rnd⟩ = .ok r := by
  constructor
  · rw [C111_native_partial 2 _ (by simp [npHas]) (by simp) (by simp [Gate.targets, intsOf, atomsOf]) rnd hrnd]
    rintro ⟨es, ⟨e1, e2, ⟨L, hL, -⟩, -⟩, -⟩
    have h : L.map (fun q : ℕ => (q : ℤ)) = [pyIndex 2 (-3)] := hL
    cases L with
    | nil => simp at h
    | cons a L => simp [pyIndex] at h
  · rw [C111_native_partial 2 _ (by simp [npHas]) (by simp) (by simp [Gate.targets, intsOf, atomsOf]; omega) rnd hrnd]
    rintro ⟨es, ⟨e1, e2, ⟨L, hL, -⟩, -⟩, -⟩
    have h := (C03_pairs 2 _ _).2 hL
    have h' : qubitPairs (.tup [.atom (.int 1), .tup [.int 0, .int 1]]) ((2 : ℕ) : ℤ) = .error .valueError := rfl
    rw [h'] at h; cases h

end

end Blueqat
