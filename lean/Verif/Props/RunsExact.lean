import Verif.Props.Runs

/-!
# C111: which circuits run, for all gates
-/

set_option linter.unusedSimpArgs false
set_option linter.unusedVariables false

namespace Blueqat

open Spec

noncomputable section

/-- Three written integers. -/
def threeInts (a b c : ℕ) : Targets := .tup [.atom (.int a), .atom (.int b), .atom (.int c)]

theorem ccz_run (n : ℕ) (T : Targets) (ctx : NpCtx) : npRunGate n (.g3 .ccz T) ctx = npGateCCZ n T ctx := by
  have step : ∀ fuel, runGate (npAction n) n (fuel + 1) (.g3 .ccz T) ctx = npGateCCZ n T ctx := by
    intro fuel; simp only [runGate, npAction]
  exact step 999

theorem ccx_run (n : ℕ) (T : Targets) (ctx : NpCtx) : npRunGate n (.g3 .ccx T) ctx = npGateCCX n T ctx := by
  have step : ∀ fuel, runGate (npAction n) n (fuel + 1) (.g3 .ccx T) ctx = npGateCCX n T ctx := by
    intro fuel; simp only [runGate, npAction]
  exact step 999

theorem ccz_three (n a b c : ℕ) (ctx : NpCtx) : npGateCCZ n (threeInts a b c) ctx =
    .ok { ctx with qubits := mulAt ctx.qubits (maskAnd (maskAnd (maskNe n (2 ^ a)) (maskNe n (2 ^ b))) (maskNe n (2 ^ c))) (-1) } := by
  simp only [npGateCCZ, threeInts, unpack3, shl1Item, shl1_nat, bind, Except.bind]
  rfl

theorem maskAnd_self (l : List Bool) : maskAnd l l = l := by
  induction l with
  | nil => rfl
  | cons x l ih => simp only [maskAnd, List.zipWith_cons_cons, Bool.and_self] at ih ⊢; rw [ih]

theorem maskAnd_comm (l m : List Bool) : maskAnd l m = maskAnd m l := by
  simp only [maskAnd]
  exact List.zipWith_comm_of_comm (fun x y => Bool.and_comm x y)

theorem maskAnd_left (l m : List Bool) (h : l.length = m.length) : maskAnd (maskAnd l m) l = maskAnd l m := by
  induction l generalizing m with
  | nil => simp [maskAnd]
  | cons x l ih =>
    cases m with
    | nil => simp at h
    | cons y m =>
      simp only [maskAnd, List.zipWith_cons_cons] at ih ⊢
      rw [ih m (by simpa using h)]
      cases x <;> cases y <;> rfl

theorem maskNe_length (n b : ℕ) : (maskNe n b).length = 2 ^ n := by simp [maskNe]

/-- `ccz` with a qubit named twice is `cz`, with a qubit named three times `z`. -/
theorem C111_ccz_repeated (n a b : ℕ) (hab : a ≠ b) (ctx : NpCtx) :
    npRunGate n (.g3 .ccz (threeInts a a b)) ctx = npRunGate n (.g2 .cz (.tup [.atom (.int a), .atom (.int b)])) ctx ∧
    npRunGate n (.g3 .ccz (threeInts a b a)) ctx = npRunGate n (.g2 .cz (.tup [.atom (.int a), .atom (.int b)])) ctx ∧
    npRunGate n (.g3 .ccz (threeInts a b b)) ctx = npRunGate n (.g2 .cz (.tup [.atom (.int a), .atom (.int b)])) ctx ∧
    npRunGate n (.g3 .ccz (threeInts a a a)) ctx = npRunGate n (.g1 .z (.one (.int a))) ctx := by
  have hs : ∀ a : ℕ, slicingItem (.atom (.int a)) n = ⟨[(a : ℤ)], none⟩ := by
    intro a
    have : ¬ ((a : ℤ) < 0) := by omega
    simp [slicingItem, slicingSinglevalue, this]
  have hp : qubitPairs (.tup [.atom (.int a), .atom (.int b)]) n = .ok [((a : ℤ), (b : ℤ))] := by
    have : ¬ ((a : ℤ) = b) := by omega
    simp [qubitPairs, hs, Gen.toList, this]
  have hz : npRunGate n (.g2 .cz (.tup [.atom (.int a), .atom (.int b)])) ctx =
      .ok { ctx with qubits := mulAt ctx.qubits (maskAnd (maskNe n (2 ^ a)) (maskNe n (2 ^ b))) (-1) } := by
    have step : ∀ fuel, runGate (npAction n) n (fuel + 1) (.g2 .cz (.tup [.atom (.int a), .atom (.int b)])) ctx =
        npGateCZ n (.tup [.atom (.int a), .atom (.int b)]) ctx := by
      intro fuel; simp only [runGate, npAction]
    have h := step 999
    change npRunGate n _ ctx = _ at h
    rw [h]
    simp only [npGateCZ, inPlaceLoop2, hp, forPairs, List.foldlM_cons, List.foldlM_nil, bodyCPhase, shl1_nat, bind, Except.bind]
    rfl
  have hz1 : npRunGate n (.g1 .z (.one (.int a))) ctx =
      .ok { ctx with qubits := mulAt ctx.qubits (maskNe n (2 ^ a)) (-1) } := by
    have step : ∀ fuel, runGate (npAction n) n (fuel + 1) (.g1 .z (.one (.int a))) ctx = npGateZ n (.one (.int a)) ctx := by
      intro fuel; simp only [runGate, npAction]
    have h := step 999
    change npRunGate n _ ctx = _ at h
    have hs' : slicing (.one (.int a)) n = ⟨[(a : ℤ)], none⟩ := hs a
    rw [h]
    simp only [npGateZ, inPlaceLoop1, hs', forGen, List.foldlM_cons, List.foldlM_nil, bodyPhase, shl1_nat, bind, Except.bind]
    rfl
  have hl : (maskNe n (2 ^ a)).length = (maskNe n (2 ^ b)).length := by simp [maskNe_length]
  refine ⟨?_, ?_, ?_, ?_⟩
  · rw [ccz_run, ccz_three, hz, maskAnd_self]
  · rw [ccz_run, ccz_three, hz, maskAnd_left _ _ hl]
  · rw [ccz_run, ccz_three, hz, maskAnd_comm (maskNe n (2 ^ a)), maskAnd_left _ _ hl.symm]
  · rw [ccz_run, ccz_three, hz1, maskAnd_self, maskAnd_self]

/-- The operations the numpy simulator executes, of those with written indices inside the register: `i` on anything, three-qubit gates
on any three integers (`cswap`: with different last ones), all others if they stand for operations on qubits of the register. -/
def Accepted (n : ℕ) : Gate → Prop
  | .g1 .i _ => True
  | .g3 k T => ∃ a b c : ℕ, T = threeInts a b c ∧ (k = .cswap → b ≠ c)
  | g => ∃ es, GateDenotes n g es ∧ ∀ e ∈ es, e.Valid n

theorem denoted_runs {n : ℕ} {g : Gate} {es : List Elem} (hd : GateDenotes n g es) (hv : ∀ e ∈ es, e.Valid n) (ctx : NpCtx) (s : MState)
    (hR : NpRel True n ctx s) : ∃ ctx' s', npRunGate n g ctx = .ok ctx' ∧ NpRel True n ctx' s' := by
  obtain ⟨c', h1, h2⟩ := npRunGate_refine g es hd hv (fun _ _ => .inl trivial) ctx s hR
  exact ⟨c', _, h1, h2⟩

theorem one_int_denotes (n : ℕ) (k : G1) (a : ℕ) : GateDenotes n (.g1 k (.one (.int a))) [.one k a] :=
  ⟨[a], by
    have : ¬ ((a : ℤ) < 0) := by omega
    simp [TargetsDenote, AtomDenotes, pyIndex, this], rfl⟩

theorem two_ints_denote (n : ℕ) (k : G2) (a b : ℕ) (hab : a ≠ b) :
    GateDenotes n (.g2 k (.tup [.atom (.int a), .atom (.int b)])) [.two k a b] := by
  have ha : ¬ ((a : ℤ) < 0) := by omega
  have hb : ¬ ((b : ℤ) < 0) := by omega
  refine ⟨[(a, b)], ⟨_, _, [(a : ℤ)], [(b : ℤ)], rfl, ?_, ?_, rfl, rfl, ?_⟩, rfl⟩
  · simp [ItemDenotes, AtomDenotes, pyIndex, ha]
  · simp [ItemDenotes, AtomDenotes, pyIndex, hb]
  · simp; exact hab

theorem ccz_runs {n a b c : ℕ} (ha : a < n) (hb : b < n) (hc : c < n) (ctx : NpCtx) (s : MState) (hR : NpRel True n ctx s) :
    ∃ ctx' s', npRunGate n (.g3 .ccz (threeInts a b c)) ctx = .ok ctx' ∧ NpRel True n ctx' s' := by
  by_cases hab : a = b
  · subst hab
    by_cases hac : a = c
    · subst hac
      have hne : a ≠ a + 1 := by omega
      rw [(C111_ccz_repeated n a (a + 1) hne ctx).2.2.2]
      exact denoted_runs (one_int_denotes n .z a) (by simp [Elem.Valid, ha]) ctx s hR
    · rw [(C111_ccz_repeated n a c hac ctx).1]
      exact denoted_runs (two_ints_denote n .cz a c hac) (by simp [Elem.Valid, ha, hc, hac]) ctx s hR
  · by_cases hac : a = c
    · subst hac
      rw [(C111_ccz_repeated n a b hab ctx).2.1]
      exact denoted_runs (two_ints_denote n .cz a b hab) (by simp [Elem.Valid, ha, hb, hab]) ctx s hR
    · by_cases hbc : b = c
      · subst hbc
        rw [(C111_ccz_repeated n a b hab ctx).2.2.1]
        exact denoted_runs (two_ints_denote n .cz a b hab) (by simp [Elem.Valid, ha, hb, hab]) ctx s hR
      · have hd : GateDenotes n (.g3 .ccz (threeInts a b c)) [.three .ccz a b c] := ⟨a, b, c, rfl, rfl⟩
        exact denoted_runs hd (by simp [Elem.Valid, ha, hb, hc, hab, hac, hbc]) ctx s hR

theorem h_run (n : ℕ) (T : Targets) (ctx : NpCtx) : npRunGate n (.g1 .h T) ctx = npGateH n T ctx := by
  have step : ∀ fuel, runGate (npAction n) n (fuel + 1) (.g1 .h T) ctx = npGateH n T ctx := by
    intro fuel; simp only [runGate, npAction]
  exact step 999

theorem ccx_runs {n a b c : ℕ} (ha : a < n) (hb : b < n) (hc : c < n) (ctx : NpCtx) (s : MState) (hR : NpRel True n ctx s) :
    ∃ ctx' s', npGateCCX n (threeInts a b c) ctx = .ok ctx' ∧ NpRel True n ctx' s' := by
  have hh : ∀ ctx s, NpRel True n ctx s → ∃ ctx' s', npGateH n (.one (.int c)) ctx = .ok ctx' ∧ NpRel True n ctx' s' := by
    intro ctx s hR
    rw [← h_run]
    exact denoted_runs (one_int_denotes n .h c) (by simp [Elem.Valid, hc]) ctx s hR
  obtain ⟨c1, s1, h1, r1⟩ := hh ctx s hR
  obtain ⟨c2, s2, h2, r2⟩ := ccz_runs ha hb hc c1 s1 r1
  obtain ⟨c3, s3, h3, r3⟩ := hh c2 s2 r2
  rw [ccz_run] at h2
  refine ⟨c3, s3, ?_, r3⟩
  have hu : unpack3 (threeInts a b c) = .ok (.atom (.int a), .atom (.int b), .atom (.int c)) := rfl
  have ht : (Item.atom (.int c)).toTargets = .one (.int c) := rfl
  simp only [npGateCCX, hu, bind, Except.bind, ht, h1, h2, h3]

/-- `ccx` with a qubit named twice is `h`, `cz`, `h`, also if the qubit is the target; with a qubit named three times `h`, `z`, `h`. -/
theorem C111_ccx_repeated (n a b : ℕ) (hab : a ≠ b) (ctx : NpCtx) :
    (∀ T ∈ [threeInts a a b, threeInts a b b, threeInts b a b], npRunGate n (.g3 .ccx T) ctx =
      [.g1 .h (.one (.int b)), .g2 .cz (.tup [.atom (.int a), .atom (.int b)]), .g1 .h (.one (.int b))].foldlM
        (fun c g => npRunGate n g c) ctx) ∧
    npRunGate n (.g3 .ccx (threeInts a a a)) ctx =
      [.g1 .h (.one (.int a)), .g1 .z (.one (.int a)), .g1 .h (.one (.int a))].foldlM (fun c g => npRunGate n g c) ctx := by
  have key : ∀ (x y t : ℕ) (g : Gate), (∀ c, npRunGate n (.g3 .ccz (threeInts x y t)) c = npRunGate n g c) →
      npRunGate n (.g3 .ccx (threeInts x y t)) ctx =
        [.g1 .h (.one (.int t)), g, .g1 .h (.one (.int t))].foldlM (fun c g => npRunGate n g c) ctx := by
    intro x y t g hg
    have hu : unpack3 (threeInts x y t) = .ok (.atom (.int x), .atom (.int y), .atom (.int t)) := rfl
    have ht : (Item.atom (.int t)).toTargets = .one (.int t) := rfl
    rw [ccx_run]
    simp only [npGateCCX, hu, bind, Except.bind, ht, List.foldlM_cons, List.foldlM_nil, h_run, ← hg, ccz_run]
    cases npGateH n (.one (.int t)) ctx with
    | error e => rfl
    | ok c1 =>
      simp only
      cases npGateCCZ n (threeInts x y t) c1 with
      | error e => rfl
      | ok c2 =>
        simp only
        cases npGateH n (.one (.int t)) c2 <;> rfl
  have sym : ∀ c, npRunGate n (.g3 .ccz (threeInts b a b)) c = npRunGate n (.g3 .ccz (threeInts a b b)) c := by
    intro c
    rw [ccz_run, ccz_run, ccz_three, ccz_three, maskAnd_comm (maskNe n (2 ^ b)) (maskNe n (2 ^ a))]
  refine ⟨fun T hT => ?_, key a a a _ fun c => (C111_ccz_repeated n a b hab c).2.2.2⟩
  simp only [List.mem_cons, List.not_mem_nil, or_false] at hT
  rcases hT with rfl | rfl | rfl
  · exact key _ _ _ _ fun c => (C111_ccz_repeated n a b hab c).1
  · exact key _ _ _ _ fun c => (C111_ccz_repeated n a b hab c).2.2.1
  · exact key _ _ _ _ fun c => (sym c).trans (C111_ccz_repeated n a b hab c).2.2.1

theorem accepted_runs {n : ℕ} {g : Gate} (hin : WrittenInRange n g) (hg : Accepted n g) (ctx : NpCtx) (s : MState)
    (hR : NpRel True n ctx s) : ∃ ctx' s', npRunGate n g ctx = .ok ctx' ∧ NpRel True n ctx' s' := by
  cases g with
  | g1 k T =>
    by_cases hk : k = .i
    · subst hk
      refine ⟨ctx, s, ?_, hR⟩
      have h := runGate_fallback n 999 (.g1 .i T) ctx rfl
      change npRunGate n _ ctx = _ at h
      rw [h]; rfl
    · have hg' : ∃ es, GateDenotes n (.g1 k T) es ∧ ∀ e ∈ es, e.Valid n := by
        cases k <;> first | exact absurd rfl hk | exact hg
      obtain ⟨es, hd, hv⟩ := hg'
      exact denoted_runs hd hv ctx s hR
  | g2 k T => obtain ⟨es, hd, hv⟩ := hg; exact denoted_runs hd hv ctx s hR
  | measure T => obtain ⟨es, hd, hv⟩ := hg; exact denoted_runs hd hv ctx s hR
  | reset T => obtain ⟨es, hd, hv⟩ := hg; exact denoted_runs hd hv ctx s hR
  | g3 k T =>
    obtain ⟨a, b, c, rfl, hne⟩ := hg
    have hlt : ∀ x : ℕ, (x : ℤ) ∈ intsOf (threeInts a b c) → x < n := by
      intro x hx
      have := (hin x hx).2
      omega
    have ha := hlt a (by simp [threeInts, intsOf, atomsOf])
    have hb := hlt b (by simp [threeInts, intsOf, atomsOf])
    have hc := hlt c (by simp [threeInts, intsOf, atomsOf])
    cases k with
    | ccz => exact ccz_runs ha hb hc ctx s hR
    | ccx => rw [ccx_run]; exact ccx_runs ha hb hc ctx s hR
    | cswap =>
      have hbc : c ≠ b := fun h => hne rfl h.symm
      have hcx : ∀ ctx s, NpRel True n ctx s → ∃ ctx' s',
          runGate (npAction n) n 999 (.g2 .cx (.tup [.atom (.int c), .atom (.int b)])) ctx = .ok ctx' ∧ NpRel True n ctx' s' := by
        intro ctx s hR
        have same : runGate (npAction n) n 999 (.g2 .cx (.tup [.atom (.int c), .atom (.int b)])) ctx =
            npRunGate n (.g2 .cx (.tup [.atom (.int c), .atom (.int b)])) ctx := rfl
        rw [same]
        exact denoted_runs (two_ints_denote n .cx c b hbc) (by simp [Elem.Valid, hc, hb, hbc]) ctx s hR
      obtain ⟨c1, s1, h1, r1⟩ := hcx ctx s hR
      obtain ⟨c2, s2, h2, r2⟩ := ccx_runs ha hb hc c1 s1 r1
      obtain ⟨c3, s3, h3, r3⟩ := hcx c2 s2 r2
      have h2' : runGate (npAction n) n 999 (.g3 .ccx (threeInts a b c)) c1 = .ok c2 := h2
      refine ⟨c3, s3, ?_, r3⟩
      have h := runGate_fallback n 999 (.g3 .cswap (threeInts a b c)) ctx rfl
      change npRunGate n _ ctx = _ at h
      have hf : (Gate.g3 .cswap (threeInts a b c)).fallback n = .ok [.g2 .cx (.tup [.atom (.int c), .atom (.int b)]),
          .g3 .ccx (threeInts a b c), .g2 .cx (.tup [.atom (.int c), .atom (.int b)])] := rfl
      rw [h, hf]
      simp only [List.foldlM_cons, List.foldlM_nil, bind, Except.bind, h1, h2', h3]
      rfl

theorem ccx_shape {n : ℕ} {T : Targets} {ctx ctx' : NpCtx} (h : npGateCCX n T ctx = .ok ctx') : ∃ a b c : ℕ, T = threeInts a b c := by
  simp only [npGateCCX, bind, Except.bind] at h
  cases hu : unpack3 T with
  | error e => rw [hu] at h; cases h
  | ok v =>
    rw [hu] at h
    simp only at h
    cases hh : npGateH n v.2.2.toTargets ctx with
    | error e => rw [hh] at h; cases h
    | ok c1 =>
      rw [hh] at h
      simp only at h
      cases hz : npGateCCZ n T c1 with
      | error e => rw [hz] at h; cases h
      | ok c2 => exact (C111_ccz_exact n T c1).1 ⟨c2, by rw [ccz_run]; exact hz⟩

theorem runs_accepted {n : ℕ} {g : Gate} (hin : WrittenInRange n g) {ctx ctx' : NpCtx} (h : npRunGate n g ctx = .ok ctx') :
    Accepted n g := by
  by_cases h3 : ∀ k T, g ≠ .g3 k T
  · by_cases hi : ∀ T, g ≠ .g1 .i T
    · have := reads_denotes h3 (resolvesInside_of_written n g hin) (gate_reads_any hi h)
      cases g with
      | g1 k T => cases k <;> first | exact this | exact absurd rfl (hi T)
      | g2 k T => exact this
      | g3 k T => exact absurd rfl (h3 k T)
      | measure T => exact this
      | reset T => exact this
    · simp only [ne_eq, not_forall, not_not] at hi
      obtain ⟨T, rfl⟩ := hi
      trivial
  · simp only [ne_eq, not_forall, not_not] at h3
    obtain ⟨k, T, rfl⟩ := h3
    cases k with
    | ccz =>
      obtain ⟨a, b, c, hT⟩ := (C111_ccz_exact n T ctx).1 ⟨ctx', h⟩
      exact ⟨a, b, c, hT, by simp⟩
    | ccx =>
      rw [ccx_run] at h
      obtain ⟨a, b, c, hT⟩ := ccx_shape h
      exact ⟨a, b, c, hT, by simp⟩
    | cswap =>
      have hf := runGate_fallback n 999 (.g3 .cswap T) ctx rfl
      change npRunGate n _ ctx = _ at hf
      rw [h] at hf
      cases hu : unpack3 T with
      | error e => simp only [Gate.fallback, hu] at hf; cases hf
      | ok v =>
        obtain ⟨x, y, z⟩ := v
        have hT : T = .tup [x, y, z] := by
          match T, hu with
          | .tup [x', y', z'], hu =>
            simp only [unpack3, Except.ok.injEq, Prod.mk.injEq] at hu
            obtain ⟨rfl, rfl, rfl⟩ := hu; rfl
        subst hT
        simp only [Gate.fallback, hu, List.foldlM_cons, bind, Except.bind] at hf
        cases h1 : runGate (npAction n) n 999 (onItems .cx z y) ctx with
        | error e => rw [h1] at hf; cases hf
        | ok c1 =>
          rw [h1] at hf
          simp only at hf
          cases h2 : runGate (npAction n) n 999 (.g3 .ccx (.tup [x, y, z])) c1 with
          | error e => rw [h2] at hf; cases hf
          | ok c2 =>
            have h2' : npGateCCX n (.tup [x, y, z]) c1 = .ok c2 := h2
            obtain ⟨a, b, c, habc⟩ := ccx_shape h2'
            simp only [threeInts, Targets.tup.injEq, List.cons.injEq, and_true] at habc
            obtain ⟨rfl, rfl, rfl⟩ := habc
            refine ⟨a, b, c, rfl, fun _ hbc => ?_⟩
            subst hbc
            have h1' : npRunGate n (.g2 .cx (.tup [.atom (.int b), .atom (.int b)])) ctx = .ok c1 := h1
            obtain ⟨ps, hps⟩ := gate_reads (g := .g2 .cx (.tup [.atom (.int b), .atom (.int b)])) rfl h1'
            obtain ⟨p, q, cs, ts, hT, hp, hq, -, rfl, hne⟩ := (C03_pairs n _ ps).1 hps
            simp only [Targets.tup.injEq, List.cons.injEq, and_true] at hT
            obtain ⟨rfl, rfl⟩ := hT
            have hp' : cs = [pyIndex n b] := hp
            have hq' : ts = [pyIndex n b] := hq
            subst hp' hq'
            exact hne (pyIndex n b, pyIndex n b) (by simp) rfl

theorem npGates_runs {n : ℕ} (gates : List Gate) (hin : ∀ g ∈ gates, WrittenInRange n g) (hg : ∀ g ∈ gates, Accepted n g) :
    ∀ (be : NpBackend) (ctx : NpCtx) (s : MState), NpRel True n ctx s → ∃ be' ctx', npGates n gates be ctx = (be', .ok ctx') := by
  induction gates with
  | nil => intro be ctx s _; exact ⟨be, ctx, rfl⟩
  | cons g gates ih =>
    intro be ctx s hR
    obtain ⟨c1, s1, h1, r1⟩ := accepted_runs (hin g (by simp)) (hg g (by simp)) ctx s hR
    simp only [npGates, h1]
    split_ifs
    · exact ih (fun g h => hin g (by simp [h])) (fun g h => hg g (by simp [h])) _ c1 s1 r1
    · exact ih (fun g h => hin g (by simp [h])) (fun g h => hg g (by simp [h])) _ c1 s1 r1

/-- C111, exactly, for all gates: a circuit with written indices inside its register runs on the numpy simulator if and only if each of
its operations is accepted. -/
theorem C111_exact (n : ℕ) (gates : List Gate) (hin : ∀ g ∈ gates, WrittenInRange n g) (rnd : ℕ → ℝ) (hrnd : InUnit rnd) :
    (∃ r, freshRun n gates ⟨none, none, false, rnd⟩ = .ok r) ↔ ∀ g ∈ gates, Accepted n g := by
  constructor
  · rintro ⟨r, hr⟩ g hg
    obtain ⟨c, c', hc⟩ := run_gates_ok hr g hg
    exact runs_accepted (hin g hg) hc
  · intro hg
    have hparse : npParse none none = .ok (1, "statevector") := by decide
    have h0 := pRel_init (P := True) n rnd (fun _ => hrnd)
    have hprep : npPrepare n none (npNewCtx n rnd) = .ok ⟨q0 n, List.replicate (2 ^ n) 0, List.replicate n 0, true, rnd⟩ := by
      simp [npPrepare, npNewCtx, q0]
    obtain ⟨be', c', hrun⟩ := npGates_runs gates hin hg ⟨none, -1⟩ ⟨q0 n, List.replicate (2 ^ n) 0, List.replicate n 0, true, rnd⟩
      (initState rnd) ⟨h0.q, by simp, h0.cr, h0.rnd, h0.good⟩
    have hclear : NpBackend.new.clearIfInvalid n = ⟨none, -1⟩ := by simp [NpBackend.new, NpBackend.clearIfInvalid]
    simp only [freshRun, npRunArgs, hparse]
    rw [show (1 : ℤ).toNat = 0 + 1 from rfl, npRun, hclear, npShots]
    simp only [hprep]
    have hd : gates.drop ((-1 : ℤ) + 1).toNat = gates := by simp
    rw [hd, hrun]
    exact ⟨_, rfl⟩

/-- `i[1.5]`, `ccx[0, 0, 1]` and `cx[0, 1]` are accepted on two qubits, `cswap[0, 1, 1]` is not. -/
example : (∀ g ∈ [Gate.g1 .i (.one .bad), .g3 .ccx (threeInts 0 0 1), .g2 .cx (.tup [.atom (.int 0), .atom (.int 1)])],
      WrittenInRange 2 g ∧ Accepted 2 g) ∧
    WrittenInRange 2 (.g3 .cswap (threeInts 0 1 1)) ∧ ¬ Accepted 2 (.g3 .cswap (threeInts 0 1 1)) := by
  refine ⟨?_, ?_, ?_⟩
  · intro g hg
    simp only [List.mem_cons, List.not_mem_nil, or_false] at hg
    rcases hg with rfl | rfl | rfl
    · exact ⟨by simp [WrittenInRange, Gate.targets, intsOf, atomsOf], trivial⟩
    · exact ⟨by simp [WrittenInRange, Gate.targets, intsOf, atomsOf, threeInts, lowest], 0, 0, 1, rfl, by simp⟩
    · exact ⟨by simp [WrittenInRange, Gate.targets, intsOf, atomsOf, lowest], _,
        two_ints_denote 2 .cx 0 1 (by simp), by simp [Elem.Valid]⟩
  · simp [WrittenInRange, Gate.targets, intsOf, atomsOf, threeInts, lowest]
  · rintro ⟨a, b, c, h, hne⟩
    simp [threeInts] at h
    obtain ⟨h1, h2, h3⟩ := h
    exact hne rfl (by omega)

end

end Blueqat
