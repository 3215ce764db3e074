import Verif.NpKernels
import Verif.NormLemmas

/-! Lemmas: one gate on the numpy simulator refines the specification machine. -/

set_option linter.unusedSimpArgs false
set_option linter.unusedVariables false

namespace Blueqat

open Spec

noncomputable section

/-! ## Nesting depth of fallbacks -/

/-- Depth of nested fallbacks of a one-qubit gate. -/
def G1.rank : G1 → ℕ
  | .t | .tdg | .s | .sdg => 2
  | .phase _ | .u1 _ | .u2 _ _ | .i => 1
  | _ => 0

/-- Depth of nested fallbacks of a two-qubit gate. -/
def G2.rank : G2 → ℕ
  | .cx | .cz => 0
  | .ch | .crx _ | .cry _ | .crz _ | .rzz _ | .swap => 1
  | .cphase _ | .rxx _ | .ryy _ | .cu1 _ | .cu3 _ _ _ => 2
  | .cy | .cu2 _ _ => 3

/-- Depth of nested fallbacks of a gate. -/
def Gate.rank : Gate → ℕ
  | .g1 k _ => k.rank
  | .g2 k _ => k.rank
  | .g3 .ccx _ => 3
  | .g3 .ccz _ => 0
  | .g3 .cswap _ => 4
  | .measure _ => 0
  | .reset _ => 0

theorem rank_le (g : Gate) : g.rank ≤ 4 := by
  rcases g with k | k | k | _ | _ <;> first | (cases k <;> simp [Gate.rank, G1.rank, G2.rank]) | simp [Gate.rank]

theorem rank_g1 {k : G1} {f : ℤ → List Gate} (h : k.fallbackOn = some f) (t : ℤ) :
    ∀ g ∈ f t, g.rank < k.rank := by
  cases k <;> simp [G1.fallbackOn] at h <;> subst h <;> simp [on1, Gate.rank, G1.rank]

theorem rank_g2 {k : G2} {f : ℤ → ℤ → List Gate} (h : k.fallbackOn = some f) (c t : ℤ) :
    ∀ g ∈ f c t, g.rank < k.rank := by
  cases k <;> simp [G2.fallbackOn] at h <;> subst h <;> simp [on1, on2, Gate.rank, G1.rank, G2.rank]

/-- Fallback gates are less deeply nested than the gate: fallback resolution terminates. -/
theorem rank_fallback {g : Gate} {n : ℕ} {gs : List Gate} (h : g.fallback n = .ok gs) :
    ∀ g' ∈ gs, g'.rank < g.rank := by
  cases g with
  | measure T => simp [Gate.fallback] at h
  | reset T => simp [Gate.fallback] at h
  | g3 k T =>
    cases k <;> simp only [Gate.fallback] at h
    · split at h <;> simp at h
      subst h
      simp [toffoliFallback, onItem, onItems, Gate.rank, G1.rank, G2.rank]
    · simp at h
    · split at h <;> simp at h
      subst h
      simp [toffoliFallback, onItem, onItems, Gate.rank, G1.rank, G2.rank]
  | g2 k T =>
    simp only [Gate.fallback] at h
    split at h
    · simp at h
    · rename_i f hf
      split at h <;> simp at h
      subst h
      intro g' hg
      obtain ⟨p, _, hp⟩ := List.mem_flatMap.1 hg
      exact rank_g2 hf _ _ g' hp
  | g1 k T =>
    by_cases hki : k = .i
    · subst hki; simp [Gate.fallback] at h; subst h; simp
    · have hf' : (match k.fallbackOn with
        | none => .error .notImplementedError
        | some f =>
          match (slicing T n).toList with
          | .error e => .error e
          | .ok ts => .ok (ts.flatMap f)) = (Except.ok gs : Except PyErr (List Gate)) := by
        rw [← h]; cases k <;> first | exact absurd rfl hki | rfl
      split at hf'
      · simp at hf'
      · rename_i f hf
        split at hf' <;> simp at hf'
        subst hf'
        intro g' hg
        obtain ⟨p, _, hp⟩ := List.mem_flatMap.1 hg
        exact rank_g1 hf _ g' hp

/-- The gate class has a `fallback` method. -/
def Gate.hasFallback : Gate → Bool
  | .g1 .i _ => true
  | .g1 k _ => k.fallbackOn.isSome
  | .g2 k _ => k.fallbackOn.isSome
  | .g3 .ccz _ => false
  | .g3 _ _ => true
  | .measure _ => false
  | .reset _ => false

theorem fallback_ok {g : Gate} {n : ℕ} {es : List Elem} (h : g.hasFallback = true) (hd : GateDenotes n g es) :
    ∃ gs, g.fallback n = .ok gs := by
  cases g with
  | measure T => simp [Gate.hasFallback] at h
  | reset T => simp [Gate.hasFallback] at h
  | g3 k T =>
    obtain ⟨a, b, c, rfl, rfl⟩ := hd
    cases k
    · exact ⟨_, rfl⟩
    · simp [Gate.hasFallback] at h
    · exact ⟨_, rfl⟩
  | g2 k T =>
    obtain ⟨L, hL, rfl⟩ := hd
    rw [← pairsDenote_iff] at hL
    cases k <;> simp [Gate.fallback, G2.fallbackOn, hL, Gate.hasFallback] at h ⊢
  | g1 k T =>
    obtain ⟨L, hL, rfl⟩ := hd
    rw [← slicing_eq_iff, ← toList_eq_ok_iff] at hL
    cases k <;> simp [Gate.fallback, G1.fallbackOn, hL, Gate.hasFallback] at h ⊢

theorem unitary_two (k : G2) (L : List (ℕ × ℕ)) :
    ∀ e ∈ L.map (fun p => Elem.two k p.1 p.2), e.IsUnitary := by
  intro e he
  obtain ⟨p, _, rfl⟩ := List.mem_map.1 he
  trivial

theorem unitary_of_fallback {g : Gate} {n : ℕ} {es : List Elem} (h : g.hasFallback = true)
    (hd : GateDenotes n g es) : ∀ e ∈ es, e.IsUnitary := by
  cases g with
  | measure T => simp [Gate.hasFallback] at h
  | reset T => simp [Gate.hasFallback] at h
  | g3 k T => obtain ⟨a, b, c, rfl, rfl⟩ := hd; simp [Elem.IsUnitary]
  | g2 k T => obtain ⟨L, hL, rfl⟩ := hd; exact unitary_two k L
  | g1 k T => obtain ⟨L, hL, rfl⟩ := hd; simp [Elem.IsUnitary]

/-! ## Generic refinement of a backend's gate loop -/

/-- Running a gate on a backend whose native actions refine the specification refines the specification. `Q` is a
side condition on gates that the backend needs and that fallbacks preserve. -/
theorem runGate_refineQ {σ : Type} {n : ℕ} {ph : ℝ → ℂ} (act : Gate → Option (σ → Except PyErr σ))
    (Rel : σ → MState → Prop) (P : Prop) (Q : Gate → Prop)
    (hQ : ∀ g es gs, act g = none → Q g → GateDenotes n g es → (∀ e ∈ es, e.Valid n) → g.fallback n = .ok gs →
      ∀ g' ∈ gs, Q g')
    (hact : ∀ g a es, act g = some a → Q g → GateDenotes n g es → (∀ e ∈ es, e.Valid n) →
      (∀ e ∈ es, P ∨ e.IsUnitary) →
      ∀ s u, Rel s u → ∃ s', a s = .ok s' ∧ Rel s' (steps ph n es u))
    (hfb : ∀ g, act g = none → Q g → g.hasFallback = true)
    (hphase : ∀ θ T, act (.g1 (.phase θ) T) ≠ none)
    (hcu1 : ∀ lam T, act (.g2 (.cu1 lam) T) = none → ph lam = cis (-(lam / 4)))
    (fuel : ℕ) : ∀ (g : Gate), g.rank < fuel → Q g → ∀ (es : List Elem), GateDenotes n g es →
      (∀ e ∈ es, e.Valid n) → (∀ e ∈ es, P ∨ e.IsUnitary) → ∀ s u, Rel s u →
      ∃ s', runGate act n fuel g s = .ok s' ∧ Rel s' (steps ph n es u) := by
  induction fuel with
  | zero => intro g hg; omega
  | succ fuel ih =>
    intro g hr hq0 es hd hv hq s u hR
    simp only [runGate]
    cases hact' : act g with
    | some a => exact hact g a es hact' hq0 hd hv hq s u hR
    | none =>
      have hgs := fallback_ok (hfb g hact' hq0) hd
      obtain ⟨gs, hgs⟩ := hgs
      obtain ⟨fs, hfs, hfv, hfu⟩ := fallback_implements ph g es gs hd hv hgs
        (fun θ T h => hphase θ T (h ▸ hact')) (fun lam T h => hcu1 lam T (h ▸ hact'))
      have hes := unitary_of_fallback (hfb g hact' hq0) hd
      have hsame : steps ph n es u = steps ph n fs u := by
        rw [steps_unitary ph n es hes, steps_unitary ph n fs (fun e he => (hfv e he).2), hfu]
      have hqs := hQ g es gs hact' hq0 hd hv hgs
      rw [hgs, hsame]
      have hrk := rank_fallback hgs
      have hlist : ∀ (gs : List Gate) (fs : List Elem), (∀ g' ∈ gs, g'.rank < fuel) → (∀ g' ∈ gs, Q g') →
          GatesDenote n gs fs →
          (∀ e ∈ fs, e.Valid n ∧ e.IsUnitary) → ∀ s u, Rel s u →
          ∃ s', gs.foldlM (fun s g' => runGate act n fuel g' s) s = .ok s' ∧ Rel s' (steps ph n fs u) := by
        intro gs
        induction gs with
        | nil => intro fs _ _ hd _ s u hR; simp only [GatesDenote] at hd; subst hd; exact ⟨s, rfl, hR⟩
        | cons g' gs ih' =>
          rintro fs hrk hqs ⟨e₁, e₂, h1, h2, rfl⟩ hv s u hR
          obtain ⟨s1, hs1, hR1⟩ := ih g' (hrk g' (by simp)) (hqs g' (by simp)) e₁ h1
            (fun e he => (hv e (by simp [he])).1)
            (fun e he => .inr (hv e (by simp [he])).2) s u hR
          obtain ⟨s2, hs2, hR2⟩ := ih' e₂ (fun g hg => hrk g (by simp [hg])) (fun g hg => hqs g (by simp [hg])) h2
            (fun e he => hv e (by simp [he])) s1 _ hR1
          refine ⟨s2, ?_, ?_⟩
          · simp only [List.foldlM_cons, hs1]; exact hs2
          · rw [steps_append]; exact hR2
      exact hlist gs fs (fun g' hg' => by have := hrk g' hg'; omega) hqs hfs hfv s u hR

/-- Running a gate on a backend whose native actions refine the specification refines the specification. -/
theorem runGate_refine {σ : Type} {n : ℕ} {ph : ℝ → ℂ} (act : Gate → Option (σ → Except PyErr σ))
    (Rel : σ → MState → Prop) (P : Prop)
    (hact : ∀ g a es, act g = some a → GateDenotes n g es → (∀ e ∈ es, e.Valid n) → (∀ e ∈ es, P ∨ e.IsUnitary) →
      ∀ s u, Rel s u → ∃ s', a s = .ok s' ∧ Rel s' (steps ph n es u))
    (hfb : ∀ g, act g = none → g.hasFallback = true)
    (hphase : ∀ θ T, act (.g1 (.phase θ) T) ≠ none)
    (hcu1 : ∀ lam T, act (.g2 (.cu1 lam) T) = none → ph lam = cis (-(lam / 4)))
    (fuel : ℕ) : ∀ (g : Gate), g.rank < fuel → ∀ (es : List Elem), GateDenotes n g es →
      (∀ e ∈ es, e.Valid n) → (∀ e ∈ es, P ∨ e.IsUnitary) → ∀ s u, Rel s u →
      ∃ s', runGate act n fuel g s = .ok s' ∧ Rel s' (steps ph n es u) := fun g hr =>
  runGate_refineQ act Rel P (fun _ => True) (fun _ _ _ _ _ _ _ _ _ _ => trivial)
    (fun g a es h _ => hact g a es h) (fun g h _ => hfb g h) hphase hcu1 fuel g hr trivial

/-! ## Loops over targets -/

theorem forGen_refine {σ τ : Type} {n : ℕ} {T : Targets} {L : List ℕ}
    (hT : TargetsDenote n T (L.map (fun q : ℕ => (q : Int)))) (body : ℤ → σ → Except PyErr σ) (f : ℕ → τ → τ)
    (Rel : σ → τ → Prop) (h : ∀ t ∈ L, ∀ s u, Rel s u → ∃ s', body (t : ℤ) s = .ok s' ∧ Rel s' (f t u))
    (s : σ) (u : τ) (hR : Rel s u) :
    ∃ s', forGen (slicing T n) body s = .ok s' ∧ Rel s' (L.foldl (fun u t => f t u) u) := by
  rw [← slicing_eq_iff] at hT
  have := foldlM_refine (fun (t : ℤ) s => body t s) (fun (t : ℤ) u => f t.toNat u) Rel
    (L.map (fun q : ℕ => (q : Int))) (by
      intro a ha s u hR
      obtain ⟨q, hq, rfl⟩ := List.mem_map.1 ha
      exact h q hq s u hR) s u hR
  obtain ⟨s', h1, h2⟩ := this
  refine ⟨s', ?_, ?_⟩
  · simp only [forGen, hT]
    rw [h1]
  · rw [List.foldl_map] at h2; exact h2

theorem forPairs_refine {σ τ : Type} {n : ℕ} {T : Targets} {L : List (ℕ × ℕ)}
    (hT : PairsDenote n T (L.map (fun p : ℕ × ℕ => ((p.1 : Int), (p.2 : Int)))))
    (body : ℤ → ℤ → σ → Except PyErr σ) (f : ℕ → ℕ → τ → τ) (Rel : σ → τ → Prop)
    (h : ∀ p ∈ L, ∀ s u, Rel s u → ∃ s', body (p.1 : ℤ) (p.2 : ℤ) s = .ok s' ∧ Rel s' (f p.1 p.2 u))
    (s : σ) (u : τ) (hR : Rel s u) :
    ∃ s', forPairs (qubitPairs T n) body s = .ok s' ∧ Rel s' (L.foldl (fun u p => f p.1 p.2 u) u) := by
  rw [← pairsDenote_iff] at hT
  have := foldlM_refine (fun (p : ℤ × ℤ) s => body p.1 p.2 s) (fun (p : ℤ × ℤ) u => f p.1.toNat p.2.toNat u) Rel
    (L.map (fun p : ℕ × ℕ => ((p.1 : Int), (p.2 : Int)))) (by
      intro a ha s u hR
      obtain ⟨q, hq, rfl⟩ := List.mem_map.1 ha
      exact h q hq s u hR) s u hR
  obtain ⟨s', h1, h2⟩ := this
  refine ⟨s', ?_, ?_⟩
  · simp only [forPairs, hT]
    exact h1
  · rw [List.foldl_map] at h2; exact h2

/-! ## The refinement relation of the numpy simulator -/

/-- Classical register list of a bit assignment. -/
def cregList (n : ℕ) (c : ℕ → Bool) : List ℕ := (List.range n).map (fun k => (c k).toNat)

/-- The simulator context represents the machine state, which is normalised if `P`. -/
structure NpRel (P : Prop) (n : ℕ) (ctx : NpCtx) (s : MState) : Prop where
  qubits : ctx.qubits = vec n s.psi
  buf : ctx.buf.length = 2 ^ n
  cregs : ctx.cregs = cregList n s.creg
  rnd : ctx.rnd = s.rnd
  good : P → Good n s

variable {P : Prop}

theorem unitaries_map {α : Type} (ph : ℝ → ℂ) (L : List α) (e : α → Elem) (ψ : Vec) :
    unitaries ph (L.map e) ψ = L.foldl (fun ψ a => (e a).unitary ph ψ) ψ := by
  simp [unitaries, List.foldl_map]

theorem NpRel.of_psi {n : ℕ} {ctx : NpCtx} {s : MState} (h : NpRel P n ctx s) {q b : Arr} {es : List Elem}
    (hu : ∀ e ∈ es, e.IsUnitary) (hv : ∀ e ∈ es, e.Valid n) (hq : q = vec n (unitaries phSim es s.psi))
    (hb : b.length = 2 ^ n) : NpRel P n { ctx with qubits := q, buf := b } (steps phSim n es s) := by
  have hg : P → Good n (steps phSim n es s) := fun hp => good_steps norm_phSim es hv s (h.good hp)
  rw [steps_unitary phSim n es hu] at hg ⊢
  exact ⟨hq, hb, h.cregs, h.rnd, hg⟩

theorem swapLoop1_refine {n : ℕ} (body : ℕ → ℤ → Bufs → Except PyErr Bufs) (k : G1)
    (hb : ∀ t < n, ∀ ψ b, b.length = 2 ^ n → body n (t : ℤ) (vec n ψ, b) = .ok (vec n (app (matrix1 k) t ψ), vec n ψ))
    {T : Targets} {es : List Elem} (hd : GateDenotes n (.g1 k T) es) (hv : ∀ e ∈ es, e.Valid n)
    {ctx : NpCtx} {s : MState} (hR : NpRel P n ctx s) :
    ∃ ctx', swapLoop1 body n T ctx = .ok ctx' ∧ NpRel P n ctx' (steps phSim n es s) := by
  obtain ⟨L, hL, rfl⟩ := hd
  obtain ⟨⟨q, b⟩, h1, h2, h3⟩ := forGen_refine hL (body n) (fun t ψ => app (matrix1 k) t ψ)
    (fun s ψ => s.1 = vec n ψ ∧ s.2.length = 2 ^ n) (by
      rintro t ht ⟨q, b⟩ ψ ⟨hq, hbl⟩
      simp only at hq hbl
      subst hq
      exact ⟨_, hb t (hv (.one k t) (List.mem_map.2 ⟨t, ht, rfl⟩)) ψ b hbl, rfl, by simp⟩)
    (ctx.qubits, ctx.buf) s.psi ⟨hR.qubits, hR.buf⟩
  refine ⟨{ ctx with qubits := q, buf := b }, ?_, ?_⟩
  · simp only [swapLoop1, h1]
  · refine hR.of_psi (by simp [Elem.IsUnitary]) hv ?_ h3
    rw [unitaries_map]; exact h2

theorem inPlaceLoop1_refine {n : ℕ} (body : ℕ → ℤ → Arr → Except PyErr Arr) (k : G1)
    (hb : ∀ t < n, ∀ ψ, body n (t : ℤ) (vec n ψ) = .ok (vec n (app (matrix1 k) t ψ)))
    {T : Targets} {es : List Elem} (hd : GateDenotes n (.g1 k T) es) (hv : ∀ e ∈ es, e.Valid n)
    {ctx : NpCtx} {s : MState} (hR : NpRel P n ctx s) :
    ∃ ctx', inPlaceLoop1 body n T ctx = .ok ctx' ∧ NpRel P n ctx' (steps phSim n es s) := by
  obtain ⟨L, hL, rfl⟩ := hd
  obtain ⟨q, h1, h2⟩ := forGen_refine hL (body n) (fun t ψ => app (matrix1 k) t ψ)
    (fun s ψ => s = vec n ψ) (by
      rintro t ht q ψ hq
      subst hq
      exact ⟨_, hb t (hv (.one k t) (List.mem_map.2 ⟨t, ht, rfl⟩)) ψ, rfl⟩)
    ctx.qubits s.psi hR.qubits
  refine ⟨{ ctx with qubits := q }, ?_, ?_⟩
  · simp only [inPlaceLoop1, h1]
  · refine hR.of_psi (b := ctx.buf) (by simp [Elem.IsUnitary]) hv ?_ hR.buf
    rw [unitaries_map]; exact h2

theorem swapLoop2_refine {n : ℕ} (body : ℕ → ℤ → ℤ → Bufs → Except PyErr Bufs) (k : G2)
    (hb : ∀ c t, c < n → t < n → c ≠ t → ∀ ψ b, b.length = 2 ^ n →
      body n (c : ℤ) (t : ℤ) (vec n ψ, b) = .ok (vec n (op2 phSim k c t ψ), vec n ψ))
    {T : Targets} {es : List Elem} (hd : GateDenotes n (.g2 k T) es) (hv : ∀ e ∈ es, e.Valid n)
    {ctx : NpCtx} {s : MState} (hR : NpRel P n ctx s) :
    ∃ ctx', swapLoop2 body n T ctx = .ok ctx' ∧ NpRel P n ctx' (steps phSim n es s) := by
  obtain ⟨L, hL, rfl⟩ := hd
  obtain ⟨⟨q, b⟩, h1, h2, h3⟩ := forPairs_refine hL (body n) (fun c t ψ => op2 phSim k c t ψ)
    (fun s ψ => s.1 = vec n ψ ∧ s.2.length = 2 ^ n) (by
      rintro p hp ⟨q, b⟩ ψ ⟨hq, hbl⟩
      simp only at hq hbl
      subst hq
      obtain ⟨h1, h2, h3⟩ := hv (.two k p.1 p.2) (List.mem_map.2 ⟨p, hp, rfl⟩)
      exact ⟨_, hb p.1 p.2 h1 h2 h3 ψ b hbl, rfl, by simp⟩)
    (ctx.qubits, ctx.buf) s.psi ⟨hR.qubits, hR.buf⟩
  refine ⟨{ ctx with qubits := q, buf := b }, ?_, ?_⟩
  · simp only [swapLoop2, h1]
  · refine hR.of_psi (unitary_two k L) hv ?_ h3
    rw [unitaries_map]; exact h2

theorem inPlaceLoop2_refine {n : ℕ} (body : ℕ → ℤ → ℤ → Arr → Except PyErr Arr) (k : G2)
    (hb : ∀ c t, c < n → t < n → c ≠ t → ∀ ψ,
      body n (c : ℤ) (t : ℤ) (vec n ψ) = .ok (vec n (op2 phSim k c t ψ)))
    {T : Targets} {es : List Elem} (hd : GateDenotes n (.g2 k T) es) (hv : ∀ e ∈ es, e.Valid n)
    {ctx : NpCtx} {s : MState} (hR : NpRel P n ctx s) :
    ∃ ctx', inPlaceLoop2 body n T ctx = .ok ctx' ∧ NpRel P n ctx' (steps phSim n es s) := by
  obtain ⟨L, hL, rfl⟩ := hd
  obtain ⟨q, h1, h2⟩ := forPairs_refine hL (body n) (fun c t ψ => op2 phSim k c t ψ)
    (fun s ψ => s = vec n ψ) (by
      rintro p hp q ψ hq
      subst hq
      obtain ⟨h1, h2, h3⟩ := hv (.two k p.1 p.2) (List.mem_map.2 ⟨p, hp, rfl⟩)
      exact ⟨_, hb p.1 p.2 h1 h2 h3 ψ, rfl⟩)
    ctx.qubits s.psi hR.qubits
  refine ⟨{ ctx with qubits := q }, ?_, ?_⟩
  · simp only [inPlaceLoop2, h1]
  · refine hR.of_psi (b := ctx.buf) (unitary_two k L) hv ?_ hR.buf
    rw [unitaries_map]; exact h2

/-! ## Measurement and reset -/

theorem list_sum_filter (N : ℕ) (p : ℕ → Bool) (f : ℕ → ℝ) :
    (((List.range N).filter p).map f).sum = ∑ i ∈ (Finset.range N).filter (fun i => p i = true), f i := by
  induction N with
  | zero => simp
  | succ N ih =>
    rw [List.range_succ, List.filter_append, List.map_append, List.sum_append, ih, Finset.range_add_one,
      Finset.filter_insert]
    by_cases h : p N
    · simp only [h, if_true]
      rw [Finset.sum_insert (by simp)]
      simp [h, add_comm]
    · simp [h]

theorem p_zero_eq (n t : ℕ) (ψ : Vec) :
    normPow2 (sel (vec n ψ) (maskOf n fun i => !i.testBit t)) = prob n t false ψ := by
  simp only [normPow2, sel_vec, List.map_map]
  have h := list_sum_filter (2 ^ n) (fun i => !i.testBit t) (fun i => ‖ψ i‖ ^ 2)
  have h' : (List.map ((fun z => ‖z‖ ^ 2) ∘ ψ) ((List.range (2 ^ n)).filter fun i => !i.testBit t)).sum =
      prob n t false ψ := by
    rw [show ((fun z : ℂ => ‖z‖ ^ 2) ∘ ψ) = fun i => ‖ψ i‖ ^ 2 from rfl, h, prob]
    apply Finset.sum_congr _ (fun _ _ => rfl)
    apply Finset.filter_congr
    intro i _; simp
  rw [h', Real.sq_sqrt (prob_nonneg _ _ _ _)]

theorem setCreg_eq {n t : ℕ} (ht : t < n) (c : ℕ → Bool) (b : Bool) :
    setCreg (cregList n c) (t : ℤ) b.toNat = .ok (cregList n (Function.update c t b)) := by
  simp only [setCreg, cregList, List.length_map, List.length_range]
  rw [if_neg (show ¬((t : ℤ) < 0) by omega), if_pos (show (0:ℤ) ≤ t ∧ (t:ℤ) < n by omega)]
  congr 1
  apply List.ext_getElem
  · simp
  · intro i h1 h2
    simp only [List.length_set, List.length_map, List.length_range] at h1
    by_cases h : i = t
    · subst h; simp
    · simp [List.getElem_set, h, Function.update, Ne.symm h]

theorem prob_true_of_good {n t : ℕ} {s : MState} (h : Good n s) :
    prob n t true s.psi = 1 - prob n t false s.psi := by
  have := prob_add n t s.psi; rw [h.1] at this; linarith

theorem bodyMeasure_refine {n t : ℕ} (hP : P) (ht : t < n) (ctx : NpCtx) (s : MState) (hR : NpRel P n ctx s) :
    ∃ ctx', bodyMeasure n (t : ℤ) ctx = .ok ctx' ∧ NpRel P n ctx' ((Elem.meas t).step phSim n s) := by
  have hg := good_step norm_phSim (.meas t) ht s (hR.good hP)
  have h1 := prob_true_of_good (t := t) (hR.good hP)
  simp only [bodyMeasure, shl1_nat, ok_bind, hR.qubits, maskEq_eq, maskNe_eq, p_zero_eq, hR.rnd, hR.cregs]
  simp only [Elem.step] at hg ⊢
  by_cases h : s.rnd 0 < prob n t false s.psi
  · simp only [h, if_true] at hg ⊢
    have := setCreg_eq ht s.creg false
    simp only [Bool.toNat_false] at this
    rw [this, ok_bind, pure_ok]
    refine ⟨_, rfl, ?_, hR.buf, rfl, rfl, fun _ => hg⟩
    simp only [setAt_vec, divS_vec]
    apply vec_congr; intro i hi
    simp only [collapse]
    by_cases hb : i.testBit t <;> simp [hb]
  · simp only [h, if_false] at hg ⊢
    have := setCreg_eq ht s.creg true
    simp only [Bool.toNat_true] at this
    rw [this, ok_bind, pure_ok]
    refine ⟨_, rfl, ?_, hR.buf, rfl, rfl, fun _ => hg⟩
    simp only [setAt_vec, divS_vec]
    apply vec_congr; intro i hi
    simp only [collapse, h1]
    by_cases hb : i.testBit t <;> simp [hb]

theorem bodyReset_refine {n t : ℕ} (hP : P) (ht : t < n) (ctx : NpCtx) (s : MState) (hR : NpRel P n ctx s) :
    ∃ ctx', bodyReset n (t : ℤ) ctx = .ok ctx' ∧ NpRel P n ctx' ((Elem.reset t).step phSim n s) := by
  have hg := good_step norm_phSim (.reset t) ht s (hR.good hP)
  have h1 := prob_true_of_good (t := t) (hR.good hP)
  simp only [bodyReset, shl1_nat, ok_bind, hR.qubits, maskEq_eq, maskNe_eq, p_zero_eq, hR.rnd]
  simp only [Elem.step] at hg ⊢
  by_cases h : s.rnd 0 < prob n t false s.psi
  · simp only [h, if_true] at hg ⊢
    rw [pure_ok]
    refine ⟨_, rfl, ?_, hR.buf, hR.cregs, rfl, fun _ => hg⟩
    simp only [setAt_vec, divS_vec]
    apply vec_congr; intro i hi
    simp only [collapse]
    by_cases hb : i.testBit t <;> simp [hb]
  · simp only [h, if_false] at hg ⊢
    rw [sel_t1 ht, asg_vec, ok_bind, pure_ok]
    refine ⟨_, rfl, ?_, hR.buf, hR.cregs, rfl, fun _ => hg⟩
    simp only [setAt_vec, divS_vec]
    apply vec_congr; intro i hi
    simp only [collapse, h1, app, mX]
    by_cases hb : i.testBit t <;> simp [hb]

theorem NpRel.save {n : ℕ} {ctx : NpCtx} {s : MState} (h : NpRel P n ctx s) (b : Bool) :
    NpRel P n { ctx with saveCache := b } s := ⟨h.qubits, h.buf, h.cregs, h.rnd, h.good⟩

theorem measure_refine {n : ℕ} {T : Targets} {es : List Elem} (hd : GateDenotes n (.measure T) es)
    (hv : ∀ e ∈ es, e.Valid n) (hq : ∀ e ∈ es, P ∨ e.IsUnitary) {ctx : NpCtx} {s : MState} (hR : NpRel P n ctx s) :
    ∃ ctx', npGateMeasure n T ctx = .ok ctx' ∧ NpRel P n ctx' (steps phSim n es s) := by
  obtain ⟨L, hL, rfl⟩ := hd
  obtain ⟨c, h1, h2⟩ := forGen_refine hL (bodyMeasure n) (fun t s => (Elem.meas t).step phSim n s) (NpRel P n)
    (fun t ht c s hR => bodyMeasure_refine ((hq _ (List.mem_map.2 ⟨t, ht, rfl⟩)).resolve_right id) (hv (.meas t) (List.mem_map.2 ⟨t, ht, rfl⟩)) c s hR) ctx s hR
  refine ⟨{ c with saveCache := false }, by simp only [npGateMeasure, h1], ?_⟩
  simp only [steps, List.foldl_map]
  exact h2.save false

theorem reset_refine {n : ℕ} {T : Targets} {es : List Elem} (hd : GateDenotes n (.reset T) es)
    (hv : ∀ e ∈ es, e.Valid n) (hq : ∀ e ∈ es, P ∨ e.IsUnitary) {ctx : NpCtx} {s : MState} (hR : NpRel P n ctx s) :
    ∃ ctx', npGateReset n T ctx = .ok ctx' ∧ NpRel P n ctx' (steps phSim n es s) := by
  obtain ⟨L, hL, rfl⟩ := hd
  obtain ⟨c, h1, h2⟩ := forGen_refine hL (bodyReset n) (fun t s => (Elem.reset t).step phSim n s) (NpRel P n)
    (fun t ht c s hR => bodyReset_refine ((hq _ (List.mem_map.2 ⟨t, ht, rfl⟩)).resolve_right id) (hv (.reset t) (List.mem_map.2 ⟨t, ht, rfl⟩)) c s hR) ctx s hR
  refine ⟨{ c with saveCache := false }, by simp only [npGateReset, h1], ?_⟩
  simp only [steps, List.foldl_map]
  exact h2.save false

/-! ## Three-qubit gates -/

theorem ccz_eq {n a b c : ℕ} (ψ : Vec) (ctx : NpCtx) (hq : ctx.qubits = vec n ψ) :
    npGateCCZ n (.tup [.atom (.int a), .atom (.int b), .atom (.int c)]) ctx =
      .ok { ctx with qubits := vec n (op3 .ccz a b c ψ) } := by
  simp only [npGateCCZ, unpack3, ok_bind, shl1Item, shl1_nat, maskNe_eq, maskAnd_eq, hq, mulAt_vec, pure_ok]
  congr 2
  apply vec_congr; intro i hi
  simp only [op3, ctrl, app, mZ]
  by_cases h1 : i.testBit a <;> by_cases h2 : i.testBit b <;> by_cases h3 : i.testBit c <;>
    simp [h1, h2, h3]

theorem h_eq {n t : ℕ} (ht : t < n) (ψ : Vec) (ctx : NpCtx) (hq : ctx.qubits = vec n ψ)
    (hb : ctx.buf.length = 2 ^ n) :
    npGateH n (.ofInt t) ctx = .ok { ctx with qubits := vec n (app mH t ψ), buf := vec n ψ } := by
  have hT : slicing (.ofInt t) n = ⟨[(t : ℤ)], none⟩ := by
    rw [slicing_eq_iff]
    simp [Targets.ofInt, TargetsDenote, AtomDenotes, pyIndex_natCast]
  simp only [npGateH, swapLoop1, forGen, hT, List.foldlM_cons, List.foldlM_nil, hq, bodyH_vec ht ψ _ hb]
  rfl

theorem ccx_refine {n a b c : ℕ} (hc : c < n) (hac : a ≠ c) (hbc : b ≠ c) {ctx : NpCtx} (ψ : Vec)
    (hq : ctx.qubits = vec n ψ) (hb : ctx.buf.length = 2 ^ n) :
    ∃ b', b'.length = 2 ^ n ∧ npGateCCX n (.tup [.atom (.int a), .atom (.int b), .atom (.int c)]) ctx =
      .ok { ctx with qubits := vec n (op3 .ccx a b c ψ), buf := b' } := by
  simp only [npGateCCX, unpack3, ok_bind]
  have e : (Item.atom (.int (c : ℤ))).toTargets = Targets.ofInt (c : ℤ) := rfl
  rw [e, h_eq hc ψ ctx hq hb, ok_bind, ccz_eq _ _ rfl, ok_bind, h_eq hc _ _ rfl (by simp)]
  refine ⟨vec n (op3 .ccz a b c (app mH c ψ)), by simp, ?_⟩
  rw [show op3 .ccx a b c ψ = app mH c (op3 .ccz a b c (app mH c ψ)) from (ccx_via_ccz hac hbc ψ).symm]

/-! ## All native gates -/

theorem npAction_g2 {n : ℕ} (k : G2) (T : Targets) (a : NpCtx → Except PyErr NpCtx) (es : List Elem)
    (ha : npAction n (.g2 k T) = some a) (hd : GateDenotes n (.g2 k T) es) (hv : ∀ e ∈ es, e.Valid n)
    (ctx : NpCtx) (s : MState) (hR : NpRel P n ctx s) :
    ∃ ctx', a ctx = .ok ctx' ∧ NpRel P n ctx' (steps phSim n es s) := by
  cases k <;> simp only [npAction, Option.some.injEq, reduceCtorEq] at ha <;> subst ha
  · refine swapLoop2_refine _ _ ?_ hd hv hR
    intro c t hc ht h ψ b hb; exact bodyCX_vec h ht ψ b
  · refine inPlaceLoop2_refine _ _ ?_ hd hv hR
    intro c t hc ht h ψ; exact bodyCPhase_vec (-1) ψ
  · rename_i θ
    refine swapLoop2_refine _ _ ?_ hd hv hR
    intro c t hc ht h ψ b hb
    have := bodyCRot_vec (mRX θ) h ht ψ b
    simpa only [half, mRX, op2, neg_mul, one_mul] using this
  · rename_i θ
    refine swapLoop2_refine _ _ ?_ hd hv hR
    intro c t hc ht h ψ b hb
    have := bodyCRot_vec (mRY θ) h ht ψ b
    simpa only [half, mRY, op2] using this
  · rename_i θ
    refine inPlaceLoop2_refine _ _ ?_ hd hv hR
    intro c t hc ht h ψ
    have := bodyCRZ_vec (n := n) (c := c) (t := t) (cexpNeg (θ * 0.5)) (cexp (θ * 0.5)) ψ
    rw [this]; simp only [half, cexp_eq, cexpNeg_eq, op2, mRZ]
  · rename_i θ
    refine inPlaceLoop2_refine _ _ ?_ hd hv hR
    intro c t hc ht h ψ
    rw [bodyCPhase_vec]; simp only [cexp_eq, op2, mPhase]

theorem npAction_g1 {n : ℕ} (k : G1) (T : Targets) (a : NpCtx → Except PyErr NpCtx) (es : List Elem)
    (ha : npAction n (.g1 k T) = some a) (hd : GateDenotes n (.g1 k T) es) (hv : ∀ e ∈ es, e.Valid n)
    (ctx : NpCtx) (s : MState) (hR : NpRel P n ctx s) :
    ∃ ctx', a ctx = .ok ctx' ∧ NpRel P n ctx' (steps phSim n es s) := by
  cases k <;> simp only [npAction, Option.some.injEq, reduceCtorEq] at ha <;> subst ha
  · exact swapLoop1_refine bodyX .x (fun t ht ψ b hb => bodyX_vec ht ψ b hb) hd hv hR
  · exact swapLoop1_refine bodyY .y (fun t ht ψ b hb => bodyY_vec ht ψ b hb) hd hv hR
  · exact inPlaceLoop1_refine (bodyPhase (-1)) .z (fun t ht ψ => bodyPhase_vec _ ψ) hd hv hR
  · exact swapLoop1_refine bodyH .h (fun t ht ψ b hb => bodyH_vec ht ψ b hb) hd hv hR
  · refine inPlaceLoop1_refine _ _ (fun t ht ψ => ?_) hd hv hR
    rw [bodyPhase_vec, t_factor]; rfl
  · exact inPlaceLoop1_refine (bodyPhase Complex.I) .s (fun t ht ψ => bodyPhase_vec _ ψ) hd hv hR
  · rename_i θ
    refine swapLoop1_refine _ _ (fun t ht ψ b hb => ?_) hd hv hR
    have := bodyRot_vec (mRX θ) ht ψ b hb
    simpa only [half, mRX, matrix1, neg_mul, one_mul] using this
  · rename_i θ
    refine swapLoop1_refine _ _ (fun t ht ψ b hb => ?_) hd hv hR
    have := bodyRot_vec (mRY θ) ht ψ b hb
    simpa only [half, mRY, matrix1] using this
  · rename_i θ
    refine inPlaceLoop1_refine _ _ (fun t ht ψ => ?_) hd hv hR
    rw [bodyRZ_vec]; simp only [half, cexp_eq, cexpNeg_eq, matrix1, mRZ]
  · rename_i θ
    refine inPlaceLoop1_refine _ _ (fun t ht ψ => ?_) hd hv hR
    rw [bodyPhase_vec]; simp only [cexp_eq, matrix1, mPhase]
  · rename_i lam
    refine inPlaceLoop1_refine _ _ (fun t ht ψ => ?_) hd hv hR
    rw [bodyRZ_vec]; simp only [half, cexp_eq, cexpNeg_eq, matrix1, mRZ]
  · rename_i θ φ lam
    refine swapLoop1_refine _ _ (fun t ht ψ b hb => ?_) hd hv hR
    have := bodyU3_vec (mU3 θ φ lam) ht ψ b
    rw [matrix1, ← this]
    have e1 : cis ((φ + lam) / 2) = cis (-((φ + lam) / 2)) * cis (φ + lam) := by
      rw [← cis_add]; congr 1; ring
    have e2 : cis (-((φ - lam) / 2)) = cis (-((φ + lam) / 2)) * cis lam := by
      rw [← cis_add]; congr 1; ring
    have e3 : cis ((φ - lam) / 2) = cis (-((φ + lam) / 2)) * cis φ := by
      rw [← cis_add]; congr 1; ring
    have e4 : (-φ - lam) * 0.5 = -((φ + lam) / 2) := by norm_num; ring
    have e5 : (-φ - lam) / 2 = -((φ + lam) / 2) := by ring
    simp only [half, cexp_eq, mU3, neg_neg, e1, e2, e3, e5]
    congr 1 <;> ring

theorem npAction_refine {n : ℕ} (g : Gate) (a : NpCtx → Except PyErr NpCtx) (es : List Elem)
    (ha : npAction n g = some a) (hd : GateDenotes n g es) (hv : ∀ e ∈ es, e.Valid n)
    (hq : ∀ e ∈ es, P ∨ e.IsUnitary) (ctx : NpCtx) (s : MState)
    (hR : NpRel P n ctx s) : ∃ ctx', a ctx = .ok ctx' ∧ NpRel P n ctx' (steps phSim n es s) := by
  cases g with
  | measure T => simp only [npAction, Option.some.injEq] at ha; subst ha; exact measure_refine hd hv hq hR
  | reset T => simp only [npAction, Option.some.injEq] at ha; subst ha; exact reset_refine hd hv hq hR
  | g3 k T =>
    obtain ⟨x, y, z, rfl, rfl⟩ := hd
    obtain ⟨h1, h2, h3, h4, h5, h6⟩ := hv _ (List.mem_singleton.2 rfl)
    cases k <;> simp only [npAction, Option.some.injEq, reduceCtorEq] at ha <;> subst ha
    · obtain ⟨b', hb', he⟩ := ccx_refine (a := x) (b := y) h3 h5 h6 s.psi hR.qubits hR.buf
      exact ⟨_, he, hR.of_psi (by simp [Elem.IsUnitary]) hv rfl hb'⟩
    · exact ⟨_, ccz_eq s.psi ctx hR.qubits, hR.of_psi (b := ctx.buf) (by simp [Elem.IsUnitary]) hv rfl hR.buf⟩
  | g2 k T => exact npAction_g2 k T a es ha hd hv ctx s hR
  | g1 k T => exact npAction_g1 k T a es ha hd hv ctx s hR

/-- One gate with valid targets, native or by fallback, refines the specification. -/
theorem npRunGate_refine {n : ℕ} (g : Gate) (es : List Elem) (hd : GateDenotes n g es)
    (hv : ∀ e ∈ es, e.Valid n) (hq : ∀ e ∈ es, P ∨ e.IsUnitary) (ctx : NpCtx) (s : MState)
    (hR : NpRel P n ctx s) : ∃ ctx', npRunGate n g ctx = .ok ctx' ∧ NpRel P n ctx' (steps phSim n es s) := by
  refine runGate_refine (ph := phSim) (npAction n) (NpRel P n) P
    (fun g a es ha hd hv hq ctx s hR => npAction_refine g a es ha hd hv hq ctx s hR) ?_ ?_ ?_ recursionLimit g
    (by have := rank_le g; simp only [recursionLimit]; omega) es hd hv hq ctx s hR
  · intro g hg
    rcases g with k | k | k | _ | _ <;> first
      | (cases k <;> simp [npAction, Gate.hasFallback, G1.fallbackOn, G2.fallbackOn] at hg ⊢)
      | simp [npAction] at hg
  · intro θ T; simp [npAction]
  · intro lam T _; rfl

end

end Blueqat
