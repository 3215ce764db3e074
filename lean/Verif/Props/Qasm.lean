import Verif.QasmLemmas
import Mathlib.Logic.Equiv.List
import Mathlib.Tactic.FieldSimp

/-!
# C28, C29, C30: the OpenQASM output

`fmt` is how numbers are written. Statements, their text, their meaning and the parser are in `Spec/Qasm.lean`.
-/

set_option linter.unusedSimpArgs false
set_option linter.unusedVariables false

namespace Blueqat

open Spec

noncomputable section

variable (fmt : ℝ → String)

/-- `block` is printed for `g`: it means the operations of `g`, if the reader knows `cu2`. -/
def BlockOf (n : ℕ) (g : Gate) (block : List QLine) : Prop :=
  ∃ es, GateDenotes n g es ∧ Means qelibCu2 n (block.map QLine.stmt) es ∧
    ((∀ φ lam T, g ≠ .g2 (.cu2 φ lam) T) → Means qelib n (block.map QLine.stmt) es)

theorem notCu2_of {g : Gate} (h : ∀ φ lam T, g ≠ .g2 (.cu2 φ lam) T) : g.NotCu2 := by
  cases g with
  | g2 k T => cases k <;> first | trivial | exact absurd rfl (h _ _ _)
  | _ => trivial

theorem notCcz_of {gates : List Gate} (h : ∀ T, Gate.g3 .ccz T ∉ gates) : ∀ g ∈ gates, g.NotCcz := by
  intro g hg
  cases g with
  | g3 k T => cases k <;> first | trivial | exact absurd hg (h T)
  | _ => trivial

theorem emits_block {n : ℕ} {g : Gate} {es : List Elem} (hr : g.NotCcz) (hd : GateDenotes n g es)
    (hv : ∀ e ∈ es, e.Valid n) : ∃ block : List QLine, (∀ l ∈ block, l.WellFormed n) ∧ BlockOf n g block ∧
      ∀ l, runGate (qaAction fmt n) n recursionLimit g l = .ok (l ++ block.map (QLine.text fmt)) := by
  obtain ⟨fs, lines, h1, h2, h3, h4, -, h5⟩ := runGate_emits fmt recursionLimit g
    (by have := rank_le g; simp only [recursionLimit]; omega) hr es hd hv
  refine ⟨lines, lines_wf h4 h1, ⟨es, hd, fun s => ?_, fun hn s => ?_⟩, h5⟩
  · rw [h2]; exact lines_run hasQelib_cu2 h4 h1 (.inr hasCu2_cu2) (same_refl s)
  · rw [h2]; exact lines_run hasQelib_qelib h4 h1 (.inl (h3 (notCu2_of hn))) (same_refl s)

theorem emits_blocks {n : ℕ} {gates : List Gate} {es : List Elem} (hz : ∀ g ∈ gates, g.NotCcz)
    (hd : GatesDenote n gates es) (hv : ∀ e ∈ es, e.Valid n) : ∃ blocks : List (List QLine),
      List.Forall₂ (BlockOf n) gates blocks ∧ (∀ l ∈ blocks.flatten, l.WellFormed n) ∧
      ∀ l, runGates (qaAction fmt n) n recursionLimit gates l = .ok (l ++ blocks.flatten.map (QLine.text fmt)) := by
  induction gates generalizing es with
  | nil => exact ⟨[], .nil, by simp, fun l => by simp [runGates]; rfl⟩
  | cons g gs ih =>
    obtain ⟨e₁, e₂, h1, h2, rfl⟩ := hd
    obtain ⟨b, a1, a2, a3⟩ := emits_block fmt (hz g (by simp)) h1 (fun e he => hv e (by simp [he]))
    obtain ⟨bs, b1, b2, b3⟩ := ih (fun g hg => hz g (by simp [hg])) h2 (fun e he => hv e (by simp [he]))
    refine ⟨b :: bs, .cons a2 b1, ?_, fun l => ?_⟩
    · intro l hl
      simp only [List.flatten_cons, List.mem_append] at hl
      rcases hl with hl | hl
      · exact a1 l hl
      · exact b2 l hl
    · simp only [runGates] at b3 ⊢
      rw [List.foldlM_cons, a3]
      show List.foldlM _ _ gs = _
      rw [b3]; simp

/-- **C28.** On a circuit whose gates have valid targets (and which has no CCZ, a gate that circuits do not offer),
`to_qasm` succeeds. The text is the header with register sizes `n` and then one block of lines per gate, in circuit
order. All statements are well formed: an identifier applied to different qubits below `n`. -/
theorem C28_well_formed_partial (n : ℕ) (gates : List Gate) (es : List Elem) (hd : GatesDenote n gates es)
    (hv : ∀ e ∈ es, e.Valid n) (hz : ∀ T, Gate.g3 .ccz T ∉ gates) :
    ∃ blocks : List (List QLine), List.Forall₂ (BlockOf n) gates blocks ∧
      (∀ l ∈ blocks.flatten, l.WellFormed n) ∧
      qaRun fmt n gates true = .ok (programText fmt n blocks.flatten) ∧
      qaRun fmt n gates false = .ok (joinWith "\n" (blocks.flatten.map (QLine.text fmt))) := by
  obtain ⟨bs, h1, h2, h3⟩ := emits_blocks fmt (notCcz_of hz) hd hv
  refine ⟨bs, h1, h2, ?_, ?_⟩
  · simp only [qaRun, h3, pyJoin_eq]; rfl
  · simp only [qaRun, h3, pyJoin_eq]; simp

/-- The circuit `Circuit(3).h[0].crz(π)[0, 1].ccx[0, 1, 2].m[0:2]`. -/
def qasmDemo : List Gate :=
  [.g1 .h (.ofInt 0), .g2 (.crz Real.pi) (.ofPair 0 1), .g3 .ccx (.tup [.atom (.int 0), .atom (.int 1), .atom (.int 2)]),
    .measure (.one (.slice (some 0) (some 2) none))]

theorem qasmDemo_denotes : GatesDenote 3 qasmDemo
    [.one .h 0, .two (.crz Real.pi) 0 1, .three .ccx 0 1 2, .meas 0, .meas 1] := by
  refine ⟨[.one .h 0], _, gateDenotes_on1 3 .h 0, ⟨[.two (.crz Real.pi) 0 1], _,
    gateDenotes_on2 3 (.crz Real.pi) 0 1 (by decide), ⟨[.three .ccx 0 1 2], _, gateDenotes_three 3 .ccx 0 1 2,
      ⟨[.meas 0, .meas 1], [], ?_, rfl, rfl⟩, rfl⟩, rfl⟩, rfl⟩
  refine ⟨[0, 1], ?_, rfl⟩
  rw [← slicing_eq_iff]
  simp [slicing, slicingSinglevalue, sliceIndices, loopUp]

theorem qasmDemo_valid : ∀ e ∈ [Elem.one .h 0, .two (.crz Real.pi) 0 1, .three .ccx 0 1 2, .meas 0, .meas 1],
    e.Valid 3 := by
  simp [Elem.Valid]

theorem qasmDemo_noccz : ∀ T, Gate.g3 .ccz T ∉ qasmDemo := by
  simp [qasmDemo, Gate.measure]

example : ∃ blocks : List (List QLine), List.Forall₂ (BlockOf 3) qasmDemo blocks ∧
    (∀ l ∈ blocks.flatten, l.WellFormed 3) ∧
    qaRun fmt 3 qasmDemo true = .ok (programText fmt 3 blocks.flatten) ∧
    qaRun fmt 3 qasmDemo false = .ok (joinWith "\n" (blocks.flatten.map (QLine.text fmt))) :=
  C28_well_formed_partial fmt 3 qasmDemo _ qasmDemo_denotes qasmDemo_valid qasmDemo_noccz

/-- C28, three-qubit gates exactly: whatever the integers are, negative, too large or equal, they are printed as written. -/
theorem C28_three (n : ℕ) (k : G3) (name : String) (hk : k = .ccx ∧ name = "ccx" ∨ k = .cswap ∧ name = "cswap") (a b t : ℤ) :
    qaRun fmt n [.g3 k (.tup [.atom (.int a), .atom (.int b), .atom (.int t)])] false =
      .ok (name ++ " q[" ++ toString a ++ "],q[" ++ toString b ++ "],q[" ++ toString t ++ "];") := by
  have : ∀ fuel l, runGate (qaAction fmt n) n (fuel + 1) (.g3 k (.tup [.atom (.int a), .atom (.int b), .atom (.int t)])) l =
      .ok (l ++ [name ++ " q[" ++ toString a ++ "],q[" ++ toString b ++ "],q[" ++ toString t ++ "];"]) := by
    intro fuel l
    rcases hk with ⟨rfl, rfl⟩ | ⟨rfl, rfl⟩ <;>
      simp only [runGate, qaAction, qaHead3, Option.map_some, qaThree, unpack3, itemStr, atomStr] <;> rfl
  simp only [qaRun, runGates, List.foldlM_cons, List.foldlM_nil, recursionLimit]
  rw [this 999]
  rfl

/-- **C28 fails for negative Toffoli targets.** `Circuit(3).ccx[0, 1, -1].to_qasm()` prints the index `-1`. (The simulators refuse this
gate, see `C56_three`.) -/
theorem C28_negative_refuted :
    qaRun fmt 3 [.g3 .ccx (.tup [.atom (.int 0), .atom (.int 1), .atom (.int (-1))])] false =
      .ok "ccx q[0],q[1],q[-1];" := C28_three fmt 3 .ccx "ccx" (.inl ⟨rfl, rfl⟩) 0 1 (-1)

/-- A gate without a method and without a fallback: CCZ is refused. -/
theorem C28_ccz (n : ℕ) (T : Targets) (gates : List Gate) (prologue : Bool) :
    qaRun fmt n (.g3 .ccz T :: gates) prologue = .error .notImplementedError := by
  have : ∀ fuel l, runGate (qaAction fmt n) n (fuel + 1) (.g3 .ccz T) l = .error .notImplementedError := by
    intro fuel l
    simp only [runGate, qaAction, qaHead3, Option.map_none, Gate.fallback]
  simp only [qaRun, runGates, List.foldlM_cons, recursionLimit]
  rw [this 999]
  rfl

theorem emits_means {n : ℕ} {gates : List Gate} {es : List Elem} (hz : ∀ g ∈ gates, g.NotCcz)
    (hd : GatesDenote n gates es) (hv : ∀ e ∈ es, e.Valid n) : ∃ lines : List QLine,
      (∀ l ∈ lines, l.WellFormed n) ∧ Means qelibCu2 n (lines.map QLine.stmt) es ∧
      ((∀ φ lam T, Gate.g2 (.cu2 φ lam) T ∉ gates) → Means qelib n (lines.map QLine.stmt) es) ∧
      (∀ S, AngleSet S → (∀ g' ∈ gates, AnglesIn S g') → ∀ l ∈ lines, ∀ x ∈ l.stmt.params, x ∈ S) ∧
      ∀ l, runGates (qaAction fmt n) n recursionLimit gates l = .ok (l ++ lines.map (QLine.text fmt)) := by
  suffices H : ∃ fs lines, (∀ f ∈ fs, f.Valid n) ∧ (∀ s, steps phDoc n es s = steps phDoc n fs s) ∧
      ((∀ φ lam T, Gate.g2 (.cu2 φ lam) T ∉ gates) → ∀ f ∈ fs, Elem.NotCu2 f) ∧ LinesOf fs lines ∧
      (∀ S, AngleSet S → (∀ g' ∈ gates, AnglesIn S g') → ∀ l ∈ lines, ∀ x ∈ l.stmt.params, x ∈ S) ∧
      ∀ l, runGates (qaAction fmt n) n recursionLimit gates l = .ok (l ++ lines.map (QLine.text fmt)) by
    obtain ⟨fs, lines, h1, h2, h3, h4, h6, h5⟩ := H
    refine ⟨lines, lines_wf h4 h1, fun s => ?_, fun hn s => ?_, h6, h5⟩
    · rw [h2]; exact lines_run hasQelib_cu2 h4 h1 (.inr hasCu2_cu2) (same_refl s)
    · rw [h2]; exact lines_run hasQelib_qelib h4 h1 (.inl (h3 hn)) (same_refl s)
  induction gates generalizing es with
  | nil =>
    simp only [GatesDenote] at hd
    subst hd
    exact ⟨[], [], by simp, fun _ => rfl, by simp, .nil, by simp, fun l => by simp [runGates]; rfl⟩
  | cons g gs ih =>
    obtain ⟨e₁, e₂, h1, h2, rfl⟩ := hd
    obtain ⟨k1, l1, a1, a2, a3, a4, a6, a5⟩ := runGate_emits fmt recursionLimit g
      (by have := rank_le g; simp only [recursionLimit]; omega) (hz g (by simp)) e₁ h1 (fun e he => hv e (by simp [he]))
    obtain ⟨k2, l2, b1, b2, b3, b4, b6, b5⟩ := ih (fun g hg => hz g (by simp [hg])) h2 (fun e he => hv e (by simp [he]))
    refine ⟨k1 ++ k2, l1 ++ l2, ?_, ?_, ?_, List.rel_append a4 b4, ?_, ?_⟩
    · intro f hf
      rcases List.mem_append.1 hf with h | h
      · exact a1 f h
      · exact b1 f h
    · intro s; rw [steps_append, steps_append, a2, b2]
    · intro hn f hf
      rcases List.mem_append.1 hf with h | h
      · exact a3 (notCu2_of fun φ lam T h => hn φ lam T (by simp [h])) f h
      · exact b3 (fun φ lam T h => hn φ lam T (by simp [h])) f h
    · intro S hS ha l hl
      rcases List.mem_append.1 hl with h | h
      · exact a6 S hS (ha g (by simp)) l h
      · exact b6 S hS (fun g hg => ha g (by simp [hg])) l h
    · intro l
      simp only [runGates] at b5 ⊢
      rw [List.foldlM_cons, a5]
      show List.foldlM _ _ gs = _
      rw [b5]; simp

/-- **C29**, for circuits without CU2. The text is a program whose statements, with the meaning `qelib1.inc` gives
them, act on every state (amplitudes, classical bits, random numbers) as the circuit does, up to one global phase;
measurement and reset included. With CU2 this holds if the reader adds the definition of `cu2`. -/
theorem C29_meaning_partial (n : ℕ) (gates : List Gate) (es : List Elem) (hd : GatesDenote n gates es)
    (hv : ∀ e ∈ es, e.Valid n) (hz : ∀ T, Gate.g3 .ccz T ∉ gates) :
    ∃ lines : List QLine, qaRun fmt n gates true = .ok (programText fmt n lines) ∧
      Means qelibCu2 n (lines.map QLine.stmt) es ∧
      ((∀ φ lam T, Gate.g2 (.cu2 φ lam) T ∉ gates) → Means qelib n (lines.map QLine.stmt) es) := by
  obtain ⟨lines, h1, h2, h3, -, h4⟩ := emits_means fmt (notCcz_of hz) hd hv
  refine ⟨lines, ?_, h2, h3⟩
  simp only [qaRun, h4, pyJoin_eq]; rfl

example : ∃ lines : List QLine, qaRun fmt 3 qasmDemo true = .ok (programText fmt 3 lines) ∧
    Means qelib 3 (lines.map QLine.stmt) [.one .h 0, .two (.crz Real.pi) 0 1, .three .ccx 0 1 2, .meas 0, .meas 1] := by
  obtain ⟨lines, h1, -, h2⟩ := C29_meaning_partial fmt 3 qasmDemo _ qasmDemo_denotes qasmDemo_valid qasmDemo_noccz
  exact ⟨lines, h1, h2 (by simp [qasmDemo])⟩

/-- **C29 fails for CU2.** `Circuit(2).cu2(phi, lam)[0, 1].to_qasm()` uses the gate `cu2`, which `qelib1.inc` does not
have: the program means nothing. -/
theorem C29_cu2_refuted (φ lam : ℝ) :
    qaRun fmt 2 [.g2 (.cu2 φ lam) (.ofPair 0 1)] true =
      .ok (programText fmt 2 [⟨.gate "cu2" [φ, lam] [0, 1], none⟩]) ∧
    ∀ s, qasmRun qelib 2 [.gate "cu2" [φ, lam] [0, 1]] s = none := by
  refine ⟨?_, fun s => rfl⟩
  have hd : GateDenotes 2 (.g2 (.cu2 φ lam) (.ofPair 0 1)) [.two (.cu2 φ lam) 0 1] :=
    gateDenotes_on2 2 (.cu2 φ lam) 0 1 (by decide)
  obtain ⟨lines, h1, h2⟩ := native fmt (n := 2) (g := .g2 (.cu2 φ lam) (.ofPair 0 1)) rfl hd
  rcases h1 with _ | ⟨h, _ | _⟩
  simp only [lineOf, stmt2, Option.map_some, Option.some.injEq] at h
  subst h
  have : ∀ fuel l, runGate (qaAction fmt 2) 2 (fuel + 1) (.g2 (.cu2 φ lam) (.ofPair 0 1)) l =
      .ok (l ++ [QLine.text fmt ⟨.gate "cu2" [φ, lam] [0, 1], none⟩]) := by
    intro fuel l
    simp only [runGate]
    exact h2 l
  simp only [qaRun, runGates, List.foldlM_cons, List.foldlM_nil, recursionLimit]
  rw [this 999]
  simp only [pyJoin_eq]
  rfl

/-- **C30.** The text can be parsed back to exactly the statements emitted (the lines of the program), with both
register sizes. `S` is any set of angles that contains those of the circuit and is closed under the operations of
the decompositions; `read` reads back the numbers of `S` as `fmt` writes them. -/
theorem C30_parse (read : String → Option ℝ) (S : Set ℝ) (hS : AngleSet S) (hf : NumberFormat fmt read S) (n : ℕ)
    (gates : List Gate) (es : List Elem) (hd : GatesDenote n gates es) (hv : ∀ e ∈ es, e.Valid n)
    (hz : ∀ T, Gate.g3 .ccz T ∉ gates) (ha : ∀ g ∈ gates, AnglesIn S g) :
    ∃ (text : String) (lines : List QLine), qaRun fmt n gates true = .ok text ∧ text = programText fmt n lines ∧
      parseProgram read text = some (n, n, lines.map QLine.stmt) ∧ Means qelibCu2 n (lines.map QLine.stmt) es := by
  obtain ⟨lines, h1, h2, h3, h5, h4⟩ := emits_means fmt (notCcz_of hz) hd hv
  refine ⟨_, lines, by simp only [qaRun, h4, pyJoin_eq]; rfl, rfl, parseProgram_text hf h1 (h5 S hS ha), h2⟩

/-- **C30, second half.** Two circuits with the same text have the same number of qubits and the same effect on every
state, up to one global phase. -/
theorem C30_injective (read : String → Option ℝ) (S : Set ℝ) (hS : AngleSet S) (hf : NumberFormat fmt read S)
    (n n' : ℕ) (gates gates' : List Gate)
    (es es' : List Elem) (hd : GatesDenote n gates es) (hv : ∀ e ∈ es, e.Valid n) (hz : ∀ T, Gate.g3 .ccz T ∉ gates)
    (ha : ∀ g ∈ gates, AnglesIn S g)
    (hd' : GatesDenote n' gates' es') (hv' : ∀ e ∈ es', e.Valid n') (hz' : ∀ T, Gate.g3 .ccz T ∉ gates')
    (ha' : ∀ g ∈ gates', AnglesIn S g)
    (h : qaRun fmt n gates true = qaRun fmt n' gates' true) :
    n = n' ∧ ∀ s, SameUpToPhase (steps phDoc n es s) (steps phDoc n es' s) := by
  obtain ⟨t, l, a1, -, a2, a3⟩ := C30_parse fmt read S hS hf n gates es hd hv hz ha
  obtain ⟨t', l', b1, -, b2, b3⟩ := C30_parse fmt read S hS hf n' gates' es' hd' hv' hz' ha'
  rw [a1, b1] at h
  obtain rfl : t = t' := by simpa using h
  rw [a2] at b2
  simp only [Option.some.injEq, Prod.mk.injEq] at b2
  obtain ⟨rfl, -, hl⟩ := b2
  refine ⟨rfl, fun s => ?_⟩
  obtain ⟨s1, c1, c2, c3, z, hz, c4⟩ := a3 s
  obtain ⟨s2, d1, d2, d3, w, hw, d4⟩ := b3 s
  rw [hl, d1] at c1
  obtain rfl : s2 = s1 := by simpa using c1
  refine ⟨c2.symm.trans d2, c3.symm.trans d3, z⁻¹ * w, by simp [hz, hw], ?_⟩
  have hz0 : z ≠ 0 := by intro h0; rw [h0] at hz; simp at hz
  funext i
  have := congrFun (c4.symm.trans d4) i
  rw [mul_assoc, ← this, ← mul_assoc, inv_mul_cancel₀ hz0, one_mul]

/-! ### The hypotheses of C30 can be met -/

/-- Dyadic multiples of `π`. -/
def dyadicPi : Set ℝ := {x | ∃ p : ℤ × ℕ, x = p.1 * Real.pi / 2 ^ p.2}

theorem dyadicPi_angles : AngleSet dyadicPi where
  zero := ⟨(0, 0), by simp⟩
  pi := ⟨(1, 0), by simp⟩
  add := by
    rintro _ ⟨⟨a, k⟩, rfl⟩ _ ⟨⟨b, l⟩, rfl⟩
    refine ⟨(a * 2 ^ l + b * 2 ^ k, k + l), ?_⟩
    push_cast
    rw [pow_add]
    field_simp
  neg := by
    rintro _ ⟨⟨a, k⟩, rfl⟩
    exact ⟨(-a, k), by push_cast; ring⟩
  half := by
    rintro _ ⟨⟨a, k⟩, rfl⟩
    exact ⟨(a, k + 1), by rw [pow_succ]; field_simp⟩

open Classical in
/-- Write a dyadic multiple of `π` as the code of its numerator and exponent. -/
def dyadicFmt (x : ℝ) : String := if h : x ∈ dyadicPi then toString (Encodable.encode h.choose) else "0"

def dyadicRead (s : String) : Option ℝ :=
  s.toNat?.bind fun k => (Encodable.decode (α := ℤ × ℕ) k).map fun p => p.1 * Real.pi / 2 ^ p.2

theorem dyadic_format : NumberFormat dyadicFmt dyadicRead dyadicPi := by
  constructor
  · intro x hx
    simp only [dyadicFmt, dif_pos hx, dyadicRead]
    rw [show (toString (Encodable.encode hx.choose)).toNat? = some (Encodable.encode hx.choose) from Nat.toNat?_repr _]
    simp only [Option.bind_some, Encodable.encodek, Option.map_some, Option.some.injEq]
    exact hx.choose_spec.symm
  · intro x hx c hc
    simp only [dyadicFmt, dif_pos hx] at hc
    have := digit_of_mem _ c hc
    intro hm
    simp only [List.mem_cons, List.not_mem_nil, or_false] at hm
    rcases hm with rfl | rfl | rfl | rfl | rfl | rfl | rfl <;> revert this <;> decide

theorem qasmDemo_angles : ∀ g ∈ qasmDemo, AnglesIn dyadicPi g := by
  intro g hg
  simp only [qasmDemo, List.mem_cons, List.not_mem_nil, or_false] at hg
  rcases hg with rfl | rfl | rfl | rfl
  · simp [AnglesIn, angles1]
  · simp only [AnglesIn, angles2, List.mem_singleton, forall_eq]; exact dyadicPi_angles.pi
  · trivial
  · trivial

example : ∃ (text : String) (lines : List QLine), qaRun dyadicFmt 3 qasmDemo true = .ok text ∧
    text = programText dyadicFmt 3 lines ∧
    parseProgram dyadicRead text = some (3, 3, lines.map QLine.stmt) ∧ Means qelibCu2 3 (lines.map QLine.stmt)
      [.one .h 0, .two (.crz Real.pi) 0 1, .three .ccx 0 1 2, .meas 0, .meas 1] :=
  C30_parse dyadicFmt dyadicRead dyadicPi dyadicPi_angles dyadic_format 3 qasmDemo _ qasmDemo_denotes qasmDemo_valid
    qasmDemo_noccz qasmDemo_angles

end

end Blueqat
