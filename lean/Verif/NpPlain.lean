import Verif.NumpyRefine

/-! Lemmas: what a gate does on the numpy simulator depends only on the amplitudes, the classical register
and the random numbers, not on the content of the second buffer nor on the cache flag. This holds for every
gate object, valid or not. -/

set_option linter.unusedSimpArgs false
set_option linter.unusedVariables false

namespace Blueqat

open Spec

noncomputable section

/-! ## Lengths -/

theorem length_fill (q : Arr) (m : List Bool) (v : Arr) : (fill q m v).length = q.length := by
  induction q generalizing m v with
  | nil => cases m <;> cases v <;> simp [fill]
  | cons x q ih =>
    cases m with
    | nil => simp [fill]
    | cons b m => cases b <;> cases v <;> simp [fill, ih]

theorem length_asg {q r : Arr} {m : List Bool} {v : Arr} (h : asg q m v = .ok r) : r.length = q.length := by
  simp only [asg] at h
  split_ifs at h
  · cases h; exact length_fill _ _ _
  · split at h
    · cases h; exact length_fill _ _ _
    · cases h

theorem length_maskNe (n b : ℕ) : (maskNe n b).length = 2 ^ n := by simp [maskNe]
theorem length_maskEq (n b : ℕ) : (maskEq n b).length = 2 ^ n := by simp [maskEq]
theorem length_maskAnd {n : ℕ} {a b : List Bool} (ha : a.length = 2 ^ n) (hb : b.length = 2 ^ n) :
    (maskAnd a b).length = 2 ^ n := by simp [maskAnd, ha, hb]
theorem length_mulAt {n : ℕ} {q : Arr} {m : List Bool} (z : ℂ) (hq : q.length = 2 ^ n) (hm : m.length = 2 ^ n) :
    (mulAt q m z).length = 2 ^ n := by simp [mulAt, hq, hm]
theorem length_setAt {n : ℕ} {q : Arr} {m : List Bool} (z : ℂ) (hq : q.length = 2 ^ n) (hm : m.length = 2 ^ n) :
    (setAt q m z).length = 2 ^ n := by simp [setAt, hq, hm]
theorem length_divS (q : Arr) (z : ℂ) : (divS q z).length = q.length := by simp [divS]

theorem err_bind {α β : Type} (e : PyErr) (f : α → Except PyErr β) :
    ((Except.error e : Except PyErr α) >>= f) = .error e := rfl

theorem err_map {α β : Type} (e : PyErr) (f : α → β) :
    (Except.error e : Except PyErr α).map f = .error e := rfl

theorem ok_map {α β : Type} (a : α) (f : α → β) :
    (Except.ok a : Except PyErr α).map f = .ok (f a) := rfl

theorem bind_ok {α β : Type} {x : Except PyErr α} {f : α → Except PyErr β} {r : β} (h : (x >>= f) = .ok r) :
    ∃ a, x = .ok a ∧ f a = .ok r := by
  cases x with
  | error e => cases h
  | ok a => exact ⟨a, rfl, h⟩

/-! ## Targets outside the register -/

theorem shl1_neg {t : ℤ} (h : t < 0) : shl1 t = .error .valueError := by simp [shl1, h]

theorem testBit_big {n t i : ℕ} (ht : n ≤ t) (hi : i < 2 ^ n) : i.testBit t = false :=
  Nat.testBit_lt_two_pow (hi.trans_le (Nat.pow_le_pow_right (by norm_num) ht))

theorem maskNe_big {n t : ℕ} (ht : n ≤ t) : maskNe n (2 ^ t) = List.replicate (2 ^ n) false := by
  rw [maskNe_eq, maskOf]
  refine List.eq_replicate_iff.2 ⟨by simp, ?_⟩
  intro b hb
  obtain ⟨i, hi, rfl⟩ := List.mem_map.1 hb
  exact testBit_big ht (List.mem_range.1 hi)

theorem maskEq_big {n t : ℕ} (ht : n ≤ t) : maskEq n (2 ^ t) = List.replicate (2 ^ n) true := by
  rw [maskEq_eq, maskOf]
  refine List.eq_replicate_iff.2 ⟨by simp, ?_⟩
  intro b hb
  obtain ⟨i, hi, rfl⟩ := List.mem_map.1 hb
  simp [testBit_big ht (List.mem_range.1 hi)]

theorem sel_replicate_false (q : Arr) (k : ℕ) : sel q (List.replicate k false) = [] := by
  induction k generalizing q with
  | zero => cases q <;> rfl
  | succ k ih => cases q <;> simp [List.replicate_succ, sel, ih]

theorem sel_replicate_true (q : Arr) : sel q (List.replicate q.length true) = q := by
  induction q with
  | nil => rfl
  | cons x q ih => simp [List.replicate_succ, sel, ih]

theorem asg_empty {n : ℕ} (q : Arr) : asg q (List.replicate (2 ^ n) true) [] = .error .valueError := by
  simp [asg, (Nat.two_pow_pos n).ne]

theorem add_empty (f : ℂ → ℂ → ℂ) (u : Arr) (h : u ≠ []) :
    broadcast2 f u [] = .ok [] ∨ broadcast2 f u [] = .error .valueError := by
  match u, h with
  | [x], _ => left; simp [broadcast2]
  | x :: y :: u, _ => right; simp [broadcast2]

/-! ## Loop bodies that swap buffers -/

/-- The body's effect on the amplitudes is a function of the amplitudes alone. -/
def BodyActs (n : ℕ) (body : Bufs → Except PyErr Bufs) : Prop :=
  ∃ U : Arr → Except PyErr Arr, ∀ q b : Arr, q.length = 2 ^ n → b.length = 2 ^ n →
    match U q with
    | .error e => body (q, b) = .error e
    | .ok q' => q'.length = 2 ^ n ∧ ∃ b' : Arr, b'.length = 2 ^ n ∧ body (q, b) = .ok (q', b')

theorem bodyActs_of {n : ℕ} {body : ℤ → Bufs → Except PyErr Bufs} (M : M2)
    (hneg : ∀ t < 0, ∀ s, body t s = .error .valueError)
    (hok : ∀ t < n, ∀ ψ b, b.length = 2 ^ n → body (t : ℕ) (vec n ψ, b) = .ok (vec n (app M t ψ), vec n ψ))
    (hbig : ∀ t ≥ n, ∀ q b, q.length = 2 ^ n → b.length = 2 ^ n → body (t : ℕ) (q, b) = .error .valueError)
    (t : ℤ) : BodyActs n (body t) := by
  by_cases h0 : t < 0
  · exact ⟨fun _ => .error .valueError, fun q b _ _ => hneg t h0 _⟩
  obtain ⟨t, rfl⟩ := Int.eq_ofNat_of_zero_le (not_lt.1 h0)
  by_cases h1 : t < n
  · refine ⟨fun q => .ok (vec n (app M t (fun i => q.getD i 0))), fun q b hq hb => ?_⟩
    refine ⟨by simp, vec n (fun i => q.getD i 0), by simp, ?_⟩
    conv_lhs => rw [vec_getD n q hq]
    exact hok t h1 _ b hb
  · exact ⟨fun _ => .error .valueError, fun q b hq hb => hbig t (not_lt.1 h1) q b hq hb⟩

theorem bodyX_acts (n : ℕ) (t : ℤ) : BodyActs n (bodyX n t) := by
  refine bodyActs_of (body := bodyX n) mX (fun t ht s => by simp only [bodyX, shl1_neg ht]; rfl)
    (fun t ht ψ b hb => bodyX_vec ht ψ b hb) (fun t ht q b hq hb => ?_) t
  simp only [bodyX, shl1_nat, ok_bind, maskNe_big ht, maskEq_big ht, sel_replicate_false, asg_empty]
  rfl

theorem bodyY_acts (n : ℕ) (t : ℤ) : BodyActs n (bodyY n t) := by
  refine bodyActs_of (body := bodyY n) mY (fun t ht s => by simp only [bodyY, shl1_neg ht]; rfl)
    (fun t ht ψ b hb => bodyY_vec ht ψ b hb) (fun t ht q b hq hb => ?_) t
  simp only [bodyY, shl1_nat, ok_bind, maskNe_big ht, maskEq_big ht, sel_replicate_false, smulA, List.map_nil,
    asg_empty]
  rfl

theorem ne_nil_of_length {n : ℕ} {q : Arr} (h : q.length = 2 ^ n) : q ≠ [] := by
  rintro rfl
  have := Nat.two_pow_pos n
  simp only [List.length_nil] at h
  omega

theorem bodyH_acts (n : ℕ) (t : ℤ) : BodyActs n (bodyH n t) := by
  refine bodyActs_of (body := bodyH n) mH (fun t ht s => by simp only [bodyH, shl1_neg ht]; rfl)
    (fun t ht ψ b hb => bodyH_vec ht ψ b hb) (fun t ht q b hq hb => ?_) t
  simp only [bodyH, shl1_nat, ok_bind, maskNe_big ht, maskEq_big ht, sel_replicate_false]
  rw [← hq, sel_replicate_true, hq]
  rcases add_empty (· + ·) q (ne_nil_of_length hq) with h | h
  · rw [addA, h, ok_bind, asg_empty]; rfl
  · rw [addA, h]; rfl

theorem bodyRot_acts (M : M2) (n : ℕ) (t : ℤ) : BodyActs n (bodyRot M.a M.b M.c M.d n t) := by
  refine bodyActs_of (body := bodyRot M.a M.b M.c M.d n) M
    (fun t ht s => by simp only [bodyRot, shl1_neg ht]; rfl)
    (fun t ht ψ b hb => bodyRot_vec M ht ψ b hb) (fun t ht q b hq hb => ?_) t
  simp only [bodyRot, shl1_nat, ok_bind, maskNe_big ht, maskEq_big ht, sel_replicate_false]
  rw [← hq, sel_replicate_true, hq]
  have hne : smulA M.a q ≠ [] := ne_nil_of_length (n := n) (by simp [smulA, hq])
  rcases add_empty (· + ·) _ hne with h | h
  · rw [addA, show smulA M.b [] = [] from rfl, h, ok_bind, asg_empty]; rfl
  · rw [addA, show smulA M.b [] = [] from rfl, h]; rfl

/-- A body that copies the amplitudes into the buffer first. -/
theorem bodyActs_copy {n : ℕ} {body : Bufs → Except PyErr Bufs} (h1 : ∀ q b, body (q, b) = body (q, []))
    (h2 : ∀ q r, q.length = 2 ^ n → body (q, []) = .ok r → r.1.length = 2 ^ n ∧ r.2.length = 2 ^ n) :
    BodyActs n body := by
  refine ⟨fun q => (body (q, [])).map Prod.fst, fun q b hq _ => ?_⟩
  rw [h1]
  cases h : body (q, []) with
  | error e => simp only [h, err_map]
  | ok r =>
    obtain ⟨k1, k2⟩ := h2 q r hq h
    simp only [h, ok_map]
    exact ⟨k1, r.2, k2, rfl⟩

theorem bodyU3_acts (a b c d : ℂ) (n : ℕ) (t : ℤ) : BodyActs n (bodyU3 a b c d n t) := by
  refine bodyActs_copy (fun q b => rfl) (fun q r hq h => ?_)
  obtain ⟨x1, _, h⟩ := bind_ok h
  obtain ⟨x2, h2, h⟩ := bind_ok h
  obtain ⟨x3, _, h⟩ := bind_ok h
  obtain ⟨x4, h4, h⟩ := bind_ok h
  obtain ⟨x5, h5, h⟩ := bind_ok h
  obtain ⟨x6, _, h⟩ := bind_ok h
  obtain ⟨x7, h7, h⟩ := bind_ok h
  cases h
  refine ⟨?_, hq⟩
  rw [length_asg h7, length_asg h5, length_asg h4, length_asg h2, hq]

theorem bodyCX_acts (n : ℕ) (c t : ℤ) : BodyActs n (bodyCX n c t) := by
  refine bodyActs_copy (fun q b => rfl) (fun q r hq h => ?_)
  obtain ⟨x1, _, h⟩ := bind_ok h
  obtain ⟨x2, _, h⟩ := bind_ok h
  obtain ⟨x3, h3, h⟩ := bind_ok h
  obtain ⟨x4, h4, h⟩ := bind_ok h
  cases h
  refine ⟨?_, hq⟩
  rw [length_asg h4, length_asg h3, hq]

theorem bodyCRot_acts (a b c d : ℂ) (n : ℕ) (k t : ℤ) : BodyActs n (bodyCRot a b c d n k t) := by
  refine bodyActs_copy (fun q b => rfl) (fun q r hq h => ?_)
  obtain ⟨x1, _, h⟩ := bind_ok h
  obtain ⟨x2, _, h⟩ := bind_ok h
  obtain ⟨x3, _, h⟩ := bind_ok h
  obtain ⟨x4, h4, h⟩ := bind_ok h
  obtain ⟨x5, _, h⟩ := bind_ok h
  obtain ⟨x6, h6, h⟩ := bind_ok h
  cases h
  refine ⟨?_, hq⟩
  rw [length_asg h6, length_asg h4, hq]

/-! ## Gates as functions of the plain state -/

/-- Amplitudes, classical register, unused random numbers. -/
structure PSt where
  q : Arr
  cr : List ℕ
  rnd : ℕ → ℝ

/-- The plain part of a context. -/
def NpCtx.core (c : NpCtx) : PSt := ⟨c.qubits, c.cregs, c.rnd⟩

/-- Both arrays have the length of the register. -/
def NpCtx.Wf (n : ℕ) (c : NpCtx) : Prop := c.qubits.length = 2 ^ n ∧ c.buf.length = 2 ^ n

/-- The result `r` from context `c` is the plain result `u`; `m` tells whether the cache flag is cleared. -/
def Match (n : ℕ) (c : NpCtx) (m : Bool) (u : Except PyErr PSt) (r : Except PyErr NpCtx) : Prop :=
  match u with
  | .error e => r = .error e
  | .ok p => p.q.length = 2 ^ n ∧ ∃ b : Arr, b.length = 2 ^ n ∧ r = .ok ⟨p.q, b, p.cr, c.saveCache && !m, p.rnd⟩

/-- `f` acts on the amplitudes alone, as `U`. -/
def ActsU (n : ℕ) (f : NpCtx → Except PyErr NpCtx) : Prop :=
  ∃ U : Arr → Except PyErr Arr, ∀ c : NpCtx, c.Wf n →
    match U c.qubits with
    | .error e => f c = .error e
    | .ok q' => q'.length = 2 ^ n ∧ ∃ b' : Arr, b'.length = 2 ^ n ∧ f c = .ok { c with qubits := q', buf := b' }

theorem ActsU.bind {n : ℕ} {f g : NpCtx → Except PyErr NpCtx} (hf : ActsU n f) (hg : ActsU n g) :
    ActsU n (fun c => f c >>= g) := by
  obtain ⟨U, hU⟩ := hf
  obtain ⟨V, hV⟩ := hg
  refine ⟨fun q => U q >>= V, fun c hc => ?_⟩
  have h := hU c hc
  cases hu : U c.qubits with
  | error e =>
    rw [hu] at h; simp only at h
    simp only [hu, h, err_bind]
  | ok q' =>
    rw [hu] at h
    obtain ⟨hl, b', hb', he⟩ := h
    have h2 := hV { c with qubits := q', buf := b' } ⟨hl, hb'⟩
    simp only [hu, ok_bind, he]
    cases hv : V q' with
    | error e => simp only [hv] at h2 ⊢; exact h2
    | ok q2 =>
      simp only [hv] at h2 ⊢
      obtain ⟨hl2, b2, hb2, he2⟩ := h2
      exact ⟨hl2, b2, hb2, he2⟩

theorem actsU_pure (n : ℕ) : ActsU n (fun c => .ok c) :=
  ⟨fun q => .ok q, fun c hc => ⟨hc.1, c.buf, hc.2, rfl⟩⟩

theorem actsU_error (n : ℕ) (e : PyErr) : ActsU n (fun _ => .error e) :=
  ⟨fun q => .error e, fun c hc => rfl⟩

theorem bodyActs_foldlM {α : Type} {n : ℕ} (body : α → Bufs → Except PyErr Bufs) (L : List α)
    (h : ∀ a, BodyActs n (body a)) : BodyActs n (fun s => L.foldlM (fun s a => body a s) s) := by
  induction L with
  | nil => exact ⟨fun q => .ok q, fun q b hq hb => ⟨hq, b, hb, rfl⟩⟩
  | cons a L ih =>
    obtain ⟨U, hU⟩ := h a
    obtain ⟨V, hV⟩ := ih
    refine ⟨fun q => U q >>= V, fun q b hq hb => ?_⟩
    have h1 := hU q b hq hb
    simp only [List.foldlM_cons]
    cases hu : U q with
    | error e => rw [hu] at h1; simp only at h1; simp only [hu, h1, err_bind]
    | ok q' =>
      rw [hu] at h1
      obtain ⟨hl, b', hb', he⟩ := h1
      simp only [hu, he, ok_bind]
      exact hV q' b' hl hb'

theorem bodyActs_forGen {n : ℕ} (g : Gen ℤ) (body : ℤ → Bufs → Except PyErr Bufs)
    (h : ∀ a, BodyActs n (body a)) : BodyActs n (fun s => forGen g body s) := by
  obtain ⟨U, hU⟩ := bodyActs_foldlM body g.vals h
  refine ⟨fun q => match U q with
    | .error e => .error e
    | .ok q' => match g.err with | none => .ok q' | some e => .error e, fun q b hq hb => ?_⟩
  have h1 := hU q b hq hb
  simp only [forGen]
  cases hu : U q with
  | error e => rw [hu] at h1; simp only at h1; simp only [hu, h1]
  | ok q' =>
    rw [hu] at h1
    obtain ⟨hl, b', hb', he⟩ := h1
    simp only [hu, he]
    cases g.err with
    | none => exact ⟨hl, b', hb', rfl⟩
    | some e => rfl

theorem bodyActs_forPairs {n : ℕ} (g : Except PyErr (List (ℤ × ℤ))) (body : ℤ → ℤ → Bufs → Except PyErr Bufs)
    (h : ∀ a b, BodyActs n (body a b)) : BodyActs n (fun s => forPairs g body s) := by
  cases g with
  | error e => exact ⟨fun q => .error e, fun q b hq hb => rfl⟩
  | ok ps => exact bodyActs_foldlM (fun p : ℤ × ℤ => body p.1 p.2) ps (fun p => h p.1 p.2)

theorem actsU_of_bodyActs {n : ℕ} {f : NpCtx → Except PyErr NpCtx} {loop : Bufs → Except PyErr Bufs}
    (h : BodyActs n loop)
    (hf : ∀ c, f c = match loop (c.qubits, c.buf) with
      | .error e => .error e
      | .ok (q, b) => .ok { c with qubits := q, buf := b }) : ActsU n f := by
  obtain ⟨U, hU⟩ := h
  refine ⟨U, fun c hc => ?_⟩
  have h1 := hU c.qubits c.buf hc.1 hc.2
  rw [hf]
  cases hu : U c.qubits with
  | error e => rw [hu] at h1; simp only at h1; rw [h1]
  | ok q' =>
    rw [hu] at h1
    obtain ⟨hl, b', hb', he⟩ := h1
    rw [he]
    exact ⟨hl, b', hb', rfl⟩

theorem actsU_swap1 {n : ℕ} {body : ℕ → ℤ → Bufs → Except PyErr Bufs} (h : ∀ t, BodyActs n (body n t))
    (T : Targets) : ActsU n (swapLoop1 body n T) :=
  actsU_of_bodyActs (bodyActs_forGen (slicing T n) (body n) h) (fun c => rfl)

theorem actsU_swap2 {n : ℕ} {body : ℕ → ℤ → ℤ → Bufs → Except PyErr Bufs} (h : ∀ c t, BodyActs n (body n c t))
    (T : Targets) : ActsU n (swapLoop2 body n T) :=
  actsU_of_bodyActs (bodyActs_forPairs (qubitPairs T n) (body n) h) (fun c => rfl)

/-- A loop body on the amplitudes alone that keeps the length. -/
def KeepsLen (n : ℕ) (body : Arr → Except PyErr Arr) : Prop :=
  ∀ q q', q.length = 2 ^ n → body q = .ok q' → q'.length = 2 ^ n

theorem keepsLen_foldlM {α : Type} {n : ℕ} (body : α → Arr → Except PyErr Arr) (L : List α)
    (h : ∀ a, KeepsLen n (body a)) : KeepsLen n (fun s => L.foldlM (fun s a => body a s) s) := by
  induction L with
  | nil => intro q q' hq h; cases h; exact hq
  | cons a L ih =>
    intro q q' hq he
    simp only [List.foldlM_cons] at he
    obtain ⟨x, hx, he⟩ := bind_ok he
    exact ih x q' (h a q x hq hx) he

theorem actsU_inPlace1 {n : ℕ} {body : ℕ → ℤ → Arr → Except PyErr Arr} (h : ∀ t, KeepsLen n (body n t))
    (T : Targets) : ActsU n (inPlaceLoop1 body n T) := by
  refine ⟨fun q => forGen (slicing T n) (body n) q, fun c hc => ?_⟩
  simp only [inPlaceLoop1]
  cases he : forGen (slicing T n) (body n) c.qubits with
  | error e => rfl
  | ok q' =>
    refine ⟨?_, c.buf, hc.2, rfl⟩
    simp only [forGen] at he
    split at he
    · cases he
    · rename_i s' hs'
      split at he
      · cases he; exact keepsLen_foldlM (body n) _ h _ _ hc.1 hs'
      · cases he

theorem actsU_inPlace2 {n : ℕ} {body : ℕ → ℤ → ℤ → Arr → Except PyErr Arr} (h : ∀ c t, KeepsLen n (body n c t))
    (T : Targets) : ActsU n (inPlaceLoop2 body n T) := by
  refine ⟨fun q => forPairs (qubitPairs T n) (body n) q, fun c hc => ?_⟩
  simp only [inPlaceLoop2]
  cases he : forPairs (qubitPairs T n) (body n) c.qubits with
  | error e => rfl
  | ok q' =>
    refine ⟨?_, c.buf, hc.2, rfl⟩
    simp only [forPairs] at he
    split at he
    · cases he
    · rename_i ps hps
      exact keepsLen_foldlM (fun p : ℤ × ℤ => body n p.1 p.2) ps (fun p => h p.1 p.2) _ _ hc.1 he

theorem keepsLen_phase (z : ℂ) (n : ℕ) (t : ℤ) : KeepsLen n (bodyPhase z n t) := by
  intro q q' hq h
  obtain ⟨b, _, h⟩ := bind_ok h
  cases h
  exact length_mulAt _ hq (length_maskNe _ _)

theorem keepsLen_rz (z w : ℂ) (n : ℕ) (t : ℤ) : KeepsLen n (bodyRZ z w n t) := by
  intro q q' hq h
  obtain ⟨b, _, h⟩ := bind_ok h
  cases h
  exact length_mulAt _ (length_mulAt _ hq (length_maskEq _ _)) (length_maskNe _ _)

theorem keepsLen_cphase (z : ℂ) (n : ℕ) (c t : ℤ) : KeepsLen n (bodyCPhase z n c t) := by
  intro q q' hq h
  obtain ⟨b, _, h⟩ := bind_ok h
  obtain ⟨b', _, h⟩ := bind_ok h
  cases h
  exact length_mulAt _ hq (length_maskAnd (length_maskNe _ _) (length_maskNe _ _))

theorem keepsLen_crz (z w : ℂ) (n : ℕ) (c t : ℤ) : KeepsLen n (bodyCRZ z w n c t) := by
  intro q q' hq h
  obtain ⟨b, _, h⟩ := bind_ok h
  obtain ⟨b', _, h⟩ := bind_ok h
  cases h
  exact length_mulAt _ (length_mulAt _ hq (length_maskAnd (length_maskNe _ _) (length_maskEq _ _)))
    (length_maskAnd (length_maskNe _ _) (length_maskNe _ _))

theorem actsU_ccz (n : ℕ) (T : Targets) : ActsU n (npGateCCZ n T) := by
  refine ⟨fun q => (npGateCCZ n T ⟨q, [], [], true, fun _ => 0⟩).map NpCtx.qubits, fun c hc => ?_⟩
  simp only [npGateCCZ]
  cases unpack3 T with
  | error e => rfl
  | ok p =>
    obtain ⟨c1, c2, t⟩ := p
    simp only [ok_bind]
    cases shl1Item c1 with
    | error e => rfl
    | ok b1 =>
      simp only [ok_bind]
      cases shl1Item c2 with
      | error e => rfl
      | ok b2 =>
        simp only [ok_bind]
        cases shl1Item t with
        | error e => rfl
        | ok b3 =>
          exact ⟨length_mulAt _ hc.1 (length_maskAnd (length_maskAnd (length_maskNe _ _) (length_maskNe _ _))
            (length_maskNe _ _)), c.buf, hc.2, rfl⟩

theorem actsU_h (n : ℕ) (T : Targets) : ActsU n (npGateH n T) := actsU_swap1 (bodyH_acts n) T

theorem actsU_ccx (n : ℕ) (T : Targets) : ActsU n (npGateCCX n T) := by
  have : npGateCCX n T = fun c => (match unpack3 T with
      | .error e => .error e
      | .ok (_, _, t) => npGateH n t.toTargets c >>= fun c => npGateCCZ n T c >>= fun c => npGateH n t.toTargets c) := by
    funext c
    simp only [npGateCCX]
    cases unpack3 T <;> rfl
  rw [this]
  cases unpack3 T with
  | error e => exact actsU_error n e
  | ok p =>
    obtain ⟨c1, c2, t⟩ := p
    exact (actsU_h n t.toTargets).bind ((actsU_ccz n T).bind (actsU_h n t.toTargets))

/-- Measurement or reset. -/
def Gate.isMeas : Gate → Bool
  | .measure _ => true
  | .reset _ => true
  | _ => false

theorem npAction_actsU {n : ℕ} {g : Gate} {a : NpCtx → Except PyErr NpCtx} (h : npAction n g = some a)
    (hm : g.isMeas = false) : ActsU n a := by
  cases g with
  | measure T => simp [Gate.isMeas] at hm
  | reset T => simp [Gate.isMeas] at hm
  | g3 k T =>
    cases k <;> simp only [npAction, Option.some.injEq, reduceCtorEq] at h <;> subst h
    · exact actsU_ccx n T
    · exact actsU_ccz n T
  | g2 k T =>
    cases k <;> simp only [npAction, Option.some.injEq, reduceCtorEq] at h <;> subst h
    · exact actsU_swap2 (bodyCX_acts n) T
    · exact actsU_inPlace2 (keepsLen_cphase _ n) T
    · exact actsU_swap2 (bodyCRot_acts _ _ _ _ n) T
    · exact actsU_swap2 (bodyCRot_acts _ _ _ _ n) T
    · exact actsU_inPlace2 (keepsLen_crz _ _ n) T
    · exact actsU_inPlace2 (keepsLen_cphase _ n) T
  | g1 k T =>
    cases k <;> simp only [npAction, Option.some.injEq, reduceCtorEq] at h <;> subst h
    · exact actsU_swap1 (bodyX_acts n) T
    · exact actsU_swap1 (bodyY_acts n) T
    · exact actsU_inPlace1 (keepsLen_phase _ n) T
    · exact actsU_swap1 (bodyH_acts n) T
    · exact actsU_inPlace1 (keepsLen_phase _ n) T
    · exact actsU_inPlace1 (keepsLen_phase _ n) T
    · exact actsU_swap1 (bodyRot_acts ⟨_, _, _, _⟩ n) T
    · exact actsU_swap1 (bodyRot_acts ⟨_, _, _, _⟩ n) T
    · exact actsU_inPlace1 (keepsLen_rz _ _ n) T
    · exact actsU_inPlace1 (keepsLen_phase _ n) T
    · exact actsU_inPlace1 (keepsLen_rz _ _ n) T
    · exact actsU_swap1 (bodyU3_acts _ _ _ _ n) T

/-- Fallbacks contain no measurement or reset. -/
theorem fallback_not_meas {g : Gate} {n : ℕ} {gs : List Gate} (h : g.fallback n = .ok gs) :
    ∀ g' ∈ gs, g'.isMeas = false := by
  cases g with
  | measure T => simp [Gate.fallback] at h
  | reset T => simp [Gate.fallback] at h
  | g3 k T =>
    cases k <;> simp only [Gate.fallback] at h
    · split at h <;> simp at h
      subst h
      simp [toffoliFallback, onItem, onItems, Gate.isMeas]
    · simp at h
    · split at h <;> simp at h
      subst h
      simp [toffoliFallback, onItem, onItems, Gate.isMeas]
  | g2 k T =>
    simp only [Gate.fallback] at h
    split at h
    · simp at h
    · rename_i f hf
      split at h <;> simp at h
      subst h
      intro g' hg
      obtain ⟨p, _, hp⟩ := List.mem_flatMap.1 hg
      have : ∀ c t, ∀ g' ∈ f c t, g'.isMeas = false := by
        cases k <;> simp [G2.fallbackOn] at hf <;> subst hf <;> simp [on1, on2, Gate.isMeas]
      exact this _ _ _ hp
  | g1 k T =>
    by_cases hki : k = .i
    · subst hki; simp [Gate.fallback] at h; subst h; simp
    · have hf' : (match k.fallbackOn with
        | none => .error .notImplementedError
        | some f =>
          match (slicing T n).toList with
          | .error e => .error e
          | .ok ts => .ok (ts.flatMap f)) = (Except.ok gs : Except PyErr (List Gate)) := by
        rw [← h]; cases k <;> first | exact absurd rfl hki | rfl
      split at hf'
      · simp at hf'
      · rename_i f hf
        split at hf' <;> simp at hf'
        subst hf'
        intro g' hg
        obtain ⟨p, _, hp⟩ := List.mem_flatMap.1 hg
        have : ∀ t, ∀ g' ∈ f t, g'.isMeas = false := by
          cases k <;> simp [G1.fallbackOn] at hf <;> subst hf <;> simp [on1, Gate.isMeas]
        exact this _ _ hp

theorem runGate_actsU (n fuel : ℕ) : ∀ g : Gate, g.isMeas = false →
    ActsU n (runGate (npAction n) n fuel g) := by
  induction fuel with
  | zero => intro g _; exact actsU_error n _
  | succ fuel ih =>
    intro g hm
    cases ha : npAction n g with
    | some a =>
      have : runGate (npAction n) n (fuel + 1) g = a := by funext c; simp only [runGate, ha]
      rw [this]; exact npAction_actsU ha hm
    | none =>
      cases hf : g.fallback n with
      | error e =>
        have : runGate (npAction n) n (fuel + 1) g = fun c => .error e := by
          funext c; simp only [runGate, ha, hf]
        rw [this]; exact actsU_error n e
      | ok gs =>
        have : runGate (npAction n) n (fuel + 1) g =
            fun c => gs.foldlM (fun s g' => runGate (npAction n) n fuel g' s) c := by
          funext c; simp only [runGate, ha, hf]
        rw [this]
        have hm' := fallback_not_meas hf
        clear this hf
        induction gs with
        | nil => exact actsU_pure n
        | cons g' gs ih' =>
          have h1 := ih g' (hm' g' (by simp))
          have h2 := ih' (fun g hg => hm' g (by simp [hg]))
          exact h1.bind h2

/-! ## Measurement and reset -/

/-- `f` on a context is `V` on its plain part. -/
def BodyPlain (n : ℕ) (f : NpCtx → Except PyErr NpCtx) : Prop :=
  ∃ V : PSt → Except PyErr PSt, ∀ c : NpCtx, c.Wf n →
    match V c.core with
    | .error e => f c = .error e
    | .ok p => p.q.length = 2 ^ n ∧ f c = .ok ⟨p.q, c.buf, p.cr, c.saveCache, p.rnd⟩

theorem bodyPlain_of {n : ℕ} {f : NpCtx → Except PyErr NpCtx}
    (h1 : ∀ c : NpCtx, f c = (f ⟨c.qubits, [], c.cregs, true, c.rnd⟩).map
      (fun r => ⟨r.qubits, c.buf, r.cregs, c.saveCache, r.rnd⟩))
    (h2 : ∀ c r, c.qubits.length = 2 ^ n → f c = .ok r → r.qubits.length = 2 ^ n) : BodyPlain n f := by
  refine ⟨fun p => (f ⟨p.q, [], p.cr, true, p.rnd⟩).map NpCtx.core, fun c hc => ?_⟩
  rw [h1]
  simp only [NpCtx.core]
  cases h : f ⟨c.qubits, [], c.cregs, true, c.rnd⟩ with
  | error e => rfl
  | ok r => exact ⟨h2 ⟨c.qubits, [], c.cregs, true, c.rnd⟩ r hc.1 h, rfl⟩

theorem bodyMeasure_plain (n : ℕ) (t : ℤ) : BodyPlain n (bodyMeasure n t) := by
  refine bodyPlain_of (fun c => ?_) (fun c r hc h => ?_)
  · simp only [bodyMeasure]
    cases shl1 t with
    | error e => rfl
    | ok b =>
      simp only [ok_bind]
      split_ifs
      · cases setCreg c.cregs t 0 <;> rfl
      · cases setCreg c.cregs t 1 <;> rfl
  · obtain ⟨b, _, h⟩ := bind_ok h
    simp only at h
    split_ifs at h <;> obtain ⟨cr, _, h⟩ := bind_ok h <;> cases h <;>
      simp only [length_divS]
    · exact length_setAt _ hc (length_maskNe _ _)
    · exact length_setAt _ hc (length_maskEq _ _)

theorem bodyReset_plain (n : ℕ) (t : ℤ) : BodyPlain n (bodyReset n t) := by
  refine bodyPlain_of (fun c => ?_) (fun c r hc h => ?_)
  · simp only [bodyReset]
    cases shl1 t with
    | error e => rfl
    | ok b =>
      simp only [ok_bind]
      split_ifs
      · rfl
      · cases asg c.qubits (maskEq n b) (sel c.qubits (maskNe n b)) <;> rfl
  · obtain ⟨b, _, h⟩ := bind_ok h
    simp only at h
    split_ifs at h
    · cases h
      simp only [length_divS]
      exact length_setAt _ hc (length_maskNe _ _)
    · obtain ⟨x, hx, h⟩ := bind_ok h
      cases h
      simp only [length_divS]
      exact length_setAt _ ((length_asg hx).trans hc) (length_maskNe _ _)

theorem bodyPlain_foldlM {α : Type} {n : ℕ} (body : α → NpCtx → Except PyErr NpCtx) (L : List α)
    (h : ∀ a, BodyPlain n (body a)) : BodyPlain n (fun s => L.foldlM (fun s a => body a s) s) := by
  induction L with
  | nil => exact ⟨fun p => .ok p, fun c hc => ⟨hc.1, rfl⟩⟩
  | cons a L ih =>
    obtain ⟨U, hU⟩ := h a
    obtain ⟨V, hV⟩ := ih
    refine ⟨fun q => U q >>= V, fun c hc => ?_⟩
    have h1 := hU c hc
    simp only [List.foldlM_cons]
    cases hu : U c.core with
    | error e => rw [hu] at h1; simp only at h1; simp only [hu, h1, err_bind]
    | ok p =>
      rw [hu] at h1
      obtain ⟨hl, he⟩ := h1
      simp only [hu, he, ok_bind]
      exact hV ⟨p.q, c.buf, p.cr, c.saveCache, p.rnd⟩ ⟨hl, hc.2⟩

theorem bodyPlain_forGen {n : ℕ} (g : Gen ℤ) (body : ℤ → NpCtx → Except PyErr NpCtx)
    (h : ∀ a, BodyPlain n (body a)) : BodyPlain n (fun s => forGen g body s) := by
  obtain ⟨U, hU⟩ := bodyPlain_foldlM body g.vals h
  refine ⟨fun q => match U q with
    | .error e => .error e
    | .ok q' => match g.err with | none => .ok q' | some e => .error e, fun c hc => ?_⟩
  have h1 := hU c hc
  simp only [forGen]
  cases hu : U c.core with
  | error e => rw [hu] at h1; simp only at h1; simp only [hu, h1]
  | ok q' =>
    rw [hu] at h1
    obtain ⟨hl, he⟩ := h1
    simp only [hu, he]
    cases g.err with
    | none => exact ⟨hl, rfl⟩
    | some e => rfl

/-- The gate's effect is a function of the plain state; a measurement or reset clears the cache flag, any
other gate touches the amplitudes only and keeps the flag. -/
theorem npRunGate_plain (n : ℕ) (g : Gate) : ∃ U : PSt → Except PyErr PSt,
    (∀ c : NpCtx, c.Wf n → Match n c g.isMeas (U c.core) (npRunGate n g c)) ∧
    (g.isMeas = false → ∃ U0 : Arr → Except PyErr Arr, ∀ p, U p = (U0 p.q).map (fun q => ⟨q, p.cr, p.rnd⟩)) := by
  by_cases hm : g.isMeas = true
  · have hB : ∃ f, BodyPlain n f ∧ ∀ c, npRunGate n g c = (f c).map (fun c => { c with saveCache := false }) := by
      cases g with
      | measure T =>
        refine ⟨_, bodyPlain_forGen (slicing T n) (bodyMeasure n) (bodyMeasure_plain n), fun c => ?_⟩
        simp only [npRunGate, recursionLimit, runGate, npAction, npGateMeasure]
        cases forGen (slicing T n) (bodyMeasure n) c <;> rfl
      | reset T =>
        refine ⟨_, bodyPlain_forGen (slicing T n) (bodyReset n) (bodyReset_plain n), fun c => ?_⟩
        simp only [npRunGate, recursionLimit, runGate, npAction, npGateReset]
        cases forGen (slicing T n) (bodyReset n) c <;> rfl
      | g1 => simp [Gate.isMeas] at hm
      | g2 => simp [Gate.isMeas] at hm
      | g3 => simp [Gate.isMeas] at hm
    obtain ⟨f, ⟨V, hV⟩, hf⟩ := hB
    refine ⟨V, fun c hc => ?_, fun h => by rw [hm] at h; cases h⟩
    have h1 := hV c hc
    rw [hf, hm]
    simp only [Match]
    cases hv : V c.core with
    | error e => simp only [hv] at h1 ⊢; rw [h1]; rfl
    | ok p =>
      simp only [hv] at h1 ⊢
      obtain ⟨hl, he⟩ := h1
      refine ⟨hl, c.buf, hc.2, ?_⟩
      rw [he]; simp [Except.map]
  · have hm : g.isMeas = false := by simpa using hm
    obtain ⟨U0, hU⟩ := runGate_actsU n recursionLimit g hm
    refine ⟨fun p => (U0 p.q).map (fun q => ⟨q, p.cr, p.rnd⟩), fun c hc => ?_, fun _ => ⟨U0, fun p => rfl⟩⟩
    have h1 := hU c hc
    rw [hm]
    simp only [Match, NpCtx.core, npRunGate]
    cases hu : U0 c.qubits with
    | error e => simp only [hu] at h1 ⊢; exact h1
    | ok q =>
      simp only [hu] at h1 ⊢
      obtain ⟨hl, b, hb, he⟩ := h1
      refine ⟨hl, b, hb, ?_⟩
      rw [he]; simp

end

end Blueqat
