import Verif.NumbaCache
import Verif.NbFloat

/-! Lemmas: the numba cache never changes what an uninterrupted run returns, in rounded arithmetic. The proofs are those
of `Verif.NumbaCache` with the values the compiled kernels write as a parameter. -/

set_option linter.unusedSimpArgs false
set_option linter.unusedVariables false

namespace Blueqat

namespace FlNb

noncomputable section

variable {K : NbFloat}

theorem uni_nbArr {n : ℕ} {g : Gate} {f : Arr → Except PyErr Arr} (h : flNbArr K n g = some f) : Uni (LenN n) f := by
  cases g with
  | measure T => simp [flNbArr] at h
  | reset T => simp [flNbArr] at h
  | g1 k T =>
    simp only [flNbArr, Option.map_eq_some_iff] at h
    obtain ⟨b, hb, rfl⟩ := h
    exact Uni.forGen _ _ (uni_kernel1 _ n)
  | g2 k T =>
    simp only [flNbArr, Option.map_eq_some_iff] at h
    obtain ⟨b, hb, rfl⟩ := h
    exact Uni.forPairs _ _ (fun c t => uni_kernelC _ n [c, t])
  | g3 k T =>
    simp only [flNbArr, Option.map_eq_some_iff] at h
    obtain ⟨b, hb, rfl⟩ := h
    cases nbIntArray T with
    | error e => exact Uni.error _ e
    | ok ct => exact uni_kernelC _ n ct

theorem uni_measure (n : ℕ) (t : ℤ) : Uni (NbCtx.Wf n) (flNbMeasureBody K n t) := by
  by_cases h : 0 ≤ t ∧ t < n
  · right; intro c hc
    simp only [flNbMeasureBody, if_pos h]
    split_ifs
    · obtain ⟨l, h1, h2⟩ := setCreg_len hc.cr h 0
      rw [h1]
      exact ⟨_, rfl, by rw [runIters_length]; exact hc.q, h2⟩
    · obtain ⟨l, h1, h2⟩ := setCreg_len hc.cr h 1
      rw [h1]
      exact ⟨_, rfl, by rw [runIters_length]; exact hc.q, h2⟩
  · left; exact ⟨_, fun q _ => by rw [flNbMeasureBody, if_neg h]⟩

theorem uni_reset (n : ℕ) (t : ℤ) : Uni (NbCtx.Wf n) (flNbResetBody K n t) := by
  by_cases h : 0 ≤ t ∧ t < n
  · right; intro c hc
    simp only [flNbResetBody, if_pos h]
    split_ifs
    · exact ⟨_, rfl, by rw [runIters_length]; exact hc.q, hc.cr⟩
    · exact ⟨_, rfl, by rw [runIters_length]; exact hc.q, hc.cr⟩
  · left; exact ⟨_, fun q _ => by rw [flNbResetBody, if_neg h]⟩

theorem nbAction_eq {n : ℕ} {g : Gate} (hm : g.isMeas = false) : flNbAction K n g =
    (flNbArr K n g).map fun f (ctx : NbCtx) => (f ctx.qubits).map fun q => { ctx with qubits := q } := by
  cases g <;> first | rfl | simp [Gate.isMeas] at hm

theorem uni_action {n : ℕ} {g : Gate} {a : NbCtx → Except PyErr NbCtx} (h : flNbAction K n g = some a) :
    Uni (NbCtx.Wf n) a := by
  by_cases hm : g.isMeas = true
  · cases g with
    | measure T =>
      simp only [flNbAction, Option.some.injEq] at h; subst h
      exact Uni.forGen _ _ (uni_measure n)
    | reset T =>
      simp only [flNbAction, Option.some.injEq] at h; subst h
      exact Uni.forGen _ _ (uni_reset n)
    | g1 => simp [Gate.isMeas] at hm
    | g2 => simp [Gate.isMeas] at hm
    | g3 => simp [Gate.isMeas] at hm
  · have hm : g.isMeas = false := by simpa using hm
    rw [nbAction_eq hm, Option.map_eq_some_iff] at h
    obtain ⟨f, hf, rfl⟩ := h
    rcases uni_nbArr hf with ⟨e, he⟩ | hok
    · exact .inl ⟨e, fun s hs => by beta_reduce; rw [he _ hs.q]; rfl⟩
    · refine .inr fun s hs => ?_
      obtain ⟨q, h1, h2⟩ := hok s.qubits hs.q
      exact ⟨{ s with qubits := q }, by beta_reduce; rw [h1]; rfl, h2, hs.cr⟩

theorem uni_runGate (n fuel : ℕ) : ∀ g : Gate, Uni (NbCtx.Wf n) (runGate (flNbAction K n) n fuel g) := by
  induction fuel with
  | zero => intro g; exact Uni.error _ _
  | succ fuel ih =>
    intro g
    rcases Option.eq_none_or_eq_some (flNbAction K n g) with ha | ⟨a, ha⟩
    · cases hf : g.fallback n with
      | error e =>
        have : runGate (flNbAction K n) n (fuel + 1) g = fun c => .error e := by
          funext c; simp only [runGate, ha, hf]
        rw [this]; exact Uni.error _ e
      | ok gs =>
        have : runGate (flNbAction K n) n (fuel + 1) g =
            fun c => gs.foldlM (fun s g' => runGate (flNbAction K n) n fuel g' s) c := by
          funext c; simp only [runGate, ha, hf]
        rw [this]
        exact Uni.foldlM (fun g' s => runGate (flNbAction K n) n fuel g' s) gs (fun g' _ => ih g')
    · have : runGate (flNbAction K n) n (fuel + 1) g = a := by funext c; simp only [runGate, ha]
      rw [this]; exact uni_action ha

/-- The gate never raises on `n` qubits. -/
def GateOk (K : NbFloat) (n : ℕ) (g : Gate) : Prop := ∀ c : NbCtx, c.Wf n → ∃ c', runGate (flNbAction K n) n recursionLimit g c = .ok c' ∧ c'.Wf n

/-- The gate always raises `e` on `n` qubits. -/
def GateBad (K : NbFloat) (n : ℕ) (g : Gate) (e : PyErr) : Prop := ∀ c : NbCtx, c.Wf n → runGate (flNbAction K n) n recursionLimit g c = .error e

theorem gate_dichotomy (n : ℕ) (g : Gate) : (∃ e, GateBad K n g e) ∨ GateOk K n g := uni_runGate n recursionLimit g

theorem onQubits_runGate (n fuel : ℕ) : ∀ g : Gate, g.isMeas = false → OnQubits (runGate (flNbAction K n) n fuel g) := by
  induction fuel with
  | zero => intro g _; exact ⟨fun _ => .error .recursionError, fun c => rfl⟩
  | succ fuel ih =>
    intro g hm
    rcases Option.eq_none_or_eq_some (flNbAction K n g) with ha | ⟨a, ha⟩
    · cases hf : g.fallback n with
      | error e =>
        exact ⟨fun _ => .error e, fun c => by simp only [runGate, ha, hf, err_map]⟩
      | ok gs =>
        have : runGate (flNbAction K n) n (fuel + 1) g =
            fun c => gs.foldlM (fun s g' => runGate (flNbAction K n) n fuel g' s) c := by
          funext c; simp only [runGate, ha, hf]
        rw [this]
        have hm' := fallback_not_meas hf
        clear this hf
        induction gs with
        | nil => exact ⟨fun q => .ok q, fun c => rfl⟩
        | cons g' gs ih' =>
          exact (ih g' (hm' g' (by simp))).bind (ih' (fun g hg => hm' g (by simp [hg])))
    · have : runGate (flNbAction K n) n (fuel + 1) g = a := by funext c; simp only [runGate, ha]
      rw [this]
      rw [nbAction_eq hm, Option.map_eq_some_iff] at ha
      obtain ⟨f, hf, rfl⟩ := ha
      exact ⟨f, fun c => rfl⟩

/-! ## Runs without a cache -/

/-- The gates one after the other. -/
def nbPlain (K : NbFloat) (n : ℕ) : List Gate → NbCtx → Except PyErr NbCtx
  | [], c => .ok c
  | g :: gs, c =>
    match runGate (flNbAction K n) n recursionLimit g c with
    | .error e => .error e
    | .ok c => nbPlain K n gs c

theorem nbPlain_append (n : ℕ) (a b : List Gate) (c : NbCtx) :
    nbPlain K n (a ++ b) c = match nbPlain K n a c with
      | .error e => .error e
      | .ok c => nbPlain K n b c := by
  induction a generalizing c with
  | nil => rfl
  | cons g a ih =>
    simp only [List.cons_append, nbPlain]
    cases runGate (flNbAction K n) n recursionLimit g c with
    | error e => rfl
    | ok p => exact ih p

theorem nbPlain_ok {n : ℕ} {gs : List Gate} (h : ∀ g ∈ gs, GateOk K n g) {c : NbCtx} (hc : c.Wf n) :
    ∃ c', nbPlain K n gs c = .ok c' ∧ c'.Wf n := by
  induction gs generalizing c with
  | nil => exact ⟨c, rfl, hc⟩
  | cons g gs ih =>
    obtain ⟨c1, h1, h2⟩ := h g (by simp) c hc
    obtain ⟨c2, h3, h4⟩ := ih (fun g hg => h g (by simp [hg])) h2
    exact ⟨c2, by simp only [nbPlain, h1]; exact h3, h4⟩

theorem nbPlain_bad {n : ℕ} {gs gs' : List Gate} {g : Gate} {e : PyErr} (h : ∀ g ∈ gs, GateOk K n g)
    (hb : GateBad K n g e) {c : NbCtx} (hc : c.Wf n) : nbPlain K n (gs ++ g :: gs') c = .error e := by
  obtain ⟨c', h1, h2⟩ := nbPlain_ok h hc
  rw [nbPlain_append, h1]
  simp only [nbPlain, hb c' h2]

/-- All shots without a cache. -/
def nbPlainShots (K : NbFloat) (n : ℕ) (gates : List Gate) : ℕ → NbCtx → Counter → Except PyErr (NbCtx × Counter)
  | 0, c, res => .ok (c, res)
  | k + 1, c, res =>
    match nbPlain K n gates ⟨q0 n, List.replicate n 0, c.rnd⟩ with
    | .error e => .error e
    | .ok c => nbPlainShots K n gates k c (if c.cregs = [] then res else res.add (cregsKey c.cregs))

/-! ## The cache -/

/-- The prefix of length `k` has been run from the all-zero state and gave `q`. -/
def Reached (K : NbFloat) (n : ℕ) (done : List Gate) (q : Arr) : Prop :=
  ∀ (cr : List ℕ) r, cr.length = n → nbPlain K n done ⟨q0 n, cr, r⟩ = .ok ⟨q, cr, r⟩

/-- What the fields `cache` and `cache_idx` can be: empty, right, or left behind by a run that raised at a gate that
raises always. -/
inductive NbCacheOK (K : NbFloat) (n : ℕ) (gates : List Gate) (be : NbBackend) : Prop
  | empty (h1 : be.cache = none) (h2 : be.cacheIdx = -1)
  | right (k : ℕ) (q : Arr) (h1 : be.cache = some q) (h2 : be.cacheIdx + 1 = k) (h3 : k ≤ gates.length)
      (h4 : q.length = 2 ^ n) (h5 : Reached K n (gates.take k) q) (h6 : ∀ g ∈ gates.take k, GateOk K n g)
  | stuck (k : ℕ) (q : Arr) (pre : List Gate) (g : Gate) (post : List Gate) (e : PyErr) (h1 : be.cache = some q)
      (h2 : be.cacheIdx + 1 = k) (h3 : gates = pre ++ g :: post) (h4 : k ≤ pre.length) (h5 : q.length = 2 ^ n)
      (h6 : ∀ g ∈ pre, GateOk K n g) (h7 : GateBad K n g e)

theorem nbCacheOK_append {n : ℕ} {gates : List Gate} {be : NbBackend} (l : List Gate) (h : NbCacheOK K n gates be) :
    NbCacheOK K n (gates ++ l) be := by
  cases h with
  | empty h1 h2 => exact .empty h1 h2
  | right k q h1 h2 h3 h4 h5 h6 =>
    refine .right k q h1 h2 (by simp; omega) h4 ?_ ?_
    · rw [List.take_append_of_le_length h3]; exact h5
    · rw [List.take_append_of_le_length h3]; exact h6
  | stuck k q pre g post e h1 h2 h3 h4 h5 h6 h7 =>
    exact .stuck k q pre g (post ++ l) e h1 h2 (by simp [h3]) h4 h5 h6 h7

/-- State of the loop over gates after `done`, in a shot that began with the backend `be`. -/
structure LoopOK (K : NbFloat) (n : ℕ) (gates done : List Gate) (be : NbBackend) (s : NbLoop) : Prop where
  wf : s.ctx.Wf n
  fuse : s.fuse = none
  ok : ∀ g ∈ done, GateOk K n g
  start : be.cacheIdx + 1 ≤ done.length
  save : s.save = true → s.idx + 1 = done.length ∧ Reached K n done s.ctx.qubits ∧ s.cache = be.cache
  stop : s.save = false → NbCacheOK K n gates ⟨s.cache, s.idx⟩ ∧ (s.cache = none → be.cacheIdx = -1) ∧
    (∀ q, s.cache = some q → q.length = 2 ^ n)

theorem NbCacheOK.basic {n : ℕ} {gates : List Gate} {be : NbBackend} (h : NbCacheOK K n gates be) :
    (∃ k : ℕ, be.cacheIdx + 1 = k) ∧ (be.cache = none → be.cacheIdx = -1) ∧
      (∀ q, be.cache = some q → q.length = 2 ^ n) := by
  cases h with
  | empty h1 h2 => exact ⟨⟨0, by rw [h2]; rfl⟩, fun _ => h2, fun q hq => by rw [h1] at hq; cases hq⟩
  | right k q h1 h2 h3 h4 h5 h6 =>
    exact ⟨⟨k, h2⟩, fun h => (by rw [h1] at h; cases h), fun q' hq => (by rw [h1] at hq; cases hq; exact h4)⟩
  | stuck k q pre g post e h1 h2 h3 h4 h5 h6 h7 =>
    exact ⟨⟨k, h2⟩, fun h => (by rw [h1] at h; cases h), fun q' hq => (by rw [h1] at hq; cases hq; exact h5)⟩

theorem nbGates_spec (n : ℕ) (gates : List Gate) (be : NbBackend) (hbe : NbCacheOK K n gates be) (rest : List Gate) :
    ∀ (done : List Gate) (s : NbLoop), gates = done ++ rest → LoopOK K n gates done be s →
      match nbPlain K n rest s.ctx with
      | .error e => (flNbGates K n rest s).2 = .error e ∧ NbCacheOK K n gates ⟨(flNbGates K n rest s).1.cache, be.cacheIdx⟩
      | .ok c => (flNbGates K n rest s).2 = .ok () ∧ (flNbGates K n rest s).1.ctx = c ∧
          LoopOK K n gates gates be (flNbGates K n rest s).1 := by
  obtain ⟨⟨k, hk⟩, hnone, hsome⟩ := hbe.basic
  induction rest with
  | nil =>
    intro done s hg hs
    rw [List.append_nil] at hg
    subst hg
    exact ⟨rfl, rfl, hs⟩
  | cons g rest ih =>
    intro done s hg hs
    have hf : s.fuse ≠ some 0 := by rw [hs.fuse]; simp
    simp only [flNbGates, hf, if_false, nbPlain]
    -- the cache just before the gate
    have hcache : ∀ q, (if g.stopsCache then (if s.save then some s.ctx.qubits else s.cache) else s.cache) = some q →
        q.length = 2 ^ n := by
      intro q hq
      cases hsv : s.save with
      | true =>
        rw [hsv] at hq
        cases hst : g.stopsCache <;> simp only [hst, if_true, if_false, Bool.false_eq_true] at hq
        · exact hsome q (by rw [← (hs.save hsv).2.2]; exact hq)
        · cases hq; exact hs.wf.q
      | false =>
        have : s.cache = some q := by rw [hsv] at hq; simpa using hq
        exact (hs.stop hsv).2.2 q this
    have hcn : (if g.stopsCache then (if s.save then some s.ctx.qubits else s.cache) else s.cache) = none →
        be.cacheIdx = -1 := by
      intro hq
      cases hsv : s.save with
      | true =>
        rw [hsv] at hq
        cases hst : g.stopsCache <;> simp only [hst, if_true, if_false, Bool.false_eq_true, reduceCtorEq] at hq
        exact hnone (by rw [← (hs.save hsv).2.2]; exact hq)
      | false =>
        have : s.cache = none := by rw [hsv] at hq; simpa using hq
        exact (hs.stop hsv).2.1 this
    have hctx : (if g.stopsCache then ({ s with fuse := s.fuse.map (· - 1), cache := if s.save then some s.ctx.qubits else s.cache, save := false } : NbLoop) else { s with fuse := s.fuse.map (· - 1) }).ctx = s.ctx := by
      cases g.stopsCache <;> rfl
    rcases gate_dichotomy n g with ⟨e, hbad⟩ | hok
    · have he : runGate (flNbAction K n) n recursionLimit g s.ctx = .error e := hbad s.ctx hs.wf
      simp only [hctx, he]
      refine ⟨trivial, ?_⟩
      have e1 : (if g.stopsCache then ({ s with fuse := s.fuse.map (· - 1), cache := if s.save then some s.ctx.qubits else s.cache, save := false } : NbLoop) else { s with fuse := s.fuse.map (· - 1) }).cache =
        (if g.stopsCache then (if s.save then some s.ctx.qubits else s.cache) else s.cache) := by
        cases g.stopsCache <;> rfl
      rw [e1]
      cases hcc : (if g.stopsCache then (if s.save then some s.ctx.qubits else s.cache) else s.cache) with
      | none => exact .empty rfl (hcn hcc)
      | some q => exact .stuck k q done g rest e rfl hk hg (by have := hs.start; omega) (hcache q hcc) hs.ok hbad
    · obtain ⟨c', hc1, hc2⟩ := hok s.ctx hs.wf
      simp only [hctx, hc1]
      have hg' : gates = (done ++ [g]) ++ rest := by rw [hg]; simp
      suffices hL : LoopOK K n gates (done ++ [g]) be
          { (if g.stopsCache then ({ s with fuse := s.fuse.map (· - 1), cache := if s.save then some s.ctx.qubits else s.cache, save := false } : NbLoop) else { s with fuse := s.fuse.map (· - 1) }) with
            ctx := c', idx := if (if g.stopsCache then ({ s with fuse := s.fuse.map (· - 1), cache := if s.save then some s.ctx.qubits else s.cache, save := false } : NbLoop) else { s with fuse := s.fuse.map (· - 1) }).save then (if g.stopsCache then ({ s with fuse := s.fuse.map (· - 1), cache := if s.save then some s.ctx.qubits else s.cache, save := false } : NbLoop) else { s with fuse := s.fuse.map (· - 1) }).idx + 1 else (if g.stopsCache then ({ s with fuse := s.fuse.map (· - 1), cache := if s.save then some s.ctx.qubits else s.cache, save := false } : NbLoop) else { s with fuse := s.fuse.map (· - 1) }).idx } from
        ih (done ++ [g]) _ hg' hL
      cases hst : g.stopsCache with
      | true =>
        simp only [if_true, Bool.false_eq_true, if_false]
        rw [hst] at hcache hcn
        simp only [if_true] at hcache hcn
        refine ⟨hc2, by simp [hs.fuse], ?_, ?_, by simp, ?_⟩
        · intro g' hg'
          rcases List.mem_append.1 hg' with h | h
          · exact hs.ok g' h
          · simp at h; subst h; exact hok
        · have := hs.start; simp; omega
        · intro _
          refine ⟨?_, hcn, hcache⟩
          cases hsv : s.save with
          | true =>
            obtain ⟨h1, h2, h3⟩ := hs.save hsv
            refine .right done.length s.ctx.qubits (by simp) h1 (by rw [hg]; simp) hs.wf.q ?_ ?_
            · rw [hg, List.take_left]; exact h2
            · rw [hg, List.take_left]; exact hs.ok
          | false => simp only [Bool.false_eq_true, if_false]; exact (hs.stop hsv).1
      | false =>
        simp only [Bool.false_eq_true, if_false]
        refine ⟨hc2, by simp [hs.fuse], ?_, ?_, ?_, ?_⟩
        · intro g' hg'
          rcases List.mem_append.1 hg' with h | h
          · exact hs.ok g' h
          · simp at h; subst h; exact hok
        · have := hs.start; simp; omega
        · intro hsv
          have hsv : s.save = true := hsv
          obtain ⟨h1, h2, h3⟩ := hs.save hsv
          simp only [hsv, if_true]
          refine ⟨by simp; omega, ?_, h3⟩
          rw [stopsCache_eq] at hst
          obtain ⟨U, hU⟩ := onQubits_runGate n recursionLimit g hst
          intro cr r hcr
          rw [nbPlain_append, h2 cr r hcr]
          have h4 : runGate (flNbAction K n) n recursionLimit g s.ctx = (U s.ctx.qubits).map fun q => { s.ctx with qubits := q } := hU s.ctx
          have h5 : runGate (flNbAction K n) n recursionLimit g ⟨s.ctx.qubits, cr, r⟩ = (U s.ctx.qubits).map fun q => ⟨q, cr, r⟩ := hU _
          rw [hc1] at h4
          cases hu : U s.ctx.qubits with
          | error e => rw [hu] at h4; cases h4
          | ok q =>
            rw [hu] at h4 h5
            simp only [ok_map, Except.ok.injEq] at h4
            simp only [nbPlain, h5, ok_map, h4]
        · intro hsv
          have hsv : s.save = false := hsv
          rw [hsv]
          simp only [Bool.false_eq_true, if_false]
          exact hs.stop hsv

/-- From a cache left behind by a run that raised, the next run raises the same exception. -/
theorem nbGates_stuck (n : ℕ) {g : Gate} {e : PyErr} (hbad : GateBad K n g e) (post pre : List Gate)
    (hpre : ∀ g ∈ pre, GateOk K n g) : ∀ (s : NbLoop), s.ctx.Wf n → s.fuse = none →
      (∃ q, s.cache = some q ∧ q.length = 2 ^ n) →
      (flNbGates K n (pre ++ g :: post) s).2 = .error e ∧
        ∃ q, (flNbGates K n (pre ++ g :: post) s).1.cache = some q ∧ q.length = 2 ^ n := by
  have hstep : ∀ (g : Gate) (s : NbLoop), s.ctx.Wf n → (∃ q, s.cache = some q ∧ q.length = 2 ^ n) →
      (if g.stopsCache then ({ s with fuse := s.fuse.map (· - 1), cache := if s.save then some s.ctx.qubits else s.cache, save := false } : NbLoop) else { s with fuse := s.fuse.map (· - 1) }).ctx = s.ctx ∧
      ∃ q, (if g.stopsCache then ({ s with fuse := s.fuse.map (· - 1), cache := if s.save then some s.ctx.qubits else s.cache, save := false } : NbLoop) else { s with fuse := s.fuse.map (· - 1) }).cache = some q ∧ q.length = 2 ^ n := by
    rintro g s hw ⟨q, hq1, hq2⟩
    cases g.stopsCache with
    | false => exact ⟨rfl, q, hq1, hq2⟩
    | true =>
      refine ⟨rfl, ?_⟩
      cases hsv : s.save with
      | true => exact ⟨s.ctx.qubits, by simp, hw.q⟩
      | false => exact ⟨q, by simpa using hq1, hq2⟩
  induction pre with
  | nil =>
    intro s hw hf hc
    have hf' : s.fuse ≠ some 0 := by rw [hf]; simp
    obtain ⟨h1, h2⟩ := hstep g s hw hc
    simp only [List.nil_append, flNbGates, hf', if_false, h1, hbad s.ctx hw]
    exact ⟨trivial, h2⟩
  | cons g' pre ih =>
    intro s hw hf hc
    have hf' : s.fuse ≠ some 0 := by rw [hf]; simp
    obtain ⟨h1, h2⟩ := hstep g' s hw hc
    obtain ⟨c', hc1, hc2⟩ := hpre g' (by simp) s.ctx hw
    simp only [List.cons_append, flNbGates, hf', if_false, h1, hc1]
    refine ih (fun g hg => hpre g (by simp [hg])) _ hc2 ?_ h2
    cases g'.stopsCache <;> simp [hf]

theorem nbShots_spec (n : ℕ) (gates : List Gate) (k : ℕ) : ∀ (be : NbBackend) (ctx : NbCtx) (save : Bool)
    (res : Counter), ctx.qubits.length = 2 ^ n → NbCacheOK K n gates be →
    NbCacheOK K n gates (flNbShots K n gates k be ctx save none res).1 ∧
      (flNbShots K n gates k be ctx save none res).2 = nbPlainShots K n gates k ctx res := by
  induction k with
  | zero => intro be ctx save res hw hc; exact ⟨hc, rfl⟩
  | succ k ih =>
    intro be ctx save res hw hc
    -- a shot from a cache that is empty or right
    have main : ∀ (j : ℕ) (q : Arr), be.cacheIdx + 1 = (j : ℕ) →
        nbPrepare n be.cache ctx = .ok ⟨q, List.replicate n 0, ctx.rnd⟩ → j ≤ gates.length → q.length = 2 ^ n →
        Reached K n (gates.take j) q → (∀ g ∈ gates.take j, GateOk K n g) →
        NbCacheOK K n gates (flNbShots K n gates (k + 1) be ctx save none res).1 ∧
          (flNbShots K n gates (k + 1) be ctx save none res).2 = nbPlainShots K n gates (k + 1) ctx res := by
      intro j q hj hprep hjl hlq hr hok
      have hjn : (be.cacheIdx + 1).toNat = j := by omega
      obtain ⟨-, hnone, hsome⟩ := hc.basic
      have hg := nbGates_spec n gates be hc (gates.drop j) (gates.take j)
        ⟨⟨q, List.replicate n 0, ctx.rnd⟩, save, be.cache, be.cacheIdx, none⟩ (by simp)
        ⟨⟨hlq, by simp⟩, rfl, hok, by simp [hjl, hj], fun _ => ⟨by simp [hjl, hj], hr, rfl⟩,
          fun _ => ⟨hc, hnone, hsome⟩⟩
      have hsplit : nbPlain K n gates ⟨q0 n, List.replicate n 0, ctx.rnd⟩ =
          nbPlain K n (gates.drop j) ⟨q, List.replicate n 0, ctx.rnd⟩ := by
        conv_lhs => rw [← List.take_append_drop j gates, nbPlain_append]
        rw [hr _ _ (by simp)]
      simp only [flNbShots, nbPlainShots, hprep, hjn, hsplit]
      rcases hgr : flNbGates K n (gates.drop j) ⟨⟨q, List.replicate n 0, ctx.rnd⟩, save, be.cache, be.cacheIdx, none⟩ with ⟨s, r⟩
      rw [hgr] at hg
      cases hpg : nbPlain K n (gates.drop j) ⟨q, List.replicate n 0, ctx.rnd⟩ with
      | error e =>
        rw [hpg] at hg
        simp only at hg
        obtain ⟨hg1, hg2⟩ := hg
        subst hg1
        exact ⟨hg2, rfl⟩
      | ok c =>
        rw [hpg] at hg
        simp only at hg
        obtain ⟨hg1, hg2, hg3⟩ := hg
        subst hg1 hg2
        simp only
        have hfuse := hg3.fuse
        rw [hfuse]
        refine ih _ s.ctx s.save _ hg3.wf.q ?_
        cases hsv : s.save with
        | true =>
          obtain ⟨h1, h2, h3⟩ := hg3.save hsv
          by_cases hi : be.cacheIdx = s.idx
          · rw [if_neg (by simp [hi]), h3]; exact hc
          · rw [if_pos hi]
            refine .right gates.length s.ctx.qubits (by simp) h1 le_rfl hg3.wf.q ?_ ?_
            · rw [List.take_length]; exact h2
            · rw [List.take_length]; exact hg3.ok
        | false =>
          have h1 := (hg3.stop hsv).1
          by_cases hi : be.cacheIdx = s.idx
          · rw [if_neg (by simp [hi]), hi]; exact h1
          · rw [if_pos hi]; exact h1
    cases hc' : hc with
    | empty h1 h2 =>
      exact main 0 (q0 n) (by rw [h2]; rfl) (by rw [h1]; exact nbPrepare_none hw) (by simp) (q0_length n)
        (fun cr r _ => rfl) (by simp)
    | right j q h1 h2 h3 h4 h5 h6 => exact main j q h2 (by rw [h1]; exact nbPrepare_some h4 hw) h3 h4 h5 h6
    | stuck j q pre g post e h1 h2 h3 h4 h5 h6 h7 =>
      have hjn : (be.cacheIdx + 1).toNat = j := by omega
      have hdrop : gates.drop j = pre.drop j ++ g :: post := by
        rw [h3, List.drop_append_of_le_length h4]
      have hg := nbGates_stuck n h7 post (pre.drop j) (fun g hg => h6 g (List.mem_of_mem_drop hg))
        ⟨⟨q, List.replicate n 0, ctx.rnd⟩, save, be.cache, be.cacheIdx, none⟩ ⟨h5, by simp⟩ rfl ⟨q, h1, h5⟩
      have hplain : nbPlain K n gates ⟨q0 n, List.replicate n 0, ctx.rnd⟩ = .error e := by
        rw [h3]; exact nbPlain_bad h6 h7 ⟨q0_length n, by simp⟩
      have hp : nbPrepare n be.cache ctx = .ok ⟨q, List.replicate n 0, ctx.rnd⟩ := by rw [h1]; exact nbPrepare_some h5 hw
      simp only [flNbShots, nbPlainShots, hp, hjn, hdrop, hplain]
      rcases hgr : flNbGates K n (pre.drop j ++ g :: post) ⟨⟨q, List.replicate n 0, ctx.rnd⟩, save, be.cache, be.cacheIdx, none⟩ with ⟨s, r⟩
      rw [hgr] at hg
      obtain ⟨hg1, q', hg2, hg3⟩ := hg
      simp only at hg1 hg2
      subst hg1
      exact ⟨.stuck j q' pre g post e hg2 h2 h3 h4 hg3 h6 h7, rfl⟩

end

end FlNb

end Blueqat
