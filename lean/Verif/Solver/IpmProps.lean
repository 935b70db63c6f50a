import Verif.Solver.HistoryLemmas
import Verif.Solver.KktProps

/-!
C22 to C27 and C38 for the interior-point solver with its feasibility restoration, for every problem, every answer
of the linear solver, every clock and every behaviour of the callbacks.

`res.world` records what happened: `calls` are the calls of the registered callbacks, `trace` the iterates at which
they were called (`inner` tells whether by a restoration) and `ends` the times at which iterations ended.
-/

namespace Slp

open Classical

variable {n m k : ℕ}

theorem World.start_pos (Z : Prop) : World.start.Pos Z := ⟨by simp [World.start], by simp [World.start]⟩

/-- The contract of the solver as `Problem::solve()` calls it. -/
theorem interiorPoint_ok {Z : Prop} (env : Env) (opts : SolverOptions) (P : Nlp n m k) (cbs : List Callback) (x : Vec n)
    (htol : 0 < opts.tolerance) (hS : 0 < P.scaling.f) (hP : Z → FeasibleOk opts P)
    (hest : Z → ∀ i a j, env.estimate i a j ≠ .nan) :
    ∃ res, interiorPoint env opts P cbs x .start = some res ∧ RunOk Z env opts P 0 res ∧
      (res.status = .tooFewDofs ↔ m > n) ∧
      (res.status = .nonfiniteInitialGuess ↔ m ≤ n ∧ ¬ (P.eval x (fun _ => 0) fun _ => 1).Finite) := by
  refine ipmRun_ok htol hS hP (restoreIpm_ok htol hP hest) _ _ _ _ _ _ _ _ (World.start_pos Z) fun _ => ⟨?_, ?_⟩
  · exact ⟨0.1 * P.scaling.f, rfl, by positivity⟩
  · exact fun _ _ => ⟨fun _ => ⟨1, rfl, one_pos⟩, fun _ _ => ⟨1, rfl, one_pos⟩⟩

theorem interiorPoint_history {env : Env} {opts : SolverOptions} {P : Nlp n m k} {cbs : List Callback} {x : Vec n}
    (htol : 0 < opts.tolerance) (hS : 0 < P.scaling.f) {res : IpmResult n m k}
    (hres : interiorPoint env opts P cbs x .start = some res) :
    ∃ bs, res.world.trace = bs.map Prod.fst ∧ res.world.calls = bs.calls ∧ Batches.Ok cbs [] bs ∧
      RunHistory opts .none false 0 (min (0.1 * P.scaling.f) (P.scaling.f * opts.tolerance / 10)) (0.1 * P.scaling.f) bs
        res.world.ends res := by
  obtain ⟨bs, es, h1, h2⟩ := ipmRun_history htol hS (restoreIpm_history htol)
    (fun _ => ⟨0.1 * P.scaling.f, rfl, by positivity⟩) hres
  obtain rfl : es = res.world.ends := by have := h1.ends; simpa [World.start] using this.symm
  exact ⟨bs, by have := h1.trace; simpa [World.start] using this, by have := h1.calls; simpa [World.start] using this,
    h1.ok, h2⟩

/-! ### C23 -/

/-- The iterates at which the solver itself called the callbacks, in order. -/
def World.outer (w : World) : List Snapshot := w.trace.filter fun s => s.inner == false

/-- C23: a run of the interior-point solver ends, after at most `max(1, max_iterations)` iterations. -/
theorem ipm_ends (env : Env) (opts : SolverOptions) (P : Nlp n m k) (cbs : List Callback) (x : Vec n)
    (htol : 0 < opts.tolerance) (hS : 0 < P.scaling.f) :
    ∃ res, interiorPoint env opts P cbs x .start = some res ∧ (res.iterations : ℤ) ≤ max 1 opts.maxIterations := by
  obtain ⟨res, h1, h2, -⟩ := interiorPoint_ok (Z := False) env opts P cbs x htol hS (by simp) (by simp)
  refine ⟨res, h1, ?_⟩
  have := h2.le
  unfold iterationBound at this
  simpa using this

/-- Distinct numbers below a bound. -/
theorem numbers_length {opts : SolverOptions} {l : List Snapshot} (h : Numbers opts 0 l) :
    (l.length : ℤ) ≤ max 1 opts.maxIterations := by
  have hn : (l.map fun s => s.info.iteration).Nodup := by
    rw [List.nodup_iff_pairwise_ne, List.pairwise_map]
    exact h.increasing.imp fun h => h.ne
  have hs : (l.map fun s => s.info.iteration) ⊆ List.range (max 1 opts.maxIterations).toNat := by
    intro i hi
    obtain ⟨s, hs, rfl⟩ := List.mem_map.1 hi
    rw [List.mem_range]
    rcases (h.range s hs).2 with h | h <;> omega
  have := (hn.subperm hs).length_le
  rw [List.length_map, List.length_range] at this
  omega

/-- C23: the solver calls the callbacks at no more than `max(1, max_iterations)` iterates of its own; the iteration
numbers shown increase. -/
theorem ipm_iterations {env : Env} {opts : SolverOptions} {P : Nlp n m k} {cbs : List Callback} {x : Vec n}
    (htol : 0 < opts.tolerance) (hS : 0 < P.scaling.f) {res : IpmResult n m k}
    (hres : interiorPoint env opts P cbs x .start = some res) :
    (res.world.outer.length : ℤ) ≤ max 1 opts.maxIterations ∧
      res.world.outer.Pairwise fun a b => a.info.iteration < b.info.iteration := by
  obtain ⟨bs, h1, -, -, h2⟩ := interiorPoint_history htol hS hres
  have : res.world.outer = bs.own false := by unfold World.outer Batches.own; rw [h1]
  rw [this]
  exact ⟨numbers_length h2.numbers, h2.numbers.increasing⟩

/-- C23: an iteration that ends after the timeout is the last one, and its end is what the status TIMEOUT means.
Missing: within a feasibility restoration time is measured from the start of the restoration, so the limit can be
exceeded by the length of restorations (`restoration_ignores_timeout`), and a timeout found there is reported as a
failure of the restoration (`timeout_reported_as_failure`). -/
theorem ipm_timeout_partial {env : Env} {opts : SolverOptions} {P : Nlp n m k} {cbs : List Callback} {x : Vec n}
    (htol : 0 < opts.tolerance) (hS : 0 < P.scaling.f) {res : IpmResult n m k}
    (hres : interiorPoint env opts P cbs x .start = some res) :
    (res.status = .timeout ↔ ∃ t, (false, t) ∈ res.world.ends ∧ Fl.fin t > opts.timeout) ∧
    ∀ t, (false, t) ∈ res.world.ends → Fl.fin t > opts.timeout → res.world.ends.getLast? = some (false, t) := by
  obtain ⟨bs, -, -, -, h2⟩ := interiorPoint_history htol hS hres
  refine ⟨⟨fun h => ?_, fun ⟨t, h, ht⟩ => (h2.late _ h rfl ht).1⟩, fun t h ht => (h2.late _ h rfl ht).2⟩
  obtain ⟨t, h, ht⟩ := h2.timeout h
  exact ⟨t, List.mem_of_getLast? h, ht⟩

/-! ### C24 -/

/-- C24: at each iterate the callbacks are called in order until one returns true. If that happens at an iterate of
the solver itself, it was the last call, the status is CALLBACK_REQUESTED_STOP, and the result is the iterate that was
shown; and only then is that the status. Missing: a callback that returns true during a feasibility restoration ends
the restoration, not the solve (`restoration_ignores_stop`). -/
theorem ipm_callbacks_partial {env : Env} {opts : SolverOptions} {P : Nlp n m k} {cbs : List Callback} {x : Vec n}
    (htol : 0 < opts.tolerance) (hS : 0 < P.scaling.f) {res : IpmResult n m k}
    (hres : interiorPoint env opts P cbs x .start = some res) :
    ∃ bs : Batches, res.world.trace = bs.map Prod.fst ∧ res.world.calls = bs.calls ∧ Batches.Ok cbs [] bs ∧
      (∀ b ∈ bs, b.1.inner = false → (∃ c ∈ b.2, c.result = true) →
        res.status = .callbackRequestedStop ∧ bs.getLast? = some b) ∧
      (res.status = .callbackRequestedStop → ∃ b, bs.getLast? = some b ∧ b.1.inner = false ∧
        (∃ c ∈ b.2, c.result = true) ∧
        b.1.info.toIterate = ⟨res.iterations, List.ofFn res.x, List.ofFn res.s, List.ofFn res.y, List.ofFn res.z⟩) := by
  obtain ⟨bs, h1, h2, h3, h4⟩ := interiorPoint_history htol hS hres
  refine ⟨bs, h1, h2, h3, h4.quiet, fun h => ?_⟩
  obtain ⟨b, hb, hi, hinfo, hc | ⟨F, hF⟩⟩ := h4.stop h
  · exact ⟨b, hb, hi, hc, hinfo⟩
  · simp [Extra.none] at hF

/-! ### C25 -/

/-- C25: every slack of an iterate shown to callbacks is positive, in the solver and in feasibility restoration. -/
theorem ipm_slacks_positive {env : Env} {opts : SolverOptions} {P : Nlp n m k} {cbs : List Callback} {x : Vec n}
    (htol : 0 < opts.tolerance) (hS : 0 < P.scaling.f) {res : IpmResult n m k}
    (hres : interiorPoint env opts P cbs x .start = some res) :
    (∀ c ∈ res.world.calls, ∀ v ∈ c.info.s, ∃ a, v = .fin a ∧ 0 < a) ∧
    ∀ s ∈ res.world.trace, ∀ v ∈ s.info.s, ∃ a, v = .fin a ∧ 0 < a := by
  obtain ⟨res', h1, h2, -⟩ := interiorPoint_ok (Z := False) env opts P cbs x htol hS (by simp) (by simp)
  obtain rfl := Option.some.inj (h1.symm.trans hres)
  exact ⟨fun c hc => (h2.world.calls c hc).1, fun s hs => (h2.world.trace s hs).1⟩

/-- C25: every inequality multiplier of an iterate shown to callbacks is positive, if the estimates of multipliers
after a restoration are not NaN and, in the feasible mode, the inequality constraints and their Jacobian are finite
wherever the point is. -/
theorem ipm_multipliers_positive {env : Env} {opts : SolverOptions} {P : Nlp n m k} {cbs : List Callback} {x : Vec n}
    (htol : 0 < opts.tolerance) (hS : 0 < P.scaling.f)
    (hP : opts.feasibleIpm = true → ∀ x : Vec n, x.Finite → (P.ci x).Finite ∧ (P.Ai x).Finite)
    (hest : ∀ i a j, env.estimate i a j ≠ .nan) {res : IpmResult n m k}
    (hres : interiorPoint env opts P cbs x .start = some res) :
    (∀ c ∈ res.world.calls, ∀ v ∈ c.info.z, ∃ a, v = .fin a ∧ 0 < a) ∧
    ∀ s ∈ res.world.trace, ∀ v ∈ s.info.z, ∃ a, v = .fin a ∧ 0 < a := by
  obtain ⟨res', h1, h2, -⟩ := interiorPoint_ok (Z := True) env opts P cbs x htol hS (fun _ => hP) (fun _ => hest)
  obtain rfl := Option.some.inj (h1.symm.trans hres)
  exact ⟨fun c hc => (h2.world.calls c hc).2 trivial, fun s hs => (h2.world.trace s hs).2 trivial⟩

/-! ### C26 -/

/-- C26: over a run of the solver the barrier parameter never increases, never falls below its floor (or its initial
value, if that is smaller), and the factor of the fraction-to-the-boundary rule is in `[0.99, 1)`. -/
theorem ipm_barrier {env : Env} {opts : SolverOptions} {P : Nlp n m k} {cbs : List Callback} {x : Vec n}
    (htol : 0 < opts.tolerance) (hS : 0 < P.scaling.f) {res : IpmResult n m k}
    (hres : interiorPoint env opts P cbs x .start = some res) :
    res.world.outer.Pairwise (fun a b => b.μ ≤ a.μ) ∧
    ∀ s ∈ res.world.outer, ∃ a t, s.μ = .fin a ∧
      min (0.1 * P.scaling.f) (P.scaling.f * opts.tolerance / 10) ≤ a ∧ a ≤ 0.1 * P.scaling.f ∧
      s.τ = .fin t ∧ 0.99 ≤ t ∧ t < 1 := by
  obtain ⟨bs, h1, -, -, h2⟩ := interiorPoint_history htol hS hres
  have : res.world.outer = bs.own false := by unfold World.outer Batches.own; rw [h1]
  rw [this]
  exact ⟨h2.barrier.decreasing, h2.barrier.range⟩

/-! ### C22 -/

/-- C22: SUCCESS means that the error of the problem without scaling is within the tolerance and the slacks are
positive, provided the values that enter the error are finite. -/
theorem ipm_success {env : Env} {opts : SolverOptions} {P : Nlp n m k} {cbs : List Callback} {x : Vec n}
    (htol : 0 < opts.tolerance) (hS : 0 < P.scaling.f) {res : IpmResult n m k}
    (hres : interiorPoint env opts P cbs x .start = some res) (hs : res.status = .success) (hx : res.x.Finite)
    (hfin : (P.eval res.x res.y res.z).ErrorFinite res.s res.y res.z) :
    unscaledInfIpm P.scaling (P.g res.x).real (P.Ae res.x).real (P.ce res.x).real (P.Ai res.x).real (P.ci res.x).real
      res.s.real res.y.real res.z.real 0 ≤ opts.tolerance ∧ ∀ i, 0 < res.s.real i := by
  obtain ⟨res', h1, h2, -⟩ := interiorPoint_ok (Z := False) env opts P cbs x htol hS (by simp) (by simp)
  obtain rfl := Option.some.inj (h1.symm.trans hres)
  obtain ⟨h3, h4⟩ := h2.success hs
  unfold errZeroIpm at h3
  rw [if_pos hfin, gt_iff_lt, Fl.fin_lt, not_lt] at h3
  exact ⟨h3, (h4 hx hfin.2.2.2.2.2.1).1.real_pos⟩

/-! ### C38 -/

/-- C38: TOO_FEW_DOFS exactly if there are more equality constraints than variables, and NONFINITE_INITIAL_GUESS
exactly if otherwise some value at the initial guess is not finite. -/
theorem ipm_setup_status {env : Env} {opts : SolverOptions} {P : Nlp n m k} {cbs : List Callback} {x : Vec n}
    (htol : 0 < opts.tolerance) (hS : 0 < P.scaling.f) {res : IpmResult n m k}
    (hres : interiorPoint env opts P cbs x .start = some res) :
    (res.status = .tooFewDofs ↔ m > n) ∧
    (res.status = .nonfiniteInitialGuess ↔ m ≤ n ∧ ¬ (P.eval x (fun _ => 0) fun _ => 1).Finite) := by
  obtain ⟨res', h1, -, h3⟩ := interiorPoint_ok (Z := False) env opts P cbs x htol hS (by simp) (by simp)
  obtain rfl := Option.some.inj (h1.symm.trans hres)
  exact h3

/-- A point at which the equality constraints are violated, but their violation cannot be reduced to first order:
the gradient of half the squared norm of the violation is almost zero. -/
def EqStuck (A : FMat m n) (c : Vec m) : Prop :=
  1e-2 < twoNorm c.real ∧ twoNorm (fun j => ∑ i, A.real i j * c.real i) < 1e-6

/-- The same for inequality constraints. -/
def IneqStuck (A : FMat k n) (c : Vec k) : Prop :=
  1e-6 < twoNorm (fun i => min (c.real i) 0) ∧ twoNorm (fun j => ∑ i, A.real i j * min (c.real i) 0) < 1e-6

theorem twoNorm_pos {v : Fin n → ℝ} (h : 0 < twoNorm v) : ∃ i, v i ≠ 0 := by
  by_contra hc
  rw [not_exists] at hc
  unfold twoNorm at h
  have : ∑ i, v i ^ 2 = 0 := Finset.sum_eq_zero fun i _ => by rw [not_not.1 (hc i)]; simp
  rw [this, Real.sqrt_zero] at h
  exact lt_irrefl _ h

/-- C38: such points violate a constraint. -/
theorem stuck_violates (A : FMat m n) (c : Vec m) :
    (EqStuck A c → ∃ i, c.real i ≠ 0) ∧ (IneqStuck A c → ∃ i, c.real i < 0) := by
  refine ⟨fun h => twoNorm_pos (lt_trans (by norm_num) h.1), fun h => ?_⟩
  obtain ⟨i, hi⟩ := twoNorm_pos (lt_trans (by norm_num) h.1)
  refine ⟨i, ?_⟩
  by_contra hn
  exact hi (min_eq_right (not_lt.1 hn))

theorem diverging_iff (env : Env) (v : Vec n) :
    diverging env v ↔ ∃ i, (v i).isFinite = false ∨ |(v i).toReal| > 1e10 := by
  unfold diverging infNormF
  by_cases hv : v.Finite
  · rw [if_pos hv, gt_iff_lt, Fl.fin_lt]
    constructor
    · rintro (h | h)
      · by_contra hc
        simp only [not_exists, not_or, not_lt] at hc
        exact absurd (infNorm_le.2 ⟨by norm_num, fun i => (hc i).2⟩) (not_le.2 h)
      · exact absurd hv h
    · rintro ⟨i, h | h⟩
      · rw [hv i] at h; simp at h
      · exact .inl (lt_of_lt_of_le h (abs_le_infNorm v.real i))
  · refine ⟨fun _ => ?_, fun _ => .inr hv⟩
    unfold Vec.Finite at hv
    rw [not_forall] at hv
    obtain ⟨i, hi⟩ := hv
    exact ⟨i, .inl (by simpa using hi)⟩

/-- C38: LOCALLY_INFEASIBLE is only returned at a point that violates a constraint and cannot be improved to first
order, or at which feasibility restoration met its own first-order conditions. GLOBALLY_INFEASIBLE and
LINE_SEARCH_FAILED are never returned, DIVERGING_ITERATES only for an iterate beyond 1e10 or not finite,
MAX_ITERATIONS_EXCEEDED only at the limit. Missing: feasibility restoration may meet its first-order conditions at a
feasible point, and then LOCALLY_INFEASIBLE is returned there. -/
theorem ipm_status_partial {env : Env} {opts : SolverOptions} {P : Nlp n m k} {cbs : List Callback} {x : Vec n}
    (htol : 0 < opts.tolerance) (hS : 0 < P.scaling.f) {res : IpmResult n m k}
    (hres : interiorPoint env opts P cbs x .start = some res) :
    (res.status = .locallyInfeasible → (P.Ae res.x).Finite → (P.ce res.x).Finite → (P.Ai res.x).Finite →
      (P.ci res.x).Finite → EqStuck (P.Ae res.x) (P.ce res.x) ∨ IneqStuck (P.Ai res.x) (P.ci res.x) ∨
        RestorationOptimal False env opts P res.x) ∧
    res.status ≠ .globallyInfeasible ∧ res.status ≠ .lineSearchFailed ∧
    (res.status = .divergingIterates → (∃ i, (res.x i).isFinite = false ∨ |(res.x i).toReal| > 1e10) ∨
      ∃ i, (res.s i).isFinite = false ∨ |(res.s i).toReal| > 1e10) ∧
    (res.status = .maxIterationsExceeded → opts.maxIterations ≤ res.iterations) := by
  obtain ⟨res', h1, h2, -⟩ := interiorPoint_ok (Z := False) env opts P cbs x htol hS (by simp) (by simp)
  obtain rfl := Option.some.inj (h1.symm.trans hres)
  refine ⟨fun hl hA hc hA' hc' => ?_, h2.other.1, h2.other.2, fun hd => ?_, h2.limit⟩
  · rcases h2.locally hl with h | h | h
    · unfold eqInfeasible at h
      rw [if_pos ⟨hA, hc⟩] at h
      exact .inl ⟨h.2.2, h.2.1⟩
    · unfold ineqInfeasible at h
      rw [if_pos ⟨hA', hc'⟩] at h
      exact .inr (.inl ⟨h.2.2, h.2.1⟩)
    · exact .inr (.inr h)
  · rw [← diverging_iff env, ← diverging_iff env]
    exact h2.diverged hd

end Slp
