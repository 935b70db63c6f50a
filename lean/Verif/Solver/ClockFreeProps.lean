import Verif.Solver.ClockFreeLemmas
import Verif.Solver.LimitProps
import Verif.Solver.SilentProps

/-! C92: the clock changes nothing but when a solve ends. -/

namespace Slp

open Classical

variable {n m k : ℕ}

/-! ### Solvers -/

/-- C92: Newton's method without a timeout does the same with any clock. -/
theorem newton_clock_free (env : Env) (clock : ℕ → ℝ) {opts : SolverOptions} (ho : opts.timeout = .pinf) (P : Nlp n 0 0)
    (cbs : List Callback) (x : Vec n) (w : World) :
    (newton (env.withClock clock) opts P cbs x w).map NewtonResult.timeless =
      (newton env opts P cbs x w).map NewtonResult.timeless := by
  unfold newton
  exact ite_view (by exact rfl) fun _ => newtonLoop_timeless env clock ho P cbs _ _ _ _ rfl

/-- C92: the SQP solver without a timeout does the same with any clock. -/
theorem sqp_clock_free (env : Env) (clock : ℕ → ℝ) {opts : SolverOptions} (ho : opts.timeout = .pinf) (P : Nlp n m 0)
    (cbs : List Callback) (x : Vec n) (w : World) :
    (sqp (env.withClock clock) opts P cbs x w).map SqpResult.timeless = (sqp env opts P cbs x w).map SqpResult.timeless := by
  unfold sqp sqpRun
  exact ite_view (by exact rfl) fun _ => ite_view (by exact rfl) fun _ => sqpLoop_timeless env clock ho P cbs _ _ _ _ rfl

/-- C92: the interior-point solver without a timeout does the same with any clock, feasibility restoration included. -/
theorem interior_point_clock_free (env : Env) (clock : ℕ → ℝ) {opts : SolverOptions} (ho : opts.timeout = .pinf)
    (P : Nlp n m k) (cbs : List Callback) (x : Vec n) (w : World) :
    (interiorPoint (env.withClock clock) opts P cbs x w).map IpmResult.timeless =
      (interiorPoint env opts P cbs x w).map IpmResult.timeless := by
  unfold interiorPoint
  exact ipmRun_timeless env clock ho P cbs _ _ (restoreIpm_untimed env clock ho P cbs) _ _ _ _ _ _ rfl _

/-! ### `solve()` -/

/-- The outcome, apart from the readings of the clock. -/
def Outcome.timeless : Outcome n m k → Outcome n m k
  | .noop => .noop
  | .conflict => .conflict
  | .newton r => .newton r.timeless
  | .sqp r => .sqp r.timeless
  | .ipm r => .ipm r.timeless

@[simp] theorem Outcome.timeless_status (o : Outcome n m k) : o.timeless.status = o.status := by cases o <;> rfl

@[simp] theorem Outcome.timeless_trace (o : Outcome n m k) : o.timeless.trace = o.trace := by cases o <;> rfl

@[simp] theorem Outcome.timeless_calls (o : Outcome n m k) : o.timeless.calls = o.calls := by cases o <;> rfl

/-- C92: `solve()` without a timeout does the same with any clock and leaves the same values in all variables. -/
theorem solve_clock_free (p : Problem) (ad : Autodiff) (env : Env) (clock : ℕ → ℝ) {opts : SolverOptions}
    (ho : opts.timeout = .pinf) (spy : Bool) (s : Store) :
    (p.solve ad (env.withClock clock) opts spy s).map (fun r => (r.1.timeless, r.2)) =
      (p.solve ad env opts spy s).map fun r => (r.1.timeless, r.2) := by
  have h1 := newton_clock_free env clock ho (p.newtonNlp ad s) (p.allCallbacks spy) (p.guess s) .start
  have h2 := sqp_clock_free env clock ho (p.sqpNlp ad s) (p.allCallbacks spy) (p.guess s) .start
  have h3 := interior_point_clock_free env clock ho (p.ipmNlp ad s) (p.allCallbacks spy) (p.guess s) .start
  unfold Problem.solve
  refine ite_view rfl fun _ => ite_view ?_ fun _ => ite_view ?_ fun _ => bind_view (q := id) (q' := id) rfl fun b b' hb => ?_
  · refine map_view h1 fun r r' h => ?_
    exact Prod.ext (congrArg Outcome.newton h) (by exact (congrArg (fun r => s.write p.vars (List.ofFn (NewtonResult.x r))) h :))
  · refine map_view h2 fun r r' h => ?_
    exact Prod.ext (congrArg Outcome.sqp h) (by exact (congrArg (fun r => s.write p.vars (List.ofFn (SqpResult.x r))) h :))
  · obtain rfl : b = b' := hb
    refine ite_view rfl fun _ => map_view h3 fun r r' h => ?_
    exact Prod.ext (congrArg Outcome.ipm h) (by exact (congrArg (fun r => s.write p.vars (List.ofFn (IpmResult.x r))) h :))

/-- C92: a solve with limits, compared with one without a timeout and with any other clock: it does the same, or a limit
ended it and what it showed is the beginning of what the other shows. -/
theorem timed_prefix (p : Problem) (ad : Autodiff) (env : Env) (clock : ℕ → ℝ) {opts opts' : SolverOptions}
    (ho : opts.Within opts') (ht : opts'.timeout = .pinf) (spy : Bool) (s : Store) {a b : p.Outcome × Store}
    (h : p.solve ad (env.withClock clock) opts spy s = some a) (h' : p.solve ad env opts' spy s = some b) :
    (a.1.timeless = b.1.timeless ∧ a.2 = b.2) ∨ a.1.status.Limit ∧ a.1.trace <+: b.1.trace ∧ a.1.calls <+: b.1.calls := by
  have hc := solve_clock_free p ad env clock ht spy s
  rw [h', Option.map_some] at hc
  obtain ⟨z, hz, hzb⟩ := Option.map_eq_some_iff.1 hc
  simp only [Prod.mk.injEq] at hzb
  rcases higher_limits p ad (env.withClock clock) ho spy s h hz with rfl | ⟨h1, h2, h3⟩
  · exact .inl hzb
  · refine .inr ⟨h1, ?_, ?_⟩
    · rwa [← b.1.timeless_trace, ← hzb.1, Outcome.timeless_trace]
    · rwa [← b.1.timeless_calls, ← hzb.1, Outcome.timeless_calls]

/-- C92: two solves of the same problem that differ in the limits and in how long everything takes: they do the same, or a
limit ended one of them; then what one showed to callbacks is the beginning of what the other did, the solve that no limit
ended being the longer one. -/
theorem timing_only_cuts (p : Problem) (ad : Autodiff) (env : Env) (clock : ℕ → ℝ) {opts opts' : SolverOptions}
    (htol : 0 < opts.tolerance) (ht : opts'.tolerance = opts.tolerance) (hf : opts'.feasibleIpm = opts.feasibleIpm)
    (hn : opts.timeout ≠ .nan) (hn' : opts'.timeout ≠ .nan) (spy : Bool) (s : Store) {a b : p.Outcome × Store}
    (h : p.solve ad (env.withClock clock) opts spy s = some a) (h' : p.solve ad env opts' spy s = some b) :
    (a.1.timeless = b.1.timeless ∧ a.2 = b.2) ∨
      (a.1.status.Limit ∨ b.1.status.Limit) ∧ (a.1.trace <+: b.1.trace ∨ b.1.trace <+: a.1.trace) ∧
        (a.1.calls <+: b.1.calls ∨ b.1.calls <+: a.1.calls) ∧
        (¬ b.1.status.Limit → a.1.trace <+: b.1.trace ∧ a.1.calls <+: b.1.calls) ∧
        (¬ a.1.status.Limit → b.1.trace <+: a.1.trace ∧ b.1.calls <+: a.1.calls) := by
  by_cases hb : p.ineqs ≠ [] → p.bounds ad s ≠ none
  swap
  · push Not at hb
    unfold Problem.solve at h h'
    split at h
    · rename_i hc
      rw [if_pos hc] at h'
      exact .inl (by rw [← Option.some.inj h, ← Option.some.inj h']; exact ⟨rfl, rfl⟩)
    · rw [if_neg fun h => hb.1 h.2, if_neg hb.1, hb.2] at h
      exact absurd h (by simp)
  have hpinf : ∀ t : Fl, t ≠ .nan → t ≤ .pinf := fun t ht => by
    cases t <;> first | exact trivial | exact absurd rfl ht
  let top : SolverOptions := ⟨opts.tolerance, Max.max opts.maxIterations opts'.maxIterations, .pinf, opts.feasibleIpm⟩
  have h1 : opts.Within top := ⟨rfl, rfl, le_max_left _ _, hpinf _ hn⟩
  have h2 : opts'.Within top := ⟨ht.symm, hf.symm, le_max_right _ _, hpinf _ hn'⟩
  obtain ⟨o, s', hz, -⟩ := solve_returns p ad env top spy s htol hb
  have ha := timed_prefix p ad env clock h1 rfl spy s h hz
  have hb' := timed_prefix p ad env env.clock h2 rfl spy s h' hz
  have tr : ∀ {o o' : p.Outcome}, o.timeless = o'.timeless → o.trace = o'.trace ∧ o.calls = o'.calls := fun {o o'} h => by
    rw [← o.timeless_trace, ← o.timeless_calls, h, o'.timeless_trace, o'.timeless_calls]
    exact ⟨rfl, rfl⟩
  rcases ha with ⟨ha1, ha2⟩ | ⟨ha1, ha2, ha3⟩ <;> rcases hb' with ⟨hb1, hb2⟩ | ⟨hb1, hb2, hb3⟩
  · exact .inl ⟨ha1.trans hb1.symm, ha2.trans hb2.symm⟩
  · obtain ⟨e1, e2⟩ := tr ha1
    simp only at e1 e2
    rw [← e1] at hb2
    rw [← e2] at hb3
    exact .inr ⟨.inr hb1, .inr hb2, .inr hb3, fun h => absurd hb1 h, fun _ => ⟨hb2, hb3⟩⟩
  · obtain ⟨e1, e2⟩ := tr hb1
    simp only at e1 e2
    rw [← e1] at ha2
    rw [← e2] at ha3
    exact .inr ⟨.inl ha1, .inl ha2, .inl ha3, fun _ => ⟨ha2, ha3⟩, fun h => absurd ha1 h⟩
  · exact .inr ⟨.inl ha1, List.prefix_or_prefix_of_prefix ha2 hb2, List.prefix_or_prefix_of_prefix ha3 hb3,
      fun h => absurd hb1 h, fun h => absurd ha1 h⟩

/-- C92: in particular two solves that succeed leave the same values, however long they took and whatever their limits. -/
theorem timed_success (p : Problem) (ad : Autodiff) (env : Env) (clock : ℕ → ℝ) {opts opts' : SolverOptions}
    (htol : 0 < opts.tolerance) (ht : opts'.tolerance = opts.tolerance) (hf : opts'.feasibleIpm = opts.feasibleIpm)
    (hn : opts.timeout ≠ .nan) (hn' : opts'.timeout ≠ .nan) (spy : Bool) (s : Store) {a b : p.Outcome × Store}
    (h : p.solve ad (env.withClock clock) opts spy s = some a) (h' : p.solve ad env opts' spy s = some b)
    (hs : a.1.status = .success) (hs' : b.1.status = .success) : a.2 = b.2 ∧ a.1.calls = b.1.calls := by
  rcases timing_only_cuts p ad env clock htol ht hf hn hn' spy s h h' with ⟨h1, h2⟩ | ⟨h1 | h1, -⟩
  · exact ⟨h2, by rw [← a.1.timeless_calls, h1, b.1.timeless_calls]⟩
  · exact absurd hs h1.ne.2
  · exact absurd hs' h1.ne.2

/-! ### Callbacks take time -/

theorem Outcome.timeless_view (v : List Call → List Call) (o : Outcome n m k) : (o.view v).timeless = o.timeless.view v := by
  cases o <;> rfl

@[simp] theorem Outcome.view_trace (v : List Call → List Call) (o : Outcome n m k) : (o.view v).trace = o.trace := by
  cases o <;> rfl

/-- C86, C92: callbacks that never return true and `spy` change nothing in a solve without a timeout, however long they take. -/
theorem slow_callbacks (p : Problem) (h : ∀ cb ∈ p.callbacks ++ p.persistent, ∀ calls info, cb calls info = false)
    (ad : Autodiff) (env : Env) (clock : ℕ → ℝ) {opts : SolverOptions} (ho : opts.timeout = .pinf) (spy : Bool) (s : Store) :
    (p.solve ad (env.withClock clock) opts spy s).map (fun r => (r.1.timeless.view fun _ => [], r.2)) =
      ((p.withCallbacks [] []).solve ad env opts false s).map fun r => (Outcome.view (fun _ => []) r.1.timeless, r.2) := by
  have h1 := congrArg (Option.map fun r : p.Outcome × Store => (r.1.view fun _ => [], r.2)) (solve_clock_free p ad env clock ho spy s)
  have h2 := congrArg (Option.map fun r : p.Outcome × Store => (r.1.timeless, r.2)) (silent_callbacks p h ad env opts spy s)
  simp only [Option.map_map, Function.comp_def] at h1 h2
  refine h1.trans ?_
  simp only [Outcome.timeless_view] at h2
  refine h2.trans ?_
  cases (p.withCallbacks [] []).solve ad env opts false s with
  | none => exact rfl
  | some r => exact congrArg some (Prod.ext (Outcome.timeless_view _ r.1) rfl)

/-- C86, C92: with a timeout, slow callbacks that never return true can only end the solve earlier: it does the same as a solve
without callbacks and timeout, or a limit ended it after the same iterates. -/
theorem slow_callbacks_cut (p : Problem) (h : ∀ cb ∈ p.callbacks ++ p.persistent, ∀ calls info, cb calls info = false)
    (ad : Autodiff) (env : Env) (clock : ℕ → ℝ) {opts opts' : SolverOptions} (ho : opts.Within opts') (ht : opts'.timeout = .pinf)
    (spy : Bool) (s : Store) {a b : p.Outcome × Store} (ha : p.solve ad (env.withClock clock) opts spy s = some a)
    (hb : (p.withCallbacks [] []).solve ad env opts' false s = some b) :
    (a.1.timeless.view (fun _ => []) = b.1.timeless.view (fun _ => []) ∧ a.2 = b.2) ∨
      a.1.status.Limit ∧ a.1.trace <+: b.1.trace := by
  have hs : (p.solve ad env opts' spy s).map (fun r => (r.1.view fun _ => [], r.2)) = some (Outcome.view (fun _ => []) b.1, b.2) :=
    (silent_callbacks p h ad env opts' spy s).trans (congrArg (Option.map _) hb)
  obtain ⟨z, hz, hzb⟩ := Option.map_eq_some_iff.1 hs
  obtain ⟨hz1, hz2⟩ := Prod.mk.inj hzb
  rcases timed_prefix p ad env clock ho ht spy s ha hz with ⟨h1, h2⟩ | ⟨h1, h2, -⟩
  · refine .inl ⟨?_, h2.trans hz2⟩
    rw [h1, ← Outcome.timeless_view, ← Outcome.timeless_view]
    exact congrArg Outcome.timeless hz1
  · refine .inr ⟨h1, ?_⟩
    have := congrArg Outcome.trace hz1
    rw [Outcome.view_trace] at this
    rw [this, Outcome.view_trace] at h2
    exact h2

/-- Two solves of any problem without inequality constraints, one second and ten iterations being allowed on a machine with
another clock. -/
example (p : Problem) (hi : p.ineqs = []) (ad : Autodiff) (env : Env) (clock : ℕ → ℝ) (s : Store) :
    ∃ a b, p.solve ad (env.withClock clock) ⟨1e-8, 10, .fin 1, false⟩ false s = some a ∧
      p.solve ad env ⟨1e-8, 5000, .pinf, false⟩ false s = some b ∧
      (a.1.status = .success → b.1.status = .success → a.2 = b.2) := by
  have htol : (0 : ℝ) < 1e-8 := by norm_num
  obtain ⟨o, s1, h1, -⟩ := solve_returns p ad (env.withClock clock) ⟨1e-8, 10, .fin 1, false⟩ false s htol fun h => absurd hi h
  obtain ⟨o', s2, h2, -⟩ := solve_returns p ad env ⟨1e-8, 5000, .pinf, false⟩ false s htol fun h => absurd hi h
  refine ⟨_, _, h1, h2, fun hs hs' => ?_⟩
  have hn : (⟨1e-8, 10, .fin 1, false⟩ : SolverOptions).timeout ≠ .nan := fun h => nomatch h
  have hn' : (⟨1e-8, 5000, .pinf, false⟩ : SolverOptions).timeout ≠ .nan := fun h => nomatch h
  exact (timed_success p ad env clock (opts := ⟨1e-8, 10, .fin 1, false⟩) (opts' := ⟨1e-8, 5000, .pinf, false⟩) htol rfl rfl hn hn'
    false s h1 h2 hs hs').1

/-- A solve with `spy` and a callback that only logs, on a slower machine with a limit of a second. -/
example (p : Problem) (hi : p.ineqs = []) (ad : Autodiff) (env : Env) (clock : ℕ → ℝ) (s : Store) :
    let q := p.withCallbacks [fun _ _ => false] []
    ∃ a b, q.solve ad (env.withClock clock) ⟨1e-8, 10, .fin 1, false⟩ true s = some a ∧
      (q.withCallbacks [] []).solve ad env ⟨1e-8, 5000, .pinf, false⟩ false s = some b ∧
      ((a.1.timeless.view (fun _ => []) = b.1.timeless.view (fun _ => []) ∧ a.2 = b.2) ∨
        a.1.status.Limit ∧ a.1.trace <+: b.1.trace) := by
  intro q
  have htol : (0 : ℝ) < 1e-8 := by norm_num
  obtain ⟨o, s1, h1, -⟩ := solve_returns q ad (env.withClock clock) ⟨1e-8, 10, .fin 1, false⟩ true s htol fun h => absurd hi h
  obtain ⟨o', s2, h2, -⟩ := solve_returns (q.withCallbacks [] []) ad env ⟨1e-8, 5000, .pinf, false⟩ false s htol fun h => absurd hi h
  have ho : SolverOptions.Within ⟨1e-8, 10, .fin 1, false⟩ ⟨1e-8, 5000, .pinf, false⟩ := ⟨rfl, rfl, by norm_num, trivial⟩
  refine ⟨_, _, h1, h2, slow_callbacks_cut q (fun cb hcb calls info => ?_) ad env clock ho rfl true s h1 h2⟩
  obtain rfl : cb = fun _ _ => false := by simpa [q, Problem.withCallbacks] using hcb
  rfl

end Slp
