import Verif.Solver.LimitLemmas
import Verif.Problem.StatusProps
import Verif.Solver.LoopStepProps

/-! C87: higher limits on iterations and time continue the same run. -/

namespace Slp

open Classical

variable {n m k : ℕ}

/-- C87: Newton's method with higher limits. -/
theorem newton_limits (env : Env) {opts opts' : SolverOptions} (ho : opts.Within opts') (P : Nlp n 0 0) (cbs : List Callback)
    (x : Vec n) (w : World) {a b : NewtonResult n} (h : newton env opts P cbs x w = some a)
    (h' : newton env opts' P cbs x w = some b) : a = b ∨ a.status.Limit ∧ a.world.Before b.world := by
  unfold newton at h h'
  simp only at h h'
  split at h
  · rename_i hc; rw [if_pos hc] at h'; exact .inl (Option.some.inj (h.symm.trans h'))
  rename_i hc; rw [if_neg hc] at h'
  exact newtonLoop_limits env ho P cbs _ _ _ _ _ h h'

/-- C87: the SQP solver with higher limits. -/
theorem sqp_limits (env : Env) {opts opts' : SolverOptions} (ho : opts.Within opts') (P : Nlp n m 0) (cbs : List Callback)
    (x : Vec n) (w : World) {a b : SqpResult n m} (h : sqp env opts P cbs x w = some a)
    (h' : sqp env opts' P cbs x w = some b) : a = b ∨ a.status.Limit ∧ a.world.Before b.world := by
  unfold sqp sqpRun at h h'
  simp only at h h'
  split at h
  · rename_i hc; rw [if_pos hc] at h'; exact .inl (Option.some.inj (h.symm.trans h'))
  rename_i hc; rw [if_neg hc] at h'
  split at h
  · rename_i hc; rw [if_pos hc] at h'; exact .inl (Option.some.inj (h.symm.trans h'))
  rename_i hc; rw [if_neg hc] at h'
  exact sqpLoop_limits env ho P cbs _ _ _ _ _ h h'

/-- C87: the interior-point solver with higher limits. -/
theorem interior_point_limits (env : Env) {opts opts' : SolverOptions} (ho : opts.Within opts') (P : Nlp n m k)
    (cbs : List Callback) (x : Vec n) (w : World) {a b : IpmResult n m k} (h : interiorPoint env opts P cbs x w = some a)
    (h' : interiorPoint env opts' P cbs x w = some b) : a = b ∨ a.status.Limit ∧ a.world.Before b.world :=
  ipmRun_limits env ho P cbs _ _ (restoreIpm_limits env ho P cbs) (restoreIpm_extends env opts' P cbs) _ _ _ _ _ _ _ _ h h'

/-- The iterates at which callbacks are called during a solve. -/
def Outcome.trace : Outcome n m k → List Snapshot
  | .noop => []
  | .conflict => []
  | .newton r => r.world.trace
  | .sqp r => r.world.trace
  | .ipm r => r.world.trace

/-- C87: `solve()` with higher limits returns the same, unless a limit ended the solve; then it goes through the same
iterates first, and calls the same callbacks with the same results. -/
theorem higher_limits (p : Problem) (ad : Autodiff) (env : Env) {opts opts' : SolverOptions} (ho : opts.Within opts') (spy : Bool)
    (s : Store) {a b : p.Outcome × Store} (h : p.solve ad env opts spy s = some a) (h' : p.solve ad env opts' spy s = some b) :
    a = b ∨ a.1.status.Limit ∧ a.1.trace <+: b.1.trace ∧ a.1.calls <+: b.1.calls := by
  unfold Problem.solve at h h'
  split at h
  · rename_i hc; rw [if_pos hc] at h'; exact .inl (Option.some.inj (h.symm.trans h'))
  rename_i hc; rw [if_neg hc] at h'
  split at h
  · rename_i hc; rw [if_pos hc] at h'
    obtain ⟨r, hr, rfl⟩ := Option.map_eq_some_iff.1 h
    obtain ⟨r', hr', rfl⟩ := Option.map_eq_some_iff.1 h'
    rcases newton_limits env ho _ _ _ _ hr hr' with rfl | ⟨h1, h2⟩
    · exact .inl rfl
    · exact .inr ⟨h1, h2.trace, h2.calls⟩
  rename_i hc; rw [if_neg hc] at h'
  split at h
  · rename_i hc; rw [if_pos hc] at h'
    obtain ⟨r, hr, rfl⟩ := Option.map_eq_some_iff.1 h
    obtain ⟨r', hr', rfl⟩ := Option.map_eq_some_iff.1 h'
    rcases sqp_limits env ho _ _ _ _ hr hr' with rfl | ⟨h1, h2⟩
    · exact .inl rfl
    · exact .inr ⟨h1, h2.trace, h2.calls⟩
  rename_i hc; rw [if_neg hc] at h'
  obtain ⟨c, hb, h⟩ := Option.bind_eq_some_iff.1 h
  obtain ⟨c', hb', h'⟩ := Option.bind_eq_some_iff.1 h'
  obtain rfl : c = c' := Option.some.inj (hb.symm.trans hb')
  split at h
  · rename_i hc; rw [if_pos hc] at h'; exact .inl (Option.some.inj (h.symm.trans h'))
  rename_i hc; rw [if_neg hc] at h'
  obtain ⟨r, hr, rfl⟩ := Option.map_eq_some_iff.1 h
  obtain ⟨r', hr', rfl⟩ := Option.map_eq_some_iff.1 h'
  rcases interior_point_limits env ho _ _ _ _ hr hr' with rfl | ⟨h1, h2⟩
  · exact .inl rfl
  · exact .inr ⟨h1, h2.trace, h2.calls⟩

/-- C87: in particular, a solve that succeeds does the same with higher limits. -/
theorem higher_limits_success (p : Problem) (ad : Autodiff) (env : Env) {opts opts' : SolverOptions} (ho : opts.Within opts')
    (htol : 0 < opts.tolerance) (spy : Bool) (s : Store) {a : p.Outcome × Store} (h : p.solve ad env opts spy s = some a)
    (hs : a.1.status = .success) : p.solve ad env opts' spy s = some a := by
  by_cases hb : p.ineqs ≠ [] → p.bounds ad s ≠ none
  · obtain ⟨o, s', h', -⟩ := solve_returns p ad env opts' spy s (by rw [ho.tolerance]; exact htol) hb
    rcases higher_limits p ad env ho spy s h h' with rfl | ⟨hl, -⟩
    · exact h'
    · exact absurd hs hl.ne.2
  · push Not at hb
    unfold Problem.solve at h ⊢
    split at h
    · rename_i hc; rw [if_pos hc]; exact h
    rename_i hc; rw [if_neg hc]
    rw [if_neg fun h => hb.1 h.2, if_neg hb.1, hb.2] at h
    exact absurd h (by simp)

/-- Runs with limits of 10 and 5000 iterations exist, from any guess and with any answers of the linear solver. -/
example (env : Env) (cbs : List Callback) (x : Vec 2) :
    ∃ a b, interiorPoint env ⟨1e-8, 10, .fin 1, false⟩ hyperbolaNlp cbs x .start = some a ∧
      interiorPoint env ⟨1e-8, 5000, .pinf, false⟩ hyperbolaNlp cbs x .start = some b ∧
      (a = b ∨ a.status.Limit ∧ a.world.Before b.world) := by
  obtain ⟨a, ha, -⟩ := interiorPoint_ok (Z := False) env ⟨1e-8, 10, .fin 1, false⟩ hyperbolaNlp cbs x (by norm_num)
    (by simp [hyperbolaNlp, Scaling.f]) False.elim False.elim
  obtain ⟨b, hb, -⟩ := interiorPoint_ok (Z := False) env ⟨1e-8, 5000, .pinf, false⟩ hyperbolaNlp cbs x (by norm_num)
    (by simp [hyperbolaNlp, Scaling.f]) False.elim False.elim
  have ho : SolverOptions.Within ⟨1e-8, 10, .fin 1, false⟩ ⟨1e-8, 5000, .pinf, false⟩ := ⟨rfl, rfl, by norm_num, trivial⟩
  exact ⟨a, b, ha, hb, interior_point_limits env ho _ _ _ _ ha hb⟩

end Slp
