import Verif.Solver.ToleranceLemmas
import Verif.Solver.LimitProps
import Verif.Problem.SolveProps
import Verif.Problem.SeenProps
import Verif.Solver.QuadraticProps

/-! C90: without inequality constraints, a tighter tolerance continues the same run. -/

namespace Slp

open Classical

variable {n m k : ℕ}

/-- C90: Newton's method with a tighter tolerance (and higher limits). -/
theorem newton_tightens (env : Env) {opts opts' : SolverOptions} (ho : opts.Tightens opts') (P : Nlp n 0 0)
    (cbs : List Callback) (x : Vec n) (w : World) {a b : NewtonResult n} (h : newton env opts P cbs x w = some a)
    (h' : newton env opts' P cbs x w = some b) : a = b ∨ a.status.Pausing ∧ a.world.Before b.world ∧ b.Reaches a := by
  unfold newton at h h'
  simp only at h h'
  split at h
  · rename_i hc; rw [if_pos hc] at h'; exact .inl (Option.some.inj (h.symm.trans h'))
  rename_i hc; rw [if_neg hc] at h'
  exact newtonLoop_tightens env ho P cbs _ _ _ _ _ h h'

/-- C90: the SQP solver with a tighter tolerance (and higher limits), if the first run started no solver but itself, that
is, no feasibility restoration. -/
theorem sqp_tightens (env : Env) {opts opts' : SolverOptions} (ho : opts.Tightens opts') (P : Nlp n m 0)
    (cbs : List Callback) (x : Vec n) (w : World) {a b : SqpResult n m} (h : sqp env opts P cbs x w = some a)
    (h' : sqp env opts' P cbs x w = some b) (hr : a.world.starts = w.starts + 1) :
    a = b ∨ a.status.Pausing ∧ a.world.Before b.world ∧ b.Reaches a := by
  unfold sqp sqpRun at h h'
  simp only at h h'
  split at h
  · rename_i hc; rw [if_pos hc] at h'; exact .inl (Option.some.inj (h.symm.trans h'))
  rename_i hc; rw [if_neg hc] at h'
  split at h
  · rename_i hc; rw [if_pos hc] at h'; exact .inl (Option.some.inj (h.symm.trans h'))
  rename_i hc; rw [if_neg hc] at h'
  refine sqpLoop_tightens env ho P cbs _ _ _ _ _ h h' (hr.trans ?_)
  simp only [World.starts]; push_cast; ring

/-- C90: `solve()` of a problem without inequality constraints, with a tolerance that is not larger and limits that are
not lower, returns the same, unless the tolerance or a limit ended the first solve. Then it goes through the same iterates
first, calls the same callbacks with the same results and reaches the values that the first solve left, after the same
number of iterations. If there are constraints, the first solve must not have restored feasibility. -/
theorem tighter_tolerance (p : Problem) (hi : p.ineqs = []) (ad : Autodiff) (env : Env) {opts opts' : SolverOptions}
    (ho : opts.Tightens opts') (spy : Bool) (s : Store) {a b : p.Outcome × Store} (h : p.solve ad env opts spy s = some a)
    (h' : p.solve ad env opts' spy s = some b) (hr : p.eqs ≠ [] → a.1.world.starts ≤ 1) :
    a = b ∨ a.1.status.Pausing ∧ a.1.trace <+: b.1.trace ∧ a.1.calls <+: b.1.calls ∧
      ∀ x, a.1.final = some x → b.1.final = some x ∧ b.1.iterations = a.1.iterations ∨
        ∃ s ∈ b.1.trace, s.inner = false ∧ s.info.x = List.ofFn x ∧ s.info.iteration = a.1.iterations := by
  unfold Problem.solve at h h'
  split at h
  · rename_i hc; rw [if_pos hc] at h'; exact .inl (Option.some.inj (h.symm.trans h'))
  rename_i hc; rw [if_neg hc] at h'
  split at h
  · rename_i hc; rw [if_pos hc] at h'
    obtain ⟨r, hr1, rfl⟩ := Option.map_eq_some_iff.1 h
    obtain ⟨r', hr', rfl⟩ := Option.map_eq_some_iff.1 h'
    rcases newton_tightens env ho _ _ _ _ hr1 hr' with rfl | ⟨h1, h2, h3⟩
    · exact .inl rfl
    · refine .inr ⟨h1, h2.trace, h2.calls, fun x hx => ?_⟩
      obtain rfl := Option.some.inj hx
      exact h3.imp (fun h => ⟨congrArg some h.1, h.2⟩) id
  rename_i hc; rw [if_neg hc] at h'
  have he : p.eqs ≠ [] := fun he => hc ⟨he, hi⟩
  rw [if_pos hi] at h'
  obtain ⟨r, hr1, rfl⟩ := Option.map_eq_some_iff.1 h
  obtain ⟨r', hr', rfl⟩ := Option.map_eq_some_iff.1 h'
  have hs : r.world.starts = World.start.starts + 1 := by
    refine le_antisymm (hr he) ?_
    have hr1 := hr1
    unfold sqp sqpRun at hr1
    simp only at hr1
    split at hr1
    · obtain rfl := Option.some.inj hr1; exact le_rfl
    split at hr1
    · obtain rfl := Option.some.inj hr1; exact le_rfl
    · have := sqpLoop_starts env opts _ _ _ _ _ _ hr1; exact this
  rcases sqp_tightens env ho _ _ _ _ hr1 hr' hs with rfl | ⟨h1, h2, h3⟩
  · exact .inl rfl
  · refine .inr ⟨h1, h2.trace, h2.calls, fun x hx => ?_⟩
    obtain rfl := Option.some.inj hx
    exact h3.imp (fun h => ⟨congrArg some h.1, h.2.2⟩) fun ⟨s, h1, h2, h3, _, h4⟩ => ⟨s, h1, h2, h3, h4⟩

/-- Newton's method for `x² + y² + xy − y` from the origin: with the tolerance 1 it ends there, and a run with the tolerance
`10⁻⁸` goes through the same point. -/
example : ∃ a b, newton plainEnv ⟨1, 5000, .pinf, false⟩ sampleQpNlp [] (fun _ => .fin 0) .start = some a ∧
    newton plainEnv ⟨1e-8, 5000, .pinf, false⟩ sampleQpNlp [] (fun _ => .fin 0) .start = some b ∧
    a.status = .success ∧ a.x = (fun _ => .fin 0) ∧ (b.iterations = 1 → sampleQp.Minimises b.x.real) ∧
    (a = b ∨ a.status.Pausing ∧ a.world.Before b.world ∧ b.Reaches a) := by
  obtain ⟨b, hb, -, -, h3, -⟩ := newton_quadratic (env := plainEnv) (opts := ⟨1e-8, 5000, .pinf, false⟩)
    (P := sampleQpNlp) (q := sampleQp) (cbs := []) (x := fun _ => .fin 0) (fun S _ hS => plainEnv_plain hS.solvable)
    (by norm_num)
    ⟨fun _ _ => rfl, fun _ _ _ => rfl, fun _ _ _ _ _ _ => ⟨rfl, fun _ => rfl⟩, fun _ _ i => i.elim0, fun _ _ i => i.elim0⟩
    (by ext i j; fin_cases i <;> fin_cases j <;> rfl)
    (fun v => by
      simp only [sampleQp, dotProduct, Matrix.mulVec, Fin.sum_univ_two]
      simp
      norm_num
      nlinarith [sq_nonneg (v 0 + v 1), sq_nonneg (v 0), sq_nonneg (v 1)]) (fun _ => rfl)
  have hg : ∀ j, sampleQpNlp.g (fun _ => .fin 0) j = .fin (![0, -1] j) := fun j => by
    show Fl.fin ((sampleQp.Q.mulVec fun _ => (0 : ℝ)) j + _) = _
    rw [show (fun _ : Fin 2 => (0 : ℝ)) = 0 from rfl, Matrix.mulVec_zero]
    simp [sampleQp]
  have hE : ¬ (newtonInit plainEnv sampleQpNlp fun _ => .fin 0).E0 > .fin 1 := by
    show ¬ errZeroNewton plainEnv .identity (sampleQpNlp.g fun _ => .fin 0) > .fin 1
    have hf : Vec.Finite (sampleQpNlp.g fun _ => .fin 0) := fun _ => rfl
    rw [errZeroNewton, if_pos hf, funext hg]
    show ¬ (1 : ℝ) < unscaledInfNewton .identity ![0, -1]
    have hid : (Scaling.identity : Scaling 0 0).isIdentity := trivial
    rw [unscaledInfNewton, if_pos hid, not_lt]
    refine infNorm_le.2 ⟨zero_le_one, fun i => ?_⟩
    fin_cases i <;> simp
  have ha : newton plainEnv ⟨1, 5000, .pinf, false⟩ sampleQpNlp [] (fun _ => .fin 0) .start =
      some ((newtonInit plainEnv sampleQpNlp fun _ => .fin 0).exit .success
        { World.start with reads := 1, vars := sampleQpNlp.vars fun _ => .fin 0 }) := by
    unfold newton
    simp only
    rw [if_neg (not_not.2 ⟨rfl, fun _ => rfl, fun _ _ => rfl⟩), show loopRounds ⟨1, 5000, .pinf, false⟩ 0 =
      (loopRounds ⟨1, 5000, .pinf, false⟩ 0 - 1) + 1 from rfl, newtonLoop, if_pos hE]
    rfl
  have ho : SolverOptions.Tightens ⟨1, 5000, .pinf, false⟩ ⟨1e-8, 5000, .pinf, false⟩ := ⟨by norm_num, le_rfl, trivial⟩
  exact ⟨_, b, ha, hb, rfl, rfl, fun h => (h3 h).2, newton_tightens plainEnv ho _ _ _ _ ha hb⟩

/-- The SQP solver for minimising `x²` subject to `x = 1` from 3: with a large tolerance it ends there, without feasibility
restoration, and a run with the tolerance `10⁻⁸` goes through the same point. -/
example : ∃ tol a b, sqp plainEnv ⟨tol, 5000, .pinf, false⟩ sampleEqNlp [] (fun _ => .fin 3) .start = some a ∧
    sqp plainEnv ⟨1e-8, 5000, .pinf, false⟩ sampleEqNlp [] (fun _ => .fin 3) .start = some b ∧ a.status = .success ∧
    a.world.starts = World.start.starts + 1 ∧ (b.iterations = 1 → sampleEqQp.Minimises b.x.real) ∧
    (a = b ∨ a.status.Pausing ∧ a.world.Before b.world ∧ b.Reaches a) := by
  obtain ⟨b, hb, -, -, h3, -⟩ := sqp_quadratic (env := plainEnv) (opts := ⟨1e-8, 5000, .pinf, false⟩)
    (P := sampleEqNlp) (q := sampleEqQp) (cbs := []) (x := fun _ => .fin 3) (by norm_num)
    ⟨fun _ _ => rfl, fun _ _ _ => rfl, fun _ _ _ _ _ _ => ⟨rfl, fun _ => rfl⟩, fun _ _ _ => rfl, fun _ _ _ _ => rfl⟩
    trivial ⟨rfl, fun v _ => by
      simp only [sampleEqQp, dotProduct, Matrix.mulVec, Fin.sum_univ_one]
      nlinarith [mul_self_nonneg (v 0)]⟩ (fun _ => rfl) le_rfl rfl (plainEnv_plain sampleEq_solvable)
    (.inr (by
      simp [sampleEqQp, dotProduct, Matrix.mulVec, Vec.real, Fl.toReal]
      norm_num))
  obtain ⟨e, he⟩ : ∃ e, (sqpInit plainEnv sampleEqNlp (fun _ => .fin 3) fun _ => 0).E0 = .fin e := by
    have hf : Vec.Finite (sampleEqNlp.g fun _ => .fin 3) := fun _ => rfl
    exact ⟨_, if_pos ⟨hf, fun _ _ => rfl, fun _ => rfl, fun _ => rfl⟩⟩
  have ha : sqp plainEnv ⟨Max.max e 1, 5000, .pinf, false⟩ sampleEqNlp [] (fun _ => .fin 3) .start =
      some ((sqpInit plainEnv sampleEqNlp (fun _ => .fin 3) fun _ => 0).exit .success
        { World.start with reads := 1, vars := sampleEqNlp.vars fun _ => .fin 3 }) := by
    have hE : ¬ (sqpInit plainEnv sampleEqNlp (fun _ => .fin 3) fun _ => 0).E0 > .fin (Max.max e 1) := by
      rw [he]
      exact not_lt.2 (le_max_left e 1)
    unfold sqp sqpRun
    simp only
    have hf : (sqpInit plainEnv sampleEqNlp (fun _ => .fin 3) fun _ => 0).e.Finite :=
      ⟨rfl, fun _ => rfl, fun _ _ => rfl, fun _ => rfl, fun _ _ => rfl, fun i => i.elim0, fun i => i.elim0⟩
    rw [if_neg (lt_irrefl 1), if_neg (not_not.2 hf), show loopRounds ⟨Max.max e 1, 5000, .pinf, false⟩ 0 =
      (loopRounds ⟨Max.max e 1, 5000, .pinf, false⟩ 0 - 1) + 1 from rfl, sqpLoop, if_pos hE]
    rfl
  have ho : SolverOptions.Tightens ⟨Max.max e 1, 5000, .pinf, false⟩ ⟨1e-8, 5000, .pinf, false⟩ :=
    ⟨le_trans (by norm_num) (le_max_right e 1), le_rfl, trivial⟩
  have hs : World.starts { World.start with reads := 1, vars := sampleEqNlp.vars fun _ => .fin 3 } = World.start.starts + 1 := rfl
  exact ⟨_, _, b, ha, hb, rfl, hs, fun h => (h3 h).2.2.1, sqp_tightens plainEnv ho _ _ _ _ ha hb hs⟩

end Slp
