import Verif.Solver.StopWitness
import Verif.Solver.FeasibleWitness
import Verif.Solver.IterationProps
import Verif.Solver.RestoreExitProps
import Verif.Solver.SqpStepProps
import Verif.Solver.DescentCase
import Verif.Solver.AffineCase

/-!
Runs, line searches and restorations that meet the hypotheses of the theorems about the interior-point method
(C22 to C27, C33, C38, C48) and about the line searches of the other solvers.
-/

namespace Slp

open Classical Matrix

/-- A run of the interior-point method with a feasibility restoration, to which the theorems of C22 to C26 and C38
apply: it shows iterates of the solver and of the restoration, in which a callback returns true, and ends with
SUCCESS. -/
example : ∃ (env : Env) (opts : SolverOptions) (P : Nlp 1 0 1) (cbs : List Callback) (x : Vec 1) (res : IpmResult 1 0 1),
    interiorPoint env opts P cbs x .start = some res ∧ res.status = .success ∧ (∃ c ∈ res.world.calls, c.result = true) ∧
    (res.world.outer.length : ℤ) ≤ max 1 opts.maxIterations ∧
    (∀ c ∈ res.world.calls, ∀ v ∈ c.info.s, ∃ a, v = .fin a ∧ 0 < a) ∧
    res.world.outer.Pairwise (fun a b => b.μ ≤ a.μ) ∧
    (∀ t, (false, t) ∈ res.world.ends → ¬ Fl.fin t > opts.timeout) ∧
    (∃ bs : Batches, res.world.calls = bs.calls ∧ ∃ b ∈ bs, b.1.inner = true ∧ ∃ c ∈ b.2, c.result = true) := by
  obtain ⟨env, opts, P, cbs, x, res, ht, hS, h, hc, hs⟩ := restoration_ignores_stop
  obtain ⟨bs, -, h2, -, h4, -⟩ := ipm_callbacks_partial ht hS h
  refine ⟨env, opts, P, cbs, x, res, h, hs, hc, (ipm_iterations ht hS h).1, (ipm_slacks_positive ht hS h).1,
    (ipm_barrier ht hS h).1, fun t h1 h2 => ?_, bs, h2, ?_⟩
  · have := (ipm_timeout_partial ht hS h).1.2 ⟨t, h1, h2⟩
    rw [hs] at this
    cases this
  · obtain ⟨c, hc, hr⟩ := hc
    rw [h2] at hc
    obtain ⟨b, hb, hcb⟩ := List.mem_flatMap.1 hc
    refine ⟨b, hb, ?_, c, hcb, hr⟩
    by_contra hi
    have := (h4 b hb (by simpa using hi) ⟨c, hcb, hr⟩).1
    rw [hs] at this
    cases this

/-- An iteration of the interior-point method for `iteration_moves_legally` and `accepted_step_size`: it moves to 2, by a
step whose size is positive and at most one. -/
example (clock : ℕ → ℝ) (junk : ℕ → List Fl → Fl) (restore : RestoreFn 1 0 1)
    (hr : ∀ st α w E, restore st α w E = none) :
    ∃ (t : Trial 1 0 1) (u : ℝ), 0 < u ∧ u ≤ 1 ∧ (t.x = fun _ => .fin 2) ∧
      ∃ v rhs cis i, 0 < v ∧ v ≤ 1 ∧ ∀ j, t.x j = (discInit (rawEnv clock junk)).x j +
        .fin v * (ipmComputeStep (rawEnv clock junk) (discInit (rawEnv clock junk)) rhs cis i).px j := by
  have hE := rawEnv_unregularised clock junk
  set env := rawEnv clock junk
  have hB : BarrierOk (discInit env) := ⟨⟨0.1, rfl, by norm_num⟩, 0.99, rfl, le_rfl, by norm_num⟩
  have hs : (discInit env).s.Pos := fun _ => ⟨1, rfl, one_pos⟩
  obtain ⟨st', w', hm, hx, -⟩ := disc_move hE ⟨1e-8, 1, .pinf, true⟩ rfl restore .start (.make 0)
  rcases iteration_moves_legally env ⟨1e-8, 1, .pinf, true⟩ discP restore hB hs .start (.make 0) with
    ⟨-, h⟩ | ⟨F, c, α, i, h⟩ | ⟨F, c, α, a, i, R, t, u, h, hacc, h0, h1, hb, -⟩
  · rw [h] at hm; simp at hm
  · rw [h, hr] at hm; simp at hm
  · rw [h] at hm
    have e : t.x = fun _ => .fin 2 := by
      rw [← hx]
      have := Option.some.inj hm
      injection this with e1
      rw [← e1]
      rfl
    refine ⟨t, u, h0, h1, e, ?_⟩
    obtain ⟨-, hps, -⟩ := disc_step hE ((discInit env).rhs env) disc_rhs (fun i => (discInit env).e.ci i - (discInit env).s i) (by
      show discP.ci discX 0 - 1 = _
      rw [disc_ci, Fl.one_def, Fl.fin_sub]
      norm_num) 0
    have hb1 : boundaryF (discInit env).s (ipmComputeStep env (discInit env) ((discInit env).rhs env)
        (fun i => (discInit env).e.ci i - (discInit env).s i) 0).ps (discInit env).τ = .fin 1 := by
      rw [hps]; exact disc_boundary 0.99 0 (by norm_num)
    obtain rfl : a = 1 := Fl.fin.inj (hb.symm.trans hb1)
    obtain ⟨v, -, hv0, hv1, i', rhs', cis', -, -, -, -, hmv⟩ := accepted_step_size hB hs hb (by norm_num) le_rfl hacc
    exact ⟨v, rhs', cis', i', hv0, hv1, hmv⟩

/-- A feasibility restoration for `restoration_returns` that a callback ends. -/
example (clock : ℕ → ℝ) (cbs : List Callback) (F : Filter) (c : ℕ) (α : Fl) (w : World) (E : Filter)
    (hcb : (runRegistered (lineRInit clock 1).info 0 cbs w.calls).2 = true) : ∃ st' w' E',
    restoreIpm (lineEnv clock) halfOpts (lineP 1) cbs { lineInit clock 1 with filter := F, rejected := c } α w E =
      some (.go st' w' E') ∧ st'.e = (lineP 1).eval st'.x st'.y st'.z ∧ st'.μ = .fin 0.1 := by
  have hl := (line_restore clock 1 halfOpts cbs (extraIpm (lineEnv clock) (lineP 1)
    { lineInit clock 1 with filter := F, rejected := c } α) w F).2 (by norm_num [halfOpts]) hcb
  have h := restoreIpm_stop (E := E) hl rfl
  obtain ⟨h1, h2, -⟩ := restoration_returns (st := { lineInit clock 1 with filter := F, rejected := c }) rfl rfl h
  exact ⟨_, _, _, h, h1, h2⟩

/-- A linear solver that does not regularise systems unless it must. -/
noncomputable def carefulEnv : Env where
  factor _ := true
  solve _ S := if h : ∃ p, S.Solved p 0 0 then h.choose else S.solvable.choose
  estimate _ A := A.solvable.choose
  clock _ := 0
  junk _ _ := 0

theorem carefulEnv_plain {S : LinSystem} (h : ∃ p, S.Solved p 0 0) : carefulEnv.Plain S := by
  intro i
  simp only [carefulEnv, dif_pos h]
  exact h.choose_spec

theorem carefulEnv_exact : carefulEnv.ExactSolve := fun i S _ => by
  by_cases h : ∃ p, S.Solved p 0 0
  · exact ⟨0, 0, le_rfl, le_rfl, carefulEnv_plain h i⟩
  · simp only [carefulEnv, dif_neg h]
    obtain ⟨δ, γ, h1, h2, h3, -⟩ := S.solvable.choose_spec
    exact ⟨δ, γ, h1, h2, h3⟩

/-- The first line search of Newton's method for `x - log x` from 1.1 meets the hypotheses of `newton_line_search_sound` and
`newton_accepted_newton`. -/
example : ∃ (D : Fl) (ls : NewtonLineSearch 1) (x : Vec 1) (f used : Fl),
    newtonLineSearch carefulEnv logNlp (newtonInit carefulEnv logNlp logGuess) 0 D newtonRounds 1
      (newtonInit carefulEnv logNlp logGuess).filter = some ls ∧ ls.accepted = some (.filter, x, f, used) ∧
    f = logNlp.f x ∧ f.isFinite = true ∧ ∃ (u : ℝ) (p : Fin 1 → ℝ), 0 < u ∧ u ≤ 1 ∧ x 0 = .fin (1.1 + u * p 0) := by
  have hin : logGuess.real ∈ logCost.level logGuess.real := ⟨show (0 : ℝ) < 1.1 by norm_num, le_rfl⟩
  have hg : (logNlp.g logGuess) = fun j => .fin (logCost.g logGuess.real j) :=
    funext (logNlp_isCost.g logGuess (fun _ => rfl) hin.1)
  have hat : (newtonInit carefulEnv logNlp logGuess).At carefulEnv logNlp logCost logGuess.real := by
    refine ⟨funext fun _ => rfl, logNlp_isCost.f _ (fun _ => rfl) hin.1, hg, logNlp_isCost.H _ (fun _ => rfl) hin.1, ?_,
      rfl, rfl, rfl⟩
    show errZeroNewton carefulEnv logNlp.scaling (logNlp.g logGuess) = _
    rw [hg]
    exact if_pos fun _ => rfl
  have hsolved : logCost.SolvedAt carefulEnv 0.8 2 logGuess.real := by
    intro i S hSd
    subst hSd
    have hs : (⟨1, 0, fun j l => .fin (logCost.H logGuess.real j l), fun j => .fin (-logCost.g logGuess.real j)⟩ :
        LinSystem).StronglyConvex := ⟨rfl, logCost.symm hin.1, fun q => le_trans (mul_le_mul_of_nonneg_right (by norm_num)
          (Finset.sum_nonneg fun i _ => mul_self_nonneg _)) (logHessian _ hin q).1⟩
    refine ⟨0, le_rfl, carefulEnv_plain hs.solvable i, fun w => ?_⟩
    rw [zero_mul, add_zero]; exact logHessian _ hin w
  obtain ⟨p, hp, -, h1, h2⟩ := newton_direction hat hin.1 (by norm_num) (by norm_num) hsolved 0
  obtain ⟨ls, hls⟩ := newton_line_search_ends carefulEnv logNlp (newtonInit carefulEnv logNlp logGuess) 0
    (.fin (logCost.g logGuess.real ⬝ᵥ p)) (newtonInit carefulEnv logNlp logGuess).filter
  have hgg : 0 < logCost.g logGuess.real ⬝ᵥ logCost.g logGuess.real := by
    have : logCost.g logGuess.real 0 ≠ 0 := by
      simp [logCost, logGuess, Vec.real, Fl.toReal]
      norm_num
    simpa [dotProduct] using this
  obtain ⟨-, t, ht, -, -, hacc⟩ := newton_search_descent logNlp_isCost hat logLevel_closed hin (by norm_num) (by norm_num)
    (fun w hw => (logHessian w hw p).2) hp (by linarith) h1 newtonRounds 1 _ ls hls hat.filter one_pos (min_le_left _ _)
  obtain ⟨a, -, -, -, -, hf, hff, -⟩ := newton_line_search_sound _ _ _ _ _ _ ls hls _ _ _ _ hacc
  obtain ⟨u, -, q, hu0, hu1, -, -, hx⟩ := newton_accepted_newton carefulEnv_exact (fun _ => rfl) (fun j => by rw [hat.g]; rfl)
    (fun i j => (hat.H i j).1) hls hacc
  exact ⟨_, ls, _, _, _, hls, hacc, hf, hff, u, q, hu0, hu1, hx 0⟩

/-- The first line search of the SQP solver for `y - log x` subject to `x = y` from (1.1, 1.1) meets the hypotheses of
`sqp_line_search_sound`. -/
example : ∃ (S : SqpStep 2 1) (D : Fl) (ls : SqpLineSearch 2 1) (t : SqpTrial 2 1) (used : Fl),
    sqpLineSearch plainEnv slopeNlp (sqpInit plainEnv slopeNlp slopeGuess fun _ => 0) S D lineSearchRounds 1
      (sqpInit plainEnv slopeNlp slopeGuess fun _ => 0).filter 0 0 = some ls ∧ ls.accepted = some (.filter, t, used) ∧
    t = sqpTrial slopeNlp (sqpInit plainEnv slopeNlp slopeGuess fun _ => 0) S used ∧ t.f.isFinite = true ∧
    t.ce = fun _ => .fin 0 := by
  have hdom : slopeGuess.real ∈ slopeProblem.cost.dom := show (0 : ℝ) < 1.1 by norm_num
  have hfeas : slopeGuess.real ∈ slopeProblem.feasible := slope_feasible.2 rfl
  have hlev : slopeGuess.real ∈ slopeProblem.level slopeGuess.real := ⟨⟨hdom, le_rfl⟩, hfeas⟩
  have hat : (sqpInit plainEnv slopeNlp slopeGuess fun _ => 0).AtPoint slopeNlp slopeProblem slopeGuess.real fun _ => 0 :=
    sqpInit_affine plainEnv slopeNlp_isAffine hdom hfeas
  have hpl := slope_plain _ hlev fun _ => 0
  obtain ⟨p, r, s1, s2, h1, h2⟩ := affine_step hat hdom hfeas hpl 0
  obtain ⟨ls, hls⟩ := sqp_line_search_ends plainEnv slopeNlp (sqpInit plainEnv slopeNlp slopeGuess fun _ => 0)
    (sqpComputeStep plainEnv (sqpInit plainEnv slopeNlp slopeGuess fun _ => 0) (fun _ => .fin 0) 0)
    (.fin (slopeProblem.cost.g slopeGuess.real ⬝ᵥ p)) (sqpInit plainEnv slopeNlp slopeGuess fun _ => 0).filter 0 0
  have hp0 : p ≠ 0 := by
    rintro rfl
    rw [mulVec_zero, add_zero] at h1
    have e0 := congrFun h1 0
    have e1 := congrFun h1 1
    simp [slopeProblem, slopeCost, slopeGuess, Vec.real, Fl.toReal, mulVec, dotProduct] at e0 e1
    norm_num at e0
    linarith
  obtain ⟨-, t, -, -, -, hacc⟩ := affine_search slopeNlp_isAffine hat slopeLevel_closed hlev hpl (a := 0.4) (b := 1)
    (by norm_num) (by norm_num) (by norm_num) slope_curvature s1 s2 h1 h2 hp0 lineSearchRounds 1 _ 0 0 ls hls hat.filter one_pos
    (min_le_left _ _)
  obtain ⟨a, -, -, -, ht, hf, -, -⟩ := sqp_line_search_sound _ _ _ _ _ _ _ _ ls hls _ _ _ hacc
  exact ⟨_, _, ls, _, _, hls, hacc, ht, hf, rfl⟩

end Slp
