import Verif.Solver.RegularLemmas
import Verif.Solver.IpmProps

/-!
C49: whole runs for problems whose functions have finite values at finite points, with an exact linear solver. All
iterates are finite, consecutive ones are linked by a Newton step or by a feasibility restoration, and SUCCESS means that
the error is within the tolerance.
-/

namespace Slp

open Classical

variable {n m k : ℕ}

/-- What a feasibility restoration that is not followed by an exit does: a callback asked to stop, or the violation of
the constraints is below nine tenths of what it was; the multipliers are the least-squares estimates. -/
def Restored (cbs : List Callback) (P : Nlp n m k) (st st' : IpmState n m k) : Prop :=
  st'.μ = st.μ ∧
  ((∃ cb ∈ cbs, ∃ calls info, cb calls info = true ∧ info.x.take n = List.ofFn st'.x) ∨
    norm1 (List.ofFn (P.ce st'.x)) + norm1 (List.ofFn fun i => P.ci st'.x i - st'.s i) <
      .fin 0.9 * (norm1 (List.ofFn (P.ce st.x)) + norm1 (List.ofFn fun i => P.ci st.x i - st.s i))) ∧
  ∃ z : Fin k → ℝ,
    LeastSquares (P.g st'.x).real (P.Ae st'.x).real (P.Ai st'.x).real st'.s.real st.μ.toReal st'.y.real z ∧
    ∀ i, st'.z i = .fin (Max.max (st.μ.toReal / (1e10 * st'.s.real i))
      (Min.min (1e10 * st.μ.toReal / st'.s.real i) (z i)))

theorem restoreIpm_sound {env : Env} (hE : env.ExactSolve) (hE' : env.ExactEstimate) {opts : SolverOptions} {P : Nlp n m k}
    (hP : P.Total) (htol : 0 < opts.tolerance) {cbs : List Callback} :
    RestoreSound P false (Restored cbs P) (restoreIpm env opts P cbs) := by
  intro st α w E mv h hmv
  obtain ⟨μ, hμ, hμ0⟩ := h.barrier.μ
  have hμ' : st.μ.toReal = μ := by rw [hμ]; rfl
  have hmv' := hmv
  unfold restoreIpm at hmv'
  obtain ⟨res, hres, hmv'⟩ := Option.map_eq_some_iff.1 hmv'
  rw [hμ] at hres
  obtain ⟨h1, μ', first, l, h2, h3⟩ := frRun_sound hE hP htol h.x h.s hμ0 hres
  by_cases hst : res.status = .callbackRequestedStop
  · simp only [if_pos hst] at hmv'
    subst hmv'
    refine ⟨by simp, fun st' w' E' hgo => ?_⟩
    obtain ⟨rfl, rfl, rfl⟩ := Moved.go.inj hgo
    obtain ⟨k1, k2, k3, -, k4⟩ := restoration_returns (by rw [h.e]; rfl) (by rw [h.e]; rfl) hmv
    obtain ⟨k5, z, k6, k7⟩ := restoration_multipliers hE' hP hmv (fun j => h1.x _) (fun j => h1.s _) hμ hμ0
    refine ⟨⟨⟨⟨μ, hμ, hμ0⟩, h.barrier.τ⟩, fun j => h1.x _, fun j => h1.s _, k5, fun i => ⟨_, k7 i, ?_⟩, k1⟩,
      ⟨rfl, ?_, z, ?_, ?_⟩, l, h2, fun s hs => ⟨rfl, h3.inner rfl s hs⟩⟩
    · refine lt_of_lt_of_le (div_pos hμ0 (mul_pos (by norm_num) ?_)) (le_max_left _ _)
      obtain ⟨b, hb, hb0⟩ := h1.s (Fin.castAdd _ i)
      exact lt_of_lt_of_eq hb0 (congrArg Fl.toReal hb).symm
    · rcases k4 with ⟨c, -, -, ⟨cb, hcb, calls, hc⟩, hx, -⟩ | ⟨hv, -⟩
      · exact .inl ⟨cb, hcb, calls, _, hc, hx⟩
      · exact .inr hv
    · rw [hμ']; exact k6
    · rw [hμ']; exact k7
  · simp only [if_neg hst] at hmv'
    subst hmv'
    refine ⟨fun r hr => ?_, by simp⟩
    obtain rfl := Moved.stop.inj hr
    refine ⟨⟨⟨fun j => h1.x _, fun j => h1.s _, h.y, h.z⟩, ?_⟩, l, h2, fun s hs => ⟨rfl, h3.inner rfl s hs⟩⟩
    show (if _ then _ else _ : ExitStatus) = _ ∨ (if _ then _ else _ : ExitStatus) = _
    split_ifs
    · exact .inl rfl
    · exact .inr rfl

/-- C49, C83: the same with a linear solver whose regularisations are among `Γ`; besides, the first
iterate is the guess with slacks of 1, and the result is the last iterate unless feasibility restoration fails. -/
theorem solve_shown {env : Env} {Γ : ℝ → ℝ → Prop} (hE : env.ExactSolve) (hE' : env.ExactEstimate) {opts : SolverOptions}
    {P : Nlp n m k} (hP : P.Total) (hA : ∀ st : IpmState n m k, st.Sound P → st.Answers env Γ) (htol : 0 < opts.tolerance)
    (hS : 0 < P.scaling.f) {cbs : List Callback} {x : Vec n} (hx : x.Finite) {res : IpmResult n m k}
    (hres : interiorPoint env opts P cbs x .start = some res) :
    res.x.Finite ∧ res.s.Pos ∧ res.y.Finite ∧ res.z.Pos ∧
    (∀ a ∈ res.world.outer.head?, a.info.toIterate = ⟨0, List.ofFn x, List.replicate k 1, List.replicate m 0, List.replicate k 1⟩) ∧
    res.world.outer.IsChain (NextShown Γ opts P (Restored cbs P)) ∧
    ∃ first : Snapshot, first.info.x = List.ofFn x ∧ first.info.s = List.replicate k 1 ∧
      res.EndsAt (NextShown Γ opts P (Restored cbs P)) false first res.world.trace := by
  obtain ⟨h1, l, h2, h3, h4⟩ := ipmRun_sound hP hA htol hS (fun st st' F c h => h) (restoreIpm_sound hE hE' hP htol) hx
    (fun _ => ⟨1, rfl, one_pos⟩) (fun _ => rfl) (fun _ => ⟨1, rfl, one_pos⟩) (by positivity) hres
  have e : res.world.outer = ownSnapshots false l := by
    unfold World.outer ownSnapshots
    rw [h2]; simp [World.start]
  refine ⟨h1.x, h1.s, h1.y, h1.z, ?_, e ▸ h3.chain, _, ?_, ?_, by rw [h2]; exact h4⟩
  rotate_left
  · rfl
  · exact List.ofFn_const ..
  rw [e]
  intro a ha
  rw [h3.first a ha, ← List.ofFn_const, ← List.ofFn_const]
  rfl

/-- C49: a run of the interior-point solver on a problem whose functions have finite values at finite points, with an
exact linear solver. The result is finite with positive slacks and inequality multipliers; the iterates shown to the
callbacks start at the guess, with unit slacks and inequality multipliers, and consecutive ones are linked by a Newton
step or a restoration of feasibility. -/
theorem solve_linked {env : Env} (hE : env.ExactSolve) (hE' : env.ExactEstimate) {opts : SolverOptions} {P : Nlp n m k}
    (hP : P.Total) (htol : 0 < opts.tolerance) (hS : 0 < P.scaling.f) {cbs : List Callback} {x : Vec n} (hx : x.Finite)
    {res : IpmResult n m k} (hres : interiorPoint env opts P cbs x .start = some res) :
    res.x.Finite ∧ res.s.Pos ∧ res.y.Finite ∧ res.z.Pos ∧
    (∀ a ∈ res.world.outer.head?, a.info.toIterate = ⟨0, List.ofFn x, List.replicate k 1, List.replicate m 0, List.replicate k 1⟩) ∧
    res.world.outer.IsChain (NextShown (fun _ _ => True) opts P (Restored cbs P)) := by
  obtain ⟨h1, h2, h3, h4, h5, h6, -⟩ := solve_shown hE hE' hP (fun _ h => hE.answers (h.regular hP)) htol hS hx hres
  exact ⟨h1, h2, h3, h4, h5, h6⟩

/-- C49: then SUCCESS means that the error is within the tolerance: with finite values it is never NaN. -/
theorem solve_success_exact {env : Env} (hE : env.ExactSolve) (hE' : env.ExactEstimate) {opts : SolverOptions}
    {P : Nlp n m k} (hP : P.Total) (htol : 0 < opts.tolerance) (hS : 0 < P.scaling.f) {cbs : List Callback} {x : Vec n}
    (hx : x.Finite) {res : IpmResult n m k} (hres : interiorPoint env opts P cbs x .start = some res)
    (hs : res.status = .success) :
    unscaledInfIpm P.scaling (P.g res.x).real (P.Ae res.x).real (P.ce res.x).real (P.Ai res.x).real (P.ci res.x).real
      res.s.real res.y.real res.z.real 0 ≤ opts.tolerance ∧ ∀ i, 0 < res.s.real i ∧ 0 < res.z.real i := by
  obtain ⟨h1, h2, h3, h4, -⟩ := solve_linked hE hE' hP htol hS hx hres
  obtain ⟨h5, h6⟩ := ipm_success htol hS hres hs h1
    ⟨hP.g _ h1, hP.Ae _ h1, hP.ce _ h1, hP.Ai _ h1, hP.ci _ h1, h2.finite, h3, h4.finite⟩
  exact ⟨h5, fun i => ⟨h6 i, h4.real_pos i⟩⟩

/-- Runs that meet the hypotheses: `x₀² + x₁²` subject to `x₀x₁ = 1` and `x₀ ≥ ½` from (2, 3), for every clock and every
behaviour of the callbacks. -/
example (factor : ℕ → Bool) (clock : ℕ → ℝ) (junk : ℕ → List Fl → Fl) (cbs : List Callback) :
    ∃ res, interiorPoint (exactEnv factor clock junk) ⟨1e-8, 5000, .pinf, false⟩ hyperbolaNlp cbs ![.fin 2, .fin 3] .start =
      some res ∧ res.x.Finite ∧ res.world.outer.IsChain (NextShown (fun _ _ => True) ⟨1e-8, 5000, .pinf, false⟩ hyperbolaNlp
        (Restored cbs hyperbolaNlp)) := by
  have hS : 0 < hyperbolaNlp.scaling.f := one_pos
  have ht : (0 : ℝ) < (⟨1e-8, 5000, .pinf, false⟩ : SolverOptions).tolerance := by norm_num
  obtain ⟨res, h1, -⟩ := ipm_ends (exactEnv factor clock junk) ⟨1e-8, 5000, .pinf, false⟩ hyperbolaNlp cbs
    ![.fin 2, .fin 3] ht hS
  obtain ⟨h2, -, -, -, -, h3⟩ := solve_linked (exactEnv_exact ..).1 (exactEnv_exact ..).2 hyperbolaNlp_total ht hS
    (fun i => by fin_cases i <;> rfl) h1
  exact ⟨res, h1, h2, h3⟩

end Slp
