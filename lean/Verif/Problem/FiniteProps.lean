import Verif.Problem.InfeasibleProps
import Verif.Problem.FalseAlarmProps
import Verif.Problem.ConvexExample

/-! C61: with an exact linear solver, `solve()` leaves finite values in every case, and the guarantees for SUCCESS and
LOCALLY_INFEASIBLE need no hypothesis on the result. -/

namespace Slp

open Classical

/-- The functions given to the solver are finite at finite points if the expressions are smooth wherever the variables
outside of the problem have their values. -/
theorem callbacks_total (ad : Autodiff) {v : ℕ → Fl} (hv : AllFinite v) (vars : List ℕ) {f : Term} {eqs ineqs : List Term}
    (hsm : ∀ w : ℕ → ℝ, (∀ k, k ∉ vars → w k = reals v k) → AllSmooth f eqs ineqs w) {x0 : Vec vars.length} (hx0 : x0.Finite) :
    (matrixCallbacks ad v vars f eqs ineqs x0).Total ∧ 0 < (matrixCallbacks ad v vars f eqs ineqs x0).scaling.f := by
  have has : ∀ x : Vec vars.length, x.Finite → AllFinite (assign v vars (List.ofFn x)) := fun x hx =>
    assign_finite vars v _ hv fun a ha => by
      obtain ⟨i, rfl⟩ := (List.mem_ofFn' _ _).1 ha
      exact hx i
  have hsm : ∀ x : Vec vars.length, AllSmooth f eqs ineqs (reals (assign v vars (List.ofFn x))) := fun x =>
    hsm _ fun k hk => by unfold reals; rw [assign_other vars _ _ hk]
  obtain ⟨df, de, di, hS, -, hval⟩ := callbacks_correct ad v vars f eqs ineqs x0 (has _ hx0) (hsm _)
  refine ⟨⟨fun x hx => ?_, fun x hx => ?_, fun x y z hx hy hz => ?_, fun x hx => ?_, fun x hx => ?_, fun x hx => ?_,
    fun x hx => ?_⟩, ?_⟩
  · rw [(hval x (has x hx) (hsm _)).1]; rfl
  · exact Vec.finite_fin (hval x (has x hx) (hsm _)).2.1
  · obtain ⟨-, -, -, -, -, -, h7⟩ := hval x (has x hx) (hsm _)
    intro i j
    have e : ∀ {q : ℕ} {a : Vec q}, a.Finite → a = fun i => .fin (a i).toReal := fun {q a} ha => funext fun i => by
      obtain ⟨b, hb⟩ := Fl.isFinite_iff.1 (ha i)
      rw [hb]; rfl
    rw [e hy, e hz, h7]
    split <;> rfl
  · exact Vec.finite_fin (hval x (has x hx) (hsm _)).2.2.1
  · exact FMat.finite_fin (hval x (has x hx) (hsm _)).2.2.2.1
  · exact Vec.finite_fin (hval x (has x hx) (hsm _)).2.2.2.2.1
  · exact FMat.finite_fin (hval x (has x hx) (hsm _)).2.2.2.2.2.1
  · rw [hS.eq]; exact hS.f.1

/-- The expressions of the problem are smooth for all values of the decision variables, if the other variables keep their
values. -/
def Problem.SmoothAround (p : Problem) (s : Store) : Prop := ∀ w : ℕ → ℝ, (∀ k, k ∉ p.vars → w k = reals s.val k) → p.Smooth w

/-- In particular after `solve()`. -/
theorem Problem.SmoothAround.after {p : Problem} {s : Store} (hsm : p.SmoothAround s) (hok : p.Ok s) {ad : Autodiff} {env : Env}
    {opts : SolverOptions} {spy : Bool} {s' : Store} {o : p.Outcome} (h : p.solve ad env opts spy s = some (o, s')) :
    p.Smooth (reals s'.val) := hsm _ fun j hj => congrArg Fl.toReal ((solution_written hok h).2.1 j hj)

theorem guess_finite {p : Problem} {s : Store} (h : AllFinite s.val) : (p.guess s).Finite := fun _ => h _

/-- C61: if the expressions are smooth for all values of the decision variables, the initial values finite and the linear solver exact, then whatever the
exit status, all variables are left with finite values, the multipliers that the solver ended with are finite, and those of the
inequality constraints and the slacks are positive. -/
theorem solve_finite {p : Problem} {s : Store} (hok : p.Ok s) {ad : Autodiff} {env : Env} (hE : env.ExactSolve)
    (hE' : env.ExactEstimate) {opts : SolverOptions} (htol : 0 < opts.tolerance) (hsm : p.SmoothAround s)
    (hfin : AllFinite s.val) {spy : Bool} {s' : Store} {o : p.Outcome} (h : p.solve ad env opts spy s = some (o, s')) :
    AllFinite s'.val ∧ o.Finite ∧ o.Positive := by
  have hg := guess_finite (p := p) hfin
  have hwr := solution_written hok h
  have hw : ∀ {x : Vec p.vars.length}, x.Finite → AllFinite (s.write p.vars (List.ofFn x)).val := fun {x} hx =>
    assign_finite p.vars s.val _ hfin fun a ha => by
      obtain ⟨i, rfl⟩ := (List.mem_ofFn' _ _).1 ha
      exact hx i
  rcases solve_cases h with ⟨h1, rfl, rfl⟩ | ⟨-, h2, h3, r, h4, rfl, rfl⟩ | ⟨-, h2, h3, r, h4, rfl, rfl⟩ |
    ⟨-, -, b, -, -, rfl, rfl⟩ | ⟨-, -, b, r, -, -, h4, rfl, rfl⟩
  · exact ⟨hfin, trivial, trivial⟩
  · obtain ⟨hT, -⟩ := callbacks_total ad hfin p.vars (f := p.objective.term) (eqs := []) (ineqs := [])
      (fun w hw => ⟨(hsm w hw).f, by simp, by simp⟩) hg
    obtain ⟨h5, -⟩ := newton_solve_linked hE hT hg h4
    exact ⟨hw h5, trivial, trivial⟩
  · obtain ⟨hT, -⟩ := callbacks_total ad hfin p.vars (f := p.objective.term) (eqs := p.eqs.map UserExpr.term) (ineqs := [])
      (fun w hw => ⟨(hsm w hw).f, (hsm w hw).eqs, by simp⟩) hg
    obtain ⟨h5, h6, -⟩ := sqp_solve_linked hE hE' hT htol hg h4
    exact ⟨hw h5, h6, trivial⟩
  · rw [hwr.2.2.2 rfl]
    exact ⟨hfin, trivial, trivial⟩
  · obtain ⟨hT, hS⟩ := callbacks_total ad hfin p.vars (f := p.objective.term) (eqs := p.eqs.map UserExpr.term)
      (ineqs := p.ineqs.map UserExpr.term) (fun w hw => hsm w hw) hg
    obtain ⟨h5, h6, h7, h8, -⟩ := solve_linked hE hE' hT htol hS hg h4
    exact ⟨hw h5, ⟨h6.finite, h7, h8.finite⟩, h8⟩

theorem restorations_finite {n m k : ℕ} {env : Env} (hE : env.ExactSolve) {opts : SolverOptions} {P : Nlp n m k} (hP : P.Total)
    (htol : 0 < opts.tolerance) : RestorationsFinite env opts P :=
  fun _ _ _ _ _ _ _ _ _ hx hs hμ hres _ => (frRun_sound hE hP htol hx hs hμ hres).1

/-- C61, C22: then SUCCESS means that the result meets the first-order conditions within the tolerance, with positive
multipliers for the inequality constraints. -/
theorem success_exact {p : Problem} {s : Store} (hok : p.Ok s) {ad : Autodiff} {env : Env} (hE : env.ExactSolve)
    (hE' : env.ExactEstimate) {opts : SolverOptions} (htol : 0 < opts.tolerance) (hsm : p.SmoothAround s)
    (hfin : AllFinite s.val) {spy : Bool} {s' : Store} {o : p.Outcome} (h : p.solve ad env opts spy s = some (o, s'))
    (hs : o.status = .success) (hc : ¬ p.Constant) :
    ∃ ys zs ss, NearKkt opts.tolerance (reals s'.val) p.vars p.objective.term (p.eqs.map UserExpr.term)
      (p.ineqs.map UserExpr.term) ys zs ss ∧ ∀ z ∈ zs, 0 < z := by
  obtain ⟨h1, h2, h3⟩ := solve_finite hok hE hE' htol hsm hfin h
  obtain ⟨ys, zs, ss, h4, h5⟩ := solve_success hok h htol hs hc h1 h2 (hsm.after hok h)
  exact ⟨ys, zs, ss, h4, h5 (.inr h3)⟩

/-- C61, C58: then SUCCESS for a convex problem without equality constraints of which `w₀` satisfies the inequality constraints
with a margin `σ` bounds the excess over the optimum by the tolerance times a factor that depends on the problem only. -/
theorem convex_success_exact {p : Problem} {s : Store} (hok : p.Ok s) {ad : Autodiff} {env : Env} (hE : env.ExactSolve)
    (hE' : env.ExactEstimate) {opts : SolverOptions} (htol : 0 < opts.tolerance) (hsm : p.SmoothAround s)
    (hfin : AllFinite s.val) {spy : Bool} {s' : Store} {o : p.Outcome} (h : p.solve ad env opts spy s = some (o, s'))
    (hs : o.status = .success) (hc : ¬ p.Constant) (hp : p.Convex Set.univ) (heq : p.eqs = []) {w₀ : ℕ → ℝ}
    (hoff₀ : ∀ j ∉ p.vars, w₀ j = reals s.val j) {σ R low : ℝ} (hσ : 0 < σ) (hmargin : ∀ e ∈ p.ineqs, σ ≤ e.term.eval w₀)
    (hR₀ : p.dist (reals s'.val) w₀ ≤ R) (hlow : low ≤ p.objective.term.eval (reals s'.val))
    (hsmall : opts.tolerance * (1 + (R + 1) / 100) ≤ σ / 2)
    {Z : ℝ} (hZ : Z = 2 * (p.objective.term.eval w₀ - low + opts.tolerance * (R + p.ineqs.length)) / σ) :
    ∀ w : ℕ → ℝ, (∀ j ∉ p.vars, w j = reals s.val j) → p.Satisfies w → p.dist (reals s'.val) w ≤ R →
      p.objective.term.eval (reals s'.val) ≤ p.objective.term.eval w +
        opts.tolerance * ((1 + Z / 100) * R + Z + p.ineqs.length + Z / 100) := by
  obtain ⟨h1, h2, h3⟩ := solve_finite hok hE hE' htol hsm hfin h
  have hk : ∀ j ∉ p.vars, reals s'.val j = reals s.val j := fun j hj => congrArg Fl.toReal ((solution_written hok h).2.1 j hj)
  exact fun w hoff hf hd => convex_success_slater hok h htol hs hc h1 h2 (hsm.after hok h) (.inr h3) hp (Set.mem_univ _) heq (Set.mem_univ _)
    (fun j hj => (hoff₀ j hj).trans (hk j hj).symm) hσ hmargin hR₀ hlow hsmall hZ w (Set.mem_univ _)
    (fun j hj => (hoff j hj).trans (hk j hj).symm) hf hd

/-- C61, C60: then LOCALLY_INFEASIBLE for a problem with affine equality and concave inequality constraints means one of the
three things of `infeasible_distance`. -/
theorem infeasible_distance_exact {p : Problem} {s : Store} (hok : p.Ok s) {ad : Autodiff} {env : Env} (hE : env.ExactSolve)
    (hE' : env.ExactEstimate) {opts : SolverOptions} (htol : 0 < opts.tolerance) (htol1 : opts.tolerance ≤ 1)
    (hsm : p.SmoothAround s) (hfin : AllFinite s.val) {spy : Bool} {s' : Store} {o : p.Outcome}
    (h : p.solve ad env opts spy s = some (o, s')) (hs : o.status = .locallyInfeasible) (hp : p.Convex Set.univ) :
    let r := reals s'.val
    ((∃ e ∈ p.eqs, e.term.eval r ≠ 0) ∧ ∀ w : ℕ → ℝ, (∀ j ∉ p.vars, w j = r j) → p.Satisfies w → 100 < distance p.vars r w) ∨
    ((∃ e ∈ p.ineqs, e.term.eval r < 0) ∧
      ∀ w : ℕ → ℝ, (∀ j ∉ p.vars, w j = r j) → p.Satisfies w → 1e-6 < distance p.vars r w) ∨
    ∃ (μ : ℝ) (wt c : ℕ → ℝ) (de : Fin (p.eqs.map UserExpr.term).length → ℝ)
      (di : Fin (p.ineqs.map UserExpr.term).length → ℝ), 0 < μ ∧ (∀ j, IsProximityWeight (c j) (wt j)) ∧
      (∀ i, 0 < de i ∧ de i ≤ 1 ∧
        ((∀ j ∈ p.vars, |pderiv j (p.eqs.map UserExpr.term)[i].eval (reals s.val)| ≤ 100) → de i = 1)) ∧
      (∀ i, 0 < di i ∧ di i ≤ 1 ∧
        ((∀ j ∈ p.vars, |pderiv j (p.ineqs.map UserExpr.term)[i].eval (reals s.val)| ≤ 100) → di i = 1)) ∧
      ∀ w : ℕ → ℝ, (∀ j ∉ p.vars, w j = r j) →
        (1000 - 21 * opts.tolerance) * violation (p.eqs.map UserExpr.term) (p.ineqs.map UserExpr.term) de di r +
            pull p.vars √μ wt c r ≤
          (1000 + 21 * opts.tolerance) * violation (p.eqs.map UserExpr.term) (p.ineqs.map UserExpr.term) de di w +
            pull p.vars √μ wt c w + opts.tolerance * (21 * p.dist r w + 8300 * (p.eqs.length + p.ineqs.length)) := by
  intro r
  obtain ⟨h1, -, -⟩ := solve_finite hok hE hE' htol hsm hfin h
  have hg := guess_finite (p := p) hfin
  have h2 := infeasible_distance hok h htol htol1 hs hfin (hsm _ fun _ _ => rfl) h1 (hsm.after hok h)
    (restorations_finite hE (callbacks_total ad hfin p.vars (f := p.objective.term) (eqs := p.eqs.map UserExpr.term)
      (ineqs := p.ineqs.map UserExpr.term) (fun w hw => hsm w hw) hg).1 htol)
    (restorations_finite hE (callbacks_total ad hfin p.vars (f := p.objective.term) (eqs := p.eqs.map UserExpr.term)
      (ineqs := []) (fun w hw => ⟨(hsm w hw).f, (hsm w hw).eqs, by simp⟩) hg).1 htol) hp (Set.mem_univ _)
  simpa only [Set.mem_univ, true_implies, forall_true_left] using h2

/-- Problems that meet the hypotheses, with an exact linear solver: one that succeeds and one that is given up. -/
example (factor : ℕ → Bool) (clock : ℕ → ℝ) (junk : ℕ → List Fl → Fl) (maxIterations : ℤ) (timeout : Fl) :
    ((exactEnv factor clock junk).ExactSolve ∧ (exactEnv factor clock junk).ExactEstimate) ∧
    (∃ o, domeUser.solve storeAll (exactEnv factor clock junk) ⟨1, maxIterations, timeout, false⟩ false domeStore =
      some (o, domeStore) ∧ domeUser.Ok domeStore ∧ domeUser.SmoothAround domeStore ∧ AllFinite domeStore.val ∧ o.status = .success ∧
      ¬ domeUser.Constant ∧ domeUser.Convex Set.univ) ∧
    ∃ o, (slopeUser 0.0001 0.005).solve storeAll (exactEnv factor clock junk) ⟨1e-8, maxIterations, timeout, false⟩ false
        ⟨1, fun _ => 0⟩ = some (o, ⟨1, fun _ => 0⟩) ∧ (slopeUser 0.0001 0.005).Ok ⟨1, fun _ => 0⟩ ∧
      (slopeUser 0.0001 0.005).SmoothAround ⟨1, fun _ => 0⟩ ∧ o.status = .locallyInfeasible ∧
      (slopeUser 0.0001 0.005).Convex Set.univ := by
  refine ⟨exactEnv_exact _ _ _, ?_, ?_⟩
  · obtain ⟨hok, o, h1, h2, h3, h4, h5, h6⟩ := dome_solved storeAll (exactEnv factor clock junk) maxIterations timeout
    exact ⟨o, h1, hok, fun w _ => dome_smooth w, h4, h2, h3, dome_convex⟩
  · obtain ⟨o, h1, h2⟩ := (infeasible_false_alarm (a := 0.0001) (b := 0.005) (by norm_num) (by norm_num) (by norm_num)
      (by norm_num) rfl (exactEnv factor clock junk) (opts := ⟨1e-8, maxIterations, timeout, false⟩) (by norm_num) (by norm_num)
      false (ad := storeAll)).1
    refine ⟨o, h1, ⟨by simp [slopeUser], by simp [slopeUser]⟩, fun v _ => ⟨?_, ?_, ?_⟩, h2, ⟨convex_univ, ?_⟩, by simp [slopeUser], ?_⟩
    · simp [slopeUser, Problem.objective, Term.Smooth]
    · simp [slopeUser]
    · simp [slopeUser, slopeExpr, Term.Smooth, BinOp.Smooth]
    · rintro x - y - a b ha hb hab
      simp [slopeUser, Problem.objective, Term.eval]
    · intro e he
      obtain rfl : e = slopeExpr 0.0001 0.005 := by simpa [slopeUser] using he
      refine ⟨convex_univ, ?_⟩
      rintro x - y - a b ha hb hab
      simp only [slopeExpr, Term.eval, BinOp.eval, Pi.add_apply, Pi.smul_apply, smul_eq_mul]
      obtain rfl : b = 1 - a := by linarith
      linarith

end Slp
