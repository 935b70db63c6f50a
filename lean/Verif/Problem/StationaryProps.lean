import Verif.Problem.SolveProps
import Verif.Problem.StatusProps

/-! C58, why convexity is needed: a stationary guess is returned as it is, whatever its kind. -/

namespace Slp

open Classical

/-- Without constraints, a guess at which the partial derivatives of the cost are within the tolerance is a solution:
`solve()` reports SUCCESS, makes no iteration, calls no callback and changes no value. -/
theorem stationary_guess {p : Problem} {s : Store} (ad : Autodiff) (env : Env) {opts : SolverOptions}
    (htol : 0 ≤ opts.tolerance) (spy : Bool) (he : p.eqs = []) (hi : p.ineqs = []) (hc : ¬ p.Constant) (hfin : AllFinite s.val)
    (hsm : p.objective.term.Smooth (reals s.val))
    (hg : ∀ j ∈ p.vars, |pderiv j p.objective.term.eval (reals s.val)| ≤ opts.tolerance) :
    ∃ o, p.solve ad env opts spy s = some (o, s) ∧ o.status = .success ∧ o.iterations = 0 ∧ o.calls = [] := by
  have hkeep : assign s.val p.vars (List.ofFn (p.guess s)) = s.val := by
    rw [show List.ofFn (p.guess s) = _ from ofFn_guess p s, assign_self]
  obtain ⟨df, de, di, hS, -, hv⟩ := callbacks_correct ad s.val p.vars p.objective.term [] [] (p.guess s)
    (by rw [hkeep]; exact hfin) ⟨by rw [hkeep]; exact hsm, by simp, by simp⟩
  obtain ⟨v1, v2, -, -, -, -, v7⟩ := hv (p.guess s) (by rw [hkeep]; exact hfin) ⟨by rw [hkeep]; exact hsm, by simp, by simp⟩
  rw [hkeep] at v1 v2 v7
  have hgf : ((p.newtonNlp ad s).g (p.guess s)).Finite := Vec.finite_fin v2
  have hgr : ((p.newtonNlp ad s).g (p.guess s)).real = _ := Vec.real_fin v2
  have hE : ¬ errZeroNewton env (p.newtonNlp ad s).scaling ((p.newtonNlp ad s).g (p.guess s)) > .fin opts.tolerance := by
    unfold errZeroNewton
    rw [if_pos hgf, gt_iff_lt, Fl.fin_lt, not_lt, show (p.newtonNlp ad s).scaling = _ from hS.eq, hgr]
    have h1 := unscaled_error_newton hS.f.1
      (fun j : Fin p.vars.length => pderiv p.vars[j] p.objective.term.eval (reals s.val)) de di
    rw [h1]
    exact infNorm_le.2 ⟨htol, fun j => hg _ (List.getElem_mem _)⟩
  have hH : ∀ i j, ((p.newtonNlp ad s).H (p.guess s) Fin.elim0 Fin.elim0 i j).isFinite = true := fun i j => by
    have h1 := v7 Fin.elim0 Fin.elim0 i j
    have h2 : (Fin.elim0 : Vec 0) = fun i => .fin ((Fin.elim0 : Fin 0 → ℝ) i) := funext fun i => i.elim0
    have h3 := congrArg Fl.isFinite h1
    rw [h2]
    refine h3.trans ?_
    split_ifs <;> rfl
  have hnew : ∃ res, newton env opts (p.newtonNlp ad s) (p.allCallbacks spy) (p.guess s) .start = some res ∧
      res.status = .success ∧ res.x = p.guess s ∧ res.iterations = 0 ∧ res.world.calls = [] := by
    unfold newton
    simp only
    rw [if_neg (not_not.2 ⟨show ((p.newtonNlp ad s).f (p.guess s)).isFinite = true by
      rw [show (p.newtonNlp ad s).f (p.guess s) = _ from v1]; rfl, hgf, hH⟩)]
    obtain ⟨r, hr⟩ : ∃ r, loopRounds opts 0 = r + 1 := ⟨loopRounds opts 0 - 1, by unfold loopRounds; omega⟩
    rw [hr, newtonLoop, if_pos (show ¬ (newtonInit env (p.newtonNlp ad s) (p.guess s)).E0 > .fin opts.tolerance from hE)]
    exact ⟨_, rfl, rfl, rfl, rfl, rfl⟩
  obtain ⟨res, h1, h2, h3, h4, h5⟩ := hnew
  refine ⟨.newton res, ?_, h2, h4, h5⟩
  unfold Problem.solve
  rw [if_neg (fun h => hc (p.constant_iff.1 h)), if_pos ⟨he, hi⟩, h1, Option.map_some, h3]
  unfold Store.write
  rw [hkeep]

/-- `-(x₀ x₀)`. -/
def hillExpr : UserExpr := ⟨.un .neg (.bin .mul (.var 0) (.var 0)), .quadratic⟩

/-- Minimise `-x₀²`. -/
def hillUser : Problem := ⟨[0], some hillExpr, [], [], [], []⟩

/-- SUCCESS does not mean a minimum: minimising `-x₀²` from 0 reports SUCCESS at the maximum, with any tolerance. -/
theorem success_at_maximum (ad : Autodiff) (env : Env) {opts : SolverOptions} (htol : 0 ≤ opts.tolerance) (spy : Bool) :
    ∃ o, hillUser.solve ad env opts spy ⟨1, fun _ => 0⟩ = some (o, ⟨1, fun _ => 0⟩) ∧ o.status = .success ∧
      ∀ w : ℕ → ℝ, w 0 ≠ 0 → hillUser.objective.term.eval w < hillUser.objective.term.eval fun _ => 0 := by
  obtain ⟨o, h1, h2, -⟩ := stationary_guess (p := hillUser) (s := ⟨1, fun _ => 0⟩) ad env htol spy rfl rfl
    (fun h => by
      have := h.1 hillExpr rfl
      simp [hillExpr, Ty.rank] at this)
    (fun _ => rfl) (by simp [hillUser, Problem.objective, hillExpr, Term.Smooth, BinOp.Smooth, UnOp.Smooth])
    (fun j hj => by
      obtain rfl : j = 0 := by simpa [hillUser] using hj
      have : (fun a => hillExpr.term.eval (Function.update (reals fun _ => 0) 0 a)) = fun a => -(a * a) := by
        funext a
        simp [hillExpr, Term.eval, BinOp.eval, UnOp.eval]
      show |deriv (fun a => hillExpr.term.eval (Function.update (reals fun _ => 0) 0 a)) 0| ≤ _
      rw [this]
      have h : HasDerivAt (fun a : ℝ => -(a * a)) (-(1 * 0 + 0 * 1)) 0 :=
        ((hasDerivAt_id' (0 : ℝ)).mul (hasDerivAt_id' (0 : ℝ))).neg
      rw [h.deriv]
      simpa using htol)
  refine ⟨o, h1, h2, fun w hw => ?_⟩
  simp only [hillUser, Problem.objective, hillExpr, Option.getD_some, Term.eval, BinOp.eval, UnOp.eval]
  have := mul_self_pos.2 hw
  linarith

end Slp
