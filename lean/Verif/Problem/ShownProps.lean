import Verif.Problem.SeenProps
import Verif.Solver.ShownLemmas

/-! C69: what callbacks are shown: `IterationInfo` holds derivatives of the scaled problem at the iterate. -/

namespace Slp

open Classical

/-- The derivatives that are shown are those of the problem with cost `df f` and constraints `de eqs` and `di ineqs` at
the values `r` of the variables. Of the Hessian of the Lagrangian, only the lower triangle is shown. -/
structure Info.Derivatives (i : Info) (vars : List ℕ) (f : Term) (eqs ineqs : List Term) (r : ℕ → ℝ) (df : ℝ)
    (de : Fin eqs.length → ℝ) (di : Fin ineqs.length → ℝ) : Prop where
  g : i.g = vars.map fun v => .fin (df * pderiv v f.eval r)
  Ae : i.Ae = List.ofFn fun a : Fin eqs.length => vars.map fun v => .fin (de a * pderiv v eqs[a].eval r)
  Ai : i.Ai = List.ofFn fun a : Fin ineqs.length => vars.map fun v => .fin (di a * pderiv v ineqs[a].eval r)
  H : ∀ (y : Fin eqs.length → ℝ) (z : Fin ineqs.length → ℝ), i.y = List.ofFn (fun a => .fin (y a)) →
    i.z = List.ofFn (fun a => .fin (z a)) →
    i.H = List.ofFn fun a : Fin vars.length => List.ofFn fun b : Fin vars.length =>
      if b ≤ a then .fin (pderiv vars[b] (pderiv vars[a]
        (lagrangian df f eqs ineqs (fun a => de a * y a) fun a => di a * z a)) r) else 0

/-- What is shown during a feasibility restoration. With `q` relaxation variables after the decision variables, the
Jacobians of the scaled constraints are still shown in the first columns. The gradient and the Hessian are others: the
cost has slope 1000 in each relaxation variable, and the Hessian is diagonal. -/
structure Info.Restoring (i : Info) (vars : List ℕ) (eqs ineqs : List Term) (r : ℕ → ℝ)
    (de : Fin eqs.length → ℝ) (di : Fin ineqs.length → ℝ) (q : ℕ) : Prop where
  g : i.g.length = vars.length + q ∧ i.g.drop vars.length = List.replicate q (.fin 1000)
  Ae : i.Ae.map (·.take vars.length) =
    List.ofFn fun a : Fin eqs.length => vars.map fun v => .fin (de a * pderiv v eqs[a].eval r)
  Ai : (i.Ai.take ineqs.length).map (·.take vars.length) =
    List.ofFn fun a : Fin ineqs.length => vars.map fun v => .fin (di a * pderiv v ineqs[a].eval r)
  H : ∃ d : Fin (vars.length + q) → Fl, i.H = (List.ofFn fun a => List.ofFn fun b => if a = b then d a else 0) ∧
    ∀ a : Fin (vars.length + q), vars.length ≤ (a : ℕ) → d a = 0

/-- What callbacks are shown during a solve, for a problem with the given expressions and initial values. -/
def SolveShows (v : ℕ → Fl) (vars : List ℕ) (f : Term) (eqs ineqs : List Term) (w : World) : Prop :=
  ∃ (df : ℝ) (de : Fin eqs.length → ℝ) (di : Fin ineqs.length → ℝ),
    (0 < df ∧ df ≤ 1) ∧ (∀ i, 0 < de i ∧ de i ≤ 1) ∧ (∀ i, 0 < di i ∧ di i ≤ 1) ∧
    Scaling.Fits df de di (fun j : Fin vars.length => pderiv vars[j] f.eval (reals v))
      (fun (i : Fin eqs.length) (j : Fin vars.length) => pderiv vars[j] eqs[i].eval (reals v))
      (fun (i : Fin ineqs.length) (j : Fin vars.length) => pderiv vars[j] ineqs[i].eval (reals v)) ∧
    (∀ c ∈ w.calls, ∃ a ∈ w.trace, c.info = a.info) ∧
    ∀ a ∈ w.trace, AllFinite (assign v vars (a.info.x.take vars.length)) →
      let r := reals (assign v vars (a.info.x.take vars.length))
      AllSmooth f eqs ineqs r →
        if a.inner then
          a.info.x.length = vars.length + (2 * eqs.length + 2 * ineqs.length) ∧
            a.info.Restoring vars eqs ineqs r de di (2 * eqs.length + 2 * ineqs.length)
        else
          a.info.x.length = vars.length ∧ a.info.s.length = ineqs.length ∧ a.info.y.length = eqs.length ∧
            a.info.z.length = ineqs.length ∧ a.info.Derivatives vars f eqs ineqs r df de di

theorem ofFn_vars {α : Type} (vars : List ℕ) (F : ℕ → α) : (List.ofFn fun j : Fin vars.length => F vars[j]) = vars.map F := by
  apply List.ext_getElem
  · simp
  · intro i h1 h2; simp

theorem take_ofFn_add {α : Type} {n q : ℕ} (x : Fin (n + q) → α) :
    (List.ofFn x).take n = List.ofFn fun j : Fin n => x (Fin.castAdd q j) := by
  apply List.ext_getElem
  · simp
  · intro i h1 h2; simp [Fin.castAdd, Fin.castLE]

theorem drop_ofFn_add {α : Type} {n q : ℕ} (x : Fin (n + q) → α) :
    (List.ofFn x).drop n = List.ofFn fun j : Fin q => x (Fin.natAdd n j) := by
  apply List.ext_getElem
  · simp
  · intro i h1 h2; simp [Fin.natAdd]

theorem matrixCallbacks_shows {ad : Autodiff} {env : Env} {v : ℕ → Fl} {vars : List ℕ} {f : Term} {eqs ineqs : List Term}
    {x0 : Vec vars.length} (hx0 : assign v vars (List.ofFn x0) = v) (h0 : AllFinite v)
    (s0 : AllSmooth f eqs ineqs (reals v)) {w : World}
    (hw : w.Shows (ShownOf env (matrixCallbacks ad v vars f eqs ineqs x0))) : SolveShows v vars f eqs ineqs w := by
  obtain ⟨df, de, di, hS, hF, hv⟩ := callbacks_correct ad v vars f eqs ineqs x0 (by rw [hx0]; exact h0)
    (by rw [hx0]; exact s0)
  rw [hx0] at hF
  refine ⟨df, de, di, hS.f, hS.ce, hS.ci, hF, fun c hc => ?_, fun a ha hf => ?_⟩
  · obtain ⟨a, ha, e⟩ := hw.calls c hc
    exact ⟨a, ha, e.symm⟩
  intro r hs
  obtain ⟨o1, o2⟩ := hw.trace a ha
  cases hin : a.inner with
  | false =>
    obtain ⟨x, s, y, z, hi⟩ := o1 hin
    have ex : a.info.x.take vars.length = List.ofFn x := by rw [hi.x, List.take_of_length_le (by simp)]
    rw [ex] at hf
    have er : r = reals (assign v vars (List.ofFn x)) := by show reals _ = _; rw [ex]
    rw [er] at hs ⊢
    obtain ⟨-, hg, -, hAe, -, hAi, hH⟩ := hv x hf hs
    simp only [Bool.false_eq_true, if_false]
    refine ⟨by simp [hi.x], by simp [hi.s], by simp [hi.y], by simp [hi.z], ?_, ?_, ?_, fun y' z' hy hz => ?_⟩
    · rw [hi.g, ← ofFn_vars]
      exact congrArg List.ofFn (funext hg)
    · rw [hi.Ae]
      refine congrArg List.ofFn (funext fun i => ?_)
      rw [← ofFn_vars]
      exact congrArg List.ofFn (funext (hAe i))
    · rw [hi.Ai]
      refine congrArg List.ofFn (funext fun i => ?_)
      rw [← ofFn_vars]
      exact congrArg List.ofFn (funext (hAi i))
    · rw [hi.y] at hy
      rw [hi.z] at hz
      obtain rfl := List.ofFn_injective hy
      obtain rfl := List.ofFn_injective hz
      rw [hi.H]
      exact congrArg List.ofFn (funext fun i => congrArg List.ofFn (funext fun j => hH y' z' i j))
  | true =>
    obtain ⟨xr, μ, x, s, y, z, hi⟩ := o2 hin
    have ex : a.info.x.take vars.length = List.ofFn (frOrigin x) := by rw [hi.x, take_ofFn_add]; rfl
    rw [ex] at hf
    have er : r = reals (assign v vars (List.ofFn (frOrigin x))) := by show reals _ = _; rw [ex]
    rw [er] at hs ⊢
    obtain ⟨-, -, -, hAe, -, hAi, -⟩ := hv (frOrigin x) hf hs
    simp only [if_true]
    refine ⟨by simp [hi.x], ⟨⟨by simp [hi.g], ?_⟩, ?_, ?_, ?_⟩⟩
    · rw [hi.g, drop_ofFn_add, ← List.ofFn_const]
      refine congrArg List.ofFn (funext fun j => ?_)
      simp only [frProblem, Fin.append_right]
    · rw [hi.Ae, FMat.rows, List.map_ofFn]
      refine congrArg List.ofFn (funext fun i => ?_)
      rw [Function.comp_apply, take_ofFn_add, ← ofFn_vars]
      refine congrArg List.ofFn (funext fun j => ?_)
      rw [← hAe i j]
      simp only [frProblem, Fin.append_left]
    · rw [hi.Ai, FMat.rows, take_ofFn_add, List.map_ofFn]
      refine congrArg List.ofFn (funext fun i => ?_)
      rw [Function.comp_apply, take_ofFn_add, ← ofFn_vars]
      refine congrArg List.ofFn (funext fun j => ?_)
      rw [← hAi i j]
      simp only [frProblem, Fin.append_left]
    · refine ⟨Fin.append (fun j => Fl.sqrt μ * frWeight (xr j)) fun _ => 0, hi.H, fun j hj => ?_⟩
      obtain ⟨j', rfl⟩ : ∃ j', j = Fin.natAdd vars.length j' := ⟨⟨j - vars.length, by omega⟩, by ext; simp; omega⟩
      rw [Fin.append_right]

/-- C69: what callbacks are shown. Where the values are finite and the expressions smooth, it is the gradient of the
cost, the Jacobians of the constraints and the lower triangle of the Hessian of the Lagrangian at the iterate shown, of
the scaled problem: `df` times the cost and `de` and `di` times the constraints, with factors in `(0, 1]` that bring the
derivatives at the initial values to at most 100 and are 1 where they are already. The multipliers shown are those of
the scaled problem, too. During a feasibility restoration, the derivatives are those of the problem that restores
feasibility, of which only some columns of the Jacobians are the user's. -/
theorem callbacks_shown {p : Problem} {s s' : Store} (h0 : AllFinite s.val) (s0 : p.Smooth (reals s.val)) {ad : Autodiff}
    {env : Env} {opts : SolverOptions} {spy : Bool} {o : p.Outcome} (h : p.solve ad env opts spy s = some (o, s')) :
    SolveShows s.val p.vars p.objective.term (p.eqs.map UserExpr.term) (p.ineqs.map UserExpr.term) o.world := by
  have hg : assign s.val p.vars (List.ofFn (p.guess s)) = s.val := by
    rw [show List.ofFn (p.guess s) = p.vars.map s.val from ofFn_vars p.vars s.val]
    exact assign_self _ _
  have triv : SolveShows s.val p.vars p.objective.term (p.eqs.map UserExpr.term) (p.ineqs.map UserExpr.term) .start :=
    matrixCallbacks_shows (ad := ad) (env := env) hg h0 s0 (.start _)
  rcases solve_cases h with ⟨h1, rfl, h2⟩ | ⟨h1, h2, h3, r, hr, rfl, -⟩ | ⟨h1, h2, h3, r, hr, rfl, -⟩ |
    ⟨h1, h2, b, -, -, rfl, -⟩ | ⟨h1, h2, b, r, -, -, hr, rfl, -⟩
  · exact triv
  · unfold Problem.Smooth at s0
    rw [h2, h3] at s0 ⊢
    exact matrixCallbacks_shows hg h0 s0 (newton_shows hr)
  · unfold Problem.Smooth at s0
    rw [h3] at s0 ⊢
    exact matrixCallbacks_shows hg h0 s0 (sqp_shows hr)
  · exact triv
  · exact matrixCallbacks_shows hg h0 s0 (interiorPoint_shows hr)

/-- Minimise `1000 x`, with a callback that stops the solve. -/
noncomputable def steepUser : Problem :=
  ⟨[0], some ⟨.bin .mul (.lit 1000) (.var 0), .linear⟩, [], [], [fun _ _ => true], []⟩

theorem steep_pderiv (r : ℕ → ℝ) : pderiv 0 steepUser.objective.term.eval r = 1000 := by
  have e : (fun a => steepUser.objective.term.eval (Function.update r 0 a)) = fun a : ℝ => 1000 * a := by
    funext a
    simp [steepUser, Problem.objective, Term.eval, BinOp.eval]
  rw [pderiv, e]
  simp

/-- C69: the gradient that callbacks are shown is not that of the cost as given. The cost here is `1000 x`, but the
callback is shown a gradient of at most 100. -/
theorem shown_gradient_scaled (ad : Autodiff) (env : Env) :
    ∃ o s' c, steepUser.solve ad env ⟨1e-8, 5000, .pinf, false⟩ false ⟨1, fun _ => 0⟩ = some (o, s') ∧
      o.status = .callbackRequestedStop ∧ o.world.calls = [c] ∧ c.info.x = [0] ∧
      (∃ g, c.info.g = [.fin g] ∧ 0 < g ∧ g ≤ 100) ∧ ∀ r, pderiv 0 steepUser.objective.term.eval r = 1000 := by
  set s : Store := ⟨1, fun _ => 0⟩ with hs
  have h0 : AllFinite s.val := fun _ => rfl
  have s0 : AllSmooth steepUser.objective.term [] [] (reals s.val) :=
    ⟨by simp [steepUser, Problem.objective, Term.Smooth, BinOp.Smooth], by simp, by simp⟩
  have hgs : assign s.val steepUser.vars (List.ofFn (steepUser.guess s)) = s.val := by
    rw [show List.ofFn (steepUser.guess s) = steepUser.vars.map s.val from ofFn_vars steepUser.vars s.val]
    exact assign_self _ _
  obtain ⟨df, de, di, hS, hF, hv⟩ := callbacks_correct ad s.val steepUser.vars steepUser.objective.term [] []
    (steepUser.guess s) (by rw [hgs]; exact h0) (by rw [hgs]; exact s0)
  obtain ⟨hf, hg, -, -, -, -, hH⟩ := hv (steepUser.guess s) (by rw [hgs]; exact h0) (by rw [hgs]; exact s0)
  rw [hgs] at hf hg hH
  have hp : ∀ (j : Fin steepUser.vars.length) (r : ℕ → ℝ),
      pderiv steepUser.vars[j] steepUser.objective.term.eval r = 1000 := fun j r => by
    rw [show steepUser.vars[j] = 0 from List.mem_singleton.1 (List.getElem_mem _), steep_pderiv]
  have hd : |df * 1000| ≤ 100 := by
    have := hF.f.1 (⟨0, Nat.one_pos⟩ : Fin steepUser.vars.length)
    rwa [hp] at this
  have hg' : ∀ j, (steepUser.newtonNlp ad s).g (steepUser.guess s) j = .fin (df * 1000) := fun j => by
    refine (hg j).trans ?_
    rw [hp]
  have hE : errZeroNewton env (steepUser.newtonNlp ad s).scaling ((steepUser.newtonNlp ad s).g (steepUser.guess s)) =
      .fin 1000 := by
    rw [errZeroNewton, if_pos (Vec.finite_fin hg'), Vec.real_fin hg', show (steepUser.newtonNlp ad s).scaling = _ from hS.eq,
      unscaled_error_newton hS.f.1 (fun _ => 1000) de di]
    show Fl.fin (infNorm fun _ : Fin 1 => (1000 : ℝ)) = _
    simp [infNorm]
  have hinit : ((newtonInit env (steepUser.newtonNlp ad s) (steepUser.guess s)).f.isFinite = true ∧
      (newtonInit env (steepUser.newtonNlp ad s) (steepUser.guess s)).g.Finite ∧
      (newtonInit env (steepUser.newtonNlp ad s) (steepUser.guess s)).H.Finite) := by
    refine ⟨?_, Vec.finite_fin hg', fun i j => ?_⟩
    · show ((steepUser.newtonNlp ad s).f (steepUser.guess s)).isFinite = true
      rw [show (steepUser.newtonNlp ad s).f (steepUser.guess s) = _ from hf]; rfl
    · show ((steepUser.newtonNlp ad s).H (steepUser.guess s) Fin.elim0 Fin.elim0 i j).isFinite = true
      rw [show (Fin.elim0 : Vec 0) = fun i => Fl.fin ((Fin.elim0 : Fin 0 → ℝ) i) from funext fun i => i.elim0]
      refine (congrArg Fl.isFinite (hH Fin.elim0 Fin.elim0 i j)).trans ?_
      split <;> rfl
  have hdv : ¬ diverging env (steepUser.guess s) := by
    have hfin : Vec.Finite (steepUser.guess s) := fun _ => rfl
    rintro (h | h)
    · rw [infNormF, if_pos hfin] at h
      have e : infNorm (steepUser.guess s).real = 0 := by
        show infNorm (fun _ : Fin 1 => (0 : ℝ)) = 0
        simp [infNorm]
      rw [e] at h
      have : (1e10 : ℝ) < 0 := h
      norm_num at this
    · exact h hfin
  have hn : ∃ res, newton env ⟨1e-8, 5000, .pinf, false⟩ (steepUser.newtonNlp ad s) [fun _ _ => true] (steepUser.guess s)
      .start = some res ∧ res.status = .callbackRequestedStop ∧
      res.world.calls = [⟨0, (newtonInit env (steepUser.newtonNlp ad s) (steepUser.guess s)).info, true⟩] := by
    unfold newton
    simp only
    rw [if_neg (not_not.2 hinit)]
    rw [show loopRounds ⟨1e-8, 5000, .pinf, false⟩ 0 = 4999 + 1 from by norm_num [loopRounds]; rfl, newtonLoop]
    rw [if_neg (by show ¬ ¬ (errZeroNewton _ _ _ > _); rw [hE, not_not]; show Fl.lt _ _; norm_num [Fl.lt])]
    rw [if_neg (by exact hdv)]
    simp [runRegistered, NewtonState.exit, World.start]
  obtain ⟨res, h1, h2, h3⟩ := hn
  refine ⟨.newton res, s.write steepUser.vars (List.ofFn res.x), _, ?_, h2, h3, ?_, ⟨df * 1000, ?_, by nlinarith [hS.f.1], (abs_le.1 hd).2⟩, steep_pderiv⟩
  · unfold Problem.solve
    rw [if_neg (by simp [steepUser, Problem.costType, Ty.rank]), if_pos ⟨rfl, rfl⟩]
    rw [show steepUser.allCallbacks false = [fun _ _ => true] from rfl, h1]
    rfl
  · show List.ofFn (fun _ : Fin 1 => (0 : Fl)) = [0]
    simp
  · show List.ofFn ((steepUser.newtonNlp ad s).g (steepUser.guess s)) = _
    rw [funext hg']
    show List.ofFn (fun _ : Fin 1 => Fl.fin (df * 1000)) = _
    simp

end Slp
