import Verif.Problem.FiniteProps
import Verif.Problem.SeenProps
import Verif.Solver.UnusedProps

/-! C89: `solve()` does not change decision variables that neither the cost nor the constraints depend on. -/

namespace Slp

open Classical

/-- The value of the function is the same for all values of the variable. -/
def Ignores (F : (ℕ → ℝ) → ℝ) (j : ℕ) : Prop := ∀ w a, F (Function.update w j a) = F w

/-- Neither the cost nor the constraints depend on the variable. -/
structure Problem.Unused (p : Problem) (j : ℕ) : Prop where
  cost : Ignores p.objective.term.eval j
  eqs : ∀ e ∈ p.eqs, Ignores e.term.eval j
  ineqs : ∀ e ∈ p.ineqs, Ignores e.term.eval j

theorem Ignores.pderiv_zero {F : (ℕ → ℝ) → ℝ} {j : ℕ} (h : Ignores F j) (v : ℕ → ℝ) : pderiv j F v = 0 := by
  unfold pderiv
  rw [show (fun a => F (Function.update v j a)) = fun _ => F v from funext fun a => h v a, deriv_const]

theorem Ignores.pderiv {F : (ℕ → ℝ) → ℝ} {j : ℕ} (h : Ignores F j) (i : ℕ) : Ignores (pderiv i F) j := by
  intro w a
  by_cases hij : i = j
  · subst hij; rw [h.pderiv_zero, h.pderiv_zero]
  · unfold Slp.pderiv
    rw [Function.update_of_ne hij]
    congr 1
    funext b
    rw [Function.update_comm (Ne.symm hij), h]

theorem Ignores.lagrangian {df : ℝ} {f : Term} {eqs ineqs : List Term} {ye : Fin eqs.length → ℝ} {zi : Fin ineqs.length → ℝ}
    {j : ℕ} (hf : Ignores f.eval j) (he : ∀ t ∈ eqs, Ignores t.eval j) (hi : ∀ t ∈ ineqs, Ignores t.eval j) :
    Ignores (lagrangian df f eqs ineqs ye zi) j := by
  intro w a
  unfold Slp.lagrangian
  rw [hf]
  congr 1
  · congr 1
    exact Finset.sum_congr rfl fun i _ => congrArg _ (he _ (List.getElem_mem _) w a)
  · exact Finset.sum_congr rfl fun i _ => congrArg _ (hi _ (List.getElem_mem _) w a)

/-- The functions given to the solver do not depend on the variable either. -/
theorem callbacks_unused (ad : Autodiff) {v : ℕ → Fl} (hv : AllFinite v) (vars : List ℕ) {f : Term} {eqs ineqs : List Term}
    (hsm : ∀ w : ℕ → ℝ, (∀ k, k ∉ vars → w k = reals v k) → AllSmooth f eqs ineqs w) {x0 : Vec vars.length}
    (hx0 : x0.Finite) (i : Fin vars.length)
    (hf : Ignores f.eval vars[i]) (he : ∀ t ∈ eqs, Ignores t.eval vars[i]) (hi : ∀ t ∈ ineqs, Ignores t.eval vars[i]) :
    (matrixCallbacks ad v vars f eqs ineqs x0).Unused i := by
  have has : ∀ x : Vec vars.length, x.Finite → AllFinite (assign v vars (List.ofFn x)) := fun x hx =>
    assign_finite vars v _ hv fun a ha => by
      obtain ⟨i, rfl⟩ := (List.mem_ofFn' _ _).1 ha
      exact hx i
  have hsm : ∀ x : Vec vars.length, AllSmooth f eqs ineqs (reals (assign v vars (List.ofFn x))) := fun x =>
    hsm _ fun k hk => by unfold reals; rw [assign_other vars _ _ hk]
  obtain ⟨df, de, di, hS, -, hval⟩ := callbacks_correct ad v vars f eqs ineqs x0 (has _ hx0) (hsm _)
  refine ⟨fun x hx => ?_, fun x hx l => ?_, fun x hx l => ?_, fun x y z hx hy hz j => ?_⟩
  · refine (congrArg Fl.toReal ((hval x (has x hx) (hsm _)).2.1 i)).trans ?_
    rw [hf.pderiv_zero, mul_zero]; rfl
  · refine (congrArg Fl.toReal ((hval x (has x hx) (hsm _)).2.2.2.1 l i)).trans ?_
    have := (he eqs[l] (List.getElem_mem _)).pderiv_zero (reals (assign v vars (List.ofFn x)))
    rw [this, mul_zero]; rfl
  · refine (congrArg Fl.toReal ((hval x (has x hx) (hsm _)).2.2.2.2.2.1 l i)).trans ?_
    have := (hi ineqs[l] (List.getElem_mem _)).pderiv_zero (reals (assign v vars (List.ofFn x)))
    rw [this, mul_zero]; rfl
  · obtain ⟨-, -, -, -, -, -, h7⟩ := hval x (has x hx) (hsm _)
    have e : ∀ {q : ℕ} {a : Vec q}, a.Finite → a = fun i => .fin (a i).toReal := fun {q a} ha => funext fun i => by
      obtain ⟨b, hb⟩ := Fl.isFinite_iff.1 (ha i)
      rw [hb]; rfl
    have hL : ∀ (ye : Fin eqs.length → ℝ) (zi : Fin ineqs.length → ℝ), Ignores (lagrangian df f eqs ineqs ye zi) vars[i] :=
      fun ye zi => .lagrangian hf he hi
    rw [e hy, e hz]
    unfold lowerSym
    split
    · rename_i hji
      refine (congrArg Fl.toReal ((h7 _ _ i j).trans (if_pos hji))).trans ?_
      show pderiv _ _ _ = 0
      unfold pderiv
      rw [show (fun a => deriv _ _) = fun _ : ℝ => (0 : ℝ) from funext fun a => (hL _ _).pderiv_zero _, deriv_const]
    · rename_i hji
      refine (congrArg Fl.toReal ((h7 _ _ j i).trans (if_pos (not_le.1 hji).le))).trans ?_
      exact ((hL _ _).pderiv _).pderiv_zero _

/-- C89: let the expressions be smooth for all values of the decision variables, the initial values finite, and let the linear
solver be exact and accept no singular matrix. A decision variable that neither the cost nor the constraints depend on has the same value after `solve()`
as before, whatever the exit status, and all callbacks are shown that value. -/
theorem solve_unused {p : Problem} {s : Store} (hok : p.Ok s) {ad : Autodiff} {env : Env} (hE : env.NonsingularSolve)
    (hE' : env.ExactEstimate) {opts : SolverOptions} (htol : 0 < opts.tolerance) (hsm : p.SmoothAround s)
    (hfin : AllFinite s.val) {spy : Bool} {s' : Store} {o : p.Outcome} (h : p.solve ad env opts spy s = some (o, s'))
    {i : ℕ} (hi : i < p.vars.length) (hu : p.Unused p.vars[i]) :
    s'.val p.vars[i] = s.val p.vars[i] ∧ ∀ shown ∈ o.world.trace, shown.info.x[i]? = some (s.val p.vars[i]) := by
  have hg := guess_finite (p := p) hfin
  have hwr := solution_written hok h
  have hw : ∀ {x : Vec p.vars.length}, x ⟨i, hi⟩ = p.guess s ⟨i, hi⟩ →
      (s.write p.vars (List.ofFn x)).val p.vars[i] = s.val p.vars[i] := fun {x} hx => by
    refine (assign_get p.vars s.val (List.ofFn x) hok.nodup (by simp) i hi (by simpa using hi)).trans ?_
    rw [List.getElem_ofFn, hx]; rfl
  have hms : ∀ {l : List UserExpr}, (∀ e ∈ l, Ignores e.term.eval p.vars[i]) →
      ∀ t ∈ l.map UserExpr.term, Ignores t.eval p.vars[i] := fun {l} hl t ht => by
    obtain ⟨e, h1, rfl⟩ := List.mem_map.1 ht
    exact hl e h1
  rcases solve_cases h with ⟨h1, rfl, rfl⟩ | ⟨-, h2, h3, r, h4, rfl, rfl⟩ | ⟨-, h2, h3, r, h4, rfl, rfl⟩ |
    ⟨-, -, b, -, -, rfl, rfl⟩ | ⟨-, -, b, r, -, -, h4, rfl, rfl⟩
  · exact ⟨rfl, by simp [Outcome.world, World.start]⟩
  · have hs : ∀ w : ℕ → ℝ, (∀ k, k ∉ p.vars → w k = reals s.val k) → AllSmooth p.objective.term [] [] w := fun w hw =>
      ⟨(hsm w hw).f, by simp, by simp⟩
    obtain ⟨h5, h6⟩ := newton_unused hE (callbacks_total ad hfin p.vars hs hg).1
      (callbacks_unused ad hfin p.vars hs hg ⟨i, hi⟩ hu.cost (by simp) (by simp)) hg h4
    exact ⟨hw h5, h6⟩
  · have hs : ∀ w : ℕ → ℝ, (∀ k, k ∉ p.vars → w k = reals s.val k) →
        AllSmooth p.objective.term (p.eqs.map UserExpr.term) [] w := fun w hw => ⟨(hsm w hw).f, (hsm w hw).eqs, by simp⟩
    obtain ⟨h5, h6⟩ := sqp_unused hE hE' (callbacks_total ad hfin p.vars hs hg).1 htol
      (callbacks_unused ad hfin p.vars hs hg ⟨i, hi⟩ hu.cost (hms hu.eqs) (by simp)) hg h4
    exact ⟨hw h5, h6⟩
  · rw [hwr.2.2.2 rfl]
    exact ⟨rfl, by simp [Outcome.world, World.start]⟩
  · obtain ⟨hT, hS⟩ := callbacks_total ad hfin p.vars (f := p.objective.term) (eqs := p.eqs.map UserExpr.term)
      (ineqs := p.ineqs.map UserExpr.term) (fun w hw => hsm w hw) hg
    obtain ⟨h5, h6⟩ := ipm_unused hE hE' hT htol hS
      (callbacks_unused ad hfin p.vars (fun w hw => hsm w hw) hg ⟨i, hi⟩ hu.cost (hms hu.eqs) (hms hu.ineqs)) hg h4
    exact ⟨hw h5, h6⟩

/-- Minimise `x₀²` subject to `x₀² = 4`, with a second variable that does not occur. -/
def spareUser : Problem :=
  ⟨[0, 1], some ⟨.bin .mul (.var 0) (.var 0), .quadratic⟩, [⟨.bin .sub (.bin .mul (.var 0) (.var 0)) (.lit 4), .quadratic⟩],
    [], [], []⟩

/-- From wherever `solve()` starts, it returns, and the second variable is unchanged. -/
example (factor : ℕ → Bool) (clock : ℕ → ℝ) (junk : ℕ → List Fl → Fl) (ad : Autodiff) (v : ℕ → Fl) (hv : AllFinite v) :
    ∃ o s', spareUser.solve ad (exactEnv factor clock junk) ⟨1e-8, 5000, .pinf, false⟩ false ⟨2, v⟩ = some (o, s') ∧
      s'.val 1 = v 1 := by
  have ht : (0 : ℝ) < (⟨1e-8, 5000, .pinf, false⟩ : SolverOptions).tolerance := by norm_num
  have hu : spareUser.Unused 1 := by
    refine ⟨fun w a => ?_, fun e he w a => ?_, by simp [spareUser]⟩
    · simp [spareUser, Problem.objective, Term.eval, BinOp.eval]
    · obtain rfl : e = _ := by simpa [spareUser] using he
      simp [Term.eval, BinOp.eval]
  have hsm : ∀ w, spareUser.Smooth w := fun w => ⟨by simp [spareUser, Problem.objective, Term.Smooth, BinOp.Smooth],
    by simp [spareUser, Term.Smooth, BinOp.Smooth], by simp [spareUser]⟩
  obtain ⟨res, h1, -⟩ := sqp_correct_partial (exactEnv factor clock junk) ⟨1e-8, 5000, .pinf, false⟩
    (spareUser.sqpNlp ad ⟨2, v⟩) (spareUser.allCallbacks false) (spareUser.guess ⟨2, v⟩) ht
  have h2 : spareUser.solve ad (exactEnv factor clock junk) ⟨1e-8, 5000, .pinf, false⟩ false ⟨2, v⟩ =
      some (.sqp res, (Store.mk 2 v).write spareUser.vars (List.ofFn res.x)) := by
    unfold Problem.solve
    rw [if_neg (by simp [spareUser, Problem.costType, Ty.rank]), if_neg (by simp [spareUser]), if_pos (by simp [spareUser]), h1]
    rfl
  exact ⟨_, _, h2, (solve_unused (i := 1) (s := ⟨2, v⟩) ⟨by simp [spareUser], by simp [spareUser]⟩ (exactEnv_nonsingular _ _ _)
    (exactEnv_exact ..).2 ht (fun w _ => hsm w) hv h2 (by simp [spareUser]) hu).1⟩

end Slp
