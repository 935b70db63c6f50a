import Verif.Problem.SolveProps

/-! A problem with an inequality constraint for which the hypotheses of C21, C22 and C39 hold. -/

namespace Slp

open Classical

/-- If the initial error is within the tolerance, the interior-point method ends at once. -/
theorem interiorPoint_immediate {n m k : ℕ} (env : Env) (opts : SolverOptions) (P : Nlp n m k) (cbs : List Callback)
    (x : Vec n) (hm : m ≤ n) (hf : (P.eval x (fun _ => 0) fun _ => 1).Finite)
    (hE : ¬ errZeroIpm env P.scaling (P.eval x (fun _ => 0) fun _ => 1) (fun _ => 1) (fun _ => 0) (fun _ => 1) >
      .fin opts.tolerance) :
    ∃ res, interiorPoint env opts P cbs x .start = some res ∧ res.status = .success ∧ res.x = x ∧ res.s = (fun _ => 1) ∧
      res.y = (fun _ => 0) ∧ res.z = fun _ => 1 := by
  unfold interiorPoint ipmRun
  simp only
  rw [if_neg (not_lt.2 hm), if_neg (not_not.2 (show (ipmInit env P x (fun _ => 1) (fun _ => 0) (fun _ => 1) _ 0).e.Finite
    from hf))]
  obtain ⟨r, hr⟩ : ∃ r, loopRounds opts 0 = r + 1 := ⟨loopRounds opts 0 - 1, by unfold loopRounds; omega⟩
  rw [hr, ipmLoop, if_pos (show ¬ (ipmInit env P x (fun _ => 1) (fun _ => 0) (fun _ => 1) _ 0).E0 > .fin opts.tolerance
    from hE)]
  exact ⟨_, rfl, rfl, rfl, rfl, rfl, rfl⟩

/-- `x₀ x₀`. -/
def squareExpr : UserExpr := ⟨.bin .mul (.var 0) (.var 0), .quadratic⟩

/-- Minimise `x₀²` subject to `x₀² ≥ 0` from 1. -/
noncomputable def squareProgram : List ProblemCmd :=
  [.variable, .setValue 0 (.fin 1), .minimize squareExpr, .subjectToIneq [squareExpr]]

theorem square_pderiv (v : ℕ → ℝ) : pderiv 0 squareExpr.term.eval v = 2 * v 0 := by
  unfold pderiv
  have : (fun a => squareExpr.term.eval (Function.update v 0 a)) = fun a => a * a := by
    funext a
    simp [squareExpr, Term.eval, BinOp.eval]
  rw [this]
  simp [two_mul]

/-- The problem of the program. -/
def squareUser : Problem := ⟨[0], some squareExpr, [], [squareExpr], [], []⟩

/-- The variables of the program. -/
noncomputable def squareStore : Store := ⟨1, Function.update (Function.update (fun _ => 0) 0 0) 0 (.fin 1)⟩

theorem square_after : Problem.after squareProgram = (squareUser, squareStore) := rfl

theorem square_finite : AllFinite squareStore.val := by
  intro k
  by_cases hk : k = 0 <;> simp [squareStore, hk, Fl.zero_def]

theorem square_smooth (v : ℕ → ℝ) : squareUser.Smooth v :=
  ⟨by simp [squareUser, Problem.objective, squareExpr, Term.Smooth, BinOp.Smooth], by simp [squareUser],
    by simp [squareUser, squareExpr, Term.Smooth, BinOp.Smooth]⟩

theorem square_keep : assign squareStore.val squareUser.vars (List.ofFn (squareUser.guess squareStore)) =
    squareStore.val := by
  rw [show List.ofFn (squareUser.guess squareStore) = _ from ofFn_guess squareUser squareStore, assign_self]

theorem square_value : reals squareStore.val 0 = 1 := by simp [reals, squareStore, Fl.toReal]

/-- The hypotheses of C21, C22 and C39 hold for this problem, with a tolerance of 2. -/
theorem square_solved (ad : Autodiff) (env : Env) (maxIterations : ℤ) (timeout : Fl) :
    squareUser.Ok squareStore ∧ ∃ o s', squareUser.solve ad env ⟨2, maxIterations, timeout, false⟩ false squareStore =
      some (o, s') ∧ o.status = .success ∧ ¬ squareUser.Constant ∧ AllFinite s'.val ∧ o.Finite ∧
      squareUser.Smooth (reals s'.val) := by
  have hconst : ¬ squareUser.Constant := by
    intro h
    have := h.1 squareExpr rfl
    simp [squareExpr, Ty.rank] at this
  obtain ⟨df, de, di, hS, hF, hv⟩ := callbacks_correct ad squareStore.val squareUser.vars squareUser.objective.term
    (squareUser.eqs.map UserExpr.term) (squareUser.ineqs.map UserExpr.term) (squareUser.guess squareStore)
    (by rw [square_keep]; exact square_finite) (square_smooth _)
  obtain ⟨v1, v2, v3, v4, v5, v6, v7⟩ := hv (squareUser.guess squareStore) (by rw [square_keep]; exact square_finite)
    (square_smooth _)
  rw [square_keep] at v1 v2 v3 v4 v5 v6 v7 hF
  have hd : ∀ (j : Fin squareUser.vars.length), pderiv squareUser.vars[j] squareExpr.term.eval (reals squareStore.val) = 2 := by
    intro j
    have hj : squareUser.vars[j] = 0 := by
      obtain ⟨j, hj⟩ := j
      have : j = 0 := by simp [squareUser] at hj; exact hj
      subst this; rfl
    rw [hj, square_pderiv, square_value]; norm_num
  obtain rfl : df = 1 := hF.f.2 fun j => by
    have := hd j
    show |pderiv squareUser.vars[j] squareExpr.term.eval (reals squareStore.val)| ≤ 100
    rw [this]; norm_num
  have hti : ∀ i : Fin (squareUser.ineqs.map UserExpr.term).length, (squareUser.ineqs.map UserExpr.term)[i] =
      squareExpr.term := by
    rintro ⟨i, hi⟩
    have : i = 0 := by simp [squareUser] at hi; exact hi
    subst this; rfl
  obtain rfl : di = fun _ => 1 := funext fun i => (hF.ci i).2 fun j => by
    simp only [hti]
    rw [hd j]; norm_num
  have hval : squareExpr.term.eval (reals squareStore.val) = 1 := by
    simp [squareExpr, Term.eval, BinOp.eval, square_value]
  simp only [hti, hval, one_mul] at v5
  simp only [hti, hd, one_mul] at v6
  have v2 : ∀ j, (matrixCallbacks ad squareStore.val squareUser.vars squareUser.objective.term
      (squareUser.eqs.map UserExpr.term) (squareUser.ineqs.map UserExpr.term) (squareUser.guess squareStore)).g
      (squareUser.guess squareStore) j = .fin 2 := fun j => by
    have := v2 j
    rwa [show squareUser.objective.term = squareExpr.term from rfl, hd, one_mul] at this
  have hme : ∀ i : Fin (squareUser.eqs.map UserExpr.term).length, False := fun i => by
    have := i.2; simp [squareUser] at this
  let P := squareUser.ipmNlp ad squareStore
  have hzero : (fun _ => 0 : Vec (squareUser.eqs.map UserExpr.term).length) = fun i => .fin 0 := rfl
  have hfin : (P.eval (squareUser.guess squareStore) (fun _ => 0) fun _ => 1).Finite := by
    refine ⟨?_, ?_, ?_, fun i => (hme i).elim, fun i => (hme i).elim, ?_, ?_⟩
    · show (P.f _).isFinite = true
      rw [show P.f (squareUser.guess squareStore) = _ from v1]; rfl
    · exact Vec.finite_fin v2
    · intro i j
      have := v7 (fun _ => 0) (fun _ => 1) i j
      show (P.H _ _ _ i j).isFinite = true
      rw [show P.H (squareUser.guess squareStore) (fun _ => 0) (fun _ => 1) i j = _ from this]
      split_ifs <;> rfl
    · exact Vec.finite_fin v5
    · exact FMat.finite_fin v6
  have hE : ¬ errZeroIpm env P.scaling (P.eval (squareUser.guess squareStore) (fun _ => 0) fun _ => 1) (fun _ => 1)
      (fun _ => 0) (fun _ => 1) > .fin 2 := by
    unfold errZeroIpm
    rw [if_pos ⟨Vec.finite_fin v2, fun i => (hme i).elim, fun i => (hme i).elim, FMat.finite_fin v6, Vec.finite_fin v5,
      fun _ => rfl, fun _ => rfl, fun _ => rfl⟩, gt_iff_lt, Fl.fin_lt, not_lt]
    show unscaledInfIpm P.scaling (P.g (squareUser.guess squareStore)).real (P.Ae (squareUser.guess squareStore)).real
      (P.ce (squareUser.guess squareStore)).real (P.Ai (squareUser.guess squareStore)).real
      (P.ci (squareUser.guess squareStore)).real _ _ _ 0 ≤ 2
    rw [show P.scaling = _ from hS.eq, show (P.g (squareUser.guess squareStore)).real = _ from Vec.real_fin v2,
      show (P.Ai (squareUser.guess squareStore)).real = _ from FMat.real_fin v6,
      show (P.ci (squareUser.guess squareStore)).real = _ from Vec.real_fin v5]
    have damp : ∀ {q : ℕ} (w : Fin q → ℝ) (a : ℝ), (∀ i, |w i| ≤ 1) → infNorm w / (Max.max 100 a / 100) ≤ 2 := by
      intro q w a hw
      have h1 : infNorm w ≤ 1 := infNorm_le.2 ⟨by norm_num, hw⟩
      have h2 : (1 : ℝ) ≤ Max.max 100 a / 100 := damping_pos a
      rw [div_le_iff₀ (by linarith)]
      linarith
    unfold unscaledInfIpm
    rw [if_neg (fun h => by have := h.2.2; simp [squareUser] at this)]
    unfold kktInfIpm
    refine max_le (max_le (max_le (damp _ _ fun j => ?_) (damp _ _ fun i => ?_)) ?_) ?_
    · have e : ∀ A : Matrix (Fin (squareUser.eqs.map UserExpr.term).length) (Fin squareUser.vars.length) ℝ, ∀ y,
          (Matrix.mulVec A.transpose y) j = 0 := fun A y => by
        rw [transpose_mulVec_eq]
        exact Finset.sum_eq_zero fun i _ => (hme i).elim
      simp only [Pi.sub_apply, e, transpose_mulVec_eq]
      have hcard : (Finset.univ : Finset (Fin (squareUser.ineqs.map UserExpr.term).length)).card = 1 := by
        rw [Finset.card_univ, Fintype.card_fin]; rfl
      simp [rowScale, Vec.real, Fl.toReal, hcard]
    · simp [Vec.real, Fl.toReal]
    · exact infNorm_le.2 ⟨by norm_num, fun i => (hme i).elim⟩
    · refine infNorm_le.2 ⟨by norm_num, fun i => ?_⟩
      simp [Vec.real, Fl.toReal]
  obtain ⟨res, h1, h2, h3, h4, h5, h6⟩ := interiorPoint_immediate env ⟨2, maxIterations, timeout, false⟩ P
    (squareUser.allCallbacks false) (squareUser.guess squareStore) (by simp [squareUser]) hfin hE
  have hsol : squareUser.solve ad env ⟨2, maxIterations, timeout, false⟩ false squareStore =
      some (.ipm res, squareStore.write squareUser.vars (List.ofFn res.x)) := by
    unfold Problem.solve
    rw [if_neg (fun h => hconst (squareUser.constant_iff.1 h)), if_neg (by simp [squareUser]),
      if_neg (by simp [squareUser])]
    obtain ⟨b, hb, hc⟩ : ∃ b, squareUser.bounds ad squareStore = some b ∧ b.1.conflicts = [] := ⟨_, rfl, rfl⟩
    rw [hb, Option.bind_some, if_neg (not_not.2 hc), h1]
    rfl
  have hst : squareStore.write squareUser.vars (List.ofFn res.x) = squareStore := by
    rw [h3]; unfold Store.write; rw [square_keep]
  rw [hst] at hsol
  refine ⟨?_, _, _, hsol, h2, hconst, square_finite, ?_, square_smooth _⟩
  · exact variables_distinct squareProgram
  · show res.s.Finite ∧ res.y.Finite ∧ res.z.Finite
    rw [h4, h5, h6]
    exact ⟨fun _ => rfl, fun _ => rfl, fun _ => rfl⟩

end Slp
