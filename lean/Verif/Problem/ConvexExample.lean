import Verif.Problem.ConvexProps
import Verif.Problem.SolveExample

/-! A convex problem for which the hypotheses of C58 hold. -/

namespace Slp

open Classical

/-- `2 * (x₀ x₀)`. -/
noncomputable def twiceExpr : UserExpr := ⟨.bin .mul (.lit 2) (.bin .mul (.var 0) (.var 0)), .quadratic⟩

/-- `5 - (x₀ - 3)(x₀ - 3)`. -/
noncomputable def domeExpr : UserExpr :=
  ⟨.bin .sub (.lit 5) (.bin .mul (.bin .sub (.var 0) (.lit 3)) (.bin .sub (.var 0) (.lit 3))), .quadratic⟩

/-- Minimise `2x₀²` subject to `5 - (x₀ - 3)² ≥ 0` from 1. -/
noncomputable def domeProgram : List ProblemCmd :=
  [.variable, .setValue 0 (.fin 1), .minimize twiceExpr, .subjectToIneq [domeExpr]]

theorem twice_pderiv (v : ℕ → ℝ) : pderiv 0 twiceExpr.term.eval v = 4 * v 0 := by
  unfold pderiv
  have : (fun a => twiceExpr.term.eval (Function.update v 0 a)) = fun a => 2 * (a * a) := by
    funext a
    simp [twiceExpr, Term.eval, BinOp.eval]
  rw [this]
  have h : HasDerivAt (fun a : ℝ => 2 * (a * a)) (2 * (1 * v 0 + v 0 * 1)) (v 0) :=
    ((hasDerivAt_id' (v 0)).mul (hasDerivAt_id' (v 0))).const_mul 2
  rw [h.deriv]; ring

theorem dome_pderiv (v : ℕ → ℝ) : pderiv 0 domeExpr.term.eval v = -(2 * (v 0 - 3)) := by
  unfold pderiv
  have : (fun a => domeExpr.term.eval (Function.update v 0 a)) = fun a => 5 - (a - 3) * (a - 3) := by
    funext a
    simp [domeExpr, Term.eval, BinOp.eval]
  rw [this]
  have h1 := (hasDerivAt_id' (v 0)).sub_const 3
  have h : HasDerivAt (fun a : ℝ => 5 - (a - 3) * (a - 3)) (-(1 * (v 0 - 3) + (v 0 - 3) * 1)) (v 0) :=
    (h1.mul h1).const_sub 5
  rw [h.deriv]; ring

/-- The problem of the program. -/
noncomputable def domeUser : Problem := ⟨[0], some twiceExpr, [], [domeExpr], [], []⟩

/-- The variables of the program. -/
noncomputable def domeStore : Store := ⟨1, Function.update (Function.update (fun _ => 0) 0 0) 0 (.fin 1)⟩

theorem dome_after : Problem.after domeProgram = (domeUser, domeStore) := rfl

theorem dome_finite : AllFinite domeStore.val := by
  intro k
  by_cases hk : k = 0 <;> simp [domeStore, hk, Fl.zero_def]

theorem dome_smooth (v : ℕ → ℝ) : domeUser.Smooth v :=
  ⟨by simp [domeUser, Problem.objective, twiceExpr, Term.Smooth, BinOp.Smooth], by simp [domeUser],
    by simp [domeUser, domeExpr, Term.Smooth, BinOp.Smooth]⟩

theorem dome_keep : assign domeStore.val domeUser.vars (List.ofFn (domeUser.guess domeStore)) =
    domeStore.val := by
  rw [show List.ofFn (domeUser.guess domeStore) = _ from ofFn_guess domeUser domeStore, assign_self]

theorem dome_value : reals domeStore.val 0 = 1 := by simp [reals, domeStore, Fl.toReal]

/-- The problem is solved with a tolerance of 1. -/
theorem dome_solved (ad : Autodiff) (env : Env) (maxIterations : ℤ) (timeout : Fl) :
    domeUser.Ok domeStore ∧ ∃ o, domeUser.solve ad env ⟨1, maxIterations, timeout, false⟩ false domeStore =
      some (o, domeStore) ∧ o.status = .success ∧ ¬ domeUser.Constant ∧ AllFinite domeStore.val ∧ o.Finite ∧
      domeUser.Smooth (reals domeStore.val) := by
  have hconst : ¬ domeUser.Constant := by
    intro h
    have := h.1 twiceExpr rfl
    simp [twiceExpr, Ty.rank] at this
  obtain ⟨df, de, di, hS, hF, hv⟩ := callbacks_correct ad domeStore.val domeUser.vars domeUser.objective.term
    (domeUser.eqs.map UserExpr.term) (domeUser.ineqs.map UserExpr.term) (domeUser.guess domeStore)
    (by rw [dome_keep]; exact dome_finite) (dome_smooth _)
  obtain ⟨v1, v2, v3, v4, v5, v6, v7⟩ := hv (domeUser.guess domeStore) (by rw [dome_keep]; exact dome_finite)
    (dome_smooth _)
  rw [dome_keep] at v1 v2 v3 v4 v5 v6 v7 hF
  have hj0 : ∀ (j : Fin domeUser.vars.length), domeUser.vars[j] = 0 := by
    rintro ⟨j, hj⟩
    have : j = 0 := by simp [domeUser] at hj; exact hj
    subst this; rfl
  have hd : ∀ (j : Fin domeUser.vars.length), pderiv domeUser.vars[j] twiceExpr.term.eval (reals domeStore.val) = 4 := by
    intro j
    rw [hj0, twice_pderiv, dome_value]; norm_num
  have hd' : ∀ (j : Fin domeUser.vars.length), pderiv domeUser.vars[j] domeExpr.term.eval (reals domeStore.val) = 4 := by
    intro j
    rw [hj0, dome_pderiv, dome_value]; norm_num
  obtain rfl : df = 1 := hF.f.2 fun j => by
    have := hd j
    show |pderiv domeUser.vars[j] twiceExpr.term.eval (reals domeStore.val)| ≤ 100
    rw [this]; norm_num
  have hti : ∀ i : Fin (domeUser.ineqs.map UserExpr.term).length, (domeUser.ineqs.map UserExpr.term)[i] =
      domeExpr.term := by
    rintro ⟨i, hi⟩
    have : i = 0 := by simp [domeUser] at hi; exact hi
    subst this; rfl
  obtain rfl : di = fun _ => 1 := funext fun i => (hF.ci i).2 fun j => by
    simp only [hti]
    rw [hd' j]; norm_num
  have hval : domeExpr.term.eval (reals domeStore.val) = 1 := by
    simp [domeExpr, Term.eval, BinOp.eval, dome_value]; norm_num
  simp only [hti, hval, one_mul] at v5
  simp only [hti, hd', one_mul] at v6
  have v2 : ∀ j, (matrixCallbacks ad domeStore.val domeUser.vars domeUser.objective.term
      (domeUser.eqs.map UserExpr.term) (domeUser.ineqs.map UserExpr.term) (domeUser.guess domeStore)).g
      (domeUser.guess domeStore) j = .fin 4 := fun j => by
    have := v2 j
    rwa [show domeUser.objective.term = twiceExpr.term from rfl, hd, one_mul] at this
  have hme : ∀ i : Fin (domeUser.eqs.map UserExpr.term).length, False := fun i => by
    have := i.2; simp [domeUser] at this
  let P := domeUser.ipmNlp ad domeStore
  have hzero : (fun _ => 0 : Vec (domeUser.eqs.map UserExpr.term).length) = fun i => .fin 0 := rfl
  have hfin : (P.eval (domeUser.guess domeStore) (fun _ => 0) fun _ => 1).Finite := by
    refine ⟨?_, ?_, ?_, fun i => (hme i).elim, fun i => (hme i).elim, ?_, ?_⟩
    · show (P.f _).isFinite = true
      rw [show P.f (domeUser.guess domeStore) = _ from v1]; rfl
    · exact Vec.finite_fin v2
    · intro i j
      have := v7 (fun _ => 0) (fun _ => 1) i j
      show (P.H _ _ _ i j).isFinite = true
      rw [show P.H (domeUser.guess domeStore) (fun _ => 0) (fun _ => 1) i j = _ from this]
      split_ifs <;> rfl
    · exact Vec.finite_fin v5
    · exact FMat.finite_fin v6
  have hE : ¬ errZeroIpm env P.scaling (P.eval (domeUser.guess domeStore) (fun _ => 0) fun _ => 1) (fun _ => 1)
      (fun _ => 0) (fun _ => 1) > .fin 1 := by
    unfold errZeroIpm
    rw [if_pos ⟨Vec.finite_fin v2, fun i => (hme i).elim, fun i => (hme i).elim, FMat.finite_fin v6, Vec.finite_fin v5,
      fun _ => rfl, fun _ => rfl, fun _ => rfl⟩, gt_iff_lt, Fl.fin_lt, not_lt]
    show unscaledInfIpm P.scaling (P.g (domeUser.guess domeStore)).real (P.Ae (domeUser.guess domeStore)).real
      (P.ce (domeUser.guess domeStore)).real (P.Ai (domeUser.guess domeStore)).real
      (P.ci (domeUser.guess domeStore)).real _ _ _ 0 ≤ 1
    rw [show P.scaling = _ from hS.eq, show (P.g (domeUser.guess domeStore)).real = _ from Vec.real_fin v2,
      show (P.Ai (domeUser.guess domeStore)).real = _ from FMat.real_fin v6,
      show (P.ci (domeUser.guess domeStore)).real = _ from Vec.real_fin v5]
    have damp : ∀ {q : ℕ} (w : Fin q → ℝ) (a : ℝ), (∀ i, |w i| ≤ 1) → infNorm w / (Max.max 100 a / 100) ≤ 1 := by
      intro q w a hw
      have h1 : infNorm w ≤ 1 := infNorm_le.2 ⟨by norm_num, hw⟩
      have h2 : (1 : ℝ) ≤ Max.max 100 a / 100 := damping_pos a
      rw [div_le_iff₀ (by linarith)]
      linarith
    unfold unscaledInfIpm
    rw [if_neg (fun h => by have := h.2.2; simp [domeUser] at this)]
    unfold kktInfIpm
    refine max_le (max_le (max_le (damp _ _ fun j => ?_) (damp _ _ fun i => ?_)) ?_) ?_
    · have e : ∀ A : Matrix (Fin (domeUser.eqs.map UserExpr.term).length) (Fin domeUser.vars.length) ℝ, ∀ y,
          (Matrix.mulVec A.transpose y) j = 0 := fun A y => by
        rw [transpose_mulVec_eq]
        exact Finset.sum_eq_zero fun i _ => (hme i).elim
      simp only [Pi.sub_apply, e, transpose_mulVec_eq]
      have hcard : (Finset.univ : Finset (Fin (domeUser.ineqs.map UserExpr.term).length)).card = 1 := by
        rw [Finset.card_univ, Fintype.card_fin]; rfl
      simp [rowScale, Vec.real, Fl.toReal, hcard]
    · simp [Vec.real, Fl.toReal]
    · exact infNorm_le.2 ⟨by norm_num, fun i => (hme i).elim⟩
    · refine infNorm_le.2 ⟨by norm_num, fun i => ?_⟩
      simp [Vec.real, Fl.toReal]
  obtain ⟨res, h1, h2, h3, h4, h5, h6⟩ := interiorPoint_immediate env ⟨1, maxIterations, timeout, false⟩ P
    (domeUser.allCallbacks false) (domeUser.guess domeStore) (by simp [domeUser]) hfin hE
  have hsol : domeUser.solve ad env ⟨1, maxIterations, timeout, false⟩ false domeStore =
      some (.ipm res, domeStore.write domeUser.vars (List.ofFn res.x)) := by
    unfold Problem.solve
    rw [if_neg (fun h => hconst (domeUser.constant_iff.1 h)), if_neg (by simp [domeUser]),
      if_neg (by simp [domeUser])]
    obtain ⟨b, hb, hc⟩ : ∃ b, domeUser.bounds ad domeStore = some b ∧ b.1.conflicts = [] := ⟨_, rfl, rfl⟩
    rw [hb, Option.bind_some, if_neg (not_not.2 hc), h1]
    rfl
  have hst : domeStore.write domeUser.vars (List.ofFn res.x) = domeStore := by
    rw [h3]; unfold Store.write; rw [dome_keep]
  rw [hst] at hsol
  refine ⟨?_, _, hsol, h2, hconst, dome_finite, ?_, dome_smooth _⟩
  · exact variables_distinct domeProgram
  · show res.s.Finite ∧ res.y.Finite ∧ res.z.Finite
    rw [h4, h5, h6]
    exact ⟨fun _ => rfl, fun _ => rfl, fun _ => rfl⟩

theorem dome_convex : domeUser.Convex Set.univ := by
  refine ⟨⟨convex_univ, ?_⟩, by simp [domeUser], ?_⟩
  · rintro x - y - a b ha hb hab
    simp only [domeUser, Problem.objective, twiceExpr, Option.getD_some, Term.eval, BinOp.eval, Pi.add_apply, Pi.smul_apply,
      smul_eq_mul]
    obtain rfl : b = 1 - a := by linarith
    nlinarith [mul_nonneg (mul_nonneg ha hb) (sq_nonneg (x 0 - y 0))]
  · intro e he
    obtain rfl : e = domeExpr := by simpa [domeUser] using he
    refine ⟨convex_univ, ?_⟩
    rintro x - y - a b ha hb hab
    simp only [domeExpr, Term.eval, BinOp.eval, Pi.add_apply, Pi.smul_apply, smul_eq_mul]
    obtain rfl : b = 1 - a := by linarith
    nlinarith [mul_nonneg (mul_nonneg ha hb) (sq_nonneg (x 0 - y 0))]

/-- The bound on how far from optimal the solution is, with the point 3 as the one with a margin. -/
example (ad : Autodiff) (env : Env) (hest : ∀ i a j, env.estimate i a j ≠ .nan) (maxIterations : ℤ) (timeout : Fl) :
    ∃ o, domeUser.solve ad env ⟨1, maxIterations, timeout, false⟩ false domeStore = some (o, domeStore) ∧
      o.status = .success ∧ ∀ w : ℕ → ℝ, (∀ j ∉ domeUser.vars, w j = reals domeStore.val j) → domeUser.Satisfies w →
        domeUser.dist (reals domeStore.val) w ≤ 2 → domeUser.objective.term.eval (reals domeStore.val) ≤
          domeUser.objective.term.eval w + 1 * ((1 + 8.4 / 100) * 2 + 8.4 + domeUser.ineqs.length + 8.4 / 100) := by
  obtain ⟨hok, o, h1, h2, h3, h4, h5, h6⟩ := dome_solved ad env maxIterations timeout
  refine ⟨o, h1, h2, fun w hoff hf hd => ?_⟩
  have hw₀ : ∀ w : ℕ → ℝ, domeUser.dist (reals domeStore.val) w = |w 0 - 1| := fun w => by
    simp [Problem.dist, domeUser, dome_value]
  exact convex_success_slater hok h1 (by norm_num) h2 h3 h4 h5 h6 (.inl ⟨rfl, hest⟩) dome_convex (Set.mem_univ _) rfl
    (w₀ := Function.update (reals domeStore.val) 0 3) (Set.mem_univ _) (fun j hj => by
      have : j ≠ 0 := by simpa [domeUser] using hj
      simp [this]) (σ := 5) (R := 2) (low := 0) (by norm_num) (fun e he => by
      obtain rfl : e = domeExpr := by simpa [domeUser] using he
      simp [domeExpr, Term.eval, BinOp.eval]) (by rw [hw₀]; simp; norm_num) (by
      simp [domeUser, Problem.objective, twiceExpr, Term.eval, BinOp.eval, dome_value]) (by norm_num) (Z := 8.4) (by
      simp [domeUser, Problem.objective, twiceExpr, Term.eval, BinOp.eval]; norm_num) w (Set.mem_univ _) hoff hf hd

end Slp
