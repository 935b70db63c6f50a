import Verif.Problem.InfeasibleProps
import Verif.Problem.StatusProps

/-! C60, why the bound in the second case of `infeasible_distance` is so small: a violated inequality constraint with small
derivatives makes `solve()` give up at once, although feasible points exist. -/

namespace Slp

open Classical

/-- If the violated inequality constraints have small derivatives at the guess, `solve()` reports LOCALLY_INFEASIBLE and
changes no value. -/
theorem stuck_guess {p : Problem} {s : Store} (hok : p.Ok s) (ad : Autodiff) (env : Env) {opts : SolverOptions}
    (htol : opts.tolerance < 1) (spy : Bool) (hc : ¬ p.Constant) (hi : p.ineqs ≠ []) (hm : p.eqs.length ≤ p.vars.length)
    (hb : ∃ b, p.bounds ad s = some b ∧ b.1.conflicts = []) (hfin : AllFinite s.val) (hsm : p.Smooth (reals s.val))
    (hder : ∀ e ∈ p.ineqs, ∀ j ∈ p.vars, |pderiv j e.term.eval (reals s.val)| ≤ 100)
    (hviol : 1e-6 < √((p.ineqs.map fun e => Min.min (e.term.eval (reals s.val)) 0 ^ 2).sum))
    (hstuck : √(∑ j ∈ p.vars.toFinset, ((p.ineqs.map fun e =>
      pderiv j e.term.eval (reals s.val) * Min.min (e.term.eval (reals s.val)) 0).sum) ^ 2) < 1e-6) :
    ∃ o, p.solve ad env opts spy s = some (o, s) ∧ o.status = .locallyInfeasible := by
  have hkeep : assign s.val p.vars (List.ofFn (p.guess s)) = s.val := by
    rw [show List.ofFn (p.guess s) = _ from ofFn_guess p s, assign_self]
  obtain ⟨df, de, di, hS, hF, hv⟩ := callbacks_correct ad s.val p.vars p.objective.term (p.eqs.map UserExpr.term)
    (p.ineqs.map UserExpr.term) (p.guess s) (by rw [hkeep]; exact hfin) (by rw [hkeep]; exact hsm)
  obtain ⟨v1, v2, v3, v4, v5, v6, v7⟩ := hv (p.guess s) (by rw [hkeep]; exact hfin) (by rw [hkeep]; exact hsm)
  rw [hkeep] at v1 v2 v3 v4 v5 v6 v7 hF
  set r := reals s.val with hr
  obtain rfl : di = fun _ => 1 := funext fun i => (hF.ci i).2 fun j => by
    have h1 := List.getElem_mem i.2
    obtain ⟨e, he, h2⟩ := List.mem_map.1 h1
    have h3 := hder e he p.vars[j] (List.getElem_mem _)
    rw [h2] at h3
    exact h3
  let P := p.ipmNlp ad s
  have hSe : P.scaling = .factors df de fun _ => 1 := hS.eq
  have hfinP : (P.eval (p.guess s) (fun _ => 0) fun _ => 1).Finite := by
    refine ⟨?_, Vec.finite_fin v2, fun i j => ?_, Vec.finite_fin v3, FMat.finite_fin v4, Vec.finite_fin v5, FMat.finite_fin v6⟩
    · show (P.f _).isFinite = true
      rw [show P.f (p.guess s) = _ from v1]; rfl
    · show (P.H _ _ _ i j).isFinite = true
      rw [show P.H (p.guess s) (fun _ => 0) (fun _ => 1) i j = _ from v7 (fun _ => 0) (fun _ => 1) i j]
      split_ifs <;> rfl
  -- the inequality constraints are stuck
  have hstk : ineqInfeasible env (P.Ai (p.guess s)) (P.ci (p.guess s)) := by
    unfold ineqInfeasible
    rw [if_pos ⟨FMat.finite_fin v6, Vec.finite_fin v5⟩, show (P.Ai (p.guess s)).real = _ from FMat.real_fin v6,
      show (P.ci (p.guess s)).real = _ from Vec.real_fin v5]
    simp only [one_mul]
    refine ⟨by simpa using List.length_pos_iff.2 hi, ?_, ?_⟩
    · refine lt_of_eq_of_lt ?_ hstuck
      unfold twoNorm
      rw [← sum_vars hok.nodup fun j => ((p.ineqs.map fun e =>
        pderiv j e.term.eval r * Min.min (e.term.eval r) 0).sum) ^ 2]
      congr 1
      refine Finset.sum_congr rfl fun j _ => ?_
      congr 1
      rw [show (p.ineqs.map fun e => pderiv p.vars[j] e.term.eval r * Min.min (e.term.eval r) 0) =
        (p.ineqs.map UserExpr.term).map fun t => pderiv p.vars[j] t.eval r * Min.min (t.eval r) 0 by rw [List.map_map]; rfl]
      exact Fin.sum_univ_fun_getElem (p.ineqs.map UserExpr.term) fun t => pderiv p.vars[j] t.eval r * Min.min (t.eval r) 0
    · refine lt_of_lt_of_eq hviol ?_
      unfold twoNorm
      congr 1
      rw [show (p.ineqs.map fun e => Min.min (e.term.eval r) 0 ^ 2) =
        (p.ineqs.map UserExpr.term).map fun t => Min.min (t.eval r) 0 ^ 2 by rw [List.map_map]; rfl]
      exact (Fin.sum_univ_fun_getElem (p.ineqs.map UserExpr.term) fun t => Min.min (t.eval r) 0 ^ 2).symm
  -- the error is at least 1, since slacks start at 1
  have hE : errZeroIpm env P.scaling (P.eval (p.guess s) (fun _ => 0) fun _ => 1) (fun _ => 1) (fun _ => 0) (fun _ => 1) >
      .fin opts.tolerance := by
    unfold errZeroIpm
    rw [if_pos ⟨Vec.finite_fin v2, FMat.finite_fin v4, Vec.finite_fin v3, FMat.finite_fin v6, Vec.finite_fin v5,
      fun _ => rfl, fun _ => rfl, fun _ => rfl⟩, gt_iff_lt, Fl.fin_lt]
    by_contra hn
    rw [not_lt] at hn
    change unscaledInfIpm P.scaling (P.g (p.guess s)).real (P.Ae (p.guess s)).real (P.ce (p.guess s)).real
      (P.Ai (p.guess s)).real (P.ci (p.guess s)).real _ _ _ 0 ≤ _ at hn
    rw [hSe, show (P.g (p.guess s)).real = _ from Vec.real_fin v2, show (P.Ae (p.guess s)).real = _ from FMat.real_fin v4,
      show (P.ce (p.guess s)).real = _ from Vec.real_fin v3, show (P.Ai (p.guess s)).real = _ from FMat.real_fin v6,
      show (P.ci (p.guess s)).real = _ from Vec.real_fin v5] at hn
    have key := unscaled_error_ipm hS.f.1 (fun i => (hS.ce i).1) (fun i => (hS.ci i).1)
      (fun j : Fin p.vars.length => pderiv p.vars[j] p.objective.term.eval r)
      (fun i (j : Fin p.vars.length) => pderiv p.vars[j] (p.eqs.map UserExpr.term)[i].eval r)
      (fun i => (p.eqs.map UserExpr.term)[i].eval r)
      (fun i (j : Fin p.vars.length) => pderiv p.vars[j] (p.ineqs.map UserExpr.term)[i].eval r)
      (fun i => (p.ineqs.map UserExpr.term)[i].eval r)
      (Vec.real fun _ => 1) (Vec.real fun _ => 0) (Vec.real fun _ => 1) 0
    obtain ⟨-, b2, -⟩ := error_bounds_ipm (key ▸ hn)
    have hstk' := hstk
    unfold ineqInfeasible at hstk'
    rw [if_pos ⟨FMat.finite_fin v6, Vec.finite_fin v5⟩] at hstk'
    obtain ⟨i, h1⟩ := (stuck_violates (P.Ai (p.guess s)) (P.ci (p.guess s))).2 ⟨hstk'.2.2, hstk'.2.1⟩
    rw [show (P.ci (p.guess s)).real = _ from Vec.real_fin v5] at h1
    simp only [one_mul] at h1
    have h2 := (abs_le.1 (b2 i)).1
    rw [show (Vec.real fun _ => 1 : Fin _ → ℝ) i = 1 from rfl] at h2
    norm_num at h2 h1
    linarith
  have hip : ∃ res, interiorPoint env opts P (p.allCallbacks spy) (p.guess s) .start = some res ∧
      res.status = .locallyInfeasible ∧ res.x = p.guess s := by
    unfold interiorPoint ipmRun
    simp only
    rw [if_neg (not_lt.2 (by simpa using hm)),
      if_neg (not_not.2 (show (ipmInit env P (p.guess s) (fun _ => 1) (fun _ => 0) (fun _ => 1) _ 0).e.Finite from hfinP))]
    obtain ⟨q, hq⟩ : ∃ q, loopRounds opts 0 = q + 1 := ⟨loopRounds opts 0 - 1, by unfold loopRounds; omega⟩
    rw [hq, ipmLoop, if_neg (not_not.2 (show (ipmInit env P (p.guess s) (fun _ => 1) (fun _ => 0) (fun _ => 1) _ 0).E0 >
      .fin opts.tolerance from hE))]
    split
    · exact ⟨_, rfl, rfl, rfl⟩
    · rw [if_pos (show ineqInfeasible env (ipmInit env P (p.guess s) (fun _ => 1) (fun _ => 0) (fun _ => 1) _ 0).e.Ai
        (ipmInit env P (p.guess s) (fun _ => 1) (fun _ => 0) (fun _ => 1) _ 0).e.ci from hstk)]
      exact ⟨_, rfl, rfl, rfl⟩
  obtain ⟨res, h1, h2, h3⟩ := hip
  obtain ⟨b, hb, hbc⟩ := hb
  refine ⟨.ipm res, ?_, h2⟩
  unfold Problem.solve
  rw [if_neg (fun h => hc (p.constant_iff.1 h)), if_neg (fun h => hi h.2), if_neg hi, hb, Option.bind_some,
    if_neg (not_not.2 hbc), h1, Option.map_some, h3]
  unfold Store.write
  rw [hkeep]

/-- `a x₀ - b`. -/
noncomputable def slopeExpr (a b : ℝ) : UserExpr := ⟨.bin .sub (.bin .mul (.lit a) (.var 0)) (.lit b), .linear⟩

/-- Minimise `x₀` subject to `a x₀ - b ≥ 0`. -/
noncomputable def slopeUser (a b : ℝ) : Problem := ⟨[0], some ⟨.var 0, .linear⟩, [], [slopeExpr a b], [], []⟩

theorem slope_eval (a b : ℝ) (v : ℕ → ℝ) :
    (slopeExpr a b).term.eval v = -b + ∑ k ∈ Finset.range 1, (fun _ => a) k * v k := by
  simp [slopeExpr, Term.eval, BinOp.eval]; ring

theorem slope_pderiv (a b : ℝ) (v : ℕ → ℝ) : pderiv 0 (slopeExpr a b).term.eval v = a := by
  rw [pderiv_affine (slope_eval a b)]; simp

/-- LOCALLY_INFEASIBLE does not mean that no feasible point is near: minimising `x₀` subject to `a x₀ ≥ b` from 0 is given
up at once whenever `a b` is less than 1e-6 (and `b` more), although `b / a` is feasible and optimal. -/
theorem infeasible_false_alarm {a b : ℝ} (ha : 0 < a) (ha' : a ≤ 100) (hb : 1e-6 < b) (hab : a * b < 1e-6) {ad : Autodiff}
    (hst : ad.stored (slopeExpr a b).term 0 = true) (env : Env) {opts : SolverOptions} (htol : 0 < opts.tolerance)
    (htol1 : opts.tolerance < 1) (spy : Bool) :
    (∃ o, (slopeUser a b).solve ad env opts spy ⟨1, fun _ => 0⟩ = some (o, ⟨1, fun _ => 0⟩) ∧ o.status = .locallyInfeasible) ∧
      (slopeUser a b).Satisfies (fun _ => b / a) ∧
      ∀ w, (slopeUser a b).Satisfies w → (slopeUser a b).objective.term.eval (fun _ => b / a) ≤ (slopeUser a b).objective.term.eval w := by
  have hok : (slopeUser a b).Ok ⟨1, fun _ => 0⟩ := ⟨by simp [slopeUser], by simp [slopeUser]⟩
  have hfin : AllFinite (fun _ => (0 : Fl)) := fun _ => rfl
  have hnc : ¬ (slopeUser a b).Constant := by
    intro h
    have := h.2.2 (slopeExpr a b) (by simp [slopeUser])
    simp [slopeExpr, Ty.rank] at this
  have hlin : ∀ e ∈ (slopeUser a b).ineqs, e.ty = .linear → LinearOk ad (slopeUser a b).vars e.term := by
    intro e he _
    obtain rfl : e = slopeExpr a b := by simpa [slopeUser] using he
    refine ⟨⟨1, _, ⟨_, _, slope_eval a b⟩, fun _ _ => rfl⟩, fun v => by simp [slopeExpr, Term.Smooth, BinOp.Smooth], ?_,
      ⟨0, by simp [slopeUser], fun _ => 0, by rw [slope_pderiv]; exact ha.ne'⟩⟩
    intro k hk _
    obtain rfl : k = 0 := by simpa [slopeUser] using hk
    exact hst
  have hsat : ∀ w : ℕ → ℝ, 0 ≤ a * w 0 - b → (slopeUser a b).Satisfies w := fun w hw => ⟨by simp [slopeUser], fun e he => by
    obtain rfl : e = slopeExpr a b := by simpa [slopeUser] using he
    simpa [slopeExpr, Term.eval, BinOp.eval] using hw⟩
  have hbound : ∃ q, (slopeUser a b).bounds ad ⟨1, fun _ => 0⟩ = some q ∧ q.1.conflicts = [] := by
    obtain ⟨q, hq⟩ := Option.ne_none_iff_exists'.1 (bounds_exist hok hfin hlin)
    refine ⟨q, hq, ?_⟩
    by_contra hcf
    have hsol : (slopeUser a b).solve ad env opts spy ⟨1, fun _ => 0⟩ =
        some (.conflict, (⟨1, fun _ => 0⟩ : Store).write (slopeUser a b).vars
          (List.ofFn fun i : Fin (slopeUser a b).vars.length => q.2 i)) := by
      unfold Problem.solve
      rw [if_neg (fun h => hnc ((slopeUser a b).constant_iff.1 h)), if_neg (by simp [slopeUser]), if_neg (by simp [slopeUser]),
        hq, Option.bind_some, if_pos hcf]
    refine globally_infeasible htol hsol hok hfin hlin rfl ⟨Function.update (fun _ => 0) 0 (b / a), fun k hk => ?_, ?_⟩
    · have : k ≠ 0 := by simpa [slopeUser] using hk
      rw [Function.update_of_ne this]; rfl
    · refine (hsat _ ?_).ineqs
      rw [Function.update_self, mul_div_cancel₀ _ ha.ne', sub_self]
  have hval : (slopeExpr a b).term.eval (reals fun _ => (0 : Fl)) = -b := by
    simp [slopeExpr, Term.eval, BinOp.eval, reals, Fl.zero_def, Fl.toReal]
  refine ⟨?_, hsat _ (by rw [mul_div_cancel₀ _ ha.ne', sub_self]), fun w hw => ?_⟩
  · refine stuck_guess (s := ⟨1, fun _ => 0⟩) hok ad env htol1 spy hnc (by simp [slopeUser]) (by simp [slopeUser]) hbound hfin ?_ ?_ ?_ ?_
    · exact ⟨by simp [slopeUser, Problem.objective, Term.Smooth], by simp [slopeUser],
        by simp [slopeUser, slopeExpr, Term.Smooth, BinOp.Smooth]⟩
    · intro e he j hj
      obtain rfl : e = slopeExpr a b := by simpa [slopeUser] using he
      obtain rfl : j = 0 := by simpa [slopeUser] using hj
      rw [slope_pderiv, abs_of_pos ha]; exact ha'
    · simp only [slopeUser, List.map_cons, List.map_nil, List.sum_cons, List.sum_nil, add_zero, hval]
      rw [min_eq_left (by linarith), Real.sqrt_sq_eq_abs, abs_neg, abs_of_pos (by linarith)]
      exact hb
    · simp only [slopeUser, List.map_cons, List.map_nil, List.sum_cons, List.sum_nil, add_zero, hval, slope_pderiv,
        List.toFinset_cons, List.toFinset_nil, insert_empty_eq, Finset.sum_singleton]
      rw [min_eq_left (by linarith), Real.sqrt_sq_eq_abs, mul_neg, abs_neg, abs_of_pos (by nlinarith)]
      exact hab
  · have h1 := hw.ineqs (slopeExpr a b) (by simp [slopeUser])
    simp only [slopeUser, Problem.objective, slopeExpr, Option.getD_some, Term.eval, BinOp.eval] at h1 ⊢
    rw [div_le_iff₀ ha]
    linarith

/-- For example, minimising `x₀` subject to `0.0001 x₀ ≥ 0.005` from 0 with the default tolerance. -/
example (env : Env) (maxIterations : ℤ) (timeout : Fl) :
    ∃ o, (slopeUser 0.0001 0.005).solve storeAll env ⟨1e-8, maxIterations, timeout, false⟩ false ⟨1, fun _ => 0⟩ =
      some (o, ⟨1, fun _ => 0⟩) ∧ o.status = .locallyInfeasible :=
  (infeasible_false_alarm (by norm_num) (by norm_num) (by norm_num) (by norm_num) rfl env (by norm_num) (by norm_num) false).1

end Slp
