import Verif.Problem.SolveProps
import Verif.Autodiff.ApiSpec

/-! C23 and C38 for `solve()`: it always returns, within its iteration limit, and what its statuses mean. -/

namespace Slp

open Classical

/-- The interior-point method on a problem, whatever its derivatives at the initial guess. -/
theorem ipm_returns (p : Problem) (ad : Autodiff) (env : Env) (opts : SolverOptions) (cbs : List Callback) (s : Store)
    (htol : 0 < opts.tolerance) :
    ∃ res, interiorPoint env opts (p.ipmNlp ad s) cbs (p.guess s) .start = some res ∧
      (res.iterations : ℤ) ≤ Max.max 1 opts.maxIterations ∧
      (res.status = .tooFewDofs ↔ p.vars.length < p.eqs.length) ∧
      res.status ≠ .globallyInfeasible ∧ res.status ≠ .lineSearchFailed ∧
      (res.status = .maxIterationsExceeded → opts.maxIterations ≤ res.iterations) := by
  by_cases h0 : (p.eqs.map UserExpr.term).length ≤ p.vars.length ∧
      ((p.ipmNlp ad s).eval (p.guess s) (fun _ => 0) fun _ => 1).Finite
  · obtain ⟨df, de, di, hS⟩ := callbacks_scaling ad s.val p.vars p.objective.term (p.eqs.map UserExpr.term)
      (p.ineqs.map UserExpr.term) (p.guess s) h0.2.2.1 h0.2.2.2.2.2.1 h0.2.2.2.2.2.2.2
    have hSe : (p.ipmNlp ad s).scaling = .factors df de di := hS.eq
    have hSf : 0 < (p.ipmNlp ad s).scaling.f := by rw [hSe]; exact hS.f.1
    obtain ⟨res, h1, h2⟩ := ipm_ends env opts (p.ipmNlp ad s) cbs (p.guess s) htol hSf
    obtain ⟨h3, -⟩ := ipm_setup_status htol hSf h1
    obtain ⟨-, h4, h5, -, h6⟩ := ipm_status_partial htol hSf h1
    exact ⟨res, h1, h2, by rw [h3]; simp, h4, h5, h6⟩
  · unfold interiorPoint ipmRun
    simp only
    by_cases hm : (p.eqs.map UserExpr.term).length > p.vars.length
    · rw [if_pos hm]
      refine ⟨_, rfl, ?_, ?_, ?_⟩
      · simp [IpmState.exit, ipmInit]
      · simpa [IpmState.exit] using hm
      · simp [IpmState.exit]
    · rw [if_neg hm]
      have hf : ¬ ((p.ipmNlp ad s).eval (p.guess s) (fun _ => 0) fun _ => 1).Finite := fun h => h0 ⟨not_lt.1 hm, h⟩
      rw [if_pos (by simpa [ipmInit] using hf)]
      refine ⟨_, rfl, ?_, ?_, ?_⟩
      · simp [IpmState.exit, ipmInit]
      · simpa [IpmState.exit] using hm
      · simp [IpmState.exit]

/-- The number of iterations of the solver that ran. -/
def Outcome.iterations {n m k : ℕ} : Outcome n m k → ℕ
  | .noop => 0
  | .conflict => 0
  | .newton res => res.iterations
  | .sqp res => res.iterations
  | .ipm res => res.iterations

/-- C23: `solve()` returns, whatever linear solver, clock, callbacks and autodiff do, and however long the run; it makes
at most the allowed number of iterations (one if that is not positive). The only exception are assertions on bounds,
excluded by `bounds_exist`. -/
theorem solve_returns (p : Problem) (ad : Autodiff) (env : Env) (opts : SolverOptions) (spy : Bool) (s : Store)
    (htol : 0 < opts.tolerance) (hb : p.ineqs ≠ [] → p.bounds ad s ≠ none) :
    ∃ o s', p.solve ad env opts spy s = some (o, s') ∧ (o.iterations : ℤ) ≤ Max.max 1 opts.maxIterations := by
  unfold Problem.solve
  by_cases hc : p.Constant
  · rw [if_pos (p.constant_iff.2 hc)]
    exact ⟨_, _, rfl, by simp [Outcome.iterations]⟩
  rw [if_neg (fun h => hc (p.constant_iff.1 h))]
  by_cases h1 : p.eqs = [] ∧ p.ineqs = []
  · rw [if_pos h1]
    obtain ⟨res, h2, -, h3, -⟩ := newton_correct env opts (p.newtonNlp ad s) (p.allCallbacks spy) (p.guess s)
    rw [h2]
    exact ⟨_, _, rfl, h3⟩
  rw [if_neg h1]
  by_cases h2 : p.ineqs = []
  · rw [if_pos h2]
    obtain ⟨res, h2, -, -, h3, -⟩ := sqp_correct_partial env opts (p.sqpNlp ad s) (p.allCallbacks spy) (p.guess s) htol
    rw [h2]
    exact ⟨_, _, rfl, h3⟩
  rw [if_neg h2]
  obtain ⟨b, hb⟩ := Option.ne_none_iff_exists'.1 (hb h2)
  rw [hb, Option.bind_some]
  by_cases h3 : b.1.conflicts ≠ []
  · rw [if_pos h3]
    exact ⟨_, _, rfl, by simp [Outcome.iterations]⟩
  · rw [if_neg h3]
    obtain ⟨res, h4, h5, -⟩ := ipm_returns p ad env opts (p.allCallbacks spy) s htol
    rw [h4]
    exact ⟨_, _, rfl, h5⟩

/-- C38, user level: TOO_FEW_DOFS exactly if there are more equality constraints than decision variables (and the
problem is neither constant nor rejected for its bounds); GLOBALLY_INFEASIBLE exactly if bounds conflict;
LINE_SEARCH_FAILED only without constraints; MAX_ITERATIONS_EXCEEDED only at the limit. -/
theorem solve_statuses {p : Problem} {ad : Autodiff} {env : Env} {opts : SolverOptions} {spy : Bool} {s s' : Store}
    {o : p.Outcome} (htol : 0 < opts.tolerance) (h : p.solve ad env opts spy s = some (o, s')) :
    (o.status = .tooFewDofs ↔ ¬ p.Constant ∧ o ≠ .conflict ∧ p.vars.length < p.eqs.length) ∧
    (o.status = .globallyInfeasible ↔ o = .conflict) ∧
    (o.status = .lineSearchFailed → p.eqs = [] ∧ p.ineqs = []) ∧
    (o.status = .maxIterationsExceeded → opts.maxIterations ≤ o.iterations) := by
  rcases solve_cases h with ⟨h1, rfl, h2⟩ | ⟨h1, h2, h3, r, hr, rfl, -⟩ | ⟨h1, h2, h3, r, hr, rfl, -⟩ |
    ⟨h1, h2, b, -, -, rfl, -⟩ | ⟨h1, h2, b, r, -, -, hr, rfl, -⟩
  · simp [Outcome.status, h1]
  · obtain ⟨r', hr', -, -, h4, -, -, -, h5, -, h6, -⟩ := newton_correct env opts (p.newtonNlp ad s) (p.allCallbacks spy)
      (p.guess s)
    obtain rfl := Option.some.inj (hr'.symm.trans hr)
    simp only [Outcome.status, Outcome.iterations]
    exact ⟨⟨fun h => absurd h h5, fun h => by have := h.2.2; rw [h2] at this; simp at this⟩, ⟨fun h => absurd h h6, fun h => by cases h⟩,
      fun _ => ⟨h2, h3⟩, h4⟩
  · obtain ⟨r', hr', h4, -, -, h5, -, -, -, -, -, h6, h7⟩ := sqp_correct_partial env opts (p.sqpNlp ad s)
      (p.allCallbacks spy) (p.guess s) htol
    obtain rfl := Option.some.inj (hr'.symm.trans hr)
    simp only [Outcome.status, Outcome.iterations]
    refine ⟨?_, ⟨fun h => absurd h h6, fun h => by cases h⟩, fun h => absurd h h7, h5⟩
    rw [h4]
    simp [h1]
  · simp [Outcome.status]
  · obtain ⟨r', hr', -, h4, h5, h6, h7⟩ := ipm_returns p ad env opts (p.allCallbacks spy) s htol
    obtain rfl := Option.some.inj (hr'.symm.trans hr)
    simp only [Outcome.status, Outcome.iterations]
    refine ⟨?_, ⟨fun h => absurd h h5, fun h => by cases h⟩, fun h => absurd h h6, h7⟩
    rw [h4]
    simp [h1]

/-! ### Bounds -/

/-- What C04, C05 and the construction of Jacobians promise for an expression of type LINEAR, and that it depends on a
decision variable. -/
structure LinearOk (ad : Autodiff) (vars : List ℕ) (t : Term) : Prop where
  affine : ∃ N, TypeMeans N t .linear
  smooth : ∀ v, t.Smooth v
  stored : ∀ k ∈ vars, (∃ v, pderiv k t.eval v ≠ 0) → ad.stored t k = true
  depends : ∃ k ∈ vars, ∃ v, pderiv k t.eval v ≠ 0

theorem pderiv_affine {N : ℕ} {c : ℝ} {a : ℕ → ℝ} {F : (ℕ → ℝ) → ℝ}
    (h : ∀ x, F x = c + ∑ k ∈ Finset.range N, a k * x k) (k : ℕ) (v : ℕ → ℝ) :
    pderiv k F v = if k < N then a k else 0 := by
  unfold pderiv
  have e : (fun x => F (Function.update v k x)) = fun x =>
      F v + (if k < N then a k else 0) * (x - v k) := by
    funext x
    rw [h, h, add_assoc]
    congr 1
    have : ∀ i ∈ Finset.range N, a i * Function.update v k x i = a i * v i + (if i = k then a k * (x - v k) else 0) := by
      intro i _
      by_cases hi : i = k
      · subst hi; simp; ring
      · simp [hi]
    rw [Finset.sum_congr rfl this, Finset.sum_add_distrib, Finset.sum_ite_eq']
    simp only [Finset.mem_range]
    split <;> simp
  rw [e]
  have : HasDerivAt (fun x => F v + (if k < N then a k else 0) * (x - v k)) (if k < N then a k else 0) (v k) := by
    simpa using (((hasDerivAt_id (v k)).sub_const (v k)).const_mul (if k < N then a k else 0)).const_add (F v)
  exact this.deriv

theorem assign_finite (vars : List ℕ) : ∀ (v : ℕ → Fl) (xs : List Fl), AllFinite v → (∀ x ∈ xs, x.isFinite = true) →
    AllFinite (assign v vars xs) := by
  induction vars with
  | nil => intro v xs hv _; exact hv
  | cons k vars ih =>
    intro v xs hv hx
    cases xs with
    | nil => exact hv
    | cons x xs =>
      refine ih _ _ ?_ (fun y hy => hx y (List.mem_cons_of_mem _ hy))
      intro j
      by_cases hj : j = k
      · subst hj; rw [Function.update_self]; exact hx x List.mem_cons_self
      · rw [Function.update_of_ne hj]; exact hv j

/-- The values of the variables when the decision variables are set to `x`. -/
theorem reals_assign {vars : List ℕ} (hn : vars.Nodup) (v : ℕ → Fl) (x : ℕ → ℝ) :
    (∀ k, k ∉ vars → reals (assign v vars (List.ofFn fun i : Fin vars.length => Fl.fin (x i))) k = reals v k) ∧
    ∀ (i : ℕ) (hi : i < vars.length),
      reals (assign v vars (List.ofFn fun i : Fin vars.length => Fl.fin (x i))) vars[i] = x i := by
  refine ⟨fun k hk => ?_, fun i hi => ?_⟩
  · unfold reals; rw [assign_other _ _ _ hk]
  · unfold reals
    rw [assign_get vars v _ hn (by simp) i hi (by simp [hi])]
    simp [Fl.toReal]

theorem boundConstraint_value {ad : Autodiff} {vars : List ℕ} {e : UserExpr} (h : LinearOk ad vars e.term)
    {v : ℕ → Fl} (hv : AllFinite v) (x : ℕ → ℝ) :
    (boundConstraint ad v vars e).value (fun i => .fin (x i)) =
      .fin (e.term.eval (reals (assign v vars (List.ofFn fun i : Fin vars.length => Fl.fin (x i))))) := by
  unfold boundConstraint Autodiff.eval
  simp only
  rw [if_pos ⟨assign_finite _ _ _ hv (by simp [Fl.isFinite]), e.term.smooth_dom (h.smooth _)⟩]

theorem filterMap_single {α β : Type} {l : List α} {f : α → Option β} (hn : l.Nodup)
    {b : β} (h : l.filterMap f = [b]) : ∃ a ∈ l, f a = some b ∧ ∀ a' ∈ l, a' ≠ a → f a' = none := by
  induction l with
  | nil => simp at h
  | cons a l ih =>
    rw [List.nodup_cons] at hn
    rcases hf : f a with _ | c
    · rw [List.filterMap_cons_none hf] at h
      obtain ⟨a1, h1, h2, h3⟩ := ih hn.2 h
      refine ⟨a1, List.mem_cons_of_mem _ h1, h2, ?_⟩
      intro a' ha' hne
      rcases List.mem_cons.1 ha' with rfl | ha'
      · exact hf
      · exact h3 a' ha' hne
    · rw [List.filterMap_cons_some hf] at h
      simp only [List.cons.injEq, List.filterMap_eq_nil_iff] at h
      refine ⟨a, List.mem_cons_self, by rw [hf, h.1], ?_⟩
      intro a' ha' hne
      rcases List.mem_cons.1 ha' with rfl | ha'
      · exact absurd rfl hne
      · exact h.2 a' ha'

/-- The constraints that `get_bounds()` sees are what it expects. -/
theorem boundConstraint_sound {ad : Autodiff} {vars : List ℕ} {e : UserExpr} (hn : vars.Nodup)
    (h : e.ty = .linear → LinearOk ad vars e.term) {v : ℕ → Fl} (hv : AllFinite v) :
    Bounds.Sound vars.length (boundConstraint ad v vars e) := by
  intro hl
  have hty : e.ty = .linear := by simpa [boundConstraint] using hl
  have h := h hty
  obtain ⟨N, F, ⟨c, a, hF⟩, heq⟩ := h.affine
  have hF' : ∀ w, e.term.eval w = c + ∑ k ∈ Finset.range N, a k * w k := fun w => by
    rw [heq w (e.term.smooth_dom (h.smooth w)), hF]
  obtain ⟨k0, hk0, w0, hd0⟩ := h.depends
  obtain ⟨j0, hj0, rfl⟩ := List.getElem_of_mem hk0
  have hrow : (boundConstraint ad v vars e).row = (List.finRange vars.length).filterMap fun j : Fin vars.length =>
    if ad.stored e.term vars[j] then some ((j : ℕ), ad.pd e.term vars[j] v) else none := rfl
  have hmem : ((j0 : ℕ), ad.pd e.term vars[j0] v) ∈ (boundConstraint ad v vars e).row := by
    rw [hrow, List.mem_filterMap]
    exact ⟨⟨j0, hj0⟩, List.mem_finRange _, if_pos (h.stored _ hk0 ⟨w0, hd0⟩)⟩
  rcases hr : (boundConstraint ad v vars e).row with _ | ⟨q, _ | ⟨q', l⟩⟩
  · rw [hr] at hmem; simp at hmem
  · left
    rw [hr, List.mem_singleton] at hmem
    subst hmem
    obtain ⟨j, -, hj1, hj2⟩ := filterMap_single (List.nodup_finRange _) (hrow.symm.trans hr)
    have hjj : j = ⟨j0, hj0⟩ := by
      by_cases hst : ad.stored e.term vars[j]
      · rw [if_pos hst] at hj1
        exact Fin.ext (by simpa using congrArg Prod.fst (Option.some.inj hj1))
      · rw [if_neg hst] at hj1; cases hj1
    subst hjj
    have hlt : vars[j0] < N := by
      by_contra hge
      rw [pderiv_affine hF', if_neg hge] at hd0
      exact hd0 rfl
    have ha : a vars[j0] ≠ 0 := by
      rw [pderiv_affine hF', if_pos hlt] at hd0
      exact hd0
    have hz : ∀ i : Fin vars.length, i ≠ ⟨j0, hj0⟩ → vars[i] < N → a vars[i] = 0 := by
      intro i hi hiN
      by_contra hne
      have := hj2 i (List.mem_finRange _) hi
      rw [if_pos (h.stored vars[i] (List.getElem_mem _) ⟨fun _ => 0, by rw [pderiv_affine hF', if_pos hiN]; exact hne⟩)] at this
      cases this
    refine ⟨j0, a vars[j0], e.term.eval (reals (assign v vars (List.ofFn fun i : Fin vars.length => Fl.fin 0))), hj0, hl,
      ?_, ha, fun x => ?_⟩
    · rw [hr]
      unfold Autodiff.pd
      rw [if_pos ⟨hv, h.smooth _⟩, eval_pd, pderiv_affine hF', if_pos hlt]
    · rw [boundConstraint_value h hv]
      congr 1
      obtain ⟨hx1, hx2⟩ := reals_assign hn v x
      obtain ⟨h01, h02⟩ := reals_assign hn v fun _ => 0
      rw [hF', hF', ← sub_eq_iff_eq_add, add_sub_add_left_eq_sub, ← Finset.sum_sub_distrib]
      have : ∀ k ∈ Finset.range N,
          a k * reals (assign v vars (List.ofFn fun i : Fin vars.length => Fl.fin (x i))) k -
          a k * reals (assign v vars (List.ofFn fun i : Fin vars.length => Fl.fin 0)) k =
          if k = vars[j0] then a vars[j0] * x j0 else 0 := by
        intro k hk
        rw [Finset.mem_range] at hk
        by_cases hkv : k ∈ vars
        · obtain ⟨i, hi, rfl⟩ := List.getElem_of_mem hkv
          rw [hx2 i hi, h02 i hi]
          by_cases hij : i = j0
          · subst hij; simp
          · have h1 : a vars[i] = 0 := hz ⟨i, hi⟩ (fun h => hij (congrArg Fin.val h)) hk
            rw [if_neg (fun h => hij ((List.Nodup.getElem_inj_iff hn).1 h)), h1]
            simp
        · rw [hx1 k hkv, h01 k hkv, sub_self, if_neg]
          rintro rfl
          exact hkv hk0
      rw [Finset.sum_congr rfl this, Finset.sum_ite_eq', if_pos (Finset.mem_range.2 hlt)]
  · right; simp

/-- The variables' values as `get_bounds()` is given them. -/
theorem guess_fin {p : Problem} {s : Store} (hv : AllFinite s.val) :
    (fun j => if h : j < p.vars.length then p.guess s ⟨j, h⟩ else (0 : Fl)) =
      fun j => Fl.fin (if h : j < p.vars.length then reals s.val p.vars[j] else 0) := by
  funext j
  by_cases hj : j < p.vars.length
  · rw [dif_pos hj, dif_pos hj]
    unfold Problem.guess reals
    obtain ⟨a, ha⟩ := Fl.isFinite_iff.1 (hv p.vars[j])
    rw [show p.vars[(⟨j, hj⟩ : Fin p.vars.length)] = p.vars[j] from rfl, ha]
    rfl
  · rw [dif_neg hj, dif_neg hj]; rfl

/-- The assertions of `get_bounds()` hold if the variables are finite and every constraint of type LINEAR depends on a
decision variable. -/
theorem bounds_exist {p : Problem} {ad : Autodiff} {s : Store} (hok : p.Ok s) (hv : AllFinite s.val)
    (hlin : ∀ e ∈ p.ineqs, e.ty = .linear → LinearOk ad p.vars e.term) : p.bounds ad s ≠ none := by
  unfold Problem.bounds
  rw [guess_fin hv]
  obtain ⟨r, hr, -⟩ := Bounds.bounds_tight (n := p.vars.length) (cs := p.ineqs.map (boundConstraint ad s.val p.vars))
    (by
      intro c hc
      obtain ⟨e, he, rfl⟩ := List.mem_map.1 hc
      exact boundConstraint_sound hok.nodup (hlin e he) hv)
    (fun j => if h : j < p.vars.length then reals s.val p.vars[j] else 0)
  rw [hr]
  simp

/-- C38: after GLOBALLY_INFEASIBLE, no values of the decision variables satisfy the inequality constraints. -/
theorem globally_infeasible {p : Problem} {ad : Autodiff} {env : Env} {opts : SolverOptions} {spy : Bool} {s s' : Store}
    {o : p.Outcome} (htol : 0 < opts.tolerance) (h : p.solve ad env opts spy s = some (o, s')) (hok : p.Ok s)
    (hv : AllFinite s.val) (hlin : ∀ e ∈ p.ineqs, e.ty = .linear → LinearOk ad p.vars e.term)
    (hst : o.status = .globallyInfeasible) :
    ¬ ∃ w : ℕ → ℝ, (∀ k, k ∉ p.vars → w k = reals s.val k) ∧ ∀ e ∈ p.ineqs, 0 ≤ e.term.eval w := by
  rintro ⟨w, hw, hall⟩
  obtain rfl := (solve_statuses htol h).2.1.1 hst
  rcases solve_cases h with ⟨-, h1, -⟩ | ⟨-, -, -, r, -, h1, -⟩ | ⟨-, -, -, r, -, h1, -⟩ | ⟨-, -, b, hb, hc, -, -⟩ |
    ⟨-, -, b, r, -, -, -, h1, -⟩
  · cases h1
  · cases h1
  · cases h1
  · unfold Problem.bounds at hb
    rw [guess_fin hv] at hb
    have hs : ∀ c ∈ p.ineqs.map (boundConstraint ad s.val p.vars), Bounds.Sound p.vars.length c := by
      intro c hc
      obtain ⟨e, he, rfl⟩ := List.mem_map.1 hc
      exact boundConstraint_sound hok.nodup (hlin e he) hv
    obtain ⟨r', hr, -, -, -, -, -, hp⟩ := Bounds.bounds_tight hs
      (fun j => if h : j < p.vars.length then reals s.val p.vars[j] else 0)
    obtain rfl := Option.some.inj (hb.symm.trans hr)
    obtain ⟨q, hq⟩ := List.exists_mem_of_ne_nil _ hc
    obtain ⟨i, i', c, c', j, a, b, a', b', -, h1, h2, h3, h4, h5, h6, h7⟩ := hp q hq
    have key (c : Bounds.Constraint) (hc : c ∈ p.ineqs.map (boundConstraint ad s.val p.vars)) (a b : ℝ)
        (hb : Bounds.IsBound c j a b) : 0 ≤ a * w (if h : j < p.vars.length then p.vars[j] else 0) + b := by
      obtain ⟨e, he, rfl⟩ := List.mem_map.1 hc
      have hty : e.ty = .linear := by simpa [boundConstraint] using hb.1
      have hj : j < p.vars.length := by
        have : (j, Fl.fin a) ∈ (boundConstraint ad s.val p.vars e).row := by rw [hb.2.1]; simp
        unfold boundConstraint at this
        simp only [List.mem_filterMap] at this
        obtain ⟨q, -, hq⟩ := this
        by_cases hst : ad.stored e.term p.vars[q]
        · rw [if_pos hst] at hq
          have := congrArg Prod.fst (Option.some.inj hq)
          simp only at this
          omega
        · rw [if_neg hst] at hq; cases hq
      rw [dif_pos hj]
      have := hb.2.2.2 fun i => if h : i < p.vars.length then w p.vars[i] else 0
      rw [boundConstraint_value (hlin e he hty) hv, dif_pos hj] at this
      rw [← Fl.fin.inj this]
      convert hall e he using 2
      funext k
      obtain ⟨hx1, hx2⟩ := reals_assign hok.nodup s.val fun i => if h : i < p.vars.length then w p.vars[i] else 0
      by_cases hk : k ∈ p.vars
      · obtain ⟨i, hi, rfl⟩ := List.getElem_of_mem hk
        rw [hx2 i hi, dif_pos hi]
      · rw [hx1 k hk, hw k hk]
    have k1 := key c (List.mem_of_getElem? h1) a b h3
    have k2 := key c' (List.mem_of_getElem? h2) a' b' h4
    rw [Bounds.lower_iff h5] at k1
    rw [Bounds.upper_iff h6] at k2
    linarith
  · cases h1

/-- C38, the converse for bounds: two inequality constraints that are a lower and an upper bound on the same variable
and exclude each other are always reported. -/
theorem conflict_reported {p : Problem} {ad : Autodiff} {env : Env} {opts : SolverOptions} {spy : Bool} {s s' : Store}
    {o : p.Outcome} (h : p.solve ad env opts spy s = some (o, s')) (hok : p.Ok s) (hv : AllFinite s.val)
    (hlin : ∀ e ∈ p.ineqs, e.ty = .linear → LinearOk ad p.vars e.term) {e e' : UserExpr} (he : e ∈ p.ineqs)
    (he' : e' ∈ p.ineqs) {j : ℕ} {a b a' b' : ℝ} (hb : Bounds.IsBound (boundConstraint ad s.val p.vars e) j a b)
    (hb' : Bounds.IsBound (boundConstraint ad s.val p.vars e') j a' b') (ha : 0 < a) (ha' : a' < 0)
    (hlt : -b' / a' < -b / a) : o.status = .globallyInfeasible := by
  have hs : ∀ c ∈ p.ineqs.map (boundConstraint ad s.val p.vars), Bounds.Sound p.vars.length c := by
    intro c hc
    obtain ⟨e, he, rfl⟩ := List.mem_map.1 hc
    exact boundConstraint_sound hok.nodup (hlin e he) hv
  obtain ⟨r', hr, -, -, -, -, hiff, -⟩ := Bounds.bounds_tight hs
    (fun j => if h : j < p.vars.length then reals s.val p.vars[j] else 0)
  have hc : r'.conflicts ≠ [] := by
    rw [hiff]
    refine ⟨j, ?_⟩
    ext x
    simp only [Set.mem_inter_iff, Set.mem_empty_iff_false, iff_false, not_and]
    intro h1 h2
    have k1 := h1 _ (List.mem_map_of_mem he) a b hb ha
    have k2 := h2 _ (List.mem_map_of_mem he') a' b' hb' ha'
    rw [Bounds.lower_iff ha] at k1
    rw [Bounds.upper_iff ha'] at k2
    linarith
  have hbound : p.bounds ad s = some (r', fun j => Fl.fin (if h : j < p.vars.length then reals s.val p.vars[j] else 0)) := by
    unfold Problem.bounds
    rw [guess_fin hv, hr]
  have hne : p.ineqs ≠ [] := fun h => by rw [h] at he; simp at he
  have hnc : ¬ p.Constant := by
    intro h
    have := h.2.2 e he
    have hty : e.ty = .linear := by simpa [boundConstraint] using hb.1
    rw [hty] at this
    simp [Ty.rank] at this
  rcases solve_cases h with ⟨h1, -, -⟩ | ⟨-, -, h1, -⟩ | ⟨-, -, h1, -⟩ | ⟨-, -, b, -, -, rfl, -⟩ |
    ⟨-, -, b, r, h1, h2, -⟩
  · exact absurd h1 hnc
  · exact absurd h1 hne
  · exact absurd h1 hne
  · rfl
  · rw [hbound] at h1
    cases h1
    exact absurd h2 hc

/-! A problem with contradictory bounds: `x₀ - 1 ≥ 0` and `0 - x₀ ≥ 0`. -/

/-- The lower bound. -/
noncomputable def lowerExpr : UserExpr := ⟨.bin .sub (.var 0) (.lit 1), .linear⟩

/-- The upper bound. -/
noncomputable def upperExpr : UserExpr := ⟨.bin .sub (.lit 0) (.var 0), .linear⟩

/-- The problem. -/
noncomputable def clashProblem : Problem := ⟨[0], none, [], [lowerExpr, upperExpr], [], []⟩

/-- An autodiff that stores all elements. -/
def storeAll : Autodiff := ⟨fun _ _ => .nan, fun _ _ _ => .nan, fun _ _ _ _ => .nan, fun _ _ _ _ _ => .nan, fun _ _ => true, fun _ => 0⟩

theorem lower_eval (v : ℕ → ℝ) : lowerExpr.term.eval v = -1 + ∑ k ∈ Finset.range 1, (fun _ => 1) k * v k := by
  simp [lowerExpr, Term.eval, BinOp.eval]; ring

theorem upper_eval (v : ℕ → ℝ) : upperExpr.term.eval v = 0 + ∑ k ∈ Finset.range 1, (fun _ => -1) k * v k := by
  simp [upperExpr, Term.eval, BinOp.eval]

theorem lower_ok : LinearOk storeAll [0] lowerExpr.term :=
  ⟨⟨1, _, ⟨_, _, lower_eval⟩, fun _ _ => rfl⟩, fun v => by simp [lowerExpr, Term.Smooth, BinOp.Smooth], fun _ _ _ => rfl,
    ⟨0, by simp, fun _ => 0, by rw [pderiv_affine lower_eval]; simp⟩⟩

theorem upper_ok : LinearOk storeAll [0] upperExpr.term :=
  ⟨⟨1, _, ⟨_, _, upper_eval⟩, fun _ _ => rfl⟩, fun v => by simp [upperExpr, Term.Smooth, BinOp.Smooth], fun _ _ _ => rfl,
    ⟨0, by simp, fun _ => 0, by rw [pderiv_affine upper_eval]; simp⟩⟩

/-- The hypotheses of `solve_returns`, `bounds_exist`, `globally_infeasible` and `conflict_reported` hold for it. -/
theorem clash_infeasible (env : Env) (opts : SolverOptions) (htol : 0 < opts.tolerance) :
    ∃ o s', clashProblem.solve storeAll env opts false ⟨1, fun _ => .fin 7⟩ = some (o, s') ∧
      o.status = .globallyInfeasible := by
  have hok : clashProblem.Ok ⟨1, fun _ => .fin 7⟩ := ⟨by simp [clashProblem], by simp [clashProblem]⟩
  have hv : AllFinite (fun _ => Fl.fin 7) := fun _ => rfl
  have hlin : ∀ e ∈ clashProblem.ineqs, e.ty = .linear → LinearOk storeAll clashProblem.vars e.term := by
    intro e he _
    simp only [clashProblem, List.mem_cons, List.not_mem_nil, or_false] at he
    rcases he with rfl | rfl
    · exact lower_ok
    · exact upper_ok
  have hrow (e : UserExpr) : (boundConstraint storeAll (fun _ => .fin 7) [0] e).row =
      [(0, storeAll.pd e.term 0 fun _ => .fin 7)] := by
    simp [boundConstraint, List.finRange_succ, storeAll]
  have hpd {e : UserExpr} (h : LinearOk storeAll [0] e.term) :
      storeAll.pd e.term 0 (fun _ => .fin 7) = .fin (pderiv 0 e.term.eval (reals fun _ => .fin 7)) :=
    if_pos ⟨hv, h.smooth _⟩
  have h0 (x : ℕ → ℝ) : reals (assign (fun _ => Fl.fin 7) [0] (List.ofFn fun i : Fin 1 => Fl.fin (x i))) 0 = x 0 :=
    (reals_assign (vars := [0]) (by simp) (fun _ => Fl.fin 7) x).2 0 (by simp)
  obtain ⟨o, s', h1, -⟩ := solve_returns clashProblem storeAll env opts false ⟨1, fun _ => .fin 7⟩ htol
    fun _ => bounds_exist hok hv hlin
  refine ⟨o, s', h1, conflict_reported h1 hok hv hlin (e := lowerExpr) (e' := upperExpr) (by simp [clashProblem])
    (by simp [clashProblem]) (j := 0) (a := 1) (b := -1) (a' := -1) (b' := 0) ⟨rfl, ?_, by norm_num, fun x => ?_⟩
    ⟨rfl, ?_, by norm_num, fun x => ?_⟩ (by norm_num) (by norm_num) (by norm_num)⟩
  · refine (hrow _).trans ?_
    rw [hpd lower_ok, pderiv_affine lower_eval]; simp
  · refine (boundConstraint_value lower_ok hv x).trans ?_
    rw [lower_eval, Finset.sum_range_one]
    congr 1
    rw [show reals (assign (fun _ => Fl.fin 7) [0] (List.ofFn fun i : Fin [0].length => Fl.fin (x i))) 0 = x 0 from h0 x]
    ring
  · refine (hrow _).trans ?_
    rw [hpd upper_ok, pderiv_affine upper_eval]; simp
  · refine (boundConstraint_value upper_ok hv x).trans ?_
    rw [upper_eval, Finset.sum_range_one]
    congr 1
    rw [show reals (assign (fun _ => Fl.fin 7) [0] (List.ofFn fun i : Fin [0].length => Fl.fin (x i))) 0 = x 0 from h0 x]
    ring

end Slp
