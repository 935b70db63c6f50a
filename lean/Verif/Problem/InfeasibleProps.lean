import Verif.Problem.ConvexProps
import Verif.Solver.ElasticProps
import Verif.Solver.SqpRegularProps

/-! C60: what LOCALLY_INFEASIBLE says about where feasible points are, for problems whose equality constraints are affine
and whose inequality constraints are concave. -/

namespace Slp

open Classical

/-- The Euclidean distance of the decision variables of two points. -/
noncomputable def distance (vars : List ℕ) (v w : ℕ → ℝ) : ℝ := √(∑ j ∈ vars.toFinset, (w j - v j) ^ 2)

/-- How much a point violates constraints: the sum of the moduli of the expressions that should be zero and of the negative
parts of those that should not be negative, each multiplied by a factor. -/
noncomputable def violation (eqs ineqs : List Term) (de : Fin eqs.length → ℝ) (di : Fin ineqs.length → ℝ) (v : ℕ → ℝ) : ℝ :=
  (∑ i, |de i * eqs[i].eval v|) + ∑ i, Max.max (-(di i * ineqs[i].eval v)) 0

/-- The weighted square of the distance from a point, times half a factor. -/
noncomputable def pull (vars : List ℕ) (ζ : ℝ) (wt c v : ℕ → ℝ) : ℝ := ζ / 2 * ∑ j ∈ vars.toFinset, wt j * (v j - c j) ^ 2

/-- Every feasibility restoration that begins at a finite point and succeeds ends with finite values, positive slacks and
positive inequality multipliers. -/
def RestorationsFinite {n m k : ℕ} (env : Env) (opts : SolverOptions) (P : Nlp n m k) : Prop :=
  ∀ cbs extra (xr : Vec n) (s : Vec k) (μ : ℝ) it w E r, xr.Finite → s.Pos → 0 < μ →
    frRun env opts P cbs extra xr s (.fin μ) it w E = some r → r.status = .success → r.Finite

theorem RestorationOptimal.weaken {n m k : ℕ} {Z : Prop} {env : Env} {opts : SolverOptions} {P : Nlp n m k} {x : Vec n}
    (h : RestorationOptimal Z env opts P x) : RestorationOptimal False env opts P x := by
  obtain ⟨cbs, extra, xr, s, μ', it, w0, E, R, h1, h2, h3, h4, h5, h6, h7, h8⟩ := h
  exact ⟨cbs, extra, xr, s, μ', it, w0, E, R, h1, h2, h3, h4, h5, h6, fun hx hs => ⟨(h7 hx hs).1, False.elim⟩, h8⟩

theorem eq_far {n m : ℕ} {A : Fin m → Fin n → ℝ} {c : Fin m → ℝ} {d : Fin n → ℝ} (h : ∀ i, c i + ∑ j, A i j * d j = 0)
    (h1 : 1e-2 < twoNorm c) (h2 : twoNorm (fun j => ∑ i, A i j * c i) < 1e-6) : 100 < twoNorm d := by
  have e : ∑ i, c i ^ 2 = ∑ j, (∑ i, A i j * c i) * (-d j) := by
    have h3 : ∀ i, c i ^ 2 = ∑ j, A i j * c i * -d j := fun i => by
      have : ∑ j, A i j * c i * -d j = -c i * ∑ j, A i j * d j := by
        rw [Finset.mul_sum]; exact Finset.sum_congr rfl fun j _ => by ring
      rw [this]
      have := h i
      have h4 : ∑ j, A i j * d j = -c i := by linarith
      rw [h4]; ring
    rw [Finset.sum_congr rfl fun i _ => h3 i, Finset.sum_comm]
    exact Finset.sum_congr rfl fun j _ => by rw [Finset.sum_mul]
  have hcs := Real.sum_mul_le_sqrt_mul_sqrt Finset.univ (fun j => ∑ i, A i j * c i) fun j => -d j
  rw [← e] at hcs
  simp only [neg_sq] at hcs
  change ∑ i, c i ^ 2 ≤ twoNorm (fun j => ∑ i, A i j * c i) * twoNorm d at hcs
  have hc : twoNorm c ^ 2 = ∑ i, c i ^ 2 := Real.sq_sqrt (Finset.sum_nonneg fun _ _ => sq_nonneg _)
  have hd : 0 ≤ twoNorm d := Real.sqrt_nonneg _
  rw [← hc] at hcs
  by_contra hn
  rw [not_lt] at hn
  have h5 : twoNorm (fun j => ∑ i, A i j * c i) * twoNorm d ≤ 1e-6 * 100 :=
    mul_le_mul h2.le hn hd (by norm_num)
  nlinarith

theorem ineq_far {n k : ℕ} {A : Fin k → Fin n → ℝ} {c : Fin k → ℝ} {d : Fin n → ℝ} (h : ∀ i, 0 ≤ c i + ∑ j, A i j * d j)
    (h1 : 1e-6 < twoNorm fun i => Min.min (c i) 0) (h2 : twoNorm (fun j => ∑ i, A i j * Min.min (c i) 0) < 1e-6) :
    1e-6 < twoNorm d := by
  have e : ∑ i, Min.min (c i) 0 ^ 2 ≤ ∑ j, (∑ i, A i j * Min.min (c i) 0) * (-d j) := by
    have h3 : ∀ i, Min.min (c i) 0 ^ 2 ≤ ∑ j, A i j * Min.min (c i) 0 * -d j := fun i => by
      have : ∑ j, A i j * Min.min (c i) 0 * -d j = -Min.min (c i) 0 * ∑ j, A i j * d j := by
        rw [Finset.mul_sum]; exact Finset.sum_congr rfl fun j _ => by ring
      rw [this]
      have h4 := h i
      generalize ∑ j, A i j * d j = t at h4
      rcases le_total (c i) 0 with hc | hc
      · rw [min_eq_left hc]; nlinarith
      · rw [min_eq_right hc]; simp
    refine (Finset.sum_le_sum fun i _ => h3 i).trans (le_of_eq ?_)
    rw [Finset.sum_comm]
    exact Finset.sum_congr rfl fun j _ => by rw [Finset.sum_mul]
  have hcs := e.trans (Real.sum_mul_le_sqrt_mul_sqrt Finset.univ (fun j => ∑ i, A i j * Min.min (c i) 0) fun j => -d j)
  simp only [neg_sq] at hcs
  change _ ≤ twoNorm (fun j => ∑ i, A i j * Min.min (c i) 0) * twoNorm d at hcs
  have hc : twoNorm (fun i => Min.min (c i) 0) ^ 2 = ∑ i, Min.min (c i) 0 ^ 2 :=
    Real.sq_sqrt (Finset.sum_nonneg fun _ _ => sq_nonneg _)
  have hd : 0 ≤ twoNorm d := Real.sqrt_nonneg _
  rw [← hc] at hcs
  by_contra hn
  rw [not_lt] at hn
  have h5 : twoNorm (fun j => ∑ i, A i j * Min.min (c i) 0) * twoNorm d ≤ 1e-6 * 1e-6 :=
    mul_le_mul h2.le hn hd (by norm_num)
  nlinarith

theorem sum_vars {vars : List ℕ} (hn : vars.Nodup) (F : ℕ → ℝ) : ∑ j : Fin vars.length, F vars[j] = ∑ j ∈ vars.toFinset, F j := by
  rw [List.sum_toFinset _ hn, ← Fin.sum_univ_fun_getElem]; rfl

theorem assign_at {vars : List ℕ} (hn : vars.Nodup) (v : ℕ → Fl) (x : Vec vars.length) (j : Fin vars.length) :
    assign v vars (List.ofFn x) vars[j] = x j := by
  have := assign_get vars v (List.ofFn x) hn (by simp) j j.2 (by simp)
  simpa using this

/-- What holds where a solver reports LOCALLY_INFEASIBLE, in terms of the stated constraints. -/
theorem callbacks_infeasible {ad : Autodiff} {v : ℕ → Fl} {vars : List ℕ} {f : Term} {eqs ineqs : List Term} (hn : vars.Nodup)
    {x0 : Vec vars.length} {df : ℝ} {de : Fin eqs.length → ℝ} {di : Fin ineqs.length → ℝ}
    (hS : (matrixCallbacks ad v vars f eqs ineqs x0).scaling.Positive df de di) {x : Vec vars.length}
    (hx : AllFinite (assign v vars (List.ofFn x))) (hsm : AllSmooth f eqs ineqs (reals (assign v vars (List.ofFn x))))
    {env : Env} {opts : SolverOptions} (htol : 0 < opts.tolerance) (htol1 : opts.tolerance ≤ 1)
    (hR : RestorationsFinite env opts (matrixCallbacks ad v vars f eqs ineqs x0))
    (h : EqStuck ((matrixCallbacks ad v vars f eqs ineqs x0).Ae x) ((matrixCallbacks ad v vars f eqs ineqs x0).ce x) ∨
      IneqStuck ((matrixCallbacks ad v vars f eqs ineqs x0).Ai x) ((matrixCallbacks ad v vars f eqs ineqs x0).ci x) ∨
      RestorationOptimal False env opts (matrixCallbacks ad v vars f eqs ineqs x0) x)
    {K : Set (ℕ → ℝ)} (he : ∀ t ∈ eqs, ConvexOn ℝ K t.eval ∧ ConcaveOn ℝ K t.eval) (hi : ∀ t ∈ ineqs, ConcaveOn ℝ K t.eval)
    (hv : reals (assign v vars (List.ofFn x)) ∈ K) :
    let r := reals (assign v vars (List.ofFn x))
    ((∃ t ∈ eqs, t.eval r ≠ 0) ∧ ∀ w ∈ K, (∀ j ∉ vars, w j = r j) → (∀ t ∈ eqs, t.eval w = 0) → 100 < distance vars r w) ∨
    ((∃ t ∈ ineqs, t.eval r < 0) ∧
      ∀ w ∈ K, (∀ j ∉ vars, w j = r j) → (∀ t ∈ ineqs, 0 ≤ t.eval w) → 1e-6 < distance vars r w) ∨
    ∃ (μ : ℝ) (wt c : ℕ → ℝ), 0 < μ ∧ (∀ j, IsProximityWeight (c j) (wt j)) ∧ ∀ w ∈ K, (∀ j ∉ vars, w j = r j) →
      (1000 - 21 * opts.tolerance) * violation eqs ineqs de di r + pull vars √μ wt c r ≤
        (1000 + 21 * opts.tolerance) * violation eqs ineqs de di w + pull vars √μ wt c w +
          opts.tolerance * (21 * (∑ j ∈ vars.toFinset, |w j - r j|) + 8300 * (eqs.length + ineqs.length)) := by
  intro r
  obtain ⟨-, -, hce, hAe, hci, hAi, -⟩ := callbacks_values ad v vars f eqs ineqs x0 hS.eq x hx hsm
  have hxr : ∀ j : Fin vars.length, r vars[j] = (x j).toReal := fun j => by
    show (assign v vars (List.ofFn x) vars[j]).toReal = _
    rw [assign_at hn]
  have hxf : x.Finite := fun j => by
    have := hx vars[j]
    rwa [assign_at hn] at this
  have hxe : x = fun j : Fin vars.length => .fin (r vars[j]) := funext fun j => by
    rw [hxr]
    obtain ⟨a, ha⟩ := Fl.isFinite_iff.1 (hxf j)
    rw [ha]; rfl
  have affine : ∀ w ∈ K, (∀ j ∉ vars, w j = r j) → ∀ i : Fin eqs.length, de i * eqs[i].eval w =
      de i * eqs[i].eval r + ∑ j : Fin vars.length, de i * pderiv vars[j] eqs[i].eval r * (w vars[j] - r vars[j]) := by
    intro w hw hoff i
    have hoff' : ∀ j ∉ vars.toFinset, w j = r j := fun j hj => hoff j (by simpa using hj)
    have hm := List.getElem_mem i.2
    have g1 := gradient_le (he _ hm).1 hv hw (hsm.eqs _ hm) hoff'
    have g2 := gradient_ge (he _ hm).2 hv hw (hsm.eqs _ hm) hoff'
    rw [sum_vars hn fun j => de i * pderiv j eqs[i].eval r * (w j - r j)]
    have e : ∑ j ∈ vars.toFinset, de i * pderiv j eqs[i].eval r * (w j - r j) =
        de i * ∑ j ∈ vars.toFinset, (w j - r j) * pderiv j eqs[i].eval r := by
      rw [Finset.mul_sum]; exact Finset.sum_congr rfl fun j _ => by ring
    rw [e, ← mul_add]
    congr 1
    exact le_antisymm g2 g1
  have concave : ∀ w ∈ K, (∀ j ∉ vars, w j = r j) → ∀ i : Fin ineqs.length, di i * ineqs[i].eval w ≤
      di i * ineqs[i].eval r + ∑ j : Fin vars.length, di i * pderiv vars[j] ineqs[i].eval r * (w vars[j] - r vars[j]) := by
    intro w hw hoff i
    have hoff' : ∀ j ∉ vars.toFinset, w j = r j := fun j hj => hoff j (by simpa using hj)
    have hm := List.getElem_mem i.2
    have g2 := gradient_ge (hi _ hm) hv hw (hsm.ineqs _ hm) hoff'
    rw [sum_vars hn fun j => di i * pderiv j ineqs[i].eval r * (w j - r j)]
    have e : ∑ j ∈ vars.toFinset, di i * pderiv j ineqs[i].eval r * (w j - r j) =
        di i * ∑ j ∈ vars.toFinset, (w j - r j) * pderiv j ineqs[i].eval r := by
      rw [Finset.mul_sum]; exact Finset.sum_congr rfl fun j _ => by ring
    rw [e, ← mul_add]
    exact mul_le_mul_of_nonneg_left g2 (hS.ci i).1.le
  have dist : ∀ w : ℕ → ℝ, twoNorm (fun j : Fin vars.length => w vars[j] - r vars[j]) = distance vars r w := fun w => by
    unfold twoNorm distance
    rw [sum_vars hn fun j => (w j - r j) ^ 2]
  rcases h with h | h | h
  · left
    obtain ⟨i, hi'⟩ := (stuck_violates _ _).1 h
    rw [EqStuck, Vec.real_fin hce, FMat.real_fin hAe] at h
    rw [Vec.real_fin hce] at hi'
    refine ⟨⟨_, List.getElem_mem i.2, fun h0 => hi' ?_⟩, fun w hw hoff hf => ?_⟩
    · have h0' : eqs[i].eval r = 0 := h0
      show de i * eqs[i].eval r = 0
      rw [h0', mul_zero]
    · rw [← dist]
      refine eq_far (fun i => ?_) h.1 h.2
      have h1 := affine w hw hoff i
      have h2 : eqs[i].eval w = 0 := hf _ (List.getElem_mem i.2)
      rw [h2, mul_zero] at h1
      exact h1.symm
  · right; left
    obtain ⟨i, hi'⟩ := (stuck_violates _ _).2 h
    rw [IneqStuck, Vec.real_fin hci, FMat.real_fin hAi] at h
    rw [Vec.real_fin hci] at hi'
    refine ⟨⟨_, List.getElem_mem i.2, not_le.1 fun h0 => not_le.2 hi' ?_⟩, fun w hw hoff hf => ?_⟩
    · exact mul_nonneg (hS.ci i).1.le h0
    · rw [← dist]
      refine ineq_far (fun i => ?_) h.1 h.2
      have h1 := concave w hw hoff i
      have h2 : 0 ≤ ineqs[i].eval w := hf _ (List.getElem_mem i.2)
      exact le_trans (mul_nonneg (hS.ci i).1.le h2) h1
  · right; right
    obtain ⟨cbs, extra, xr, s, μ', it, w0, E, R, hrun, hsuc, hor, hxrf, hs0, ⟨b, rfl, hb0⟩, -, μ, hμ, herr⟩ := h
    obtain ⟨f1, hsp, f3, hzp⟩ := hR _ _ _ _ _ _ _ _ _ hxrf hs0 hb0 hrun hsuc
    have f2 := hsp.finite
    set c : ℕ → ℝ := reals (assign v vars (List.ofFn xr)) with hcdef
    have hcr : ∀ j : Fin vars.length, xr j = .fin (c vars[j]) := fun j => by
      obtain ⟨a, ha⟩ := Fl.isFinite_iff.1 (hxrf j)
      have : c vars[j] = (xr j).toReal := by
        show (assign v vars (List.ofFn xr) vars[j]).toReal = _
        rw [assign_at hn]
      rw [this, ha]; rfl
    let wt : ℕ → ℝ := fun j => if 1 ≤ |c j| then 1 / c j ^ 2 else 1
    have hwt : ∀ j, IsProximityWeight (c j) (wt j) := fun j => by
      refine ⟨fun h => ?_, fun h => if_pos h, fun h => ?_⟩
      · show (if 1 ≤ |c j| then 1 / c j ^ 2 else 1) = 1
        rw [h]; simp
      · show (if 1 ≤ |c j| then 1 / c j ^ 2 else 1) = 1
        split
        · rename_i h'
          have : |c j| = 1 := le_antisymm h h'
          rw [← sq_abs, this]; norm_num
        · rfl
    refine ⟨μ, wt, c, hμ, hwt, fun w hw hoff => ?_⟩
    have hxr' : xr = fun j : Fin vars.length => .fin (c vars[j]) := funext hcr
    rw [hxr'] at herr
    have key := restoration_bound env (matrixCallbacks ad v vars f eqs ineqs x0) (x := fun j : Fin vars.length => r vars[j])
      (wt := fun j : Fin vars.length => wt vars[j]) hμ.le htol.le htol1 (fun j => hwt _) hS.eq hS.ce hS.ci
      (by rw [← hxe]; exact hce) (by rw [← hxe]; exact hci) (by rw [← hxe]; exact hAe) (by rw [← hxe]; exact hAi)
      f1 (by rw [hor]; exact hxe) hsp f3 hzp herr (w := fun j : Fin vars.length => w vars[j])
      (affine w hw hoff) (concave w hw hoff)
    have hp : ∀ u : ℕ → ℝ, proximity √μ (fun j : Fin vars.length => wt vars[j]) (fun j : Fin vars.length => c vars[j])
        (fun j : Fin vars.length => u vars[j]) = pull vars √μ wt c u := fun u => by
      unfold proximity pull
      rw [sum_vars hn fun j => wt j * (u j - c j) ^ 2]
    rw [hp, hp, sum_vars hn fun j => |w j - r j|] at key
    exact key

/-- C60: if `solve()` reports LOCALLY_INFEASIBLE for a problem with affine equality and concave inequality constraints, then
one of the following holds. (1) An equality constraint is violated and every point that satisfies all of them is farther than
100 away. (2) An inequality constraint is violated and every point that satisfies all of them is farther than 1e-6 away.
(3) No point has a noticeably smaller sum of a thousandfold constraint violation and of the weighted squared distance from
some point, at which the solver gave up following the cost. The violation of a constraint counts fully if its
derivatives at the guess are at most 100. -/
theorem infeasible_distance {p : Problem} {s : Store} (hok : p.Ok s) {ad : Autodiff} {env : Env} {opts : SolverOptions}
    {spy : Bool} {s' : Store} {o : p.Outcome} (h : p.solve ad env opts spy s = some (o, s'))
    (htol : 0 < opts.tolerance) (htol1 : opts.tolerance ≤ 1) (hs : o.status = .locallyInfeasible) (hfin0 : AllFinite s.val)
    (hsm0 : p.Smooth (reals s.val)) (hfin : AllFinite s'.val) (hsm : p.Smooth (reals s'.val))
    (hRi : RestorationsFinite env opts (p.ipmNlp ad s))
    (hRs : RestorationsFinite env opts (p.sqpNlp ad s)) {K : Set (ℕ → ℝ)} (hp : p.Convex K) (hv : reals s'.val ∈ K) :
    let r := reals s'.val
    ((∃ e ∈ p.eqs, e.term.eval r ≠ 0) ∧ ∀ w ∈ K, (∀ j ∉ p.vars, w j = r j) → p.Satisfies w → 100 < distance p.vars r w) ∨
    ((∃ e ∈ p.ineqs, e.term.eval r < 0) ∧
      ∀ w ∈ K, (∀ j ∉ p.vars, w j = r j) → p.Satisfies w → 1e-6 < distance p.vars r w) ∨
    ∃ (μ : ℝ) (wt c : ℕ → ℝ) (de : Fin (p.eqs.map UserExpr.term).length → ℝ)
      (di : Fin (p.ineqs.map UserExpr.term).length → ℝ), 0 < μ ∧ (∀ j, IsProximityWeight (c j) (wt j)) ∧
      (∀ i, 0 < de i ∧ de i ≤ 1 ∧
        ((∀ j ∈ p.vars, |pderiv j (p.eqs.map UserExpr.term)[i].eval (reals s.val)| ≤ 100) → de i = 1)) ∧
      (∀ i, 0 < di i ∧ di i ≤ 1 ∧
        ((∀ j ∈ p.vars, |pderiv j (p.ineqs.map UserExpr.term)[i].eval (reals s.val)| ≤ 100) → di i = 1)) ∧
      ∀ w ∈ K, (∀ j ∉ p.vars, w j = r j) →
        (1000 - 21 * opts.tolerance) * violation (p.eqs.map UserExpr.term) (p.ineqs.map UserExpr.term) de di r +
            pull p.vars √μ wt c r ≤
          (1000 + 21 * opts.tolerance) * violation (p.eqs.map UserExpr.term) (p.ineqs.map UserExpr.term) de di w +
            pull p.vars √μ wt c w + opts.tolerance * (21 * p.dist r w + 8300 * (p.eqs.length + p.ineqs.length)) := by
  intro r
  have hn := hok.nodup
  have hkeep : assign s.val p.vars (List.ofFn (p.guess s)) = s.val := by
    rw [show List.ofFn (p.guess s) = _ from ofFn_guess p s, assign_self]
  have he : ∀ t ∈ p.eqs.map UserExpr.term, ConvexOn ℝ K t.eval ∧ ConcaveOn ℝ K t.eval := fun t ht => by
    obtain ⟨e, he, rfl⟩ := List.mem_map.1 ht
    exact hp.eqs e he
  have hi : ∀ t ∈ p.ineqs.map UserExpr.term, ConcaveOn ℝ K t.eval := fun t ht => by
    obtain ⟨e, he, rfl⟩ := List.mem_map.1 ht
    exact hp.ineqs e he
  suffices pack : ∃ (L : List Term) (_ : p.ineqs.map UserExpr.term = L) (de : Fin (p.eqs.map UserExpr.term).length → ℝ)
      (di : Fin L.length → ℝ), (∀ i, 0 < de i ∧ de i ≤ 1) ∧ (∀ i, 0 < di i ∧ di i ≤ 1) ∧
      (∀ i, (∀ j : Fin p.vars.length, |pderiv p.vars[j] (p.eqs.map UserExpr.term)[i].eval (reals s.val)| ≤ 100) → de i = 1) ∧
      (∀ i, (∀ j : Fin p.vars.length, |pderiv p.vars[j] L[i].eval (reals s.val)| ≤ 100) → di i = 1) ∧
      (((∃ t ∈ p.eqs.map UserExpr.term, t.eval r ≠ 0) ∧ ∀ w ∈ K, (∀ j ∉ p.vars, w j = r j) →
        (∀ t ∈ p.eqs.map UserExpr.term, t.eval w = 0) → 100 < distance p.vars r w) ∨
      ((∃ t ∈ L, t.eval r < 0) ∧
        ∀ w ∈ K, (∀ j ∉ p.vars, w j = r j) → (∀ t ∈ L, 0 ≤ t.eval w) → 1e-6 < distance p.vars r w) ∨
      ∃ (μ : ℝ) (wt c : ℕ → ℝ), 0 < μ ∧ (∀ j, IsProximityWeight (c j) (wt j)) ∧ ∀ w ∈ K, (∀ j ∉ p.vars, w j = r j) →
        (1000 - 21 * opts.tolerance) * violation (p.eqs.map UserExpr.term) L de di r + pull p.vars √μ wt c r ≤
          (1000 + 21 * opts.tolerance) * violation (p.eqs.map UserExpr.term) L de di w + pull p.vars √μ wt c w +
            opts.tolerance * (21 * (∑ j ∈ p.vars.toFinset, |w j - r j|) +
              8300 * ((p.eqs.map UserExpr.term).length + L.length))) by
    obtain ⟨L, hL, de, di, hde, hdi, hFe, hFi, h6⟩ := pack
    subst hL
    rcases h6 with ⟨h6, h7⟩ | ⟨h6, h7⟩ | ⟨μ, wt, c, h6, h7, h8⟩
    · left
      obtain ⟨t, ht, h6⟩ := h6
      obtain ⟨e, he, rfl⟩ := List.mem_map.1 ht
      refine ⟨⟨e, he, h6⟩, fun w hw hoff hf => h7 w hw hoff fun t ht => ?_⟩
      obtain ⟨e, he, rfl⟩ := List.mem_map.1 ht
      exact hf.eqs e he
    · right; left
      obtain ⟨t, ht, h6⟩ := h6
      obtain ⟨e, he, rfl⟩ := List.mem_map.1 ht
      refine ⟨⟨e, he, h6⟩, fun w hw hoff hf => h7 w hw hoff fun t ht => ?_⟩
      obtain ⟨e, he, rfl⟩ := List.mem_map.1 ht
      exact hf.ineqs e he
    · right; right
      refine ⟨μ, wt, c, de, di, h6, h7, fun i => ⟨(hde i).1, (hde i).2, fun h => hFe i fun j => h _ (List.getElem_mem _)⟩,
        fun i => ⟨(hdi i).1, (hdi i).2, fun h => hFi i fun j => h _ (List.getElem_mem _)⟩, fun w hw hoff => ?_⟩
      have h9 := h8 w hw hoff
      rw [List.length_map, List.length_map] at h9
      exact h9
  rcases solve_cases h with ⟨h1, rfl, -⟩ | ⟨-, h2, h3, r', h4, rfl, rfl⟩ | ⟨-, h2, h3, r', h4, rfl, rfl⟩ |
    ⟨-, -, b, -, -, rfl, -⟩ | ⟨-, -, b, r', -, -, h4, rfl, rfl⟩
  · cases hs
  · obtain ⟨r2, e1, -, -, -, -, -, -, -, h5, -⟩ := newton_correct env opts (p.newtonNlp ad s) (p.allCallbacks spy) (p.guess s)
    obtain rfl := Option.some.inj (e1.symm.trans h4)
    exact absurd hs h5
  · obtain ⟨r2, e1, -, -, -, -, -, -, -, h5, -⟩ := sqp_correct_partial env opts (p.sqpNlp ad s) (p.allCallbacks spy) (p.guess s) htol
    obtain rfl := Option.some.inj (e1.symm.trans h4)
    obtain ⟨df, de, di, hS, hF, hval⟩ := callbacks_correct ad s.val p.vars p.objective.term (p.eqs.map UserExpr.term) []
      (p.guess s) (by rw [hkeep]; exact hfin0) ⟨by rw [hkeep]; exact hsm0.f, by rw [hkeep]; exact hsm0.eqs, by simp⟩
    rw [hkeep] at hF
    obtain ⟨-, -, hce, hAe, -⟩ := hval r2.x hfin ⟨hsm.f, hsm.eqs, by simp⟩
    have h6 := callbacks_infeasible hn hS hfin ⟨hsm.f, hsm.eqs, by simp⟩ htol htol1 hRs
      ((h5 hs (FMat.finite_fin hAe) (Vec.finite_fin hce))
        |>.imp_right fun h => .inr h.weaken) he (by simp) hv
    exact ⟨[], by rw [h3]; rfl, de, di, hS.ce, hS.ci, fun i => (hF.ce i).2, fun i => (hF.ci i).2, h6⟩
  · cases hs
  · obtain ⟨df, de, di, hS, hF, hval⟩ := callbacks_correct ad s.val p.vars p.objective.term (p.eqs.map UserExpr.term)
      (p.ineqs.map UserExpr.term) (p.guess s) (by rw [hkeep]; exact hfin0) (by rw [hkeep]; exact hsm0)
    rw [hkeep] at hF
    obtain ⟨-, -, hce, hAe, hci, hAi, -⟩ := hval r'.x hfin hsm
    have hSf : 0 < (p.ipmNlp ad s).scaling.f := by rw [show (p.ipmNlp ad s).scaling = _ from hS.eq]; exact hS.f.1
    obtain ⟨r2, h5, h6, -⟩ := interiorPoint_ok (Z := False) env opts (p.ipmNlp ad s) (p.allCallbacks spy) (p.guess s) htol hSf
      False.elim False.elim
    obtain rfl := Option.some.inj (h5.symm.trans h4)
    refine ⟨_, rfl, de, di, hS.ce, hS.ci, fun i => (hF.ce i).2, fun i => (hF.ci i).2,
      callbacks_infeasible hn hS hfin hsm htol htol1 hRi ?_ he hi hv⟩
    rcases h6.locally hs with h | h | h
    · unfold eqInfeasible at h
      rw [if_pos ⟨FMat.finite_fin hAe, Vec.finite_fin hce⟩] at h
      exact .inl ⟨h.2.2, h.2.1⟩
    · unfold ineqInfeasible at h
      rw [if_pos ⟨FMat.finite_fin hAi, Vec.finite_fin hci⟩] at h
      exact .inr (.inl ⟨h.2.2, h.2.1⟩)
    · exact .inr (.inr h)

end Slp
