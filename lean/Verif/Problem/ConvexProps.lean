import Verif.Autodiff.LineLemmas
import Verif.Problem.SolveProps
import Mathlib.Analysis.Convex.Function

/-! C58: for convex problems, SUCCESS bounds the distance of the cost from the global optimum. -/

namespace Slp

open Topology

/-- The problem is convex on a set of points: the minimised objective is convex, the expressions that equality
constraints set to zero are affine and the ones that inequality constraints keep nonnegative are concave. -/
structure Problem.Convex (p : Problem) (K : Set (ℕ → ℝ)) : Prop where
  objective : ConvexOn ℝ K p.objective.term.eval
  eqs : ∀ e ∈ p.eqs, ConvexOn ℝ K e.term.eval ∧ ConcaveOn ℝ K e.term.eval
  ineqs : ∀ e ∈ p.ineqs, ConcaveOn ℝ K e.term.eval

/-- A point that satisfies the constraints. -/
structure Problem.Satisfies (p : Problem) (w : ℕ → ℝ) : Prop where
  eqs : ∀ e ∈ p.eqs, e.term.eval w = 0
  ineqs : ∀ e ∈ p.ineqs, 0 ≤ e.term.eval w

/-- The sum of the moduli of the differences of decision variables. -/
noncomputable def Problem.dist (p : Problem) (v w : ℕ → ℝ) : ℝ := ∑ j ∈ p.vars.toFinset, |w j - v j|

theorem Problem.dist_nonneg (p : Problem) (v w : ℕ → ℝ) : 0 ≤ p.dist v w := Finset.sum_nonneg fun _ _ => abs_nonneg _

/-- The gradient inequality, for a convex expression that is smooth at a point. -/
theorem gradient_le {t : Term} {K : Set (ℕ → ℝ)} (hK : ConvexOn ℝ K t.eval) {v w : ℕ → ℝ} (hv : v ∈ K) (hw : w ∈ K)
    (hs : t.Smooth v) {vars : Finset ℕ} (hoff : ∀ j ∉ vars, w j = v j) :
    t.eval v + ∑ j ∈ vars, (w j - v j) * pderiv j t.eval v ≤ t.eval w := by
  set N := vars.sup id + 1 with hN
  have hlt : ∀ j ∈ vars, j < N := fun j hj => Nat.lt_succ_of_le (Finset.le_sup (f := id) hj)
  have hder := t.hasDerivAt_line (N := N) (d := fun j => w j - v j) (fun k hk => by
    rw [hoff k fun h => absurd (hlt k h) (not_lt.2 hk), sub_self]) hs
  have hsum : (∑ k ∈ Finset.range N, (w k - v k) * (Term.pd k t).eval v) =
      ∑ j ∈ vars, (w j - v j) * pderiv j t.eval v := by
    refine (Finset.sum_subset (fun j hj => Finset.mem_range.2 (hlt j hj)) fun j _ hj => ?_).symm
    rw [hoff j hj, sub_self, zero_mul]
  rw [hsum] at hder
  set D := ∑ j ∈ vars, (w j - v j) * pderiv j t.eval v
  have h1 := hder.hasDerivWithinAt (s := Set.Ioi 0)
  rw [hasDerivWithinAt_iff_tendsto_slope' (by simp)] at h1
  refine le_of_sub_nonneg ?_
  have h2 : D ≤ t.eval w - t.eval v := by
    refine le_of_tendsto h1 ?_
    filter_upwards [Ioo_mem_nhdsGT (zero_lt_one (α := ℝ))] with x hx
    have hc := hK.2 hv hw (sub_nonneg.2 hx.2.le) hx.1.le (by ring)
    have e1 : ((1 - x) • v + x • w) = fun k => v k + x * (w k - v k) := by
      funext k; simp only [Pi.add_apply, Pi.smul_apply, smul_eq_mul]; ring
    have e2 : (fun k => v k + (0 : ℝ) * (w k - v k)) = v := by funext k; ring
    rw [slope_def_field, e2, sub_zero, div_le_iff₀ hx.1]
    rw [e1] at hc
    simp only [smul_eq_mul] at hc
    linarith
  linarith

theorem gradient_ge {t : Term} {K : Set (ℕ → ℝ)} (hK : ConcaveOn ℝ K t.eval) {v w : ℕ → ℝ} (hv : v ∈ K) (hw : w ∈ K)
    (hs : t.Smooth v) {vars : Finset ℕ} (hoff : ∀ j ∉ vars, w j = v j) :
    t.eval w ≤ t.eval v + ∑ j ∈ vars, (w j - v j) * pderiv j t.eval v := by
  have h := gradient_le (t := .un .neg t) (hK.neg) hv hw ⟨hs, trivial⟩ hoff
  have e : ∀ j, pderiv j (Term.un .neg t).eval v = -pderiv j t.eval v := fun j => by
    unfold pderiv
    exact deriv.fun_neg
  simp only [e, mul_neg, Finset.sum_neg_distrib] at h
  change -t.eval v + _ ≤ -t.eval w at h
  linarith

theorem sum_zipWith (vars : Finset ℕ) (ys : List ℝ) (ts : List Term) (d : ℕ → ℝ) (F : ℕ → Term → ℝ) :
    ∑ j ∈ vars, d j * (List.zipWith (fun y t => y * F j t) ys ts).sum =
      (List.zipWith (fun y t => y * ∑ j ∈ vars, d j * F j t) ys ts).sum := by
  induction ys generalizing ts with
  | nil => simp
  | cons y ys ih =>
    cases ts with
    | nil => simp
    | cons t ts =>
      simp only [List.zipWith_cons_cons, List.sum_cons, mul_add, Finset.sum_add_distrib, ih, Finset.mul_sum]
      congr 1
      refine Finset.sum_congr rfl fun j _ => by ring

theorem eq_part {tol : ℝ} (ht : 0 ≤ tol) {D C : Term → ℝ} (ys : List ℝ) {ts : List Term}
    (h : ∀ t ∈ ts, D t = -C t ∧ |C t| ≤ tol) :
    -(tol * (ys.map fun a => |a|).sum) ≤ (List.zipWith (fun y t => y * D t) ys ts).sum := by
  induction ys generalizing ts with
  | nil => simp
  | cons y ys ih =>
    cases ts with
    | nil =>
      simp only [List.zipWith_nil_right, List.sum_nil, Left.neg_nonpos_iff]
      refine mul_nonneg ht (List.sum_nonneg ?_)
      simp
    | cons t ts =>
      obtain ⟨h1, h2⟩ := h t (by simp)
      have h3 := ih (ts := ts) fun t ht => h t (by simp [ht])
      simp only [List.zipWith_cons_cons, List.sum_cons, List.map_cons, h1]
      have h4 : y * C t ≤ tol * |y| := by
        calc y * C t ≤ |y * C t| := le_abs_self _
          _ = |y| * |C t| := abs_mul _ _
          _ ≤ |y| * tol := mul_le_mul_of_nonneg_left h2 (abs_nonneg _)
          _ = _ := mul_comm _ _
      linarith

theorem ineq_part {tol B : ℝ} {D C W : Term → ℝ} {ts : List Term} {ss zs : List ℝ}
    (h1 : List.Forall₂ (fun t s => 0 < s ∧ |C t - s| ≤ tol) ts ss) (h2 : List.Forall₂ (fun s z => |s * z| ≤ B) ss zs)
    (hz : ∀ z ∈ zs, 0 < z) (h : ∀ t ∈ ts, W t - C t ≤ D t) :
    (List.zipWith (fun z t => z * W t) zs ts).sum ≤ (List.zipWith (fun z t => z * D t) zs ts).sum +
      tol * (zs.map fun a => |a|).sum + zs.length * B := by
  induction h1 generalizing zs with
  | nil => cases h2; simp
  | cons a _ ih =>
    cases h2 with
    | cons b h2 =>
      rename_i t s ts ss _ z zs
      have hz0 := hz z (by simp)
      have h3 := ih h2 (fun z hz' => hz z (by simp [hz'])) fun t ht => h t (by simp [ht])
      have h4 := h t (by simp)
      simp only [List.zipWith_cons_cons, List.sum_cons, List.map_cons, List.length_cons, Nat.cast_add, Nat.cast_one,
        abs_of_pos hz0]
      have h5 := mul_le_mul_of_nonneg_left h4 hz0.le
      have h6 := mul_le_mul_of_nonneg_left (abs_le.1 a.2).2 hz0.le
      have h7 := (abs_le.1 b).2
      nlinarith

/-- The first-order conditions bound the Lagrangian of a convex problem from below. -/
theorem lagrangian_bound {p : Problem} {K : Set (ℕ → ℝ)} (hp : p.Convex K) {tol : ℝ} (ht : 0 ≤ tol) {v w : ℕ → ℝ}
    (hv : v ∈ K) (hw : w ∈ K) (hoff : ∀ j ∉ p.vars, w j = v j) (hsm : p.Smooth v) {ys zs ss : List ℝ}
    (hk : NearKkt tol v p.vars p.objective.term (p.eqs.map UserExpr.term) (p.ineqs.map UserExpr.term) ys zs ss)
    (hz : ∀ z ∈ zs, 0 < z) (he : ∀ e ∈ p.eqs, e.term.eval w = 0) :
    p.objective.term.eval v + (List.zipWith (fun z t => z * t.eval w) zs (p.ineqs.map UserExpr.term)).sum ≤
      p.objective.term.eval w + tol * (Max.max 1 (((ys.map fun a => |a|).sum + (zs.map fun a => |a|).sum) /
        (ys.length + zs.length) / 100) * p.dist v w + (ys.map fun a => |a|).sum + (zs.map fun a => |a|).sum +
        zs.length * Max.max 1 ((zs.map fun a => |a|).sum / zs.length / 100)) := by
  have hoff' : ∀ j ∉ p.vars.toFinset, w j = v j := fun j hj => hoff j (by simpa using hj)
  have hf := gradient_le hp.objective hv hw hsm.f hoff'
  set S1 := Max.max 1 (((ys.map fun a => |a|).sum + (zs.map fun a => |a|).sum) / (ys.length + zs.length) / 100)
  set S2 := Max.max 1 ((zs.map fun a => |a|).sum / zs.length / 100)
  -- the gradient is the combination of the gradients of the constraints, up to the tolerance
  have hst : -(tol * S1 * p.dist v w) + (∑ j ∈ p.vars.toFinset, (w j - v j) *
        (List.zipWith (fun y t => y * pderiv j t.eval v) ys (p.eqs.map UserExpr.term)).sum) +
      (∑ j ∈ p.vars.toFinset, (w j - v j) *
        (List.zipWith (fun z t => z * pderiv j t.eval v) zs (p.ineqs.map UserExpr.term)).sum) ≤
      ∑ j ∈ p.vars.toFinset, (w j - v j) * pderiv j p.objective.term.eval v := by
    rw [Problem.dist, Finset.mul_sum, ← Finset.sum_neg_distrib, ← Finset.sum_add_distrib, ← Finset.sum_add_distrib]
    refine Finset.sum_le_sum fun j hj => ?_
    have h1 := hk.stationary j (by simpa using hj)
    generalize (List.zipWith (fun y t => y * pderiv j t.eval v) ys (p.eqs.map UserExpr.term)).sum = A at h1 ⊢
    generalize (List.zipWith (fun z t => z * pderiv j t.eval v) zs (p.ineqs.map UserExpr.term)).sum = B at h1 ⊢
    generalize pderiv j p.objective.term.eval v = G at h1 ⊢
    have h2 : -(tol * S1 * |w j - v j|) ≤ (w j - v j) * (G - A - B) := by
      have h3 : |(w j - v j) * (G - A - B)| ≤ tol * S1 * |w j - v j| := by
        rw [abs_mul, mul_comm]
        exact mul_le_mul_of_nonneg_right h1 (abs_nonneg _)
      exact (abs_le.1 h3).1
    linarith
  rw [sum_zipWith, sum_zipWith] at hst
  have hE := eq_part ht (D := fun t => ∑ j ∈ p.vars.toFinset, (w j - v j) * pderiv j t.eval v) (C := fun t => t.eval v)
    ys (ts := p.eqs.map UserExpr.term) (by
      intro t htm
      refine ⟨?_, hk.eq t htm⟩
      obtain ⟨e, he', rfl⟩ := List.mem_map.1 htm
      have hs := hsm.eqs _ htm
      have h1 := gradient_le (hp.eqs e he').1 hv hw hs hoff'
      have h2 := gradient_ge (hp.eqs e he').2 hv hw hs hoff'
      rw [he e he'] at h1 h2
      linarith)
  have hI := ineq_part (D := fun t => ∑ j ∈ p.vars.toFinset, (w j - v j) * pderiv j t.eval v) (C := fun t => t.eval v)
    (W := fun t => t.eval w) hk.slack hk.complementary hz (by
      intro t htm
      obtain ⟨e, he', rfl⟩ := List.mem_map.1 htm
      have h2 := gradient_ge (hp.ineqs e he') hv hw (hsm.ineqs _ htm) hoff'
      linarith)
  linarith

/-- C58: if `solve()` reports SUCCESS for a convex problem, no feasible point has a cost that is lower by more than the
tolerance times a factor made of the multipliers that the solver ended with and of the distance to that point. -/
theorem convex_success {p : Problem} {s : Store} (hok : p.Ok s) {ad : Autodiff} {env : Env} {opts : SolverOptions}
    {spy : Bool} {s' : Store} {o : p.Outcome} (h : p.solve ad env opts spy s = some (o, s'))
    (htol : 0 < opts.tolerance) (hs : o.status = .success) (hc : ¬ p.Constant) (hfin : AllFinite s'.val)
    (ho : o.Finite) (hsm : p.Smooth (reals s'.val))
    (hmul : (opts.feasibleIpm = false ∧ ∀ i a j, env.estimate i a j ≠ .nan) ∨ o.Positive) {K : Set (ℕ → ℝ)} (hp : p.Convex K) (hv : reals s'.val ∈ K) :
    ∃ ys zs : List ℝ, ys.length = p.eqs.length ∧ zs.length = p.ineqs.length ∧ (∀ z ∈ zs, 0 < z) ∧
      ∀ w ∈ K, (∀ j ∉ p.vars, w j = reals s'.val j) → p.Satisfies w →
        p.objective.term.eval (reals s'.val) ≤ p.objective.term.eval w + opts.tolerance *
          (Max.max 1 (((ys.map fun a => |a|).sum + zs.sum) / (ys.length + zs.length) / 100) * p.dist (reals s'.val) w +
            (ys.map fun a => |a|).sum + zs.sum + zs.length * Max.max 1 (zs.sum / zs.length / 100)) := by
  obtain ⟨ys, zs, ss, hk, hz⟩ := solve_success hok h htol hs hc hfin ho hsm
  have hz := hz hmul
  have hzs : (zs.map fun a => |a|).sum = zs.sum := by
    have h1 : (zs.map fun a => |a|) = zs.map id := List.map_congr_left fun z hz' => abs_of_pos (hz z hz')
    rw [h1, List.map_id]
  refine ⟨ys, zs, by simpa using hk.multipliers.1, by simpa using hk.multipliers.2, hz, fun w hw hoff hf => ?_⟩
  have h1 := lagrangian_bound hp htol.le hv hw hoff hsm hk hz hf.eqs
  rw [hzs] at h1
  refine le_trans (le_add_of_nonneg_right ?_) h1
  refine List.sum_nonneg fun a ha => ?_
  obtain ⟨i, hi, rfl⟩ := List.mem_iff_getElem.1 ha
  rw [List.getElem_zipWith]
  refine mul_nonneg (hz _ (List.getElem_mem _)).le ?_
  rw [List.getElem_map]
  exact hf.ineqs _ (List.getElem_mem _)

/-- C58 without equality constraints: if moreover some point `w₀` satisfies every inequality constraint with a margin of
`σ`, and the tolerance is small against the margin, then the excess over the optimum is bounded by the tolerance times a
factor that depends on the problem only: on the margin, the cost at `w₀` above a lower bound, the distances `R` and the
number of constraints. -/
theorem convex_success_slater {p : Problem} {s : Store} (hok : p.Ok s) {ad : Autodiff} {env : Env} {opts : SolverOptions}
    {spy : Bool} {s' : Store} {o : p.Outcome} (h : p.solve ad env opts spy s = some (o, s'))
    (htol : 0 < opts.tolerance) (hs : o.status = .success) (hc : ¬ p.Constant) (hfin : AllFinite s'.val)
    (ho : o.Finite) (hsm : p.Smooth (reals s'.val))
    (hmul : (opts.feasibleIpm = false ∧ ∀ i a j, env.estimate i a j ≠ .nan) ∨ o.Positive) {K : Set (ℕ → ℝ)} (hp : p.Convex K) (hv : reals s'.val ∈ K)
    (heq : p.eqs = []) {w₀ : ℕ → ℝ} (hw₀ : w₀ ∈ K) (hoff₀ : ∀ j ∉ p.vars, w₀ j = reals s'.val j) {σ R low : ℝ} (hσ : 0 < σ)
    (hmargin : ∀ e ∈ p.ineqs, σ ≤ e.term.eval w₀) (hR₀ : p.dist (reals s'.val) w₀ ≤ R)
    (hlow : low ≤ p.objective.term.eval (reals s'.val)) (hsmall : opts.tolerance * (1 + (R + 1) / 100) ≤ σ / 2)
    {Z : ℝ} (hZ : Z = 2 * (p.objective.term.eval w₀ - low + opts.tolerance * (R + p.ineqs.length)) / σ) :
    ∀ w ∈ K, (∀ j ∉ p.vars, w j = reals s'.val j) → p.Satisfies w → p.dist (reals s'.val) w ≤ R →
      p.objective.term.eval (reals s'.val) ≤ p.objective.term.eval w +
        opts.tolerance * ((1 + Z / 100) * R + Z + p.ineqs.length + Z / 100) := by
  obtain ⟨ys, zs, ss, hk, hz⟩ := solve_success hok h htol hs hc hfin ho hsm
  have hz := hz hmul
  have hzs : (zs.map fun a => |a|).sum = zs.sum := by
    have h1 : (zs.map fun a => |a|) = zs.map id := List.map_congr_left fun z hz' => abs_of_pos (hz z hz')
    rw [h1, List.map_id]
  have hlen : zs.length = p.ineqs.length := by simpa using hk.multipliers.2
  obtain rfl : ys = [] := List.eq_nil_of_length_eq_zero (by simpa [heq] using hk.multipliers.1)
  have hz0 : 0 ≤ zs.sum := List.sum_nonneg fun z hz' => (hz z hz').le
  have hR0 : 0 ≤ R := (p.dist_nonneg _ _).trans hR₀
  -- the two scaling factors
  have hdiv : zs.sum / zs.length ≤ zs.sum := by
    rcases Nat.eq_zero_or_pos zs.length with h0 | h0
    · rw [h0]; simpa using hz0
    · exact div_le_self hz0 (by exact_mod_cast h0)
  have hS1 : Max.max 1 (zs.sum / zs.length / 100) ≤ 1 + zs.sum / 100 := by
    refine max_le (by linarith [div_nonneg hz0 (by norm_num : (0 : ℝ) ≤ 100)]) ?_
    have := div_le_div_of_nonneg_right hdiv (by norm_num : (0 : ℝ) ≤ 100)
    linarith
  have hS2 : zs.length * Max.max 1 (zs.sum / zs.length / 100) ≤ zs.length + zs.sum / 100 := by
    rcases Nat.eq_zero_or_pos zs.length with h0 | h0
    · rw [h0]
      have := div_nonneg hz0 (by norm_num : (0 : ℝ) ≤ 100)
      simpa using this
    · have h0' : (0 : ℝ) < zs.length := by exact_mod_cast h0
      rw [mul_max_of_nonneg _ _ h0'.le, mul_one]
      refine max_le (by linarith [div_nonneg hz0 (by norm_num : (0 : ℝ) ≤ 100)]) ?_
      have : (zs.length : ℝ) * (zs.sum / zs.length / 100) = zs.sum / 100 := by field_simp
      rw [this]
      linarith
  have key : ∀ w ∈ K, (∀ j ∉ p.vars, w j = reals s'.val j) → p.dist (reals s'.val) w ≤ R → ∀ c, (∀ e ∈ p.ineqs, c ≤ e.term.eval w) →
      p.objective.term.eval (reals s'.val) + c * zs.sum ≤ p.objective.term.eval w +
        opts.tolerance * ((1 + zs.sum / 100) * R + zs.sum + p.ineqs.length + zs.sum / 100) := by
    intro w hw hoff hR c hcw
    have h1 := lagrangian_bound hp htol.le hv hw hoff hsm hk hz (by simp [heq])
    rw [hzs] at h1
    simp only [List.map_nil, List.sum_nil, List.length_nil, Nat.cast_zero, zero_add, add_zero] at h1
    have h2 : c * zs.sum ≤ (List.zipWith (fun z t => z * t.eval w) zs (p.ineqs.map UserExpr.term)).sum := by
      have : ∀ (zs : List ℝ) (es : List UserExpr), zs.length = es.length → (∀ z ∈ zs, 0 < z) →
          (∀ e ∈ es, c ≤ e.term.eval w) →
          c * zs.sum ≤ (List.zipWith (fun z t => z * t.eval w) zs (es.map UserExpr.term)).sum := by
        intro zs
        induction zs with
        | nil => simp
        | cons z zs ih =>
          intro es hl hz he
          cases es with
          | nil => simp at hl
          | cons e es =>
            have h3 := ih es (by simpa using hl) (fun z hz' => hz z (by simp [hz'])) fun e he' => he e (by simp [he'])
            have h4 := mul_le_mul_of_nonneg_left (he e (by simp)) (hz z (by simp)).le
            simp only [List.sum_cons, List.map_cons, List.zipWith_cons_cons]
            linarith
      exact this zs p.ineqs hlen hz hcw
    have h3 : Max.max 1 (zs.sum / zs.length / 100) * p.dist (reals s'.val) w ≤ (1 + zs.sum / 100) * R :=
      mul_le_mul hS1 hR (p.dist_nonneg _ _) (by linarith [div_nonneg hz0 (by norm_num : (0 : ℝ) ≤ 100)])
    have h4 : opts.tolerance * (Max.max 1 (zs.sum / zs.length / 100) * p.dist (reals s'.val) w + zs.sum +
        zs.length * Max.max 1 (zs.sum / zs.length / 100)) ≤
        opts.tolerance * ((1 + zs.sum / 100) * R + zs.sum + p.ineqs.length + zs.sum / 100) := by
      refine mul_le_mul_of_nonneg_left ?_ htol.le
      rw [← hlen]
      linarith
    linarith
  have hZ' : zs.sum ≤ Z := by
    have h1 := key w₀ hw₀ hoff₀ hR₀ σ hmargin
    rw [hZ, le_div_iff₀ hσ]
    have h2 := mul_le_mul_of_nonneg_right hsmall hz0
    nlinarith
  intro w hw hoff hf hR
  have h1 := key w hw hoff hR 0 hf.ineqs
  rw [zero_mul, add_zero] at h1
  refine h1.trans (add_le_add_right (mul_le_mul_of_nonneg_left ?_ htol.le) _)
  have := mul_le_mul_of_nonneg_right (show zs.sum / 100 ≤ Z / 100 by linarith) hR0
  linarith

end Slp
