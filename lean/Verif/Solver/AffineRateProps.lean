import Verif.Solver.AffineRateSpec
import Verif.Solver.AffineCase

/-! C81: with linear equality constraints the SQP solver converges quadratically near a minimiser. -/

namespace Slp

open Classical Matrix Set

variable {n m : ℕ}

theorem squaredBound_pos {a L : ℝ} (ha : 0 < a) (hL : 0 < L) (k : ℕ) : 0 < squaredBound a L k := by
  unfold squaredBound; positivity

theorem squaredBound_anti {a L : ℝ} (ha : 0 < a) (hL : 0 < L) {k l : ℕ} (h : k ≤ l) :
    squaredBound a L l ≤ squaredBound a L k := by
  unfold squaredBound
  exact mul_le_mul_of_nonneg_left (pow_le_pow_of_le_one (by norm_num) (by norm_num)
    (Nat.pow_le_pow_right (by norm_num) h)) (by positivity)

theorem squaredBound_zero {a L : ℝ} : squaredBound a L 0 = a ^ 2 / L := by
  unfold squaredBound
  rw [pow_zero, pow_one]
  ring

theorem squaredBound_succ {a L : ℝ} (ha : 0 < a) (hL : 0 < L) (k : ℕ) :
    L / 2 * (squaredBound a L k / a) ^ 2 = squaredBound a L (k + 1) := by
  unfold squaredBound
  rw [pow_succ 2 k, pow_mul]
  field_simp

theorem abs_dot_le (v w : Fin n → ℝ) : |v ⬝ᵥ w| ≤ euclid v * euclid w := by
  rw [← Real.sqrt_sq (mul_nonneg (euclid_nonneg v) (euclid_nonneg w)), ← Real.sqrt_sq_eq_abs]
  refine Real.sqrt_le_sqrt ?_
  rw [mul_pow, euclid_sq, euclid_sq]
  simp only [dotProduct, ← pow_two]
  exact Finset.sum_mul_sq_le_sq_mul_sq _ _ _

/-- The residual bounds the slope. -/
theorem AffineProblem.slope_of_residual (q : AffineProblem n m) {v : Fin n → ℝ} {y : Fin m → ℝ} {γ : ℝ}
    (h : euclid (q.cost.g v - q.Aᵀ *ᵥ y) ≤ γ) : q.SlopeAtMost v γ := by
  intro r hr
  have e : q.cost.g v ⬝ᵥ r = (q.cost.g v - q.Aᵀ *ᵥ y) ⬝ᵥ r := by
    rw [sub_dotProduct, dotProduct_comm (q.Aᵀ *ᵥ y), dotProduct_mulVec, vecMul_transpose, hr, zero_dotProduct, sub_zero]
  rw [e]
  exact (abs_dot_le _ _).trans (mul_le_mul_of_nonneg_right h (euclid_nonneg r))

/-- The slope bounds the step. -/
theorem AffineProblem.step_of_slope (q : AffineProblem n m) {v p : Fin n → ℝ} {z : Fin m → ℝ} {a γ : ℝ} (ha : 0 < a)
    (hH : a * (p ⬝ᵥ p) ≤ p ⬝ᵥ q.cost.H v *ᵥ p) (h1 : q.cost.g v + q.cost.H v *ᵥ p = q.Aᵀ *ᵥ z) (h2 : q.A *ᵥ p = 0)
    (hγ : q.SlopeAtMost v γ) (h0 : 0 ≤ γ) : euclid p ≤ γ / a := by
  have h3 : a * euclid p ^ 2 ≤ γ * euclid p := by
    rw [euclid_sq]
    refine hH.trans ?_
    rw [affine_slope h1 h2]
    exact (neg_le_abs _).trans (hγ p h2)
  rw [le_div_iff₀ ha]
  rcases eq_or_lt_of_le (euclid_nonneg p) with h | h
  · rw [← h, zero_mul]; exact h0
  · nlinarith

/-- What the solver returns. -/
structure AffineFast (opts : SolverOptions) (P : Nlp n m 0) (q : AffineProblem n m) (u : Fin n → ℝ) (a L : ℝ)
    (res : SqpResult n m) : Prop where
  finite : res.x.Finite ∧ res.y.Finite
  level : res.x.real ∈ q.level u
  slope : q.SlopeAtMost res.x.real (squaredBound a L res.iterations)
  residual : 0 < res.iterations → euclid (q.cost.g res.x.real - q.Aᵀ *ᵥ res.y.real) ≤ squaredBound a L res.iterations
  few : ∀ k, 0 < k → squaredBound a L k ≤ opts.tolerance * P.scaling.f → res.iterations ≤ k
  status : res.status = .success ∧
      unscaledInfSqp P.scaling (q.cost.g res.x.real) q.A (fun _ => 0) res.y.real ≤ opts.tolerance ∨
    res.status = .callbackRequestedStop ∨ res.status = .timeout ∨
    res.status = .maxIterationsExceeded ∧ opts.maxIterations ≤ res.iterations

theorem sqpLoop_fast {env : Env} {opts : SolverOptions} (ht : 0 < opts.tolerance) {P : Nlp n m 0}
    {q : AffineProblem n m} (hP : P.IsAffine q) (hS : P.scaling.PositiveFactors) (hfac : ∀ i, env.factor i = true)
    {u : Fin n → ℝ} (hcl : IsClosed (q.level u)) (hbox : ∀ v ∈ q.level u, ∀ j, |v j| ≤ 1e10) {a b L : ℝ} (ha : 0 < a)
    (hH : q.Curvature (q.level u) a b) (hL0 : 0 < L)
    (hL : q.cost.LipschitzHessian (q.level u) L) (hE : ∀ v ∈ q.level u, ∀ y, env.Plain (q.system v y))
    {cbs : List Callback} {start : ℝ} (k : ℕ) (st : SqpState n m) (w : World) (v : Fin n → ℝ) (y : Fin m → ℝ)
    (hst : st.AtPoint P q v y) (hv : v ∈ q.level u)
    (hslope : q.SlopeAtMost v (squaredBound a L st.iterations))
    (hresid : 0 < st.iterations → euclid (q.cost.g v - q.Aᵀ *ᵥ y) ≤ squaredBound a L st.iterations)
    (hfew : ∀ k, 0 < k → squaredBound a L k ≤ opts.tolerance * P.scaling.f → st.iterations ≤ k)
    (res : SqpResult n m) (hres : sqpLoop env opts P cbs start k st w = some res) :
    AffineFast opts P q u a L res := by
  induction k generalizing st w v y with
  | zero => exact absurd hres (by simp [sqpLoop])
  | succ k ih =>
    have hreg := hst.regular
    have hxr : st.x.real = v := by rw [hst.x]; rfl
    have hyr : st.y.real = y := by rw [hst.y]; rfl
    have here : ∀ status w', (status = .success ∧
        unscaledInfSqp P.scaling (q.cost.g v) q.A (fun _ => 0) y ≤ opts.tolerance ∨
        status = .callbackRequestedStop ∨ status = .timeout) → AffineFast opts P q u a L (st.exit status w') := by
      intro status w' h
      refine ⟨⟨hreg.x, hreg.y⟩, ?_, ?_, ?_, hfew, ?_⟩
      · show st.x.real ∈ _; rw [hxr]; exact hv
      · show q.SlopeAtMost st.x.real _; rw [hxr]; exact hslope
      · show 0 < st.iterations → euclid (q.cost.g st.x.real - q.Aᵀ *ᵥ st.y.real) ≤ _
        rw [hxr, hyr]; exact hresid
      · show status = .success ∧ unscaledInfSqp P.scaling (q.cost.g st.x.real) q.A (fun _ => 0) st.y.real ≤ _ ∨ _
        rw [hxr, hyr]
        rcases h with h | h | h
        · exact .inl h
        · exact .inr (.inl h)
        · exact .inr (.inr (.inl h))
    rw [sqpLoop] at hres
    by_cases c1 : ¬ st.E0 > .fin opts.tolerance
    · rw [if_pos c1] at hres
      obtain rfl := Option.some.inj hres
      refine here _ _ (.inl ⟨rfl, ?_⟩)
      rwa [hst.E0, gt_iff_lt, Fl.fin_lt, not_lt] at c1
    rw [if_neg c1] at hres
    have hfew' : ∀ k, 0 < k → squaredBound a L k ≤ opts.tolerance * P.scaling.f → st.iterations + 1 ≤ k := by
      intro k hk hk'
      rcases Nat.lt_or_ge st.iterations k with h | h
      · exact h
      · exfalso
        rw [not_not, hst.E0, gt_iff_lt, Fl.fin_lt] at c1
        refine absurd (unscaledInfSqp_le hS ht.le fun j => ?_) (not_le.2 c1)
        exact (abs_le_euclid _ j).trans ((hresid (hk.trans_le h)).trans ((squaredBound_anti ha hL0 h).trans hk'))
    have hinf : ¬ eqInfeasible env st.e.Ae st.e.ce := by
      unfold eqInfeasible
      rw [if_pos ⟨hreg.Ae, hreg.ce⟩, hst.ce]
      rintro ⟨-, -, h3⟩
      have : twoNorm (Vec.real fun _ : Fin m => Fl.fin 0) = 0 := by simp [twoNorm, Vec.real, Fl.toReal]
      rw [this] at h3
      norm_num at h3
    rw [if_neg hinf] at hres
    have hdiv : ¬ diverging env st.x := by
      rw [diverging, not_or, not_not]
      refine ⟨?_, hreg.x⟩
      rw [infNormF, if_pos hreg.x, hxr, gt_iff_lt, Fl.fin_lt, not_lt, infNorm_le]
      exact ⟨by norm_num, hbox v hv⟩
    rw [if_neg hdiv] at hres
    simp only at hres
    by_cases c3 : (runRegistered st.info 0 cbs w.calls).2 = true
    · rw [if_pos c3] at hres
      obtain rfl := Option.some.inj hres
      exact here _ _ (.inr (.inl rfl))
    rw [if_neg c3] at hres
    unfold sqpMove at hres
    rw [if_neg (by rw [hfac]; simp)] at hres
    simp only at hres
    obtain ⟨p, r, s1, s2, h1, h2⟩ := affine_step hst hv.1.1 hv.2 (hE v hv y) w.solves
    rw [← hst.ce] at s1 s2
    have hdot : dotF env st.e.g (sqpComputeStep env st st.e.ce w.solves).px = .fin (q.cost.g v ⬝ᵥ p) := by
      rw [dotF_fin hreg.g (by rw [s1]; exact fun _ => rfl), hst.g, s1]; rfl
    rw [hdot] at hres
    have hγ := squaredBound_pos ha hL0 st.iterations
    have hp := q.step_of_slope ha (hH v hv p h2).1 h1 h2 hslope hγ.le
    have hLp : L * euclid p ≤ a := by
      have h3 : squaredBound a L st.iterations ≤ a ^ 2 / L := by
        rw [← squaredBound_zero]; exact squaredBound_anti ha hL0 (Nat.zero_le _)
      rw [le_div_iff₀ ha] at hp
      rw [le_div_iff₀ hL0] at h3
      nlinarith
    obtain ⟨⟨F', hls, hopen⟩, hlev, -, hquad⟩ := affine_full (env := env) hP hst hcl hv ha hL0 hH hL s1 s2 h1 h2 hLp
      (lineSearchRounds - 1) st.rejected (w.solves + 1)
    rw [show lineSearchRounds - 1 + 1 = lineSearchRounds from rfl] at hls
    rw [hls] at hres
    simp only [Option.bind_some, Option.elim, SqpMoved.elim] at hres
    have hres' : euclid (q.cost.g (v + p) - q.Aᵀ *ᵥ (y + r)) ≤ squaredBound a L (st.iterations + 1) := by
      rw [← squaredBound_succ ha hL0]
      exact hquad.trans (mul_le_mul_of_nonneg_left (pow_le_pow_left₀ (euclid_nonneg p) hp 2) (by positivity))
    have hslope' := q.slope_of_residual hres'
    split at hres
    · rename_i c4
      obtain rfl := Option.some.inj hres
      exact ⟨⟨fun _ => rfl, fun _ => rfl⟩, hlev, hslope', fun _ => hres', hfew', .inr (.inr (.inr ⟨rfl, c4⟩))⟩
    split at hres
    · obtain rfl := Option.some.inj hres
      exact ⟨⟨fun _ => rfl, fun _ => rfl⟩, hlev, hslope', fun _ => hres', hfew', .inr (.inr (.inl rfl))⟩
    by_cases hp0 : p = 0
    · -- the residual vanishes
      cases k with
      | zero => exact absurd hres (by simp [sqpLoop])
      | succ k =>
        have hz : q.cost.g (v + p) - q.Aᵀ *ᵥ (y + r) = 0 := by
          rw [hp0, mulVec_zero, add_zero] at h1
          rw [hp0, add_zero, h1, sub_self]
        have herr : unscaledInfSqp P.scaling (q.cost.g (v + p)) q.A (fun _ => 0) (y + r) ≤ opts.tolerance :=
          unscaledInfSqp_le hS ht.le fun j => by
            rw [hz]
            have := hS.f_pos
            simpa using mul_nonneg ht.le this.le
        have hdone : errZeroSqp env P.scaling
            ((SqpTrial.mk (fun j => Fl.fin ((v + p) j)) (fun j => Fl.fin ((y + r) j)) (Fl.fin (q.cost.f (v + p)))
              fun _ : Fin m => Fl.fin 0).eval P) (fun j => .fin ((y + r) j)) =
            .fin (unscaledInfSqp P.scaling (q.cost.g (v + p)) q.A (fun _ => 0) (y + r)) :=
          (affine_next (env := env) (st := { st with filter := .make (.fin 0) }) hP (y := y + r) hlev.1.1 filter_make_open 1
            0).E0
        rw [sqpLoop, if_pos (by
          simp only [SqpState.accept]
          rw [hdone, gt_iff_lt, Fl.fin_lt, not_lt]
          exact herr)] at hres
        obtain rfl := Option.some.inj hres
        exact ⟨⟨fun _ => rfl, fun _ => rfl⟩, hlev, hslope', fun _ => hres', hfew', .inl ⟨rfl, herr⟩⟩
    · exact ih _ _ (v + p) (y + r) (affine_next hP hlev.1.1 (hopen hp0) 1 _) hlev hslope' (fun _ => hres') hfew' hres

/-- C81: with linear equality constraints and a guess that meets them and at which the slope of the cost along the
constraints is at most `a²/L`, where the Hessian has curvatures of at least `a` along the constraints and is Lipschitz
continuous with constant `L`. After `k` iterations the slope along the constraints, relative to `2a²/L`, is at most
`(1/2)^(2^k)`, and so is the residual of the optimality conditions at the returned primal and dual variables. The run ends
with SUCCESS unless a callback or the timeout stopped it or the iteration limit is at most the number of iterations that
this bound needs to reach the tolerance. -/
theorem sqp_affine_fast {env : Env} {opts : SolverOptions} (ht : 0 < opts.tolerance) {P : Nlp n m 0}
    {q : AffineProblem n m} (hP : P.IsAffine q) (hS : P.scaling.PositiveFactors) (hmn : m ≤ n) {x : Vec n} (hx : x.Finite)
    (hdom : x.real ∈ q.cost.dom) (hfeas : x.real ∈ q.feasible) (hfac : ∀ i, env.factor i = true)
    (hE : ∀ v ∈ q.level x.real, ∀ y, env.Plain (q.system v y)) (hcl : IsClosed (q.level x.real))
    (hbox : ∀ v ∈ q.level x.real, ∀ j, |v j| ≤ 1e10)
    {a b L : ℝ} (ha : 0 < a) (hH : q.Curvature (q.level x.real) a b) (hL0 : 0 < L)
    (hL : q.cost.LipschitzHessian (q.level x.real) L) (hnear : q.SlopeAtMost x.real (a ^ 2 / L)) (cbs : List Callback)
    {k : ℕ} (hk0 : 0 < k) (hk : squaredBound a L k ≤ opts.tolerance * P.scaling.f) :
    ∃ res, sqp env opts P cbs x .start = some res ∧ res.x.Finite ∧ res.y.Finite ∧ res.x.real ∈ q.cost.dom ∧
      res.x.real ∈ q.feasible ∧ q.cost.f res.x.real ≤ q.cost.f x.real ∧
      q.SlopeAtMost res.x.real (squaredBound a L res.iterations) ∧
      (0 < res.iterations → euclid (q.cost.g res.x.real - q.Aᵀ *ᵥ res.y.real) ≤ squaredBound a L res.iterations) ∧
      res.iterations ≤ k ∧
      (res.status = .success ∧
          unscaledInfSqp P.scaling (q.cost.g res.x.real) q.A (fun _ => 0) res.y.real ≤ opts.tolerance ∨
        res.status = .callbackRequestedStop ∨ res.status = .timeout ∨
        res.status = .maxIterationsExceeded ∧ opts.maxIterations ≤ k) := by
  obtain ⟨res, h1, -⟩ := sqp_correct_partial env opts P cbs x ht
  have hlev : x.real ∈ q.level x.real := ⟨⟨hdom, le_rfl⟩, hfeas⟩
  have hxe : x = fun j => .fin (x.real j) := funext fun j => Fl.finite_toReal (hx j)
  have h0 : (sqpInit env P x fun _ => 0).AtPoint P q x.real fun _ => 0 := by
    have := sqpInit_affine env hP hdom hfeas
    rwa [← hxe] at this
  have h2 := h1
  unfold sqp sqpRun at h2
  simp only at h2
  have hreg := h0.regular
  rw [if_neg (by omega), if_neg (by
    rw [not_not]
    exact ⟨by rw [h0.f]; rfl, hreg.g, hreg.H, hreg.ce, hreg.Ae, fun i => i.elim0, fun i => i.elim0⟩)] at h2
  have hfin := sqpLoop_fast ht hP hS hfac hcl hbox ha hH hL0 hL hE _ _ _ _ _ h0 hlev
    (by rw [show (sqpInit env P x fun _ => 0).iterations = 0 from rfl, squaredBound_zero]; exact hnear)
    (fun h => absurd h (Nat.lt_irrefl 0)) (fun _ _ _ => Nat.zero_le _) res h2
  have hl := hfin.level
  refine ⟨res, h1, hfin.finite.1, hfin.finite.2, hl.1.1, hl.2, hl.1.2, hfin.slope, hfin.residual, hfin.few k hk0 hk, ?_⟩
  rcases hfin.status with h | h | h | ⟨h, h'⟩
  · exact .inl h
  · exact .inr (.inl h)
  · exact .inr (.inr (.inl h))
  · exact .inr (.inr (.inr ⟨h, h'.trans (by exact_mod_cast hfin.few k hk0 hk)⟩))

/-! ### An example: minimise `y − log x` subject to `x = y`, from (1.05, 1.05) -/

/-- The guess. -/
noncomputable def nearGuess : Vec 2 := fun _ => .fin 1.05

theorem near_le : slopeCost.f nearGuess.real ≤ slopeCost.f slopeGuess.real := by
  show (1.05 : ℝ) - Real.log 1.05 ≤ 1.1 - Real.log 1.1
  have h := Real.log_le_sub_one_of_pos (show (0 : ℝ) < 1.1 / 1.05 by norm_num)
  rw [Real.log_div (by norm_num) (by norm_num)] at h
  norm_num at h ⊢
  linarith

/-- The residual is at most 1e-8 after at most five iterations. -/
example : ∃ res, sqp plainEnv ⟨1e-8, 5000, .pinf, false⟩ slopeNlp [] nearGuess .start = some res ∧ res.iterations ≤ 5 ∧
    res.status ≠ .maxIterationsExceeded ∧ res.x.real 1 = res.x.real 0 ∧
    (0 < res.iterations → euclid (slopeCost.g res.x.real - slopeProblem.Aᵀ *ᵥ res.y.real) ≤
      0.08 * (1 / 2) ^ 2 ^ res.iterations) := by
  obtain ⟨res, h1, -, -, -, h2, -, -, h3, h4, h5⟩ := sqp_affine_fast (env := plainEnv) (opts := ⟨1e-8, 5000, .pinf, false⟩)
    (by norm_num) slopeNlp_isAffine trivial (by norm_num) (x := nearGuess) (fun _ => rfl)
    (show (0 : ℝ) < 1.05 by norm_num) (slope_feasible.2 rfl) (fun _ => rfl) (fun v hv => slope_plain v (slope_sub near_le hv))
    (slope_sub_closed near_le) (fun v hv => slopeLevel_box v (slope_sub near_le hv)) (a := 0.4) (b := 1) (L := 4) (by norm_num)
    (fun v hv => slope_curvature v (slope_sub near_le hv)) (by norm_num)
    (fun v hv w hw => slope_lipschitz v (slope_sub near_le hv) w (slope_sub near_le hw)) (fun r hr => by
      have e := slope_null hr
      have e1 : slopeProblem.cost.g nearGuess.real ⬝ᵥ r = (1 - (1.05 : ℝ)⁻¹) * r 0 := by
        show slopeCost.g nearGuess.real ⬝ᵥ r = _
        simp [slopeCost, nearGuess, Vec.real, Fl.toReal, dotProduct, Fin.sum_univ_two, e]
        ring
      have e2 : 1.4 * |r 0| ≤ euclid r := by
        refine Real.le_sqrt_of_sq_le ?_
        rw [dotProduct, Fin.sum_univ_two, e, mul_pow, sq_abs]
        nlinarith [sq_nonneg (r 0)]
      rw [e1, abs_mul, abs_of_nonneg (by norm_num)]
      have := abs_nonneg (r 0)
      norm_num at e2 ⊢
      linarith) [] (k := 5) (by norm_num) (by
      show squaredBound 0.4 4 5 ≤ (1e-8 : ℝ) * 1
      unfold squaredBound
      norm_num)
  refine ⟨res, h1, h4, ?_, slope_feasible.1 h2, fun h => ?_⟩
  · rintro h
    rw [h] at h5
    rcases h5 with h5 | h5 | h5 | h5
    · exact absurd h5.1 (by simp)
    · exact absurd h5 (by simp)
    · exact absurd h5 (by simp)
    · exact absurd h5.2 (by norm_num)
  · have := h3 h
    unfold squaredBound at this
    have e : 2 * (0.4 : ℝ) ^ 2 / 4 = 0.08 := by norm_num
    rwa [e] at this

end Slp
