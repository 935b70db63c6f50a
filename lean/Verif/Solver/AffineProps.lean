import Verif.Solver.AffineLemmas
import Verif.Solver.SqpProps

/-! C78: with linear equality constraints the SQP solver converges from feasible guesses. -/

namespace Slp

open Classical Matrix Set

variable {n m : ℕ}

theorem Scaling.PositiveFactors.f_pos {k : ℕ} {S : Scaling m k} (h : S.PositiveFactors) : 0 < S.f := by
  cases S with
  | identity => exact one_pos
  | factors f _ _ => exact h.1

/-- A small residual passes the stopping test. -/
theorem unscaledInfSqp_le {S : Scaling m 0} (hS : S.PositiveFactors) {g : Fin n → ℝ} {A : Matrix (Fin m) (Fin n) ℝ}
    {y : Fin m → ℝ} {t : ℝ} (ht : 0 ≤ t) (h : ∀ j, |(g - Aᵀ *ᵥ y) j| ≤ t * S.f) :
    unscaledInfSqp S g A (fun _ => 0) y ≤ t := by
  have base : ∀ {g : Fin n → ℝ} {A : Matrix (Fin m) (Fin n) ℝ} {y : Fin m → ℝ}, (∀ j, |(g - Aᵀ *ᵥ y) j| ≤ t) →
      kktInfSqp g A (fun _ => 0) y ≤ t := by
    intro g A y h
    unfold kktInfSqp
    simp only
    have h1 : 1 ≤ Max.max 100 (oneNorm y / m) / 100 := by
      rw [le_div_iff₀ (by norm_num), one_mul]
      exact le_max_left _ _
    rw [infNorm_zero]
    refine max_le ?_ ht
    refine (div_le_self ?_ h1).trans (infNorm_le.2 ⟨ht, h⟩)
    exact infNorm_nonneg _
  unfold unscaledInfSqp
  split
  · rename_i hI
    refine base fun j => ?_
    have := h j
    cases S with
    | identity => rwa [show Scaling.f (.identity : Scaling m 0) = 1 from rfl, mul_one] at this
    | factors f _ _ => rwa [show Scaling.f (.factors f _ _ : Scaling m 0) = f from rfl, hI.1, mul_one] at this
  · cases S with
    | identity =>
      refine base fun j => ?_
      have := h j
      rwa [show Scaling.f (.identity : Scaling m 0) = 1 from rfl, mul_one] at this
    | factors f de di =>
      simp only [mul_zero]
      refine base fun j => ?_
      have hf : 0 < f := hS.1
      have e : ((fun j => 1 / f * g j) - (rowScale (fun i => (de i)⁻¹) A)ᵀ *ᵥ fun i => de i * y i * (1 / f)) j =
          1 / f * (g - Aᵀ *ᵥ y) j := by
        simp only [Pi.sub_apply, Matrix.mulVec, dotProduct, Matrix.transpose_apply, rowScale, mul_sub, Finset.mul_sum]
        congr 1
        refine Finset.sum_congr rfl fun i _ => ?_
        have := (hS.2.1 i).ne'
        field_simp
      rw [e, abs_mul, abs_of_pos (by positivity), one_div, inv_mul_le_iff₀ hf, mul_comm]
      exact h j

/-- The length, squared, of steps after which the solver is done. -/
noncomputable def shortStep (a L tol : ℝ) : ℝ := min ((a / L) ^ 2) (2 * tol / L)

/-- The decrease of the cost in an iteration with a longer step. -/
noncomputable def affineDecrease (a b L tol : ℝ) : ℝ := 1e-8 * min 1 (0.99 * (a / b)) * (a * shortStep a L tol)

theorem affineDecrease_pos {a b L tol : ℝ} (ha : 0 < a) (hb : 0 < b) (hL : 0 < L) (ht : 0 < tol) :
    0 < affineDecrease a b L tol := by
  have h1 : 0 < min 1 (0.99 * (a / b)) := lt_min one_pos (by positivity)
  have h2 : 0 < shortStep a L tol := lt_min (by positivity) (by positivity)
  unfold affineDecrease
  positivity

theorem filter_make_open : (Filter.make (.fin 0)).Open := by
  refine ⟨by simp [Filter.make], ?_, ?_⟩
  · simp only [Filter.make]
    rw [Fl.one_def, Fl.max_fin, Fl.fin_mul, Fl.fin_le]; norm_num
  · simp only [Filter.make, gt_iff_lt]
    rw [Fl.one_def, Fl.max_fin, Fl.fin_mul, Fl.fin_lt]; norm_num

/-- A full step that is short compared to the change of the Hessian is accepted, and the residual at its end is
quadratically small. -/
theorem affine_full {env : Env} {st : SqpState n m} {P : Nlp n m 0} {q : AffineProblem n m} (hP : P.IsAffine q)
    {u v : Fin n → ℝ} {y : Fin m → ℝ} (h : st.AtPoint P q v y) (hcl : IsClosed (q.level u)) (hv : v ∈ q.level u)
    {a b L : ℝ} (ha : 0 < a) (hL0 : 0 < L) (hH : q.Curvature (q.level u) a b)
    (hL : q.cost.LipschitzHessian (q.level u) L) {S : SqpStep n m} {p : Fin n → ℝ} {r : Fin m → ℝ}
    (s1 : S.px = fun j => .fin (p j)) (s2 : S.py = fun j => .fin (r j))
    (h1 : q.cost.g v + q.cost.H v *ᵥ p = q.Aᵀ *ᵥ (y + r)) (h2 : q.A *ᵥ p = 0) (hLp : L * euclid p ≤ a) (k : ℕ)
    (c i : ℕ) :
    (∃ F', sqpLineSearch env P st S (.fin (q.cost.g v ⬝ᵥ p)) (k + 1) 1 st.filter c i = some ⟨some (.filter,
      ⟨fun j => .fin ((v + p) j), fun j => .fin ((y + r) j), .fin (q.cost.f (v + p)), fun _ => .fin 0⟩, 1), 1, F', c, i⟩ ∧
      (p ≠ 0 → F'.Open)) ∧
      v + p ∈ q.level u ∧ q.cost.f (v + p) ≤ q.cost.f v ∧
      euclid (q.cost.g (v + p) - q.Aᵀ *ᵥ (y + r)) ≤ L / 2 * euclid p ^ 2 := by
  have hcurv := affine_slope h1 h2
  have hpos := hH v hv p h2
  have hfeas : v + p ∈ q.feasible := by simpa using feasible_line hv.2 h2 1
  have key : ∀ hacc : (st.filter.tryAdd ⟨.fin (q.cost.f v), .fin 0⟩ ⟨.fin (q.cost.f (v + p)), .fin 0⟩
      (.fin (q.cost.g v ⬝ᵥ p)) 1).2 = true, v + p ∈ q.cost.dom →
      sqpLineSearch env P st S (.fin (q.cost.g v ⬝ᵥ p)) (k + 1) 1 st.filter c i = some ⟨some (.filter,
        ⟨fun j => .fin ((v + p) j), fun j => .fin ((y + r) j), .fin (q.cost.f (v + p)), fun _ => .fin 0⟩, 1), 1,
        (st.filter.tryAdd ⟨.fin (q.cost.f v), .fin 0⟩ ⟨.fin (q.cost.f (v + p)), .fin 0⟩ (.fin (q.cost.g v ⬝ᵥ p)) 1).1,
        c, i⟩ := by
    intro hacc hdom
    rw [sqpLineSearch]
    simp only
    rw [Fl.one_def, affine_trial hP h hv.2 s1 s2 h2, one_smul, one_smul]
    simp only
    rw [hP.f_at hdom, if_neg (by rw [not_not]; exact ⟨rfl, fun _ => rfl⟩), sqpEntry_feasible, h.entry, ← Fl.one_def,
      if_pos hacc]
  by_cases hp0 : p = 0
  · have e : v + p = v := by rw [hp0, add_zero]
    rw [e] at key ⊢
    refine ⟨⟨_, key (feasible_tryAdd_zero h.filter (by rw [hp0, dotProduct_zero]; exact lt_irrefl _)) hv.1.1,
      fun h => absurd hp0 h⟩, hv, le_rfl, ?_⟩
    rw [hp0, mulVec_zero, add_zero] at h1
    rw [h1, sub_self, euclid, dotProduct_zero, Real.sqrt_zero]
    positivity
  · have hpp : 0 < p ⬝ᵥ p := lt_of_le_of_ne (dot_self_nonneg p) fun h => hp0 (dotProduct_self_eq_zero.1 h.symm)
    have hD : q.cost.g v ⬝ᵥ p < 0 := by nlinarith [hpos.1]
    obtain ⟨l1, l2, l3⟩ := q.cost.full_step_on (K := q.feasible) (feasible_line hv.2 h2) hcl hv.1 ha hL0.le hL hcurv
      (by rw [← hcurv]; exact hpos.1) hp0 hLp
    obtain ⟨t1, t2, -⟩ := feasible_tryAdd h.filter (f0 := q.cost.f v) (f1 := q.cost.f (v + p)) (a := 1) hD one_pos
    refine ⟨⟨_, key (by rw [Fl.one_def]; exact t1.2 (by rw [mul_one]; exact l2)) l1.1,
      fun _ => by rw [Fl.one_def]; exact t2⟩, ⟨l1, hfeas⟩, ?_, ?_⟩
    · have : 1e-8 * (q.cost.g v ⬝ᵥ p) ≤ 0 := mul_nonpos_of_nonneg_of_nonpos (by norm_num) hD.le
      linarith
    · rw [← h1]
      exact l3

/-- After a short step the residual is small. -/
theorem affine_short {env : Env} {st : SqpState n m} {P : Nlp n m 0} {q : AffineProblem n m} (hP : P.IsAffine q)
    {u v : Fin n → ℝ} {y : Fin m → ℝ} (h : st.AtPoint P q v y) (hcl : IsClosed (q.level u)) (hv : v ∈ q.level u)
    {a b L tol : ℝ} (ha : 0 < a) (hL0 : 0 < L) (htol : 0 < tol) (hH : q.Curvature (q.level u) a b)
    (hL : q.cost.LipschitzHessian (q.level u) L) {S : SqpStep n m} {p : Fin n → ℝ} {r : Fin m → ℝ}
    (s1 : S.px = fun j => .fin (p j)) (s2 : S.py = fun j => .fin (r j))
    (h1 : q.cost.g v + q.cost.H v *ᵥ p = q.Aᵀ *ᵥ (y + r)) (h2 : q.A *ᵥ p = 0) (hp : p ⬝ᵥ p ≤ shortStep a L tol) (k : ℕ)
    (c i : ℕ) :
    (∃ F', sqpLineSearch env P st S (.fin (q.cost.g v ⬝ᵥ p)) (k + 1) 1 st.filter c i = some ⟨some (.filter,
      ⟨fun j => .fin ((v + p) j), fun j => .fin ((y + r) j), .fin (q.cost.f (v + p)), fun _ => .fin 0⟩, 1), 1, F', c, i⟩) ∧
      v + p ∈ q.level u ∧ q.cost.f (v + p) ≤ q.cost.f v ∧ ∀ j, |(q.cost.g (v + p) - q.Aᵀ *ᵥ (y + r)) j| ≤ tol := by
  have hLp : L * euclid p ≤ a := by
    have h3 : euclid p ^ 2 ≤ (a / L) ^ 2 := by rw [euclid_sq]; exact hp.trans (min_le_left _ _)
    have h4 : euclid p ≤ a / L := (sq_le_sq₀ (euclid_nonneg p) (by positivity)).1 h3
    rw [le_div_iff₀ hL0] at h4
    linarith
  obtain ⟨⟨F', hF, -⟩, l1, l2, l3⟩ := affine_full (env := env) hP h hcl hv ha hL0 hH hL s1 s2 h1 h2 hLp k c i
  refine ⟨⟨F', hF⟩, l1, l2, fun j => (abs_le_euclid _ j).trans (l3.trans ?_)⟩
  rw [euclid_sq]
  calc L / 2 * (p ⬝ᵥ p) ≤ L / 2 * (2 * tol / L) :=
        mul_le_mul_of_nonneg_left (hp.trans (min_le_right _ _)) (by positivity)
    _ = tol := by field_simp

/-- The state after an accepted step to a feasible point. -/
theorem affine_next {env : Env} {st : SqpState n m} {P : Nlp n m 0} {q : AffineProblem n m} (hP : P.IsAffine q)
    {v : Fin n → ℝ} {y : Fin m → ℝ} (hv : v ∈ q.cost.dom) (hF : st.filter.Open) (α : Fl) (it : ℕ) :
    let t : SqpTrial n m := ⟨fun j => .fin (v j), fun j => .fin (y j), .fin (q.cost.f v), fun _ => .fin 0⟩
    SqpState.AtPoint { st.accept P t α with
      E0 := errZeroSqp env P.scaling (st.accept P t α).e (st.accept P t α).y, iterations := it } P q v y := by
  have hg : P.g (fun j => Fl.fin (v j)) = fun j => .fin (q.cost.g v j) := funext (hP.g (fun j => .fin (v j)) (fun _ => rfl) hv)
  have hA : P.Ae (fun j => Fl.fin (v j)) = fun i j => .fin (q.A i j) :=
    funext fun i => funext (hP.Ae (fun j => .fin (v j)) (fun _ => rfl) i)
  refine ⟨rfl, rfl, rfl, hg, hP.H (fun j => .fin (v j)) _ (fun _ => rfl) (fun _ => rfl) hv, rfl, hA, ?_, hF⟩
  have hfin : (P.g fun j => Fl.fin (v j)).Finite ∧ (P.Ae fun j => Fl.fin (v j)).Finite ∧
      (Vec.Finite fun _ : Fin m => Fl.fin 0) ∧ Vec.Finite fun j => Fl.fin (y j) :=
    ⟨by rw [hg]; exact fun _ => rfl, by rw [hA]; exact fun _ _ => rfl, fun _ => rfl, fun _ => rfl⟩
  refine (if_pos hfin).trans ?_
  show Fl.fin (unscaledInfSqp P.scaling (P.g fun j => Fl.fin (v j)).real (P.Ae fun j => Fl.fin (v j)).real _ _) = _
  rw [hg, hA]
  rfl

/-- What the solver returns. -/
structure AffineResult (opts : SolverOptions) (P : Nlp n m 0) (q : AffineProblem n m) (u : Fin n → ℝ) (δ B : ℝ)
    (res : SqpResult n m) : Prop where
  finite : res.x.Finite ∧ res.y.Finite
  level : res.x.real ∈ q.level u
  progress : q.cost.f res.x.real + res.iterations * δ ≤ B + δ
  status : res.status = .success ∧
      unscaledInfSqp P.scaling (q.cost.g res.x.real) q.A (fun _ => 0) res.y.real ≤ opts.tolerance ∨
    res.status = .callbackRequestedStop ∨ res.status = .timeout ∨
    res.status = .maxIterationsExceeded ∧ opts.maxIterations ≤ res.iterations

theorem sqpLoop_affine {env : Env} {opts : SolverOptions} (ht : 0 < opts.tolerance) {P : Nlp n m 0}
    {q : AffineProblem n m} (hP : P.IsAffine q) (hS : P.scaling.PositiveFactors) (hfac : ∀ i, env.factor i = true)
    {u : Fin n → ℝ} (hcl : IsClosed (q.level u)) (hbox : ∀ v ∈ q.level u, ∀ j, |v j| ≤ 1e10) {a b L : ℝ} (ha : 0 < a)
    (hb : 0 < b) (hab : b ≤ 9.9e6 * a) (hH : q.Curvature (q.level u) a b) (hL0 : 0 < L)
    (hL : q.cost.LipschitzHessian (q.level u) L) (hE : ∀ v ∈ q.level u, ∀ y, env.Plain (q.system v y))
    {cbs : List Callback} {start : ℝ} (k : ℕ) (st : SqpState n m) (w : World) (v : Fin n → ℝ) (y : Fin m → ℝ)
    (hst : st.AtPoint P q v y) (hv : v ∈ q.level u) {B : ℝ}
    (hprog : q.cost.f v + st.iterations * affineDecrease a b L (opts.tolerance * P.scaling.f) ≤ B)
    (res : SqpResult n m) (hres : sqpLoop env opts P cbs start k st w = some res) :
    AffineResult opts P q u (affineDecrease a b L (opts.tolerance * P.scaling.f)) B res := by
  induction k generalizing st w v y with
  | zero => exact absurd hres (by simp [sqpLoop])
  | succ k ih =>
    have hSf := hS.f_pos
    have htol : 0 < opts.tolerance * P.scaling.f := by positivity
    set δ := affineDecrease a b L (opts.tolerance * P.scaling.f) with hδ
    have hδ0 : 0 < δ := affineDecrease_pos ha hb hL0 htol
    have hreg := hst.regular
    have hxr : st.x.real = v := by rw [hst.x]; rfl
    have hyr : st.y.real = y := by rw [hst.y]; rfl
    have here : ∀ status w', (status = .success ∧
        unscaledInfSqp P.scaling (q.cost.g v) q.A (fun _ => 0) y ≤ opts.tolerance ∨
        status = .callbackRequestedStop ∨ status = .timeout) → AffineResult opts P q u δ B (st.exit status w') := by
      intro status w' h
      refine ⟨⟨hreg.x, hreg.y⟩, ?_, ?_, ?_⟩
      · show st.x.real ∈ _; rw [hxr]; exact hv
      · show q.cost.f st.x.real + _ ≤ _
        rw [hxr]
        exact hprog.trans (by linarith)
      · show status = .success ∧ unscaledInfSqp P.scaling (q.cost.g st.x.real) q.A (fun _ => 0) st.y.real ≤ _ ∨ _
        rw [hxr, hyr]
        rcases h with h | h | h
        · exact .inl h
        · exact .inr (.inl h)
        · exact .inr (.inr (.inl h))
    rw [sqpLoop] at hres
    by_cases c1 : ¬ st.E0 > .fin opts.tolerance
    · rw [if_pos c1] at hres
      obtain rfl := Option.some.inj hres
      refine here _ _ (.inl ⟨rfl, ?_⟩)
      rwa [hst.E0, gt_iff_lt, Fl.fin_lt, not_lt] at c1
    rw [if_neg c1] at hres
    have hinf : ¬ eqInfeasible env st.e.Ae st.e.ce := by
      unfold eqInfeasible
      rw [if_pos ⟨hreg.Ae, hreg.ce⟩, hst.ce]
      rintro ⟨-, -, h3⟩
      have : twoNorm (Vec.real fun _ : Fin m => Fl.fin 0) = 0 := by simp [twoNorm, Vec.real, Fl.toReal]
      rw [this] at h3
      norm_num at h3
    rw [if_neg hinf] at hres
    have hdiv : ¬ diverging env st.x := by
      rw [diverging, not_or, not_not]
      refine ⟨?_, hreg.x⟩
      rw [infNormF, if_pos hreg.x, hxr, gt_iff_lt, Fl.fin_lt, not_lt, infNorm_le]
      exact ⟨by norm_num, hbox v hv⟩
    rw [if_neg hdiv] at hres
    simp only at hres
    by_cases c3 : (runRegistered st.info 0 cbs w.calls).2 = true
    · rw [if_pos c3] at hres
      obtain rfl := Option.some.inj hres
      exact here _ _ (.inr (.inl rfl))
    rw [if_neg c3] at hres
    unfold sqpMove at hres
    rw [if_neg (by rw [hfac]; simp)] at hres
    simp only at hres
    obtain ⟨p, r, s1, s2, h1, h2⟩ := affine_step hst hv.1.1 hv.2 (hE v hv y) w.solves
    rw [← hst.ce] at s1 s2
    have hdot : dotF env st.e.g (sqpComputeStep env st st.e.ce w.solves).px = .fin (q.cost.g v ⬝ᵥ p) := by
      rw [dotF_fin hreg.g (by rw [s1]; exact fun _ => rfl), hst.g, s1]; rfl
    rw [hdot] at hres
    by_cases hshort : p ⬝ᵥ p ≤ shortStep a L (opts.tolerance * P.scaling.f)
    · -- the last step
      obtain ⟨⟨F', hls⟩, hlev, hle, hsmall⟩ := affine_short (env := env) hP hst hcl hv ha hL0 htol hH hL s1 s2 h1 h2 hshort
        (lineSearchRounds - 1) st.rejected (w.solves + 1)
      rw [show lineSearchRounds - 1 + 1 = lineSearchRounds from rfl] at hls
      rw [hls] at hres
      simp only [Option.bind_some, Option.elim, SqpMoved.elim] at hres
      have hnew : q.cost.f (v + p) + ((st.iterations + 1 : ℕ) : ℝ) * δ ≤ B + δ := by
        push_cast
        linarith
      have herr := unscaledInfSqp_le hS ht.le hsmall
      have hdone : errZeroSqp env P.scaling
          ((SqpTrial.mk (fun j => Fl.fin ((v + p) j)) (fun j => Fl.fin ((y + r) j)) (Fl.fin (q.cost.f (v + p)))
            fun _ : Fin m => Fl.fin 0).eval P) (fun j => .fin ((y + r) j)) =
          .fin (unscaledInfSqp P.scaling (q.cost.g (v + p)) q.A (fun _ => 0) (y + r)) :=
        (affine_next (env := env) (st := { st with filter := .make (.fin 0) }) hP (y := y + r) hlev.1.1 filter_make_open 1 0).E0
      split at hres
      · rename_i c4
        obtain rfl := Option.some.inj hres
        exact ⟨⟨fun _ => rfl, fun _ => rfl⟩, hlev, hnew, .inr (.inr (.inr ⟨rfl, c4⟩))⟩
      split at hres
      · obtain rfl := Option.some.inj hres
        exact ⟨⟨fun _ => rfl, fun _ => rfl⟩, hlev, hnew, .inr (.inr (.inl rfl))⟩
      cases k with
      | zero => exact absurd hres (by simp [sqpLoop])
      | succ k =>
        rw [sqpLoop, if_pos (by
          simp only [SqpState.accept]
          rw [hdone, gt_iff_lt, Fl.fin_lt, not_lt]
          exact herr)] at hres
        obtain rfl := Option.some.inj hres
        exact ⟨⟨fun _ => rfl, fun _ => rfl⟩, hlev, hnew, .inl ⟨rfl, herr⟩⟩
    · -- a step that decreases the cost
      rw [not_le] at hshort
      have hp0 : p ≠ 0 := by
        rintro rfl
        rw [dotProduct_zero] at hshort
        exact absurd hshort (not_lt.2 (le_min (by positivity) (by positivity)))
      obtain ⟨ls, hls⟩ := sqp_line_search_ends env P st (sqpComputeStep env st st.e.ce w.solves) (.fin (q.cost.g v ⬝ᵥ p))
        st.filter st.rejected (w.solves + 1)
      rw [hls, Option.bind_some] at hres
      rw [Fl.one_def] at hls
      obtain ⟨hFo, t, ht1, hlev, harm, hacc⟩ := affine_search hP hst hcl hv (hE v hv y) ha hb hab hH s1 s2 h1 h2 hp0 _ _ _ _ _
        _ hls hst.filter one_pos (min_le_left _ _)
      rw [hacc] at hres
      simp only [Option.bind_some, Option.elim, SqpMoved.elim] at hres
      set v' := v + t • p with hv'
      have hstep : q.cost.f v' + δ ≤ q.cost.f v := by
        have h3 : a * shortStep a L (opts.tolerance * P.scaling.f) ≤ -(q.cost.g v ⬝ᵥ p) := by
          rw [← affine_slope h1 h2]
          exact (mul_le_mul_of_nonneg_left hshort.le ha.le).trans (hH v hv p h2).1
        have hlo : 0 ≤ min 1 (0.99 * (a / b)) := le_min zero_le_one (by positivity)
        have hsh : 0 ≤ shortStep a L (opts.tolerance * P.scaling.f) := le_min (by positivity) (by positivity)
        have h4 : δ ≤ 1e-8 * t * -(q.cost.g v ⬝ᵥ p) := by
          rw [hδ, affineDecrease]
          exact mul_le_mul (mul_le_mul_of_nonneg_left ht1 (by norm_num)) h3 (by positivity)
            (mul_nonneg (by norm_num) (hlo.trans ht1))
        linarith
      have hnew : q.cost.f v' + ((st.iterations + 1 : ℕ) : ℝ) * δ ≤ B := by
        push_cast
        linarith
      split at hres
      · rename_i c4
        obtain rfl := Option.some.inj hres
        exact ⟨⟨fun _ => rfl, fun _ => rfl⟩, hlev, hnew.trans (by linarith), .inr (.inr (.inr ⟨rfl, c4⟩))⟩
      split at hres
      · obtain rfl := Option.some.inj hres
        exact ⟨⟨fun _ => rfl, fun _ => rfl⟩, hlev, hnew.trans (by linarith), .inr (.inr (.inl rfl))⟩
      exact ih _ _ v' (y + t • r) (affine_next hP hlev.1.1 hFo ls.α _) hlev hnew hres

/-- The first iterate. -/
theorem sqpInit_affine (env : Env) {P : Nlp n m 0} {q : AffineProblem n m} (hP : P.IsAffine q) {v : Fin n → ℝ}
    (hdom : v ∈ q.cost.dom) (hfeas : v ∈ q.feasible) :
    (sqpInit env P (fun j => .fin (v j)) fun _ => 0).AtPoint P q v fun _ => 0 := by
  have hg : P.g (fun j => Fl.fin (v j)) = fun j => .fin (q.cost.g v j) :=
    funext (hP.g (fun j => .fin (v j)) (fun _ => rfl) hdom)
  have hA : P.Ae (fun j => Fl.fin (v j)) = fun i j => .fin (q.A i j) :=
    funext fun i => funext (hP.Ae (fun j => .fin (v j)) (fun _ => rfl) i)
  have hc : P.ce (fun j => Fl.fin (v j)) = fun _ => .fin 0 := by
    funext i
    rw [hP.ce (fun j => .fin (v j)) (fun _ => rfl) i, show (q.A *ᵥ Vec.real fun j => Fl.fin (v j)) i = q.b i from congrFun hfeas i,
      sub_self]
  have hfin : (P.g fun j => Fl.fin (v j)).Finite ∧ (P.Ae fun j => Fl.fin (v j)).Finite ∧
      (P.ce fun j => Fl.fin (v j)).Finite ∧ Vec.Finite fun _ : Fin m => (0 : Fl) :=
    ⟨by rw [hg]; exact fun _ => rfl, by rw [hA]; exact fun _ _ => rfl, by rw [hc]; exact fun _ => rfl, fun _ => rfl⟩
  refine ⟨rfl, rfl, hP.f_at hdom, hg, hP.H (fun j => .fin (v j)) _ (fun _ => rfl) (fun _ => rfl) hdom, hc, hA, ?_, ?_⟩
  · refine (if_pos hfin).trans ?_
    show Fl.fin (unscaledInfSqp P.scaling (P.g fun j => Fl.fin (v j)).real (P.Ae fun j => Fl.fin (v j)).real
      (P.ce fun j => Fl.fin (v j)).real _) = _
    rw [hg, hA, hc]
    rfl
  · show Filter.Open (.make (norm1 (List.ofFn (P.ce fun j => Fl.fin (v j)))))
    rw [hc, norm1_zero]
    exact filter_make_open

/-- C78: let the constraints be linear equality constraints, and let the initial guess meet them. Let the cost be bounded
from below and smooth on the feasible points with no larger cost, with a Hessian that is Lipschitz continuous there and
has curvatures between `a` and `b` along the constraints. Then all iterates meet the constraints and have no larger cost
than the guess, and the run ends with SUCCESS at a point with a small KKT error, unless a callback stops it, or it runs
into the limit on the time or on the iterations; the number of iterations is bounded. -/
theorem sqp_affine_converges {env : Env} {opts : SolverOptions} (ht : 0 < opts.tolerance) {P : Nlp n m 0}
    {q : AffineProblem n m} (hP : P.IsAffine q) (hS : P.scaling.PositiveFactors) (hmn : m ≤ n) {x : Vec n} (hx : x.Finite)
    (hdom : x.real ∈ q.cost.dom) (hfeas : x.real ∈ q.feasible) (hfac : ∀ i, env.factor i = true)
    (hE : ∀ v ∈ q.level x.real, ∀ y, env.Plain (q.system v y)) (hcl : IsClosed (q.level x.real))
    (hbox : ∀ v ∈ q.level x.real, ∀ j, |v j| ≤ 1e10) {low : ℝ} (hlow : ∀ v ∈ q.level x.real, low ≤ q.cost.f v)
    {a b L : ℝ} (ha : 0 < a) (hb : 0 < b) (hab : b ≤ 9.9e6 * a) (hH : q.Curvature (q.level x.real) a b) (hL0 : 0 < L)
    (hL : q.cost.LipschitzHessian (q.level x.real) L) (cbs : List Callback) :
    ∃ res, sqp env opts P cbs x .start = some res ∧ res.x.Finite ∧ res.y.Finite ∧ res.x.real ∈ q.cost.dom ∧
      res.x.real ∈ q.feasible ∧ q.cost.f res.x.real ≤ q.cost.f x.real ∧
      (res.iterations - 1) * affineDecrease a b L (opts.tolerance * P.scaling.f) ≤ q.cost.f x.real - low ∧
      (res.status = .success ∧
          unscaledInfSqp P.scaling (q.cost.g res.x.real) q.A (fun _ => 0) res.y.real ≤ opts.tolerance ∨
        res.status = .callbackRequestedStop ∨ res.status = .timeout ∨
        res.status = .maxIterationsExceeded ∧ opts.maxIterations ≤ res.iterations) := by
  obtain ⟨res, h1, -⟩ := sqp_correct_partial env opts P cbs x ht
  have hlev : x.real ∈ q.level x.real := ⟨⟨hdom, le_rfl⟩, hfeas⟩
  have hxe : x = fun j => .fin (x.real j) := funext fun j => Fl.finite_toReal (hx j)
  have h0 : (sqpInit env P x fun _ => 0).AtPoint P q x.real fun _ => 0 := by
    have := sqpInit_affine env hP hdom hfeas
    rwa [← hxe] at this
  have h2 := h1
  unfold sqp sqpRun at h2
  simp only at h2
  have hreg := h0.regular
  rw [if_neg (by omega), if_neg (by
    rw [not_not]
    exact ⟨by rw [h0.f]; rfl, hreg.g, hreg.H, hreg.ce, hreg.Ae, fun i => i.elim0, fun i => i.elim0⟩)] at h2
  obtain ⟨⟨hf1, hf2⟩, hl, hpr, hst⟩ := sqpLoop_affine ht hP hS hfac hcl hbox ha hb hab hH hL0 hL hE _ _ _ _ _ h0 hlev
    (by rw [show (sqpInit env P x fun _ => 0).iterations = 0 from rfl, Nat.cast_zero, zero_mul, add_zero]) res h2
  refine ⟨res, h1, hf1, hf2, hl.1.1, hl.2, hl.1.2, ?_, hst⟩
  have := hlow _ hl
  linarith

/-- C78: without a time limit, with callbacks that do not stop and with a limit on the iterations that is large enough,
the run ends with SUCCESS. -/
theorem sqp_affine_succeeds {env : Env} {opts : SolverOptions} (ht : 0 < opts.tolerance) {P : Nlp n m 0}
    {q : AffineProblem n m} (hP : P.IsAffine q) (hS : P.scaling.PositiveFactors) (hmn : m ≤ n) {x : Vec n} (hx : x.Finite)
    (hdom : x.real ∈ q.cost.dom) (hfeas : x.real ∈ q.feasible) (hfac : ∀ i, env.factor i = true)
    (hE : ∀ v ∈ q.level x.real, ∀ y, env.Plain (q.system v y)) (hcl : IsClosed (q.level x.real))
    (hbox : ∀ v ∈ q.level x.real, ∀ j, |v j| ≤ 1e10) {low : ℝ} (hlow : ∀ v ∈ q.level x.real, low ≤ q.cost.f v)
    {a b L : ℝ} (ha : 0 < a) (hb : 0 < b) (hab : b ≤ 9.9e6 * a) (hH : q.Curvature (q.level x.real) a b) (hL0 : 0 < L)
    (hL : q.cost.LipschitzHessian (q.level x.real) L) {cbs : List Callback} (hcb : ∀ cb ∈ cbs, ∀ l i, cb l i = false)
    (htime : opts.timeout = .pinf)
    (hlim : q.cost.f x.real - low < (opts.maxIterations - 1) * affineDecrease a b L (opts.tolerance * P.scaling.f)) :
    ∃ res, sqp env opts P cbs x .start = some res ∧ res.status = .success ∧ res.x.Finite ∧ res.y.Finite ∧
      res.x.real ∈ q.cost.dom ∧ res.x.real ∈ q.feasible ∧ q.cost.f res.x.real ≤ q.cost.f x.real ∧
      unscaledInfSqp P.scaling (q.cost.g res.x.real) q.A (fun _ => 0) res.y.real ≤ opts.tolerance := by
  obtain ⟨res, h1, h2, h3, h4, h5, h6, h7, h8⟩ :=
    sqp_affine_converges ht hP hS hmn hx hdom hfeas hfac hE hcl hbox hlow ha hb hab hH hL0 hL cbs
  obtain ⟨res', h1', -, -, -, -, ⟨bs, hh⟩, -⟩ := sqp_correct_partial env opts P cbs x ht
  obtain rfl : res = res' := Option.some.inj (h1.symm.trans h1')
  have hδ0 := affineDecrease_pos (tol := opts.tolerance * P.scaling.f) ha hb hL0 (mul_pos ht hS.f_pos)
  rcases h8 with h | h | h | h
  · exact ⟨res, h1, h.1, h2, h3, h4, h5, h6, h.2⟩
  · obtain ⟨b, hb, -, ⟨c, hc, ht⟩, -⟩ := hh.stop h
    obtain ⟨before, hB⟩ := Batches.ok_mem hh.ok (List.mem_of_mem_getLast? hb)
    obtain ⟨k, hk, rfl⟩ := List.mem_iff_getElem.1 hc
    have hk' : k < cbs.length := lt_of_lt_of_le hk hB.length
    rw [hB.results k hk hk', hcb _ (List.getElem_mem hk')] at ht
    exact absurd ht (by simp)
  · obtain ⟨e, -, he⟩ := hh.timeout h
    rw [htime] at he
    exact he.elim
  · have h9 : (opts.maxIterations : ℝ) ≤ res.iterations := by exact_mod_cast h.2
    nlinarith

/-! ### Strongly convex costs -/

/-- The feasible points that are not worse than the guess have a minimiser, and the cost is stationary there along the
constraints. -/
theorem AffineProblem.minimiser (q : AffineProblem n m) {u : Fin n → ℝ} (hu : u ∈ q.cost.dom) (hf : u ∈ q.feasible)
    (hcl : IsClosed (q.level u)) {B : ℝ} (hbox : ∀ v ∈ q.level u, ∀ j, |v j| ≤ B) :
    ∃ z ∈ q.level u, (∀ v ∈ q.cost.dom, v ∈ q.feasible → q.cost.f z ≤ q.cost.f v) ∧
      ∀ p, q.A *ᵥ p = 0 → q.cost.g z ⬝ᵥ p = 0 := by
  have hcomp : IsCompact (q.level u) := by
    refine Metric.isCompact_of_isClosed_isBounded hcl ?_
    refine (Metric.isBounded_Icc (fun _ : Fin n => -B) fun _ => B).subset fun v hv => ?_
    exact ⟨fun j => (abs_le.1 (hbox v hv j)).1, fun j => (abs_le.1 (hbox v hv j)).2⟩
  obtain ⟨z, hz, hmin⟩ := hcomp.exists_isMinOn ⟨u, ⟨hu, le_rfl⟩, hf⟩
    fun v hv => (q.cost.deriv v hv.1.1).continuousAt.continuousWithinAt
  have hall : ∀ v ∈ q.cost.dom, v ∈ q.feasible → q.cost.f z ≤ q.cost.f v := by
    intro v hv hvf
    rcases le_total (q.cost.f v) (q.cost.f u) with h | h
    · exact hmin ⟨⟨hv, h⟩, hvf⟩
    · exact hz.1.2.trans h
  refine ⟨z, hz, hall, fun p hp => ?_⟩
  have h0 : z + (0 : ℝ) • p ∈ q.cost.dom := by rw [zero_smul, add_zero]; exact hz.1.1
  have hd := q.cost.deriv_line z p h0
  have hloc : IsLocalMin (fun t : ℝ => q.cost.f (z + t • p)) 0 := by
    have hc : Continuous fun t : ℝ => z + t • p := by fun_prop
    refine _root_.Filter.mem_of_superset ((q.cost.isOpen.preimage hc).mem_nhds h0) fun t ht => ?_
    show q.cost.f (z + (0 : ℝ) • p) ≤ q.cost.f (z + t • p)
    rw [zero_smul, add_zero]
    exact hall _ ht (feasible_line hz.2 hp t)
  have := hloc.hasDerivAt_eq_zero hd
  rwa [zero_smul, add_zero] at this

/-- Distances from the minimiser are bounded by the residual, whatever the multipliers. -/
theorem AffineProblem.distance (q : AffineProblem n m) {u v z : Fin n → ℝ} (hconv : Convex ℝ (q.level u)) {a b : ℝ}
    (ha : 0 < a) (hH : q.Curvature (q.level u) a b) (hv : v ∈ q.level u) (hz : z ∈ q.level u)
    (hg : ∀ p, q.A *ᵥ p = 0 → q.cost.g z ⬝ᵥ p = 0) (y : Fin m → ℝ) :
    a ^ 2 * ((v - z) ⬝ᵥ (v - z)) ≤ (q.cost.g v - q.Aᵀ *ᵥ y) ⬝ᵥ (q.cost.g v - q.Aᵀ *ᵥ y) := by
  set p := v - z with hp
  have hnull : q.A *ᵥ p = 0 := by
    rw [hp, mulVec_sub, show q.A *ᵥ v = q.b from hv.2, show q.A *ᵥ z = q.b from hz.2, sub_self]
  have hseg : ∀ t ∈ Set.Icc (0 : ℝ) 1, z + t • p ∈ q.level u := by
    intro t ht
    have := hconv hz hv (sub_nonneg.2 ht.2) ht.1 (by ring)
    have e : z + t • p = (1 - t) • z + t • v := by rw [hp]; module
    rwa [e]
  have hm : MonotoneOn (fun s : ℝ => q.cost.g (z + s • p) ⬝ᵥ p - s * (a * (p ⬝ᵥ p))) (Set.Icc 0 1) := by
    have hder : ∀ s ∈ Set.Icc (0 : ℝ) 1, HasDerivAt (fun s : ℝ => q.cost.g (z + s • p) ⬝ᵥ p - s * (a * (p ⬝ᵥ p)))
        (p ⬝ᵥ q.cost.H (z + s • p) *ᵥ p - a * (p ⬝ᵥ p)) s := fun s hs => by
      have := (q.cost.deriv2_line z p (hseg s hs).1.1).fun_sub ((hasDerivAt_id' s).mul_const (a * (p ⬝ᵥ p)))
      rwa [one_mul] at this
    refine monotoneOn_of_deriv_nonneg (convex_Icc 0 1) (fun s hs => (hder s hs).continuousAt.continuousWithinAt) ?_ ?_
    · exact fun s hs => (hder s (interior_subset hs)).differentiableAt.differentiableWithinAt
    · intro s hs
      rw [(hder s (interior_subset hs)).deriv]
      linarith [(hH _ (hseg s (interior_subset hs)) p hnull).1]
  have h1 := hm (Set.left_mem_Icc.2 zero_le_one) (Set.right_mem_Icc.2 zero_le_one) zero_le_one
  simp only [zero_smul, add_zero, zero_mul, sub_zero, one_smul, one_mul, hg p hnull] at h1
  rw [show z + p = v by rw [hp]; abel] at h1
  have h3 : (q.cost.g v - q.Aᵀ *ᵥ y) ⬝ᵥ p = q.cost.g v ⬝ᵥ p := by
    rw [sub_dotProduct, dotProduct_comm (q.Aᵀ *ᵥ y), dotProduct_mulVec, vecMul_transpose, hnull, zero_dotProduct, sub_zero]
  rw [← h3] at h1
  generalize q.cost.g v - q.Aᵀ *ᵥ y = r at h1 ⊢
  have h2 : 0 ≤ (r - a • p) ⬝ᵥ (r - a • p) := Finset.sum_nonneg fun i _ => mul_self_nonneg _
  rw [sub_dotProduct, dotProduct_sub, dotProduct_sub, smul_dotProduct, smul_dotProduct, dotProduct_smul, dotProduct_smul,
    dotProduct_comm p r] at h2
  simp only [smul_eq_mul] at h2
  nlinarith

/-- C78 for convex problems: the run ends with SUCCESS, and the distance between the result and the minimiser of the cost
on the constraints is at most the norm of the KKT residual, divided by the curvature. -/
theorem sqp_affine_convex {env : Env} {opts : SolverOptions} (ht : 0 < opts.tolerance) {P : Nlp n m 0}
    {q : AffineProblem n m} (hP : P.IsAffine q) (hS : P.scaling.PositiveFactors) (hmn : m ≤ n) {x : Vec n} (hx : x.Finite)
    (hdom : x.real ∈ q.cost.dom) (hfeas : x.real ∈ q.feasible) (hfac : ∀ i, env.factor i = true)
    (hE : ∀ v ∈ q.level x.real, ∀ y, env.Plain (q.system v y)) (hcl : IsClosed (q.level x.real))
    (hconv : Convex ℝ (q.level x.real)) (hbox : ∀ v ∈ q.level x.real, ∀ j, |v j| ≤ 1e10)
    {a b L : ℝ} (ha : 0 < a) (hb : 0 < b) (hab : b ≤ 9.9e6 * a) (hH : q.Curvature (q.level x.real) a b) (hL0 : 0 < L)
    (hL : q.cost.LipschitzHessian (q.level x.real) L) {cbs : List Callback} (hcb : ∀ cb ∈ cbs, ∀ l i, cb l i = false)
    (htime : opts.timeout = .pinf) :
    ∃ z ∈ q.cost.dom, z ∈ q.feasible ∧ (∀ v ∈ q.cost.dom, v ∈ q.feasible → q.cost.f z ≤ q.cost.f v) ∧
      (q.cost.f x.real - q.cost.f z < (opts.maxIterations - 1) * affineDecrease a b L (opts.tolerance * P.scaling.f) →
        ∃ res, sqp env opts P cbs x .start = some res ∧ res.status = .success ∧ res.x.Finite ∧ res.y.Finite ∧
          res.x.real ∈ q.feasible ∧
          unscaledInfSqp P.scaling (q.cost.g res.x.real) q.A (fun _ => 0) res.y.real ≤ opts.tolerance ∧
          a ^ 2 * ((res.x.real - z) ⬝ᵥ (res.x.real - z)) ≤
            (q.cost.g res.x.real - q.Aᵀ *ᵥ res.y.real) ⬝ᵥ (q.cost.g res.x.real - q.Aᵀ *ᵥ res.y.real)) := by
  obtain ⟨z, hz, hmin, hg⟩ := q.minimiser hdom hfeas hcl hbox
  refine ⟨z, hz.1.1, hz.2, hmin, fun hlim => ?_⟩
  obtain ⟨res, h1, h2, h3, h4, h5, h6, h7, h8⟩ := sqp_affine_succeeds ht hP hS hmn hx hdom hfeas hfac hE hcl hbox
    (fun v hv => hmin v hv.1.1 hv.2) ha hb hab hH hL0 hL hcb htime hlim
  exact ⟨res, h1, h2, h3, h4, h6, h8, q.distance hconv ha hH ⟨⟨h5, h7⟩, h6⟩ hz hg _⟩

end Slp
