import Verif.Solver.AffineProps
import Verif.Solver.LinearCase

/-! C88: the SQP solver started at a solution. -/

namespace Slp

open Classical Matrix

variable {n m : ℕ}

/-- A linear solver that does not regularise the constraints of a system, and that regularises the rest so that the
curvature along the constraints is positive. That is what a factorisation of the accepted inertia gives
(`ideal_positive_curvature`). -/
def Env.Convexifies (env : Env) (S : LinSystem) : Prop :=
  ∀ i, ∃ δ, 0 ≤ δ ∧ S.Solved (env.solve i S) δ 0 ∧ ∀ p : Fin S.n → ℝ,
    (∀ l : Fin S.m, ∑ j, S.lhs.real (Fin.natAdd S.n l) (Fin.castAdd S.m j) * p j = 0) → p ≠ 0 →
      0 < ∑ a, p a * (∑ b, S.lhs.real (Fin.castAdd S.m a) (Fin.castAdd S.m b) * p b + δ * p a)

/-- The blocks of the system. -/
theorem SqpState.Regular.blocks {env : Env} {st : SqpState n m} (h : st.Regular) (ce : Vec m) :
    (∀ a b : Fin n, (st.system env ce).lhs.real (Fin.castAdd m a) (Fin.castAdd m b) = lowerSym st.e.H.real a b) ∧
    (∀ (l : Fin m) (b : Fin n), (st.system env ce).lhs.real (Fin.natAdd n l) (Fin.castAdd m b) = st.e.Ae.real l b) ∧
    (∀ (l : Fin m) (b : Fin n), (st.system env ce).lhs.real (Fin.castAdd m b) (Fin.natAdd n l) = st.e.Ae.real l b) ∧
    ∀ l l' : Fin m, (st.system env ce).lhs.real (Fin.natAdd n l) (Fin.natAdd n l') = 0 := by
  have hl : (st.system env ce).lhs.real = kktDense st.e.H.real
      (sigma (Vec.real (Fin.elim0 : Vec 0)) (Vec.real (Fin.elim0 : Vec 0))) st.e.Ae.real st.e.Ai.real := by
    funext a b
    have e : kktLhsF env st.e (Fin.elim0 : Vec 0) Fin.elim0 a b = .fin (kktDense st.e.H.real
        (sigma (Vec.real (Fin.elim0 : Vec 0)) (Vec.real (Fin.elim0 : Vec 0))) st.e.Ae.real st.e.Ai.real a b) :=
      if_pos ⟨h.H, h.Ae, fun i => i.elim0, fun i => i.elim0, fun i => i.elim0, fun i => i.elim0⟩
    exact congrArg Fl.toReal e
  rw [hl]
  refine ⟨fun a b => ?_, fun l b => ?_, fun l b => ?_, fun l l' => ?_⟩
  · show kktDense _ _ _ _ (Fin.castAdd m a) (Fin.castAdd m b) = _
    simp [kktDense]
  · exact kktDense_corners.2
  · exact kktDense_corners.1
  · exact kktDense_corner

/-- The step at a point that meets the constraints and at which the gradient of the cost is a combination of those of
the constraints: the point stays, and the multipliers become those of the combination. -/
theorem restart_step {env : Env} {st : SqpState n m} (h : st.Regular) (hce : ∀ l, st.e.ce l = .fin 0)
    (hy0 : ∀ l, st.y l = .fin 0) {y : Fin m → ℝ} (hg : st.e.g.real = st.e.Ae.realᵀ *ᵥ y)
    (hE : env.Convexifies (st.system env st.e.ce)) (i : ℕ) :
    (∀ j, (sqpComputeStep env st st.e.ce i).px j = .fin 0) ∧ (sqpComputeStep env st st.e.ce i).py.Finite ∧
      st.e.g.real = st.e.Ae.realᵀ *ᵥ (sqpComputeStep env st st.e.ce i).py.real := by
  obtain ⟨δ, hδ, hS, hpos⟩ := hE i
  obtain ⟨⟨f1, f2⟩, r1, r2⟩ := sqp_step_solved h h.ce hS
  obtain ⟨b1, b2, -, -⟩ := h.blocks (env := env) st.e.ce
  set S := sqpComputeStep env st st.e.ce i with hSd
  have hyr : ∀ l, st.y.real l = 0 := fun l => by show (st.y l).toReal = 0; rw [hy0]; rfl
  have hcr : ∀ l, st.e.ce.real l = 0 := fun l => by show (st.e.ce l).toReal = 0; rw [hce]; rfl
  have hA : st.e.Ae.real *ᵥ S.px.real = 0 := by
    funext l
    have := r2 l
    rw [zero_mul, add_zero, hcr, neg_zero] at this
    exact this
  have hrow : ∀ j, (∑ b, lowerSym st.e.H.real j b * S.px.real b) + δ * S.px.real j =
      (st.e.Ae.realᵀ *ᵥ (S.py.real - y)) j := fun j => by
    have h1 := r1 j
    rw [show ∑ l, st.e.Ae.real l j * st.y.real l = 0 from Finset.sum_eq_zero fun l _ => by rw [hyr, mul_zero],
      hg] at h1
    rw [mulVec_sub]
    have h2 : (st.e.Ae.realᵀ *ᵥ S.py.real) j = ∑ l, st.e.Ae.real l j * S.py.real l := rfl
    rw [Pi.sub_apply, h2]
    linarith
  have hp : S.px.real = 0 := by
    by_contra hne
    have h1 : 0 < ∑ a : Fin n, S.px.real a * ((∑ b : Fin n, (st.system env st.e.ce).lhs.real (Fin.castAdd m a)
        (Fin.castAdd m b) * S.px.real b) + δ * S.px.real a) := hpos S.px.real (fun l => by
      refine Eq.trans ?_ (congrFun hA l)
      exact Finset.sum_congr rfl fun j _ => congrArg (· * S.px.real j) (b2 l j)) hne
    rw [Finset.sum_congr rfl fun a _ => congrArg (S.px.real a * ·) (show _ = (st.e.Ae.realᵀ *ᵥ (S.py.real - y)) a from
      (congrArg (· + δ * S.px.real a) (Finset.sum_congr rfl fun b _ => congrArg (· * S.px.real b) (b1 a b))).trans
        (hrow a))] at h1
    have h2 : S.px.real ⬝ᵥ st.e.Ae.realᵀ *ᵥ (S.py.real - y) = 0 := by
      rw [dotProduct_mulVec, vecMul_transpose, hA, zero_dotProduct]
    exact absurd h1 (by rw [show ∑ a : Fin n, S.px.real a * (st.e.Ae.realᵀ *ᵥ (S.py.real - y)) a = 0 from h2]; exact lt_irrefl _)
  refine ⟨fun j => ?_, f2, ?_⟩
  · rw [Fl.finite_toReal (f1 j)]; exact congrArg Fl.fin (congrFun hp j)
  · funext j
    have h1 := hrow j
    rw [hp] at h1
    simp only [Pi.zero_apply, mul_zero, Finset.sum_const_zero, add_zero, mulVec_sub, Pi.sub_apply, ← hg] at h1
    linarith

/-- C88: let the initial guess meet the constraints, and let the gradient of the cost there be a combination of those of
the constraints. Then the SQP solver returns the guess after at most one iteration, with SUCCESS unless a callback, the
timeout or an iteration limit of one stops it. -/
theorem sqp_restart {env : Env} {opts : SolverOptions} (ht : 0 ≤ opts.tolerance) {P : Nlp n m 0}
    (hS : P.scaling.PositiveFactors) {cbs : List Callback} {x : Vec n} (hx : x.Finite) (hbox : ∀ j, |x.real j| ≤ 1e10)
    (hmn : m ≤ n) (hfac : env.factor 0 = true) (hfin : (P.eval x (fun _ => 0) Fin.elim0).Finite)
    (hce : ∀ i, P.ce x i = .fin 0) {y : Fin m → ℝ} (hg : (P.g x).real = (P.Ae x).realᵀ *ᵥ y)
    (hE : env.Convexifies ((sqpInit env P x fun _ => 0).system env (P.ce x))) :
    ∃ res, sqp env opts P cbs x .start = some res ∧ res.x = x ∧ res.iterations ≤ 1 ∧
      (res.status = .success ∨ res.status = .callbackRequestedStop ∨ res.status = .timeout ∨
        res.status = .maxIterationsExceeded ∧ opts.maxIterations ≤ 1) := by
  obtain ⟨hf, hgf, hH, hcf, hAf, -, -⟩ := hfin
  have hy0 : Vec.Finite (fun _ : Fin m => (0 : Fl)) := fun _ => rfl
  obtain ⟨r, hr⟩ : ∃ r, loopRounds opts 0 = r + 1 := by
    refine ⟨loopRounds opts 0 - 1, ?_⟩
    unfold loopRounds
    omega
  unfold sqp sqpRun
  simp only
  rw [if_neg (by omega)]
  set st := sqpInit env P x fun _ => 0 with hst
  have hreg : st.Regular := ⟨hx, hy0, hgf, hH, hcf, hAf⟩
  rw [if_neg (by rw [not_not]; exact ⟨hf, hgf, hH, hcf, hAf, fun i => i.elim0, fun i => i.elim0⟩), hr, sqpLoop]
  split
  · exact ⟨_, rfl, rfl, by simp [SqpState.exit, hst, sqpInit], .inl rfl⟩
  have hcr : st.e.ce.real = fun _ => 0 := funext fun l => by
    show (P.ce x l).toReal = 0; rw [hce]; rfl
  rw [if_neg (by
    unfold eqInfeasible
    rw [if_pos ⟨hAf, hcf⟩, hcr]
    rintro ⟨-, -, h⟩
    have : twoNorm (fun _ : Fin m => (0 : ℝ)) = 0 := by simp [twoNorm]
    rw [this] at h
    norm_num at h), if_neg (by
    rw [diverging_iff]
    rintro ⟨i, h | h⟩
    · rw [show (st.x i).isFinite = true from hx i] at h; simp at h
    · exact absurd (hbox i) (not_le.2 h))]
  simp only
  split
  · exact ⟨_, rfl, rfl, by simp [SqpState.exit, hst, sqpInit], .inr (.inl rfl)⟩
  -- the step
  unfold sqpMove
  rw [if_neg (by show ¬ env.factor 0 = false; rw [hfac]; simp)]
  simp only
  generalize World.start.solves = i
  obtain ⟨s1, s2, s3⟩ := restart_step (env := env) (st := st) hreg hce (fun _ => rfl) hg hE i
  set S := sqpComputeStep env st st.e.ce i with hSd
  set t := sqpTrial P st S 1 with htd
  have hx' : t.x = x := by
    funext j
    show x j + 1 * S.px j = x j
    rw [s1, Fl.finite_toReal (hx j), Fl.one_def, Fl.fin_mul, Fl.fin_add, mul_zero, add_zero]
  have hy' : t.y = S.py := by
    funext j
    show (0 : Fl) + 1 * S.py j = S.py j
    rw [Fl.finite_toReal (s2 j), Fl.one_def, Fl.zero_def, Fl.fin_mul, Fl.fin_add, one_mul, zero_add]
  have hcx : P.ce x = fun _ => .fin 0 := funext hce
  have hce' : t.ce = fun _ => .fin 0 := by show P.ce t.x = _; rw [hx', hcx]
  obtain ⟨f0, hf0⟩ : ∃ f0, P.f x = .fin f0 := ⟨_, Fl.finite_toReal hf⟩
  have hf' : t.f = .fin f0 := by show P.f t.x = _; rw [hx', hf0]
  have hD : dotF env st.e.g S.px = .fin 0 := by
    rw [dotF_fin hreg.g fun j => by rw [s1]; rfl]
    congr 1
    exact Finset.sum_eq_zero fun j _ => by rw [show S.px.real j = 0 by show (S.px j).toReal = 0; rw [s1]; rfl, mul_zero]
  have hacc : (st.filter.tryAdd st.entry (sqpEntry t.f t.ce) (dotF env st.e.g S.px) 1).2 = true := by
    have e1 : st.entry = ⟨.fin f0, .fin 0⟩ := by
      show FilterEntry.mk (P.f x) (norm1 (List.ofFn (P.ce x))) = _
      rw [hcx, norm1_zero, hf0]
    have e3 : st.filter = .make (.fin 0) := by
      show Filter.make (norm1 (List.ofFn (P.ce x))) = _
      rw [hcx, norm1_zero]
    rw [e1, hce', sqpEntry_feasible, e3, hD, hf']
    exact feasible_tryAdd_zero filter_make_open (lt_irrefl _)
  rw [show lineSearchRounds = lineSearchRounds - 1 + 1 from rfl, sqpLineSearch]
  simp only
  rw [if_neg (by rw [not_not]; exact ⟨by rw [hf']; rfl, fun i => by rw [hce']; rfl⟩), if_pos hacc]
  simp only [Option.bind_some, Option.elim, SqpMoved.elim]
  have herr : errZeroSqp env P.scaling (t.eval P) t.y = .fin 0 := by
    have hgt : (t.eval P).g = P.g x := by show P.g t.x = _; rw [hx']
    have hAt : (t.eval P).Ae = P.Ae x := by show P.Ae t.x = _; rw [hx']
    have hct : (t.eval P).ce = fun _ => .fin 0 := hce'
    unfold errZeroSqp
    rw [if_pos ⟨by rw [hgt]; exact hgf, by rw [hAt]; exact hAf, by rw [hct]; exact fun _ => rfl, by rw [hy']; exact s2⟩]
    congr 1
    refine unscaledInfSqp_zero hS (fun i => by rw [hct]; rfl) ?_
    rw [hgt, hAt, hy']
    exact s3
  split
  · rename_i hlim
    refine ⟨_, rfl, hx', by simp [SqpState.exit, SqpState.accept, hst, sqpInit], .inr (.inr (.inr ⟨rfl, ?_⟩))⟩
    simpa [SqpState.accept, hst, sqpInit] using hlim
  rename_i hlim
  obtain ⟨r', rfl⟩ : ∃ r', r = r' + 1 := by
    have h2 : ¬ (((0 + 1 : ℕ) : ℤ) ≥ opts.maxIterations) := hlim
    refine ⟨r - 1, ?_⟩
    unfold loopRounds at hr
    simp only [Nat.cast_zero, sub_zero] at hr
    omega
  split
  · exact ⟨_, rfl, hx', by simp [SqpState.exit, SqpState.accept, hst, sqpInit], .inr (.inr (.inl rfl))⟩
  rw [sqpLoop, if_pos (by
    show ¬ errZeroSqp env P.scaling (t.eval P) t.y > _
    rw [herr, gt_iff_lt, Fl.fin_lt]; linarith)]
  exact ⟨_, rfl, hx', by simp [SqpState.exit, SqpState.accept, hst, sqpInit], .inl rfl⟩

end Slp
