import Verif.Solver.LoopStepLemmas
import Verif.Solver.IterationProps
import Verif.Solver.SqpSearchProps
import Mathlib.Analysis.SpecialFunctions.Log.Deriv

/-!
C33 for the solver loops: with a linear solver that makes no rounding errors, every step the solvers take is a step of
Newton's method for the perturbed optimality conditions. The specification is `NewtonSystem`.
-/

namespace Slp

open Classical Matrix

variable {n m k : ℕ}

/-- The values an iteration starts with are finite and the slacks positive. -/
structure IpmState.Regular (st : IpmState n m k) : Prop where
  error : st.e.ErrorFinite st.s st.y st.z
  hessian : st.e.H.Finite
  μ : st.μ.isFinite = true
  s : st.s.Pos

/-- The step consists of real numbers. -/
def IpmStep.Finite (p : IpmStep n m k) : Prop := p.px.Finite ∧ p.ps.Finite ∧ p.py.Finite ∧ p.pz.Finite

/-- The real numbers. -/
noncomputable def IpmStep.real (p : IpmStep n m k) : PStep n m k := ⟨p.px.real, p.ps.real, p.py.real, p.pz.real⟩

/-- The step satisfies the linearised optimality conditions at the current iterate with the constraint values `ce` and
`cis` (for `cᵢ − s`), up to a regularisation among `Γ`. -/
def IpmState.NewtonStep (st : IpmState n m k) (ce : Vec m) (cis : Vec k) (p : IpmStep n m k) (Γ : ℝ → ℝ → Prop := fun _ _ => True) :
    Prop :=
  p.Finite ∧ ∃ δ γ, 0 ≤ δ ∧ 0 ≤ γ ∧ Γ δ γ ∧ NewtonSystem (lowerSym st.e.H.real) δ γ st.e.g.real st.e.Ae.real ce.real st.e.Ai.real
    cis.real st.s.real st.y.real st.z.real st.μ.toReal p.real

theorem kktLhsF_real {env : Env} {st : IpmState n m k} (h : st.Regular) :
    FMat.Finite (kktLhsF env st.e st.s st.z) ∧
    FMat.real (kktLhsF env st.e st.s st.z) = kktDense st.e.H.real (sigma st.s.real st.z.real) st.e.Ae.real st.e.Ai.real := by
  obtain ⟨-, hAe, -, hAi, -, hs, -, hz⟩ := h.error
  have hne : st.s.NonZero := fun i => by
    obtain ⟨a, ha, h0⟩ := h.s i
    rw [ha, Fl.zero_def, ne_eq, Fl.fin.injEq]
    exact h0.ne'
  have e : ∀ i j, kktLhsF env st.e st.s st.z i j =
      .fin (kktDense st.e.H.real (sigma st.s.real st.z.real) st.e.Ae.real st.e.Ai.real i j) :=
    fun i j => if_pos ⟨h.hessian, hAe, hAi, hs, hz, hne⟩
  exact ⟨fun i j => by rw [e]; rfl, by funext i j; show Fl.toReal _ = _; rw [e]; rfl⟩

theorem IpmState.Regular.nonZero {st : IpmState n m k} (h : st.Regular) : st.s.NonZero := fun i => by
  obtain ⟨a, ha, h0⟩ := h.s i
  rw [ha, Fl.zero_def, ne_eq, Fl.fin.injEq]
  exact h0.ne'

theorem IpmState.rhs_eq {env : Env} {st : IpmState n m k} (h : st.Regular) (i : Fin (n + m)) :
    st.rhs env i = .fin (kktRhs st.e.g.real st.e.Ae.real st.e.ce.real st.e.Ai.real st.e.ci.real st.s.real st.y.real
      st.z.real st.μ.toReal i) := if_pos ⟨h.error, h.μ, h.nonZero⟩

theorem IpmState.socRhs_eq {env : Env} {st : IpmState n m k} (h : st.Regular) {ce : Vec m} {cis : Vec k} (hce : ce.Finite)
    (hcis : cis.Finite) (i : Fin (n + m)) :
    st.socRhs env ce cis i = .fin (Slp.socRhs st.e.g.real st.e.Ae.real ce.real st.e.Ai.real cis.real st.s.real st.y.real
      st.z.real st.μ.toReal i) := if_pos ⟨h.error, h.μ, h.nonZero, hce, hcis⟩

/-- The computed step is the one of `computeStep`. -/
theorem ipmComputeStep_real {env : Env} {st : IpmState n m k} (h : st.Regular) {rhs : Vec (n + m)} {cis : Vec k} {i : ℕ}
    (hcis : cis.Finite) (hp : ∀ j : Fin (n + m), (env.solve i (st.system env rhs) j).isFinite = true) :
    (ipmComputeStep env st rhs cis i).Finite ∧ (ipmComputeStep env st rhs cis i).real =
      computeStep (fun j : Fin (n + m) => (env.solve i (st.system env rhs) j).toReal) st.e.Ai.real st.s.real st.z.real
        st.μ.toReal cis.real := by
  obtain ⟨-, -, -, hAi, -, -, -, hz⟩ := h.error
  set p := env.solve i (st.system env rhs) with hpd
  have hpx : Vec.Finite (ipmComputeStep env st rhs cis i).px := fun j => hp (Fin.castAdd m j)
  have hpy : Vec.Finite (ipmComputeStep env st rhs cis i).py := fun j => by
    have := Fl.finite_toReal (hp (Fin.natAdd n j))
    show (-p (n + j)).isFinite = true
    rw [Fin.val_natAdd] at this
    rw [this, Fl.fin_neg]
    rfl
  have hps : ∀ j, (ipmComputeStep env st rhs cis i).ps j =
      .fin (cis.real j + ∑ l, st.e.Ai.real j l * (p (l : ℕ)).toReal) := fun j => by
    show cis j + mulVecF env st.e.Ai (ipmComputeStep env st rhs cis i).px j = _
    unfold mulVecF
    rw [if_pos ⟨hAi, hpx⟩, Fl.finite_toReal (hcis j), Fl.fin_add]
    rfl
  have hpz : ∀ j, (ipmComputeStep env st rhs cis i).pz j =
      .fin (st.μ.toReal * (st.s.real j)⁻¹ - st.z.real j - (st.s.real j)⁻¹ * st.z.real j *
        (cis.real j + ∑ l, st.e.Ai.real j l * (p (l : ℕ)).toReal)) := fun j => by
    show st.μ * (1 / st.s j) - st.z j - 1 / st.s j * st.z j * (ipmComputeStep env st rhs cis i).ps j = _
    obtain ⟨a, ha, h0⟩ := h.s j
    have hsr : st.s.real j = a := by show (st.s j).toReal = a; rw [ha]; rfl
    rw [hps, ha, hsr, Fl.finite_toReal (hz j), Fl.finite_toReal h.μ, Fl.one_def, Fl.fin_div h0.ne']
    simp only [Fl.fin_mul, Fl.fin_sub, one_div]
    rfl
  refine ⟨⟨hpx, fun j => by rw [hps]; rfl, hpy, fun j => by rw [hpz]; rfl⟩, ?_⟩
  unfold IpmStep.real computeStep
  congr 1
  · funext j; show Fl.toReal _ = _; rw [hps]; rfl
  · funext j
    show Fl.toReal (-p (n + j)) = _
    have := Fl.finite_toReal (hp (Fin.natAdd n j))
    rw [Fin.val_natAdd] at this
    rw [this, Fl.fin_neg]
    rfl
  · funext j; show Fl.toReal _ = _; rw [hpz]; rfl

/-- The linear solver solves the systems of an iteration, for some regularisation
among `Γ`. -/
def IpmState.Answers (st : IpmState n m k) (env : Env) (Γ : ℝ → ℝ → Prop) : Prop :=
  ∀ (i : ℕ) (rhs : Vec (n + m)), rhs.Finite →
    ∃ δ γ, 0 ≤ δ ∧ 0 ≤ γ ∧ Γ δ γ ∧ (st.system env rhs).Solved (env.solve i (st.system env rhs)) δ γ

theorem Env.ExactSolve.answers {env : Env} (hE : env.ExactSolve) {st : IpmState n m k} (h : st.Regular) :
    st.Answers env fun _ _ => True := fun i rhs hr => by
  obtain ⟨δ, γ, h0, h1, hS⟩ := hE i (st.system env rhs) ⟨(kktLhsF_real (env := env) h).1, hr⟩
  exact ⟨δ, γ, h0, h1, trivial, hS⟩

/-- C33: the step of an iteration of the interior-point solver. -/
theorem ipm_step_newton {env : Env} {Γ : ℝ → ℝ → Prop} {st : IpmState n m k} (hE : st.Answers env Γ) (h : st.Regular) (i : ℕ) :
    st.NewtonStep st.e.ce (fun j => st.e.ci j - st.s j)
      (ipmComputeStep env st (st.rhs env) (fun j => st.e.ci j - st.s j) i) Γ := by
  obtain ⟨-, hl'⟩ := kktLhsF_real (env := env) h
  obtain ⟨-, -, hce, -, hci, hs, -, -⟩ := h.error
  obtain ⟨δ, γ, h0, h1, hΓ, hS⟩ := hE i (st.rhs env) fun j =>
    (congrArg Fl.isFinite (st.rhs_eq (env := env) h j)).trans rfl
  have hcis : Vec.Finite fun j => st.e.ci j - st.s j := fun j => Fl.finite_sub.2 ⟨hci j, hs j⟩
  obtain ⟨hf, hr⟩ := ipmComputeStep_real h hcis hS.1
  refine ⟨hf, δ, γ, h0, h1, hΓ, ?_⟩
  rw [hr]
  obtain ⟨r1, r2⟩ := kkt_solved_rows hl' hS
  have hrhs : Vec.real (st.rhs env) = kktRhs st.e.g.real st.e.Ae.real st.e.ce.real st.e.Ai.real st.e.ci.real st.s.real
      st.y.real st.z.real st.μ.toReal := by
    funext j; show Fl.toReal _ = _; rw [st.rhs_eq h]; rfl
  have hc : Vec.real (fun j => st.e.ci j - st.s j) = st.e.ci.real - st.s.real := by
    funext j
    show Fl.toReal (st.e.ci j - st.s j) = _
    rw [Fl.finite_toReal (hci j), Fl.finite_toReal (hs j), Fl.fin_sub]; rfl
  obtain ⟨k1, k2⟩ := kktRhs_rows (g := st.e.g.real) (Ae := st.e.Ae.real) (Ai := st.e.Ai.real) (ce := st.e.ce.real)
    (y := st.y.real) (ci := st.e.ci.real) (z := st.z.real) (μ := st.μ.toReal) (fun j => h.s.real_pos j)
  rw [← hrhs] at k1 k2
  rw [hc]
  exact step_of_rows (fun j => (h.s.real_pos j).ne') r1 r2 k1 k2

/-- C33: the step of a second-order correction, with the corrected constraint values. -/
theorem ipm_correction_newton {env : Env} {Γ : ℝ → ℝ → Prop} {st : IpmState n m k} (hE : st.Answers env Γ) (h : st.Regular)
    {ce : Vec m} {cis : Vec k} (hce : ce.Finite) (hcis : cis.Finite) (i : ℕ) :
    st.NewtonStep ce cis (ipmComputeStep env st (st.socRhs env ce cis) cis i) Γ := by
  obtain ⟨-, hl'⟩ := kktLhsF_real (env := env) h
  obtain ⟨δ, γ, h0, h1, hΓ, hS⟩ := hE i (st.socRhs env ce cis) fun j =>
    (congrArg Fl.isFinite (st.socRhs_eq (env := env) h hce hcis j)).trans rfl
  obtain ⟨hf, hr⟩ := ipmComputeStep_real h hcis hS.1
  refine ⟨hf, δ, γ, h0, h1, hΓ, ?_⟩
  rw [hr]
  obtain ⟨r1, r2⟩ := kkt_solved_rows hl' hS
  have hrhs : Vec.real (st.socRhs env ce cis) = Slp.socRhs st.e.g.real st.e.Ae.real ce.real st.e.Ai.real cis.real
      st.s.real st.y.real st.z.real st.μ.toReal := by
    funext j; show Fl.toReal _ = _; rw [st.socRhs_eq h hce hcis]; rfl
  obtain ⟨k1, k2⟩ := socRhs_rows (g := st.e.g.real) (Ae := st.e.Ae.real) (Ai := st.e.Ai.real) (ce := ce.real)
    (y := st.y.real) (c := cis.real) (s := st.s.real) (z := st.z.real) (μ := st.μ.toReal)
  rw [← hrhs] at k1 k2
  exact step_of_rows (fun j => (h.s.real_pos j).ne') r1 r2 k1 k2

/-- All functions have finite values at finite arguments. -/
structure Nlp.Total (P : Nlp n m k) : Prop where
  f : ∀ x, x.Finite → (P.f x).isFinite = true
  g : ∀ x, x.Finite → (P.g x).Finite
  H : ∀ x y z, x.Finite → y.Finite → z.Finite → (P.H x y z).Finite
  ce : ∀ x, x.Finite → (P.ce x).Finite
  Ae : ∀ x, x.Finite → (P.Ae x).Finite
  ci : ∀ x, x.Finite → (P.ci x).Finite
  Ai : ∀ x, x.Finite → (P.Ai x).Finite

/-- The values of `cₑ` and `cᵢ − s` that a step may be computed for: those of the iterate, or those of a second-order
correction. A correction is made after a point has been tried: a fraction `a` of a step for the values before it, which
are multiplied by `a` and added to the values at that point. -/
inductive StepValues (opts : SolverOptions) (P : Nlp n m k) (st : IpmState n m k) (Γ : ℝ → ℝ → Prop) : Vec m → Vec k → Prop
  | plain : StepValues opts P st Γ st.e.ce fun j => st.e.ci j - st.s j
  | corrected {ce : Vec m} {cis : Vec k} {q : IpmStep n m k} {a : ℝ} {x : Vec n} {s : Vec k} (h : StepValues opts P st Γ ce cis)
      (newton : st.NewtonStep ce cis q Γ) (size : 0 < a ∧ a ≤ 1) (hx : ∀ j, x j = .fin (st.x.real j + a * q.real.px j))
      (hs : (∀ j, s j = .fin (st.s.real j + a * q.real.ps j)) ∨
        opts.feasibleIpm = true ∧ (∀ j, 0 < st.e.ci j) ∧ s = P.ci x) (ce' : Vec m) (cis' : Vec k)
      (hce : ∀ j, ce' j = .fin (a * ce.real j + (P.ce x).real j))
      (hcis : ∀ j, cis' j = .fin (a * cis.real j + (P.ci x).real j - s.real j)) : StepValues opts P st Γ ce' cis'

/-- The new iterate `st'` is reached from `st` along a step of Newton's method for constraint values `ce` and `cis`:
`x` and `s` move by `u` times the step (or the slacks follow the constraints), `y` and `z` by `v` times the step, and the
inequality multipliers are then brought into `[μ/(κs), κμ/s]`. -/
structure MovedAlong (opts : SolverOptions) (P : Nlp n m k) (st : IpmState n m k) (ce : Vec m) (cis : Vec k)
    (st' : IpmState n m k) (u v : ℝ) (p : IpmStep n m k) (Γ : ℝ → ℝ → Prop := fun _ _ => True) : Prop where
  values : StepValues opts P st Γ ce cis
  newton : st.NewtonStep ce cis p Γ
  primal : 0 < u ∧ u ≤ 1
  dual : 0 < v ∧ v ≤ 1
  x : ∀ j, st'.x j = .fin (st.x.real j + u * p.real.px j)
  s : (∀ j, st'.s j = .fin (st.s.real j + u * p.real.ps j)) ∨
    opts.feasibleIpm = true ∧ (∀ j, 0 < st.e.ci j) ∧ st'.s = P.ci st'.x
  y : ∀ j, st'.y j = .fin (st.y.real j + v * p.real.py j)
  z : ∀ j, st'.z j = .fin (Max.max (st.μ.toReal / (1e10 * st'.s.real j))
    (Min.min (1e10 * st.μ.toReal / st'.s.real j) (st.z.real j + v * p.real.pz j)))

theorem fin_move {a c : Fl} {u : ℝ} (ha : a.isFinite = true) (hc : c.isFinite = true) :
    a + .fin u * c = .fin (a.toReal + u * c.toReal) := by
  rw [Fl.finite_toReal ha, Fl.finite_toReal hc, Fl.fin_mul, Fl.fin_add]; rfl

theorem clampDualF_eq {μ s z : ℝ} (hμ : 0 < μ) (hs : 0 < s) :
    clampDualF (.fin μ) (.fin s) (.fin z) = .fin (Max.max (μ / (1e10 * s)) (Min.min (1e10 * μ / s) z)) := by
  unfold clampDualF clampF
  rw [Fl.one_def, Fl.fin_div (by norm_num), Fl.fin_mul, Fl.fin_mul, Fl.fin_div hs.ne', Fl.fin_div hs.ne']
  simp only [Fl.fin_lt]
  have e : 1 / 1e10 * μ / s = μ / (1e10 * s) := by field_simp
  have hle : μ / (1e10 * s) ≤ 1e10 * μ / s := by
    rw [div_le_div_iff₀ (by positivity) hs]
    nlinarith [mul_pos hμ hs]
  rw [e]
  split_ifs with h1 h2
  · rw [max_eq_left ((min_le_right _ _).trans h1.le)]
  · rw [min_eq_left h2.le, max_eq_right hle]
  · rw [min_eq_right (not_lt.1 h2), max_eq_right (not_lt.1 h1)]

theorem boundaryF_pos {τ : ℝ} (hτ : 0 < τ) {v : Vec k} (hv : v.Pos) {p : Vec k} (hp : p.Finite) :
    ∃ b, boundaryF v p (.fin τ) = .fin b ∧ 0 < b ∧ b ≤ 1 := by
  obtain ⟨b, hb, -, hb1⟩ := boundaryF_range hτ hv p
  refine ⟨b, hb, ?_, hb1⟩
  rw [boundaryF_finite hv.finite hp hτ hv.real_pos] at hb
  rw [← Fl.fin.inj hb]
  refine (boundary_correct hτ _ ?_).1.1
  intro e he
  obtain ⟨j, rfl⟩ := (List.mem_ofFn' _ _).1 he
  exact hv.real_pos j

/-- The values of every correction, and the point tried after it. -/
theorem Corrected.values {env : Env} {Γ : ℝ → ℝ → Prop} {opts : SolverOptions} {P : Nlp n m k} (hP : P.Total)
    {st : IpmState n m k} (hE : st.Answers env Γ) (hB : BarrierOk st) (h : st.Regular) (hx : st.x.Finite) {a : ℝ}
    (ha : 0 < a ∧ a ≤ 1) {p : IpmStep n m k} (hp : st.NewtonStep st.e.ce (fun j => st.e.ci j - st.s j) p Γ) {αz : Fl}
    {l : ℕ} {ce : Vec m} {cis : Vec k} {αs : Fl} {t : Trial n m k} {w : Fl}
    (hc : Corrected env P st (.fin a) (ipmTrial P st p (.fin a) αz (SlacksFollow opts st)) l ce cis αs t w) :
    (ce.Finite ∧ cis.Finite) ∧ StepValues opts P st Γ ce cis ∧ ∃ q b αz' C, st.NewtonStep ce cis q Γ ∧ αs = .fin b ∧
      (0 < b ∧ b ≤ 1) ∧ (C → SlacksFollow opts st) ∧ t = ipmTrial P st q (.fin b) αz' C := by
  obtain ⟨τ, hτ, hτ0, -⟩ := hB.τ
  obtain ⟨-, -, hce, -, hci, hs, -, -⟩ := h.error
  induction hc with
  | start => exact ⟨⟨hce, fun j => Fl.finite_sub.2 ⟨hci j, hs j⟩⟩, .plain, p, a, αz, _, hp, rfl, ha, id, rfl⟩
  | @next l ce cis αs t w hc hw ce' cis' hce' hcis' i q hq ih =>
    obtain ⟨⟨i1, i2⟩, iv, q0, b0, αz0, C, hq0, rfl, hb0, hC, rfl⟩ := ih
    obtain ⟨⟨p1, p2, -, -⟩, -⟩ := id hq0
    have fx : (ipmTrial P st q0 (.fin b0) αz0 C).x.Finite := fun j =>
      Fl.finite_add.2 ⟨hx j, Fl.finite_mul.2 ⟨rfl, p1 j⟩⟩
    have k1 : (ipmTrial P st q0 (.fin b0) αz0 C).ce.Finite := hP.ce _ fx
    have k2 : (ipmTrial P st q0 (.fin b0) αz0 C).ci.Finite := hP.ci _ fx
    have k3 : (∀ j, (ipmTrial P st q0 (.fin b0) αz0 C).s j = .fin (st.s.real j + b0 * q0.real.ps j)) ∨
        opts.feasibleIpm = true ∧ (∀ j, 0 < st.e.ci j) ∧
          (ipmTrial P st q0 (.fin b0) αz0 C).s = P.ci (ipmTrial P st q0 (.fin b0) αz0 C).x := by
      by_cases hc : C
      · obtain ⟨c1, c2⟩ := hC hc
        exact .inr ⟨c1, c2, if_pos hc⟩
      · exact .inl fun j => (congrFun (if_neg hc) j).trans (fin_move (hs j) (p2 j))
    have k4 : (ipmTrial P st q0 (.fin b0) αz0 C).s.Finite := by
      rcases k3 with k3 | ⟨-, -, k3⟩
      · exact fun j => by rw [k3]; rfl
      · rw [k3]; exact k2
    have f1 : ∀ j, ce' j = .fin (b0 * ce.real j + (ipmTrial P st q0 (.fin b0) αz0 C).ce.real j) := fun j => by
      rw [hce', Fl.finite_toReal (i1 j), Fl.finite_toReal (k1 j), Fl.fin_mul, Fl.fin_add]; rfl
    have f2 : ∀ j, cis' j = .fin (b0 * cis.real j + (ipmTrial P st q0 (.fin b0) αz0 C).ci.real j -
        (ipmTrial P st q0 (.fin b0) αz0 C).s.real j) := fun j => by
      rw [hcis', Fl.finite_toReal (i2 j), Fl.finite_toReal (k2 j), Fl.finite_toReal (k4 j), Fl.fin_mul, Fl.fin_add,
        Fl.fin_sub]; rfl
    have g1 : ce'.Finite := fun j => by rw [f1]; rfl
    have g2 : cis'.Finite := fun j => by rw [f2]; rfl
    have hq' := ipm_correction_newton hE h g1 g2 i
    rw [← hq] at hq'
    obtain ⟨b, hb, hb0'⟩ := boundaryF_pos (by linarith : 0 < τ) h.s hq'.1.2.1
    rw [← hτ] at hb
    rw [hb]
    exact ⟨⟨g1, g2⟩, .corrected iv hq0 hb0 (fun j => fin_move (hx j) (p1 j)) k3 ce' cis' f1 f2, q, b, _, False, hq', rfl,
      hb0', False.elim, rfl⟩

/-- A point on a Newton step, as the next iterate. -/
theorem moved_along {opts : SolverOptions} {P : Nlp n m k} {st st' : IpmState n m k} (hB : BarrierOk st)
    (h : st.Regular) (hx : st.x.Finite) (hz : st.z.Pos) {ce : Vec m} {cis : Vec k} {p : IpmStep n m k}
    {Γ : ℝ → ℝ → Prop} (hV : StepValues opts P st Γ ce cis) (hp : st.NewtonStep ce cis p Γ) {u : ℝ} (hu : 0 < u ∧ u ≤ 1) {C : Prop} (hC : C → SlacksFollow opts st)
    (hpos : (ipmTrial P st p (.fin u) (boundaryF st.z p.pz st.τ) C).s.Pos)
    {F : Filter} {r : ℕ} {α αmax : Fl}
    (hst : st' = ({ st with filter := F, rejected := r } : IpmState n m k).accept P
      (ipmTrial P st p (.fin u) (boundaryF st.z p.pz st.τ) C) α αmax) :
    ∃ v, MovedAlong opts P st ce cis st' u v p Γ := by
  obtain ⟨⟨p1, p2, p3, p4⟩, -⟩ := id hp
  obtain ⟨-, -, -, -, -, hs, hy, hzf⟩ := h.error
  obtain ⟨τ, hτ, hτ0, -⟩ := hB.τ
  have hτp : 0 < τ := by linarith
  obtain ⟨μ, hμ, hμ0⟩ := hB.μ
  obtain ⟨v, hv, -, hv1⟩ := boundaryF_range hτp hz p.pz
  have hv0 : 0 < v := by
    have h1 := hv
    rw [boundaryF_finite hz.finite p4 hτp hz.real_pos] at h1
    rw [← Fl.fin.inj h1]
    refine (boundary_correct hτp _ ?_).1.1
    intro e he
    obtain ⟨j, rfl⟩ := (List.mem_ofFn' _ _).1 he
    exact hz.real_pos j
  rw [← hτ] at hv
  rw [hv] at hst hpos
  refine ⟨v, hV, hp, hu, ⟨hv0, hv1⟩, fun j => ?_, ?_, fun j => ?_, fun j => ?_⟩
  · rw [hst]; exact fin_move (hx j) (p1 j)
  · by_cases hc : C
    · obtain ⟨c1, c2⟩ := hC hc
      refine .inr ⟨c1, c2, ?_⟩
      rw [hst]
      exact if_pos hc
    · refine .inl fun j => ?_
      rw [hst]
      exact (congrFun (if_neg hc) j).trans (fin_move (hs j) (p2 j))
  · rw [hst]; exact fin_move (hy j) (p3 j)
  · obtain ⟨b, hb, hb0⟩ := hpos j
    have hs' : st'.s = (ipmTrial P st p (.fin u) (.fin v) C).s := by rw [hst]; rfl
    have hs'' : st'.s.real j = b := by show (st'.s j).toReal = b; rw [hs', hb]; rfl
    have hz' : st'.z j = clampDualF st.μ ((ipmTrial P st p (.fin u) (.fin v) C).s j) (st.z j + .fin v * p.pz j) := by
      rw [hst]; rfl
    rw [hz', hs'', hb, fin_move (hzf j) (p4 j), hμ, clampDualF_eq hμ0 hb0]
    rfl

/-- C33: for a problem whose functions have finite values, every iteration of the interior-point solver that neither
fails nor calls feasibility restoration moves the iterate along a step of Newton's method for the perturbed optimality
conditions: those of the current iterate, or for a second-order correction those with the corrected constraint values.
The next iteration starts with finite values again. -/
theorem iteration_newton {env : Env} (opts : SolverOptions) {P : Nlp n m k} (hP : P.Total) (restore : RestoreFn n m k)
    {st : IpmState n m k} {Γ : ℝ → ℝ → Prop} (hE : st.Answers env Γ) (hB : BarrierOk st) (h : st.Regular) (hx : st.x.Finite)
    (hz : st.z.Pos) (w : World) (E : Filter) :
    (env.factor w.factors = false ∧ ipmMove env opts P restore st w E =
      some (.stop (st.exit .factorizationFailed { w with factors := w.factors + 1 } E))) ∨
    (∃ F c α i, ipmMove env opts P restore st w E = restore { st with filter := F, rejected := c } α
      { w with factors := w.factors + 1, solves := i } E) ∨
    ∃ st' w' ce cis u v p, ipmMove env opts P restore st w E = some (.go st' w' E) ∧
      MovedAlong opts P st ce cis st' u v p Γ ∧ st'.Regular ∧ st'.x.Finite ∧ st'.z.Pos ∧
      st'.e = P.eval st'.x st'.y st'.z ∧ st'.μ = st.μ ∧ st'.τ = st.τ ∧ st'.iterations = st.iterations ∧
      w'.trace = w.trace ∧ w'.calls = w.calls := by
  rcases iteration_moves_legally env opts P restore hB h.s w E with h1 | h1 |
    ⟨F, c, α, a, i, R, t, u, h1, hacc, hu0, hu1, ha, hR⟩
  · exact .inl h1
  · exact .inr (.inl h1)
  refine .inr (.inr ?_)
  obtain ⟨-, -, -, -, hci, hs, hy, hzf⟩ := id h.error
  obtain ⟨μ, hμ, hμ0⟩ := hB.μ
  have hN := ipm_step_newton hE h w.solves
  set p := ipmComputeStep env st (st.rhs env) (fun i => st.e.ci i - st.s i) w.solves with hp
  obtain ⟨⟨p1, p2, p3, p4⟩, -⟩ := id hN
  have key : ∀ (ce : Vec m) (cis : Vec k) (q : IpmStep n m k) (C : Prop), StepValues opts P st Γ ce cis →
      st.NewtonStep ce cis q Γ →
      (C → SlacksFollow opts st) → t = ipmTrial P st q (.fin u) (boundaryF st.z q.pz st.τ) C → t.s.Pos →
      ∃ st' w' ce cis u v p, ipmMove env opts P restore st w E = some (.go st' w' E) ∧
      MovedAlong opts P st ce cis st' u v p Γ ∧ st'.Regular ∧ st'.x.Finite ∧ st'.z.Pos ∧
      st'.e = P.eval st'.x st'.y st'.z ∧ st'.μ = st.μ ∧ st'.τ = st.τ ∧ st'.iterations = st.iterations ∧
      w'.trace = w.trace ∧ w'.calls = w.calls := by
    intro ce cis q C hV hq hC ht hpos
    obtain ⟨v, hM⟩ := moved_along (opts := opts) (P := P) hB h hx hz hV hq ⟨hu0, hu1⟩ hC (ht ▸ hpos) (F := F) (r := c) (α := α)
      (αmax := .fin a) rfl
    rw [← ht] at hM
    refine ⟨_, _, ce, cis, u, v, q, h1, hM, ?_⟩
    set st' := ({ st with filter := F, rejected := c } : IpmState n m k).accept P t α (.fin a) with hst'
    have hx' : st'.x.Finite := fun j => by rw [hM.x]; rfl
    have hy' : st'.y.Finite := fun j => by rw [hM.y]; rfl
    have hz' : st'.z.Pos := fun j => ⟨_, hM.z j, lt_of_lt_of_le (div_pos (by rw [hμ]; exact hμ0)
      (mul_pos (by norm_num) (show 0 < st'.s.real j from hpos.real_pos j))) (le_max_left _ _)⟩
    have hs' : st'.s.Pos := hpos
    have hce : st'.e.ce = P.ce st'.x := by rw [hst', ht]; rfl
    have hci : st'.e.ci = P.ci st'.x := by rw [hst', ht]; rfl
    exact ⟨⟨⟨hP.g _ hx', hP.Ae _ hx', hce ▸ hP.ce _ hx', hP.Ai _ hx', hci ▸ hP.ci _ hx', hs'.finite, hy', hz'.finite⟩,
      hP.H _ _ _ hx' hy' hz'.finite, h.μ, hs'⟩, hx', hz', by rw [hst', ht]; rfl, rfl, rfl, rfl, rfl, rfl⟩
  obtain ⟨τ, hτ, hτ0, hτ1⟩ := hB.τ
  have ha0 : 0 < a ∧ a ≤ 1 := by
    obtain ⟨b, hb, hb0⟩ := boundaryF_pos (by linarith : 0 < τ) h.s p2
    rw [← hτ, ha] at hb
    exact Fl.fin.inj hb ▸ hb0
  cases R with
  | filter =>
    obtain ⟨b, hb, hb0, hb1, -, ht, -, hF⟩ := hacc
    exact key _ _ p _ .plain hN id ht (entry_finite hF.finite)
  | correction =>
    obtain ⟨l, ce', cis', wv, -, hcor, hF, -⟩ := hacc
    obtain ⟨i', hu, ht⟩ := hcor.step
    obtain ⟨⟨f1, f2⟩, hV, -⟩ := hcor.values hP hE hB h hx ha0 hN
    exact key ce' cis' _ False hV (ipm_correction_newton hE h f1 f2 i') False.elim ht (entry_finite hF.finite)
  | kktError =>
    obtain ⟨hua, ht, -⟩ := hacc
    refine key _ _ p False .plain hN False.elim ht ?_
    rw [ht]
    rw [show (ipmTrial P st p (.fin u) (boundaryF st.z p.pz st.τ) False).s = _ from if_neg not_false]
    obtain rfl := Fl.fin.inj hua
    refine move_pos h.s (by linarith) hτ1 (hτ ▸ ha) hu0.le le_rfl ?_
    exact fun j => Fl.finite_add.2 ⟨hs j, Fl.finite_mul.2 ⟨rfl, p2 j⟩⟩

/-- C33: the slope used by the line search is the derivative of the barrier function along the step, `F` being the cost
along the step. -/
theorem slope_correct {env : Env} {st : IpmState n m k} (h : st.Regular) {p : IpmStep n m k} (hp : p.Finite) {F : ℝ → ℝ}
    (hF : HasDerivAt F (∑ j, st.e.g.real j * p.px.real j) 0) :
    ∃ d, ipmSlope env st p = .fin d ∧
      HasDerivAt (fun t => F t - st.μ.toReal * ∑ i, Real.log (st.s.real i + t * p.ps.real i)) d 0 := by
  obtain ⟨p1, p2, -, -⟩ := hp
  have hinv : Vec.Finite (fun i => 1 / st.s i) ∧ ∀ i, Vec.real (fun i => 1 / st.s i) i = 1 / st.s.real i := by
    have key (i) : 1 / st.s i = .fin (1 / st.s.real i) := by
      obtain ⟨a, ha, h0⟩ := h.s i
      rw [show st.s.real i = a from by show (st.s i).toReal = a; rw [ha]; rfl, ha, Fl.one_def, Fl.fin_div h0.ne']
    exact ⟨fun i => by show (1 / st.s i).isFinite = true; rw [key]; rfl, fun i => by show Fl.toReal (1 / st.s i) = _; rw [key]; rfl⟩
  refine ⟨∑ j, st.e.g.real j * p.px.real j - st.μ.toReal * ∑ i, 1 / st.s.real i * p.ps.real i, ?_, ?_⟩
  · unfold ipmSlope dotF
    rw [if_pos ⟨h.error.1, p1⟩, if_pos ⟨hinv.1, p2⟩, Fl.finite_toReal h.μ, Fl.fin_mul, Fl.fin_sub]
    simp only [hinv.2]
    rfl
  · refine hF.sub (HasDerivAt.const_mul _ ?_)
    refine HasDerivAt.fun_sum fun i _ => ?_
    have h1 : HasDerivAt (fun t : ℝ => st.s.real i + t * p.ps.real i) (p.ps.real i) 0 := by
      simpa using ((hasDerivAt_id (0 : ℝ)).mul_const (p.ps.real i)).const_add (st.s.real i)
    have h2 := h1.log (by simpa using (h.s.real_pos i).ne')
    have e : p.ps.real i / (st.s.real i + 0 * p.ps.real i) = 1 / st.s.real i * p.ps.real i := by
      rw [zero_mul, add_zero]; ring
    rw [e] at h2
    exact h2

/-! ### An example -/

/-- Minimise `x₀² + x₁²` subject to `x₀x₁ = 1` and `x₀ ≥ ½`. -/
noncomputable def hyperbolaNlp : Nlp 2 1 1 where
  f x := x 0 * x 0 + x 1 * x 1
  g x := ![.fin 2 * x 0, .fin 2 * x 1]
  H _ y _ := ![![.fin 2, 0], ![-y 0, .fin 2]]
  ce x := ![x 0 * x 1 - .fin 1]
  Ae x := ![![x 1, x 0]]
  ci x := ![x 0 - .fin 0.5]
  Ai _ := ![![.fin 1, 0]]
  scaling := .identity

theorem hyperbolaNlp_total : hyperbolaNlp.Total := by
  refine ⟨fun x h => ?_, fun x h i => ?_, fun x y z _ h _ i j => ?_, fun x h i => ?_, fun x h i j => ?_, fun x h i => ?_,
    fun x h i j => ?_⟩
  · exact Fl.finite_add.2 ⟨Fl.finite_mul.2 ⟨h 0, h 0⟩, Fl.finite_mul.2 ⟨h 1, h 1⟩⟩
  · fin_cases i
    · exact Fl.finite_mul.2 ⟨rfl, h 0⟩
    · exact Fl.finite_mul.2 ⟨rfl, h 1⟩
  · fin_cases i <;> fin_cases j
    · rfl
    · rfl
    · exact Fl.finite_neg.2 (h 0)
    · rfl
  · fin_cases i
    exact Fl.finite_sub.2 ⟨Fl.finite_mul.2 ⟨h 0, h 1⟩, rfl⟩
  · fin_cases i; fin_cases j
    · exact h 1
    · exact h 0
  · fin_cases i
    exact Fl.finite_sub.2 ⟨h 0, rfl⟩
  · fin_cases i; fin_cases j <;> rfl

/-- The first iteration from (2, 3): the hypotheses of `iteration_newton` are met. -/
example (factor : ℕ → Bool) (clock : ℕ → ℝ) (junk : ℕ → List Fl → Fl) :
    ∃ st : IpmState 2 1 1, st = ipmInit (exactEnv factor clock junk) hyperbolaNlp ![.fin 2, .fin 3] (fun _ => 1) (fun _ => 0)
      (fun _ => 1) (.fin 0.1) 0 ∧ st.Answers (exactEnv factor clock junk) (fun _ _ => True) ∧ hyperbolaNlp.Total ∧ BarrierOk st ∧
      st.Regular ∧ st.x.Finite ∧ st.z.Pos := by
  have hx : Vec.Finite (![.fin 2, .fin 3] : Vec 2) := fun i => by fin_cases i <;> rfl
  have hP := hyperbolaNlp_total
  have hR : (ipmInit (exactEnv factor clock junk) hyperbolaNlp ![.fin 2, .fin 3] (fun _ => 1) (fun _ => 0) (fun _ => 1)
      (.fin 0.1) 0).Regular :=
    ⟨⟨hP.g _ hx, hP.Ae _ hx, hP.ce _ hx, hP.Ai _ hx, hP.ci _ hx, fun _ => rfl, fun _ => rfl, fun _ => rfl⟩,
      hP.H _ (fun _ => 0) (fun _ => 1) hx (fun _ => rfl) fun _ => rfl, rfl, fun _ => ⟨1, rfl, one_pos⟩⟩
  exact ⟨_, rfl, (exactEnv_exact ..).1.answers hR, hP, ⟨⟨0.1, rfl, by norm_num⟩, 0.99, rfl, by norm_num, by norm_num⟩, hR, hx,
    fun _ => ⟨1, rfl, one_pos⟩⟩

end Slp
