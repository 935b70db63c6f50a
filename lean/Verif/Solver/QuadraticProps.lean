import Verif.Solver.QuadraticSpec
import Verif.Solver.SqpRegularProps
import Verif.Solver.KktProps

/-! C53: quadratic problems are solved in one iteration. -/

namespace Slp

open Classical Matrix

variable {n m : ℕ}

theorem ite_intro {A B C : Prop} [Decidable A] (h1 : A → B) (h2 : ¬ A → C) : if A then B else C := by
  by_cases h : A
  · rw [if_pos h]; exact h1 h
  · rw [if_neg h]; exact h2 h

theorem fin_real (v : Fin n → ℝ) : Vec.real (fun j => Fl.fin (v j)) = v := rfl

theorem lowerSym_of {H : FMat n n} {Q : Matrix (Fin n) (Fin n) ℝ} (hQ : Qᵀ = Q) (h : ∀ i j, j ≤ i → H i j = .fin (Q i j)) :
    lowerSym H.real = Q := by
  have hs : ∀ i j, Q i j = Q j i := fun i j => congrFun (congrFun hQ j) i
  funext i j
  simp only [lowerSym, FMat.real]
  split_ifs with hij
  · rw [h i j hij]; rfl
  · rw [h j i (le_of_not_ge hij), hs i j]; rfl

theorem dot_symm {Q : Matrix (Fin n) (Fin n) ℝ} (hQ : Qᵀ = Q) (u v : Fin n → ℝ) : u ⬝ᵥ Q *ᵥ v = v ⬝ᵥ Q *ᵥ u := by
  rw [dotProduct_mulVec, ← Matrix.mulVec_transpose, hQ, dotProduct_comm]

/-- The cost at the end of a step. -/
theorem EqualityQp.cost_add (q : EqualityQp n m) (hQ : q.Qᵀ = q.Q) (v p : Fin n → ℝ) :
    q.cost (v + p) = q.cost v + (q.Q *ᵥ v + q.c) ⬝ᵥ p + (p ⬝ᵥ q.Q *ᵥ p) / 2 := by
  simp only [EqualityQp.cost, mulVec_add, dotProduct_add, add_dotProduct]
  rw [dot_symm hQ v p, dotProduct_comm (q.Q *ᵥ v) p]
  ring

/-- Points that satisfy the optimality conditions are minimisers. -/
theorem EqualityQp.minimises_of (q : EqualityQp n m) (hq : q.Convex) {v : Fin n → ℝ} {y : Fin m → ℝ}
    (h1 : q.A *ᵥ v = q.b) (h2 : q.Q *ᵥ v + q.c = q.Aᵀ *ᵥ y) : q.Minimises v := by
  refine ⟨h1, fun w hw => ?_⟩
  have e : w = v + (w - v) := by abel
  have hz : q.A *ᵥ (w - v) = 0 := by rw [mulVec_sub, hw, h1, sub_self]
  rw [e, q.cost_add hq.1, h2]
  have : (q.Aᵀ *ᵥ y) ⬝ᵥ (w - v) = 0 := by
    rw [Matrix.mulVec_transpose, ← dotProduct_mulVec, hz, dotProduct_zero]
  have := hq.2 _ hz
  linarith

theorem infNorm_zero : infNorm (fun _ : Fin n => (0 : ℝ)) = 0 := infNorm_eq_zero.2 fun _ => rfl

theorem unscaledInfNewton_zero (S : Scaling 0 0) : unscaledInfNewton S (fun _ : Fin n => (0 : ℝ)) = 0 := by
  unfold unscaledInfNewton kktInfNewton
  split
  · exact infNorm_zero
  · simp only [mul_zero]; exact infNorm_zero

theorem errZeroNewton_zero (env : Env) (S : Scaling 0 0) {g : Vec n} (h : ∀ j, g j = .fin 0) :
    errZeroNewton env S g = .fin 0 := by
  unfold errZeroNewton
  rw [if_pos (show g.Finite from fun j => by rw [h]; rfl), show g.real = fun _ => 0 from funext fun j => by
    show Fl.toReal _ = _; rw [h]; rfl, unscaledInfNewton_zero]

/-! ### Newton's method -/

/-- The initial system is strongly convex. -/
theorem newton_quadratic_system {env : Env} {P : Nlp n 0 0} {q : EqualityQp n 0} (hP : P.IsQp q) (hsym : q.Qᵀ = q.Q)
    (hQ : ∀ v, 1e-4 * (v ⬝ᵥ v) ≤ v ⬝ᵥ q.Q *ᵥ v) {x : Vec n} (hx : x.Finite) :
    (newtonInit env P x).system.Finite ∧ (newtonInit env P x).system.StronglyConvex := by
  have hg : (P.g x).Finite := fun j => by rw [hP.g x hx]; rfl
  have hH : (P.H x Fin.elim0 Fin.elim0).Finite := fun i j => (hP.H x _ hx (fun i => i.elim0) i j).1
  have hl : (newtonInit env P x).system.lhs.real = q.Q := by
    rw [← lowerSym_of hsym fun i j => (hP.H x Fin.elim0 hx (fun i => i.elim0) i j).2]
    funext i j
    show Fl.toReal (if j ≤ i then _ else _) = if j ≤ i then _ else _
    split_ifs <;> rfl
  refine ⟨newton_system_finite hg hH, rfl, ?_, ?_⟩
  · rw [hl]; exact hsym
  · rw [hl]; exact hQ

/-- C53: Newton's method on a strongly convex quadratic cost, with a linear solver that does not regularise strongly
convex systems: at most one iteration is made. The run ends with SUCCESS, or a callback, the timeout or a guess beyond
`10¹⁰` stopped it. After an iteration the result is the minimiser, but an iteration limit of one is reported as
exceeded. -/
theorem newton_quadratic {env : Env} (hE : ∀ S : LinSystem, S.Finite → S.StronglyConvex → env.Plain S)
    {opts : SolverOptions} (ht : 0 ≤ opts.tolerance) {P : Nlp n 0 0} {q : EqualityQp n 0}
    (hP : P.IsQp q) (hsym : q.Qᵀ = q.Q) (hQ : ∀ v, 1e-4 * (v ⬝ᵥ v) ≤ v ⬝ᵥ q.Q *ᵥ v) {cbs : List Callback} {x : Vec n}
    (hx : x.Finite) :
    ∃ res, newton env opts P cbs x .start = some res ∧ res.iterations ≤ 1 ∧
      (res.iterations = 0 → res.x = x) ∧ (res.iterations = 1 → res.x.Finite ∧ q.Minimises res.x.real) ∧
      (res.status = .success ∨ res.status = .callbackRequestedStop ∨ res.status = .timeout ∨
        res.status = .divergingIterates ∧ res.iterations = 0 ∨
        res.status = .maxIterationsExceeded ∧ res.iterations = 1 ∧ opts.maxIterations ≤ 1) := by
  have hz : q.A *ᵥ x.real = q.b := by funext i; exact i.elim0
  have hg : (P.g x).Finite := fun j => by rw [hP.g x hx]; rfl
  have hgr : (P.g x).real = q.Q *ᵥ x.real + q.c := by funext j; show Fl.toReal _ = _; rw [hP.g x hx]; rfl
  have hH : (P.H x Fin.elim0 Fin.elim0).Finite := fun i j => (hP.H x _ hx (fun i => i.elim0) i j).1
  have hl := lowerSym_of hsym fun i j => (hP.H x Fin.elim0 hx (fun i => i.elim0) i j).2
  obtain ⟨s1, s2⟩ := newton_quadratic_system (env := env) hP hsym hQ hx
  have hconv : q.Convex := ⟨hsym, fun v _ => le_trans (mul_nonneg (by norm_num) (Finset.sum_nonneg fun i _ => mul_self_nonneg _)) (hQ v)⟩
  obtain ⟨r, hr⟩ : ∃ r, loopRounds opts 0 = r + 1 := by
    refine ⟨loopRounds opts 0 - 1, ?_⟩
    unfold loopRounds
    omega
  unfold newton
  simp only
  rw [if_neg (by rw [not_not]; exact ⟨by show (P.f x).isFinite = true; rw [hP.f x hx]; rfl, hg, hH⟩), hr, newtonLoop]
  split
  · exact ⟨_, rfl, by simp [NewtonState.exit, newtonInit], fun _ => rfl, by simp [NewtonState.exit, newtonInit], .inl rfl⟩
  rename_i hE0
  rw [not_not] at hE0
  split
  · exact ⟨_, rfl, by simp [NewtonState.exit, newtonInit], fun _ => rfl, by simp [NewtonState.exit, newtonInit],
      .inr (.inr (.inr (.inl ⟨rfl, rfl⟩)))⟩
  simp only
  split
  · exact ⟨_, rfl, by simp [NewtonState.exit, newtonInit], fun _ => rfl, by simp [NewtonState.exit, newtonInit],
      .inr (.inl rfl)⟩
  -- the step
  set st := newtonInit env P x with hst
  generalize World.start.solves = i
  obtain ⟨hpf, hp⟩ := newton_step_solved (env := env) (st := st) (i := i) hg (hE _ s1 s2 i)
  set p := (newtonStep env st i).real with hpd
  have hp' : q.Q *ᵥ p = -(q.Q *ᵥ x.real + q.c) := by
    funext j
    have := hp j
    rw [zero_mul, add_zero, show st.H = P.H x Fin.elim0 Fin.elim0 from rfl, hl] at this
    rw [Pi.neg_apply, ← hgr]
    exact this
  have hx' : newtonPoint env st i 1 = fun j => .fin ((x.real + p) j) := by
    funext j
    have := fin_move (u := 1) (hx j) (hpf j)
    rw [one_mul] at this
    exact this
  have hxf : (newtonPoint env st i 1).Finite := by rw [hx']; exact fun _ => rfl
  have hxr : (newtonPoint env st i 1).real = x.real + p := by rw [hx']; rfl
  have hg' : ∀ j, P.g (newtonPoint env st i 1) j = .fin 0 := by
    intro j
    rw [hP.g _ hxf, hxr, mulVec_add, hp']
    simp
  have hD : dotF env st.g (newtonStep env st i) = .fin (-(p ⬝ᵥ q.Q *ᵥ p)) := by
    rw [dotF_fin (show st.g.Finite from hg) hpf, hp', dotProduct_neg, neg_neg]
    show Fl.fin (∑ j, (P.g x).real j * p j) = _
    rw [hgr]
    exact congrArg Fl.fin (dotProduct_comm _ _)
  have hne : 0 < p ⬝ᵥ q.Q *ᵥ p := by
    by_contra hc
    have h0 : p ⬝ᵥ p ≤ 0 := by have := hQ p; norm_num at this; linarith
    have hp0 : p = 0 := by
      have : p ⬝ᵥ p = 0 := le_antisymm h0 (Finset.sum_nonneg fun i _ => mul_self_nonneg _)
      exact dotProduct_self_eq_zero.1 this
    have hg0 : ∀ j, P.g x j = .fin 0 := by
      intro j
      have h1 : q.Q *ᵥ x.real + q.c = 0 := by
        rw [hp0, mulVec_zero] at hp'
        exact neg_eq_zero.1 hp'.symm
      rw [hP.g x hx]
      exact congrArg Fl.fin (congrFun h1 j)
    have h1 : st.E0 = .fin 0 := errZeroNewton_zero env _ hg0
    rw [h1, gt_iff_lt, Fl.fin_lt] at hE0
    linarith
  have hf' : P.f (newtonPoint env st i 1) = .fin (q.cost x.real - (p ⬝ᵥ q.Q *ᵥ p) / 2) := by
    rw [hP.f _ hxf, hxr, q.cost_add hsym, ← neg_eq_iff_eq_neg.2 hp', neg_dotProduct, dotProduct_comm _ p]
    congr 1; ring
  have hfx : st.f = .fin (q.cost x.real) := hP.f x hx
  have hacc : (st.filter.tryAdd (newtonEntry st.f) (newtonEntry (P.f (newtonPoint env st i 1)))
      (dotF env st.g (newtonStep env st i)) 1).2 = true := by
    rw [hf', hD, hfx]
    refine accepted_complete (c := q.cost x.real - (p ⬝ᵥ q.Q *ᵥ p) / 2) rfl ?_ (by simp [hst, newtonInit, Filter.make]) ?_
    · simp only [newtonEntry, hst, newtonInit, Filter.make, gt_iff_lt]
      rw [Fl.one_def, Fl.zero_def, Fl.max_fin, Fl.fin_mul, Fl.fin_lt]
      norm_num
    · refine ite_intro (fun _ => ?_) fun _ => ?_
      · simp only [newtonEntry]
        rw [Fl.one_def, Fl.fin_mul, Fl.fin_mul, Fl.fin_add, Fl.fin_le]
        norm_num
        linarith
      · left
        simp only [newtonEntry]
        rw [Fl.one_def, Fl.pow_fin zero_le_one, Fl.zero_def, Fl.fin_mul, Fl.fin_mul, Fl.fin_sub, Fl.fin_le]
        linarith
  rw [show newtonRounds = 67 + 1 from rfl, newtonLineSearch]
  simp only
  rw [if_neg (by rw [not_not, hf']; rfl), if_pos hacc]
  simp only [Option.bind_some, Option.elim]
  have hmin : q.Minimises (newtonPoint env st i 1).real := by
    rw [hxr]
    refine q.minimises_of hconv (y := fun i => i.elim0) (by funext i; exact i.elim0) ?_
    rw [mulVec_add, hp']
    funext j
    simp [Matrix.mulVec, dotProduct]
  split
  · rename_i hlim
    refine ⟨_, rfl, by simp [NewtonState.exit, hst, newtonInit], by simp [NewtonState.exit, hst, newtonInit],
      fun _ => ⟨hxf, hmin⟩, .inr (.inr (.inr (.inr ⟨rfl, rfl, ?_⟩)))⟩
    simpa [hst, newtonInit] using hlim
  rename_i hlim
  obtain ⟨r', rfl⟩ : ∃ r', r = r' + 1 := by
    have h2 : ¬ (((0 + 1 : ℕ) : ℤ) ≥ opts.maxIterations) := hlim
    refine ⟨r - 1, ?_⟩
    unfold loopRounds at hr
    simp only [Nat.cast_zero, sub_zero] at hr
    omega
  split
  · exact ⟨_, rfl, by simp [NewtonState.exit, hst, newtonInit], by simp [NewtonState.exit, hst, newtonInit],
      fun _ => ⟨hxf, hmin⟩, .inr (.inr (.inl rfl))⟩
  rw [newtonLoop, if_pos (by
    simp only
    rw [errZeroNewton_zero env _ hg', gt_iff_lt, Fl.fin_lt]; linarith)]
  exact ⟨_, rfl, by simp [NewtonState.exit, hst, newtonInit], by simp [NewtonState.exit, hst, newtonInit],
    fun _ => ⟨hxf, hmin⟩, .inl rfl⟩

/-! ### The SQP solver -/

theorem norm1_fin (v : Fin m → ℝ) : norm1 (List.ofFn fun i => Fl.fin (v i)) = .fin (∑ i, |v i|) := by
  have key (l : List ℝ) : norm1 (l.map Fl.fin) = .fin (l.map fun a => |a|).sum := by
    induction l with
    | nil => rfl
    | cons a l ih =>
      unfold norm1 at ih ⊢
      rw [List.map_cons, List.map_cons, List.foldr_cons, ih, Fl.abs_fin, Fl.fin_add, List.map_cons, List.sum_cons]
  have h := key (List.ofFn v)
  rw [List.map_ofFn, List.map_ofFn, List.sum_ofFn] at h
  exact h

theorem unscaledInfSqp_zero {k : ℕ} {S : Scaling m k} (hS : S.PositiveFactors) {g : Fin n → ℝ} {A : Matrix (Fin m) (Fin n) ℝ}
    {ce y : Fin m → ℝ} (hc : ∀ i, ce i = 0) (hg : g = Aᵀ *ᵥ y) : unscaledInfSqp S g A ce y = 0 := by
  have hce : ce = fun _ => 0 := funext hc
  have base : ∀ {g : Fin n → ℝ} {A : Matrix (Fin m) (Fin n) ℝ} {y : Fin m → ℝ}, g = Aᵀ *ᵥ y →
      kktInfSqp g A (fun _ => 0) y = 0 := by
    intro g A y h
    unfold kktInfSqp
    rw [h, sub_self]
    simp only [show infNorm (0 : Fin n → ℝ) = 0 from infNorm_zero, infNorm_zero, zero_div, max_self]
  unfold unscaledInfSqp
  split
  · rw [hce]; exact base hg
  · cases S with
    | identity => simp only; rw [hce]; exact base hg
    | factors f de di =>
      simp only [hc, mul_zero]
      refine base ?_
      funext j
      rw [hg]
      simp only [Matrix.mulVec, dotProduct, Matrix.transpose_apply, rowScale, Finset.mul_sum]
      refine Finset.sum_congr rfl fun i _ => ?_
      have := (hS.2.1 i).ne'
      field_simp

/-- C53: the SQP solver on a convex quadratic cost with linear equality constraints, when the linear solver does not
regularise the first system and the guess is feasible or violates the constraints by more than `10⁻⁴`: at most one
iteration is made. The run ends with SUCCESS unless it was stopped by a callback, the timeout, the checks of the guess
or an iteration limit of one. After an iteration the result is a minimiser with its multipliers. -/
theorem sqp_quadratic {env : Env} {opts : SolverOptions} (ht : 0 ≤ opts.tolerance) {P : Nlp n m 0} {q : EqualityQp n m}
    (hP : P.IsQp q) (hS : P.scaling.PositiveFactors) (hq : q.Convex) {cbs : List Callback} {x : Vec n} (hx : x.Finite)
    (hmn : m ≤ n) (hfac : env.factor 0 = true)
    (hE : env.Plain ((sqpInit env P x fun _ => 0).system env (P.ce x)))
    (hv : q.A *ᵥ x.real = q.b ∨ 1e-4 < ∑ i, |(q.A *ᵥ x.real) i - q.b i|) :
    ∃ res, sqp env opts P cbs x .start = some res ∧ res.iterations ≤ 1 ∧
      (res.iterations = 0 → res.x = x) ∧
      (res.iterations = 1 → res.x.Finite ∧ res.y.Finite ∧ q.Minimises res.x.real ∧
        q.Q *ᵥ res.x.real + q.c = q.Aᵀ *ᵥ res.y.real) ∧
      (res.status = .success ∨ res.status = .callbackRequestedStop ∨ res.status = .timeout ∨
        (res.status = .divergingIterates ∨ res.status = .locallyInfeasible) ∧ res.iterations = 0 ∨
        res.status = .maxIterationsExceeded ∧ res.iterations = 1 ∧ opts.maxIterations ≤ 1) := by
  have hy0 : Vec.Finite (fun _ : Fin m => (0 : Fl)) := fun _ => rfl
  have hg : (P.g x).Finite := fun j => by rw [hP.g x hx]; rfl
  have hgr : (P.g x).real = q.Q *ᵥ x.real + q.c := by funext j; show Fl.toReal _ = _; rw [hP.g x hx]; rfl
  have hH : (P.H x (fun _ => 0) Fin.elim0).Finite := fun i j => (hP.H x _ hx hy0 i j).1
  have hl := lowerSym_of hq.1 fun i j => (hP.H x (fun _ => 0) hx hy0 i j).2
  have hce : P.ce x = fun i => .fin ((q.A *ᵥ x.real) i - q.b i) := funext (hP.ce x hx)
  have hAe : ∀ x, x.Finite → P.Ae x = fun i j => .fin (q.A i j) := fun x hx => funext fun i => funext (hP.Ae x hx i)
  obtain ⟨r, hr⟩ : ∃ r, loopRounds opts 0 = r + 1 := by
    refine ⟨loopRounds opts 0 - 1, ?_⟩
    unfold loopRounds
    omega
  unfold sqp sqpRun
  simp only
  rw [if_neg (by omega)]
  set st := sqpInit env P x fun _ => 0 with hst
  have hreg : st.Regular := ⟨hx, hy0, hg, hH, fun i => by show (P.ce x i).isFinite = true; rw [hce]; rfl,
    fun i j => by show (P.Ae x i j).isFinite = true; rw [hAe x hx]; rfl⟩
  rw [if_neg (by
    rw [not_not]
    exact ⟨by show (P.f x).isFinite = true; rw [hP.f x hx]; rfl, hg, hH, hreg.ce, hreg.Ae, fun i => i.elim0, fun i => i.elim0⟩),
    hr, sqpLoop]
  split
  · exact ⟨_, rfl, by simp [SqpState.exit, hst, sqpInit], fun _ => rfl, by simp [SqpState.exit, hst, sqpInit], .inl rfl⟩
  split
  · exact ⟨_, rfl, by simp [SqpState.exit, hst, sqpInit], fun _ => rfl, by simp [SqpState.exit, hst, sqpInit],
      .inr (.inr (.inr (.inl ⟨.inr rfl, rfl⟩)))⟩
  split
  · exact ⟨_, rfl, by simp [SqpState.exit, hst, sqpInit], fun _ => rfl, by simp [SqpState.exit, hst, sqpInit],
      .inr (.inr (.inr (.inl ⟨.inl rfl, rfl⟩)))⟩
  simp only
  split
  · exact ⟨_, rfl, by simp [SqpState.exit, hst, sqpInit], fun _ => rfl, by simp [SqpState.exit, hst, sqpInit],
      .inr (.inl rfl)⟩
  -- the step
  unfold sqpMove
  rw [if_neg (by show ¬ env.factor 0 = false; rw [hfac]; simp)]
  simp only
  generalize World.start.solves = i
  obtain ⟨⟨hpf, hpyf⟩, hp1, hp2⟩ := sqp_step_solved hreg hreg.ce (hE i)
  set S := sqpComputeStep env st st.e.ce i with hSd
  set p := S.px.real with hpd
  have hAr : st.e.Ae.real = q.A := by
    show FMat.real (P.Ae x) = _
    rw [hAe x hx]; rfl
  have hp' : q.Q *ᵥ p = q.Aᵀ *ᵥ S.py.real - (q.Q *ᵥ x.real + q.c) := by
    funext j
    have := hp1 j
    rw [zero_mul, add_zero, show st.e.H = P.H x (fun _ => 0) Fin.elim0 from rfl, hl, hAr,
      show st.e.g = P.g x from rfl, hgr] at this
    have h0 : ∑ l, q.A l j * st.y.real l = 0 :=
      Finset.sum_eq_zero fun l _ => by rw [show st.y.real l = 0 from rfl, mul_zero]
    rw [h0] at this
    have h1 : (q.Q *ᵥ p) j = ∑ l, q.Q j l * p l := rfl
    have h2 : (q.Aᵀ *ᵥ S.py.real) j = ∑ l, q.A l j * S.py.real l := rfl
    rw [Pi.sub_apply, h1, h2]
    linarith
  have hAp : q.A *ᵥ p = q.b - q.A *ᵥ x.real := by
    funext l
    have := hp2 l
    rw [zero_mul, add_zero, hAr, show st.e.ce = P.ce x from rfl, hce] at this
    have h1 : (q.A *ᵥ p) l = ∑ j, q.A l j * p j := rfl
    rw [Pi.sub_apply, h1, this]
    show -((q.A *ᵥ x.real) l - q.b l) = _
    ring
  set t := sqpTrial P st S 1 with htd
  have hx' : t.x = fun j => .fin ((x.real + p) j) := by
    funext j
    have := fin_move (u := 1) (hx j) (hpf j)
    rw [one_mul] at this
    exact this
  have hy' : t.y = fun j => .fin (S.py.real j) := by
    funext j
    have := fin_move (u := 1) (hy0 j) (hpyf j)
    rw [one_mul, show Fl.toReal 0 = 0 from rfl, zero_add] at this
    exact this
  have hxf : t.x.Finite := by rw [hx']; exact fun _ => rfl
  have hyf : t.y.Finite := by rw [hy']; exact fun _ => rfl
  have hxr : t.x.real = x.real + p := by rw [hx']; rfl
  have hfeas : q.A *ᵥ (x.real + p) = q.b := by rw [mulVec_add, hAp]; abel
  have hce' : t.ce = fun _ => .fin 0 := by
    funext i
    show P.ce t.x i = _
    rw [hP.ce _ hxf, hxr, hfeas, sub_self]
  have hkkt : q.Q *ᵥ (x.real + p) + q.c = q.Aᵀ *ᵥ S.py.real := by rw [mulVec_add, hp']; abel
  have hf' : t.f = .fin (q.cost (x.real + p)) := by
    show P.f t.x = _
    rw [hP.f _ hxf, hxr]
  have hD : dotF env st.e.g S.px = .fin ((q.Q *ᵥ x.real + q.c) ⬝ᵥ p) := by
    rw [dotF_fin hreg.g hpf]
    show Fl.fin (∑ j, (P.g x).real j * p j) = _
    rw [hgr]; rfl
  have hvt : norm1 (List.ofFn t.ce) = .fin 0 := by rw [hce', norm1_fin]; simp
  set V := ∑ i, |(q.A *ᵥ x.real) i - q.b i| with hV
  have hV0 : 0 ≤ V := Finset.sum_nonneg fun _ _ => abs_nonneg _
  have hvc : norm1 (List.ofFn (P.ce x)) = .fin V := by rw [hce, norm1_fin]
  have hacc : (st.filter.tryAdd st.entry (sqpEntry t.f t.ce) (dotF env st.e.g S.px) 1).2 = true := by
    have e1 : st.entry = ⟨.fin (q.cost x.real), .fin V⟩ := by
      show FilterEntry.mk (P.f x) (norm1 (List.ofFn (P.ce x))) = _
      rw [hvc, hP.f x hx]
    have e2 : sqpEntry t.f t.ce = ⟨.fin (q.cost (x.real + p)), .fin 0⟩ := by
      show FilterEntry.mk t.f (norm1 (List.ofFn t.ce)) = _
      rw [hvt, hf']
    have e3 : st.filter = .make (.fin V) := by
      show Filter.make (norm1 (List.ofFn (P.ce x))) = _
      rw [hvc]
    rw [e1, e2, e3, hD]
    refine accepted_complete (c := q.cost (x.real + p)) rfl ?_ (by simp [Filter.make]) ?_
    · simp only [Filter.make, gt_iff_lt]
      rw [Fl.one_def, Fl.max_fin, Fl.fin_mul, Fl.fin_lt]
      norm_num
    · refine ite_intro (fun hc => ?_) fun _ => ?_
      · rcases hv with hv | hv
        · have hAp0 : q.A *ᵥ p = 0 := by rw [hAp, hv, sub_self]
          have h1 : p ⬝ᵥ q.Q *ᵥ p = -((q.Q *ᵥ x.real + q.c) ⬝ᵥ p) := by
            rw [hp', dotProduct_sub, dotProduct_comm p (q.Aᵀ *ᵥ _), Matrix.mulVec_transpose, ← dotProduct_mulVec, hAp0,
              dotProduct_zero, zero_sub, dotProduct_comm]
          have h2 : (q.Q *ᵥ x.real + q.c) ⬝ᵥ p < 0 := hc.2.1
          simp only
          rw [Fl.one_def, Fl.fin_mul, Fl.fin_mul, Fl.fin_add, Fl.fin_le, q.cost_add hq.1, h1]
          generalize (q.Q *ᵥ x.real + q.c) ⬝ᵥ p = D at h2
          norm_num
          linarith
        · exfalso
          have h1 := hc.1
          simp only [Filter.make] at h1
          rw [Fl.one_def, Fl.max_fin, Fl.fin_mul, Fl.fin_le] at h1
          rcases le_total 1 V with h | h
          · rw [max_eq_right h] at h1; norm_num at h1; linarith
          · rw [max_eq_left h] at h1; norm_num at h1 hv; linarith
      · right
        simp only
        rw [Fl.one_def, Fl.pow_fin zero_le_one, Fl.fin_mul, Fl.fin_sub, Fl.fin_mul, Fl.fin_le, Real.one_rpow]
        exact mul_nonneg (by norm_num) hV0
  rw [show lineSearchRounds = lineSearchRounds - 1 + 1 from rfl, sqpLineSearch]
  simp only
  rw [if_neg (by rw [not_not]; exact ⟨by rw [hf']; rfl, fun i => by rw [hce']; rfl⟩), if_pos hacc]
  simp only [Option.bind_some, Option.elim, SqpMoved.elim]
  have hmin : q.Minimises t.x.real := by
    rw [hxr]; exact q.minimises_of hq hfeas hkkt
  have hyr : t.y.real = S.py.real := by rw [hy']; rfl
  have hkk : q.Q *ᵥ t.x.real + q.c = q.Aᵀ *ᵥ t.y.real := by rw [hxr, hyr]; exact hkkt
  have herr : errZeroSqp env P.scaling (t.eval P) t.y = .fin 0 := by
    have hgt : (t.eval P).g = fun j => .fin ((q.Q *ᵥ t.x.real + q.c) j) := funext (hP.g _ hxf)
    have hAt : (t.eval P).Ae = fun i j => .fin (q.A i j) := hAe _ hxf
    have hct : (t.eval P).ce = fun _ => .fin 0 := hce'
    unfold errZeroSqp
    rw [if_pos ⟨by rw [hgt]; exact fun _ => rfl, by rw [hAt]; exact fun _ _ => rfl, by rw [hct]; exact fun _ => rfl, hyf⟩]
    congr 1
    refine unscaledInfSqp_zero hS (fun i => by rw [hct]; rfl) ?_
    rw [hgt, hAt]
    exact hkk
  split
  · rename_i hlim
    refine ⟨_, rfl, by simp [SqpState.exit, SqpState.accept, hst, sqpInit], by simp [SqpState.exit, SqpState.accept, hst, sqpInit],
      fun _ => ⟨hxf, hyf, hmin, hkk⟩, .inr (.inr (.inr (.inr ⟨rfl, rfl, ?_⟩)))⟩
    simpa [SqpState.accept, hst, sqpInit] using hlim
  rename_i hlim
  obtain ⟨r', rfl⟩ : ∃ r', r = r' + 1 := by
    have h2 : ¬ (((0 + 1 : ℕ) : ℤ) ≥ opts.maxIterations) := hlim
    refine ⟨r - 1, ?_⟩
    unfold loopRounds at hr
    simp only [Nat.cast_zero, sub_zero] at hr
    omega
  split
  · exact ⟨_, rfl, by simp [SqpState.exit, SqpState.accept, hst, sqpInit], by simp [SqpState.exit, SqpState.accept, hst, sqpInit],
      fun _ => ⟨hxf, hyf, hmin, hkk⟩, .inr (.inr (.inl rfl))⟩
  rw [sqpLoop, if_pos (by
    show ¬ errZeroSqp env P.scaling (t.eval P) t.y > _
    rw [herr, gt_iff_lt, Fl.fin_lt]; linarith)]
  exact ⟨_, rfl, by simp [SqpState.exit, SqpState.accept, hst, sqpInit], by simp [SqpState.exit, SqpState.accept, hst, sqpInit],
    fun _ => ⟨hxf, hyf, hmin, hkk⟩, .inl rfl⟩

/-! ### Cases -/

/-- Strongly convex systems have a solution without regularisation. -/
theorem LinSystem.StronglyConvex.solvable {S : LinSystem} (h : S.StronglyConvex) : ∃ p, S.Solved p 0 0 := by
  have hinj : ∀ v, S.lhs.real *ᵥ v = 0 → v = 0 := by
    intro v hv
    have h1 := h.2.2 v
    rw [hv, dotProduct_zero] at h1
    have h2 : v ⬝ᵥ v = 0 := by
      refine le_antisymm ?_ (Finset.sum_nonneg fun i _ => mul_self_nonneg _)
      generalize v ⬝ᵥ v = a at h1
      norm_num at h1
      linarith
    exact dotProduct_self_eq_zero.1 h2
  have hdet : IsUnit S.lhs.real.det := by
    rw [isUnit_iff_ne_zero]
    intro h0
    obtain ⟨v, hv, hv0⟩ := Matrix.exists_mulVec_eq_zero_iff.2 h0
    exact hv (hinj v hv0)
  refine ⟨fun j => if hj : j < S.n + S.m then .fin ((S.lhs.real⁻¹ *ᵥ S.rhs.real) ⟨j, hj⟩) else 0, fun j => ?_, fun i => ?_⟩
  · simp only [j.isLt, dif_pos]; rfl
  · have h1 : S.lhs.real *ᵥ (S.lhs.real⁻¹ *ᵥ S.rhs.real) = S.rhs.real := by
      rw [mulVec_mulVec, mul_nonsing_inv _ hdet, one_mulVec]
    rw [← congrFun h1 i]
    refine Finset.sum_congr rfl fun j _ => ?_
    simp only [j.isLt, dif_pos, neg_zero, ite_self, add_zero, Fin.eta]
    rfl

/-- An environment whose linear solver uses no regularisation where it can do without. -/
noncomputable def plainEnv : Env where
  factor _ := true
  solve _ S := if h : ∃ p, S.Solved p 0 0 then h.choose else fun _ => 0
  estimate _ _ _ := 0
  clock _ := 0
  junk _ _ := 0

theorem plainEnv_plain {S : LinSystem} (h : ∃ p, S.Solved p 0 0) : plainEnv.Plain S := by
  intro i
  simp only [plainEnv, dif_pos h]
  exact h.choose_spec

/-- Minimise x² + y² + xy − y, from any point of moderate size. -/
def sampleQp : EqualityQp 2 0 := ⟨!![2, 1; 1, 2], ![0, -1], 0, 0, 0⟩

/-- Its functions. -/
noncomputable def sampleQpNlp : Nlp 2 0 0 where
  f x := .fin (sampleQp.cost x.real)
  g x j := .fin ((sampleQp.Q *ᵥ x.real) j + sampleQp.c j)
  H _ _ _ i j := .fin (sampleQp.Q i j)
  ce _ := Fin.elim0
  Ae _ := Fin.elim0
  ci _ := Fin.elim0
  Ai _ := Fin.elim0
  scaling := .identity

example {x : Vec 2} (hx : x.Finite) : ∃ res, newton plainEnv ⟨1e-8, 5000, .pinf, false⟩ sampleQpNlp [] x .start = some res ∧
    res.iterations ≤ 1 ∧ (res.iterations = 1 → sampleQp.Minimises res.x.real) := by
  obtain ⟨res, h1, h2, -, h3, -⟩ := newton_quadratic (env := plainEnv) (opts := ⟨1e-8, 5000, .pinf, false⟩)
    (P := sampleQpNlp) (q := sampleQp) (cbs := []) (fun S _ hS => plainEnv_plain hS.solvable) (by norm_num)
    ⟨fun _ _ => rfl, fun _ _ _ => rfl, fun _ _ _ _ _ _ => ⟨rfl, fun _ => rfl⟩, fun _ _ i => i.elim0, fun _ _ i => i.elim0⟩
    (by ext i j; fin_cases i <;> fin_cases j <;> rfl)
    (fun v => by
      simp only [sampleQp, dotProduct, mulVec, Fin.sum_univ_two]
      simp
      norm_num
      nlinarith [sq_nonneg (v 0 + v 1), sq_nonneg (v 0), sq_nonneg (v 1)]) hx
  exact ⟨res, h1, h2, fun h => (h3 h).2⟩

/-- Minimise x² subject to x = 1. -/
def sampleEqQp : EqualityQp 1 1 := ⟨fun _ _ => 2, fun _ => 0, 0, fun _ _ => 1, fun _ => 1⟩

/-- Its functions. -/
noncomputable def sampleEqNlp : Nlp 1 1 0 where
  f x := .fin (sampleEqQp.cost x.real)
  g x j := .fin ((sampleEqQp.Q *ᵥ x.real) j + sampleEqQp.c j)
  H _ _ _ i j := .fin (sampleEqQp.Q i j)
  ce x i := .fin ((sampleEqQp.A *ᵥ x.real) i - sampleEqQp.b i)
  Ae _ i j := .fin (sampleEqQp.A i j)
  ci _ := Fin.elim0
  Ai _ := Fin.elim0
  scaling := .identity

/-- The first system of the SQP solver, started at 3, has a solution without regularisation. -/
theorem sampleEq_solvable : ∃ p, ((sqpInit plainEnv sampleEqNlp (fun _ => .fin 3) fun _ => 0).system plainEnv
    (sampleEqNlp.ce fun _ => .fin 3)).Solved p 0 0 := by
  refine ⟨fun _ => .fin (-2), fun _ => rfl, ?_⟩
  set st := sqpInit plainEnv sampleEqNlp (fun _ => .fin 3) fun _ => 0 with hst
  have hx : Vec.Finite (fun _ : Fin 1 => Fl.fin 3) := fun _ => rfl
  have hlhs : ∀ a b, (st.system plainEnv (sampleEqNlp.ce fun _ => .fin 3)).lhs a b = .fin (kktDense st.e.H.real
      (sigma (Vec.real (Fin.elim0 : Vec 0)) (Vec.real (Fin.elim0 : Vec 0))) st.e.Ae.real st.e.Ai.real a b) := fun a b =>
    if_pos ⟨fun _ _ => rfl, fun _ _ => rfl, fun i => i.elim0, fun i => i.elim0, fun i => i.elim0, fun i => i.elim0⟩
  have hrhs : ∀ j, (st.system plainEnv (sampleEqNlp.ce fun _ => .fin 3)).rhs j = .fin (sqpRhs st.e.g.real st.e.Ae.real
      (Vec.real (sampleEqNlp.ce fun _ => .fin 3)) st.y.real j) :=
    fun j => if_pos ⟨fun _ => rfl, fun _ _ => rfl, fun _ => rfl, fun _ => rfl⟩
  have h1 : FMat.real (st.system plainEnv (sampleEqNlp.ce fun _ => .fin 3)).lhs = kktDense st.e.H.real
      (sigma (Vec.real (Fin.elim0 : Vec 0)) (Vec.real (Fin.elim0 : Vec 0))) st.e.Ae.real st.e.Ai.real := by
    funext a b; show Fl.toReal _ = _; rw [hlhs]; rfl
  have h2 : Vec.real (st.system plainEnv (sampleEqNlp.ce fun _ => .fin 3)).rhs = sqpRhs st.e.g.real st.e.Ae.real
      (Vec.real (sampleEqNlp.ce fun _ => .fin 3)) st.y.real := by
    funext a; show Fl.toReal _ = _; rw [hrhs]; rfl
  intro i
  rw [h1, h2]
  change Fin (1 + 1) at i
  have hH : lowerSym st.e.H.real 0 0 = 2 := by
    rw [lowerSym]; simp; rfl
  have hA : st.e.Ae.real 0 0 = 1 := rfl
  have hg : st.e.g.real 0 = 6 := by
    show (sampleEqQp.Q *ᵥ Vec.real fun _ => Fl.fin 3) 0 + sampleEqQp.c 0 = 6
    simp [sampleEqQp, mulVec, dotProduct, Vec.real, Fl.toReal]; norm_num
  have hce : Vec.real (sampleEqNlp.ce fun _ => .fin 3) 0 = 2 := by
    show (sampleEqQp.A *ᵥ Vec.real fun _ => Fl.fin 3) 0 - sampleEqQp.b 0 = 2
    simp [sampleEqQp, mulVec, dotProduct, Vec.real, Fl.toReal]; norm_num
  have hy : st.y.real = 0 := rfl
  have ht : (Fl.fin (-2)).toReal = -2 := rfl
  show ∑ j : Fin (1 + 1), _ = _
  rw [Fin.sum_univ_add, Fin.sum_univ_one, Fin.sum_univ_one]
  induction i using Fin.addCases with
  | left i =>
    rw [Subsingleton.elim i 0]
    simp only [kktDense, sqpRhs, Fin.addCases_left, Fin.addCases_right, Pi.add_apply, Pi.neg_apply, hH, hA, hg, hy, ht]
    rw [show (0 : Fin 1 → ℝ) = fun _ => 0 from rfl]
    simp only [neg_zero, ite_self, Finset.univ_eq_empty, Finset.sum_empty, mulVec, dotProduct, mul_zero]
    norm_num
  | right i =>
    rw [Subsingleton.elim i 0]
    simp only [kktDense, sqpRhs, Fin.addCases_left, Fin.addCases_right, Pi.neg_apply, hA, hce, ht]
    simp only [neg_zero, ite_self]
    norm_num

example : ∃ res, sqp plainEnv ⟨1e-8, 5000, .pinf, false⟩ sampleEqNlp [] (fun _ => .fin 3) .start = some res ∧
    res.iterations ≤ 1 ∧ (res.iterations = 1 → sampleEqQp.Minimises res.x.real) := by
  obtain ⟨res, h1, h2, -, h3, -⟩ := sqp_quadratic (env := plainEnv) (opts := ⟨1e-8, 5000, .pinf, false⟩)
    (P := sampleEqNlp) (q := sampleEqQp) (cbs := []) (x := fun _ => .fin 3) (by norm_num)
    ⟨fun _ _ => rfl, fun _ _ _ => rfl, fun _ _ _ _ _ _ => ⟨rfl, fun _ => rfl⟩, fun _ _ _ => rfl, fun _ _ _ _ => rfl⟩
    trivial ⟨rfl, fun v _ => by
      simp only [sampleEqQp, dotProduct, mulVec, Fin.sum_univ_one]
      nlinarith [mul_self_nonneg (v 0)]⟩ (fun _ => rfl) le_rfl rfl (plainEnv_plain sampleEq_solvable)
    (.inr (by
      simp [sampleEqQp, dotProduct, mulVec, Vec.real, Fl.toReal]
      norm_num))
  exact ⟨res, h1, h2, fun h => (h3 h).2.2.1⟩

end Slp
