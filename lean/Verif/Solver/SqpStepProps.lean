import Verif.Solver.LoopStepProps
import Verif.Solver.SqpProps

/-!
C33 for the loops of the SQP solver and of Newton's method: with a linear solver that makes no rounding errors, every
step is a step of Newton's method for the optimality conditions.
-/

namespace Slp

open Classical Matrix

variable {n m : ℕ}

/-- The values an iteration starts with are finite. -/
structure SqpState.Regular (st : SqpState n m) : Prop where
  x : st.x.Finite
  y : st.y.Finite
  g : st.e.g.Finite
  H : st.e.H.Finite
  ce : st.e.ce.Finite
  Ae : st.e.Ae.Finite

/-- The step satisfies the linearised optimality conditions at the current iterate with the constraint values `ce`, up
to a regularisation among `Γ`. -/
def SqpState.NewtonStep (st : SqpState n m) (ce : Vec m) (p : SqpStep n m) (Γ : ℝ → ℝ → Prop := fun _ _ => True) : Prop :=
  (p.px.Finite ∧ p.py.Finite) ∧ ∃ δ γ, 0 ≤ δ ∧ 0 ≤ γ ∧ Γ δ γ ∧
    (∀ j, (∑ l, lowerSym st.e.H.real j l * p.px.real l) + δ * p.px.real j - ∑ i, st.e.Ae.real i j * p.py.real i =
      -(st.e.g.real j - ∑ i, st.e.Ae.real i j * st.y.real i)) ∧
    ∀ i, (∑ l, st.e.Ae.real i l * p.px.real l) + γ * p.py.real i = -ce.real i

theorem sqpRhs_rows {g : Fin n → ℝ} {Ae : Matrix (Fin m) (Fin n) ℝ} {ce y : Fin m → ℝ} :
    (∀ j, sqpRhs g Ae ce y (Fin.castAdd m j) = -g j + ∑ i, Ae i j * y i) ∧
    ∀ i, sqpRhs g Ae ce y (Fin.natAdd n i) = -ce i := by
  unfold sqpRhs
  constructor
  · intro j; simp [mulVec_transpose]
  · intro i; simp

theorem sqp_system_finite (env : Env) {st : SqpState n m} (h : st.Regular) {ce : Vec m} (hce : ce.Finite) :
    (st.system env ce).Finite := by
  have hlhs : ∀ a b, kktLhsF env st.e (Fin.elim0 : Vec 0) Fin.elim0 a b = .fin (kktDense st.e.H.real
      (sigma (Vec.real (Fin.elim0 : Vec 0)) (Vec.real (Fin.elim0 : Vec 0))) st.e.Ae.real st.e.Ai.real a b) := fun a b =>
    if_pos ⟨h.H, h.Ae, fun i => i.elim0, fun i => i.elim0, fun i => i.elim0, fun i => i.elim0⟩
  have hrhs : ∀ j : Fin (n + m), (st.system env ce).rhs j = .fin (sqpRhs st.e.g.real st.e.Ae.real ce.real st.y.real j) :=
    fun j => if_pos ⟨h.g, h.Ae, h.y, hce⟩
  exact ⟨fun a b => (congrArg Fl.isFinite (hlhs a b)).trans rfl, fun j => (congrArg Fl.isFinite (hrhs j)).trans rfl⟩

theorem sqp_step_solved {env : Env} {st : SqpState n m} (h : st.Regular) {ce : Vec m} (hce : ce.Finite) {i : ℕ} {δ γ : ℝ}
    (hS : (st.system env ce).Solved (env.solve i (st.system env ce)) δ γ) :
    ((sqpComputeStep env st ce i).px.Finite ∧ (sqpComputeStep env st ce i).py.Finite) ∧
    (∀ j, (∑ l, lowerSym st.e.H.real j l * (sqpComputeStep env st ce i).px.real l) +
      δ * (sqpComputeStep env st ce i).px.real j - ∑ l, st.e.Ae.real l j * (sqpComputeStep env st ce i).py.real l =
      -(st.e.g.real j - ∑ l, st.e.Ae.real l j * st.y.real l)) ∧
    ∀ l, (∑ j, st.e.Ae.real l j * (sqpComputeStep env st ce i).px.real j) + γ * (sqpComputeStep env st ce i).py.real l =
      -ce.real l := by
  have hlhs : ∀ a b, kktLhsF env st.e (Fin.elim0 : Vec 0) Fin.elim0 a b = .fin (kktDense st.e.H.real
      (sigma (Vec.real (Fin.elim0 : Vec 0)) (Vec.real (Fin.elim0 : Vec 0))) st.e.Ae.real st.e.Ai.real a b) := fun a b =>
    if_pos ⟨h.H, h.Ae, fun i => i.elim0, fun i => i.elim0, fun i => i.elim0, fun i => i.elim0⟩
  have hrhs : ∀ j : Fin (n + m), (st.system env ce).rhs j = .fin (sqpRhs st.e.g.real st.e.Ae.real ce.real st.y.real j) :=
    fun j => if_pos ⟨h.g, h.Ae, h.y, hce⟩
  have hp : ∀ j : Fin (n + m), (env.solve i (st.system env ce) j).isFinite = true := hS.1
  obtain ⟨r1, r2⟩ := kkt_solved_rows (by funext a b; show Fl.toReal _ = _; rw [hlhs a b]; rfl) hS
  have hpy : ∀ j : Fin m, (sqpComputeStep env st ce i).py j = .fin (-(env.solve i (st.system env ce) (n + j)).toReal) := by
    intro j
    show -env.solve i (st.system env ce) (n + j) = _
    have := Fl.finite_toReal (hp (Fin.natAdd n j))
    rw [Fin.val_natAdd] at this
    rw [this, Fl.fin_neg]; rfl
  have hpy' : ∀ j : Fin m, (sqpComputeStep env st ce i).py.real j = -(env.solve i (st.system env ce) (n + j)).toReal := by
    intro j; show Fl.toReal _ = _; rw [hpy]; rfl
  have hpx' : ∀ j : Fin n, (sqpComputeStep env st ce i).px.real j = (env.solve i (st.system env ce) (j : ℕ)).toReal :=
    fun _ => rfl
  refine ⟨⟨fun j => hp (Fin.castAdd m j), fun j => by rw [hpy]; rfl⟩, fun j => ?_, fun j => ?_⟩
  · have a1 := r1 j
    have a2 : Vec.real (st.system env ce).rhs (Fin.castAdd m j) =
        -st.e.g.real j + ∑ i, st.e.Ae.real i j * st.y.real i :=
      (congrArg Fl.toReal (hrhs _)).trans (sqpRhs_rows.1 j)
    change _ = Vec.real (st.system env ce).rhs (Fin.castAdd m j) at a1
    rw [a2] at a1
    simp only [hpx', hpy', mul_neg, Finset.sum_neg_distrib]
    simp only [Finset.univ_eq_empty, Finset.sum_empty, add_zero, Fin.val_castAdd, Fin.val_natAdd] at a1
    linarith
  · have a1 := r2 j
    have a2 : Vec.real (st.system env ce).rhs (Fin.natAdd n j) = -ce.real j :=
      (congrArg Fl.toReal (hrhs _)).trans (sqpRhs_rows.2 j)
    change _ = Vec.real (st.system env ce).rhs (Fin.natAdd n j) at a1
    rw [a2] at a1
    simp only [hpx', hpy']
    simp only [Fin.val_castAdd, Fin.val_natAdd] at a1
    linarith

/-- The linear solver solves the systems of an iteration, for some regularisation among
`Γ`. -/
def SqpState.Answers (st : SqpState n m) (env : Env) (Γ : ℝ → ℝ → Prop) : Prop :=
  ∀ (i : ℕ) (ce : Vec m), ce.Finite →
    ∃ δ γ, 0 ≤ δ ∧ 0 ≤ γ ∧ Γ δ γ ∧ (st.system env ce).Solved (env.solve i (st.system env ce)) δ γ

theorem Env.ExactSolve.sqpAnswers {env : Env} (hE : env.ExactSolve) {st : SqpState n m} (h : st.Regular) :
    st.Answers env fun _ _ => True := fun i ce hc => by
  obtain ⟨δ, γ, h0, h1, hS⟩ := hE i _ (sqp_system_finite env h hc)
  exact ⟨δ, γ, h0, h1, trivial, hS⟩

/-- C33: the step of an iteration of the SQP solver, or of a second-order correction with the values `ce`. -/
theorem sqp_step_newton {env : Env} {Γ : ℝ → ℝ → Prop} {st : SqpState n m} (hE : st.Answers env Γ) (h : st.Regular) {ce : Vec m}
    (hce : ce.Finite) (i : ℕ) : st.NewtonStep ce (sqpComputeStep env st ce i) Γ := by
  obtain ⟨δ, γ, h0, h1, hΓ, hS⟩ := hE i ce hce
  obtain ⟨h2, h3, h4⟩ := sqp_step_solved h hce hS
  exact ⟨h2, δ, γ, h0, h1, hΓ, h3, h4⟩

/-- The values of the constraints that a step may be computed for: those of the iterate, or those of a second-order
correction. A correction is made after a full step for the values before it, which are added to the values at the end of
the step. -/
inductive SqpStepValues (P : Nlp n m 0) (st : SqpState n m) (Γ : ℝ → ℝ → Prop) : Vec m → Prop
  | plain : SqpStepValues P st Γ st.e.ce
  | corrected {ce : Vec m} {q : SqpStep n m} {x : Vec n} (h : SqpStepValues P st Γ ce) (newton : st.NewtonStep ce q Γ)
      (hx : ∀ j, x j = .fin (st.x.real j + q.px.real j)) (ce' : Vec m)
      (hce : ∀ j, ce' j = .fin (ce.real j + (P.ce x).real j)) : SqpStepValues P st Γ ce'

/-- The new iterate is reached along a step of Newton's method for constraint values `ce`. -/
structure SqpMovedAlong (P : Nlp n m 0) (st : SqpState n m) (ce : Vec m) (st' : SqpState n m) (u : ℝ) (p : SqpStep n m)
    (Γ : ℝ → ℝ → Prop := fun _ _ => True) : Prop where
  values : SqpStepValues P st Γ ce
  newton : st.NewtonStep ce p Γ
  size : 0 < u ∧ u ≤ 1
  x : ∀ j, st'.x j = .fin (st.x.real j + u * p.px.real j)
  y : ∀ j, st'.y j = .fin (st.y.real j + u * p.py.real j)

theorem SqpCorrected.values {env : Env} {Γ : ℝ → ℝ → Prop} {P : Nlp n m 0} (hP : P.Total) {st : SqpState n m}
    (hE : st.Answers env Γ) (h : st.Regular) {p : SqpStep n m} (hp : st.NewtonStep st.e.ce p Γ) {l : ℕ} {ce : Vec m}
    {t : SqpTrial n m} {w : Fl} (hc : SqpCorrected env P st (sqpTrial P st p 1) l ce t w) :
    ce.Finite ∧ SqpStepValues P st Γ ce ∧ ∃ q, st.NewtonStep ce q Γ ∧ t = sqpTrial P st q 1 := by
  induction hc with
  | start => exact ⟨h.ce, .plain, p, hp, rfl⟩
  | @next l ce t w hc hw ce' hce' i ih =>
    obtain ⟨i1, iv, q, hq, rfl⟩ := ih
    have hx : ∀ j, (sqpTrial P st q 1).x j = .fin (st.x.real j + q.px.real j) := fun j => by
      have := fin_move (u := 1) (h.x j) (hq.1.1 j)
      rw [one_mul] at this
      exact this
    have fx : (sqpTrial P st q 1).x.Finite := fun j => by rw [hx]; rfl
    have f1 : ∀ j, ce' j = .fin (ce.real j + (P.ce (sqpTrial P st q 1).x).real j) := fun j => by
      rw [hce', Fl.finite_toReal (i1 j), show (sqpTrial P st q 1).ce j = _ from Fl.finite_toReal (hP.ce _ fx j),
        Fl.one_def, Fl.fin_mul, Fl.fin_add, one_mul]; rfl
    have g1 : ce'.Finite := fun j => by rw [f1]; rfl
    exact ⟨g1, .corrected iv hq hx ce' f1, _, sqp_step_newton hE h g1 i, rfl⟩

/-- C33: for a problem whose functions have finite values, every iteration of the SQP solver that neither fails nor
calls feasibility restoration moves the iterate along a step of Newton's method for the optimality conditions, and the
next iteration starts with finite values again. -/
theorem sqp_iteration_newton {env : Env} (opts : SolverOptions) {P : Nlp n m 0} (hP : P.Total) (cbs : List Callback)
    {st : SqpState n m} {Γ : ℝ → ℝ → Prop} (hE : st.Answers env Γ) (h : st.Regular) (w : World) :
    (env.factor w.factors = false ∧ sqpMove env opts P cbs st w =
      some (.stop (st.exit .factorizationFailed { w with factors := w.factors + 1 }))) ∨
    (∃ F c α i, sqpMove env opts P cbs st w = restoreSqp env opts P cbs { st with filter := F, rejected := c } α
      { w with factors := w.factors + 1, solves := i }) ∨
    ∃ st' w' ce u p, sqpMove env opts P cbs st w = some (.go st' w') ∧ SqpMovedAlong P st ce st' u p Γ ∧ st'.Regular ∧
      st'.e = P.eval st'.x st'.y Fin.elim0 ∧ st'.iterations = st.iterations ∧ w'.trace = w.trace := by
  unfold sqpMove
  by_cases hf : env.factor w.factors = false
  · rw [if_pos hf]; exact .inl ⟨hf, rfl⟩
  rw [if_neg hf]
  right
  obtain ⟨ls, hls⟩ := sqp_line_search_ends env P st (sqpComputeStep env st st.e.ce w.solves)
      (dotF env st.e.g (sqpComputeStep env st st.e.ce w.solves).px) st.filter st.rejected (w.solves + 1)
  simp only
  rw [hls, Option.bind_some]
  cases hacc : ls.accepted with
  | none => exact .inl ⟨_, _, _, _, rfl⟩
  | some b =>
    right
    obtain ⟨R, t, used⟩ := b
    have hS := sqp_line_search_sound env P st _ _ st.filter _ _ ls hls R t used hacc
    have key : ∀ (ce : Vec m) (q : SqpStep n m) (u : ℝ), SqpStepValues P st Γ ce → st.NewtonStep ce q Γ → 0 < u →
        u ≤ 1 →
        t = sqpTrial P st q (.fin u) →
        ∃ st' w' ce u p, some (SqpMoved.go (SqpState.accept { st with filter := ls.filter, rejected := ls.rejected } P t ls.α)
          { w with factors := w.factors + 1, solves := ls.solves, vars := P.vars t.x }) = some (SqpMoved.go st' w') ∧
          SqpMovedAlong P st ce st' u p Γ ∧ st'.Regular ∧
          st'.e = P.eval st'.x st'.y Fin.elim0 ∧ st'.iterations = st.iterations ∧ w'.trace = w.trace := by
      intro ce q u hV hq hu0 hu1 ht
      obtain ⟨⟨p1, p2⟩, -⟩ := id hq
      set st' := SqpState.accept { st with filter := ls.filter, rejected := ls.rejected } P t ls.α with hst'
      have hx : ∀ j, st'.x j = .fin (st.x.real j + u * q.px.real j) := fun j => by
        rw [hst', ht]; exact fin_move (h.x j) (p1 j)
      have hy : ∀ j, st'.y j = .fin (st.y.real j + u * q.py.real j) := fun j => by
        rw [hst', ht]; exact fin_move (h.y j) (p2 j)
      have hx' : st'.x.Finite := fun j => by rw [hx]; rfl
      have hy' : st'.y.Finite := fun j => by rw [hy]; rfl
      refine ⟨st', _, ce, u, q, rfl, ⟨hV, hq, ⟨hu0, hu1⟩, hx, hy⟩, ⟨hx', hy', hP.g _ hx',
        hP.H _ _ _ hx' hy' fun i => i.elim0, ?_, hP.Ae _ hx'⟩, ?_, rfl, rfl⟩
      · have : st'.e.ce = P.ce st'.x := by rw [hst', ht]; rfl
        rw [this]
        exact hP.ce _ hx'
      · rw [hst', ht]
        simp only [SqpState.accept, SqpTrial.eval, Nlp.eval, sqpTrial]
        congr 1 <;> funext i <;> exact i.elim0
    cases R with
    | filter =>
      obtain ⟨a, rfl, ha0, ha1, ht, -⟩ := hS
      exact key _ _ a .plain (sqp_step_newton hE h h.ce _) (by linarith) ha1 ht
    | correction =>
      obtain ⟨l, ce', wv, rfl, -, hcor, -⟩ := hS
      obtain ⟨i', ht⟩ := hcor.step
      obtain ⟨f1, hV, -⟩ := hcor.values hP hE h (sqp_step_newton hE h h.ce _)
      exact key ce' _ 1 hV (sqp_step_newton hE h f1 _) one_pos le_rfl ht
    | kktError =>
      obtain ⟨rfl, ht, -⟩ := hS
      exact key _ _ 1 .plain (sqp_step_newton hE h h.ce _) one_pos le_rfl ht

/-! ### Newton's method -/

theorem newton_system_finite {st : NewtonState n} (hg : st.g.Finite) (hH : st.H.Finite) : st.system.Finite :=
  ⟨fun a b => by
    show (if b ≤ a then st.H a b else st.H b a).isFinite = true
    split_ifs
    · exact hH a b
    · exact hH b a, fun j => Fl.finite_neg.2 (hg j)⟩

theorem newton_step_solved {env : Env} {st : NewtonState n} (hg : st.g.Finite) {i : ℕ} {δ γ : ℝ}
    (hS : st.system.Solved (env.solve i st.system) δ γ) : (newtonStep env st i).Finite ∧ ∀ j,
      (∑ l, lowerSym st.H.real j l * (newtonStep env st i).real l) + δ * (newtonStep env st i).real j = -st.g.real j := by
  obtain ⟨h1, h2⟩ := hS
  refine ⟨fun j => h1 j, fun j => ?_⟩
  have h3 : ∀ j : Fin n, ∑ l : Fin n, (FMat.real (fun i j => if j ≤ i then st.H i j else st.H j i) j l +
      if j = l then (if (j : ℕ) < n then δ else -γ) else 0) * (newtonStep env st i).real l =
      Vec.real (fun i => -st.g i) j := h2
  have h4 := h3 j
  have e1 : ∀ l, FMat.real (fun i j : Fin n => if j ≤ i then st.H i j else st.H j i) j l = lowerSym st.H.real j l := by
    intro l
    show Fl.toReal (if l ≤ j then st.H j l else st.H l j) = if l ≤ j then Fl.toReal _ else Fl.toReal _
    split_ifs <;> rfl
  have e2 : Vec.real (fun i => -st.g i) j = -st.g.real j := by
    show Fl.toReal (-st.g j) = _
    rw [Fl.finite_toReal (hg j), Fl.fin_neg]; rfl
  rw [e2] at h4
  rw [← h4]
  simp only [e1, j.isLt, if_true, add_mul, Finset.sum_add_distrib, ite_mul, zero_mul, Finset.sum_ite_eq, Finset.mem_univ]

/-- C33: the step of Newton's method solves `(H + δI) p = −∇f`. -/
theorem newton_step_newton {env : Env} (hE : env.ExactSolve) {st : NewtonState n} (hg : st.g.Finite) (hH : st.H.Finite)
    (i : ℕ) : (newtonStep env st i).Finite ∧ ∃ δ, 0 ≤ δ ∧ ∀ j,
      (∑ l, lowerSym st.H.real j l * (newtonStep env st i).real l) + δ * (newtonStep env st i).real j = -st.g.real j := by
  obtain ⟨δ, γ, h0, -, hS⟩ := hE i _ (newton_system_finite hg hH)
  obtain ⟨h1, h2⟩ := newton_step_solved hg hS
  exact ⟨h1, δ, h0, h2⟩

/-- C33: every step that the line search of Newton's method accepts is a fraction of it. -/
theorem newton_accepted_newton {env : Env} (hE : env.ExactSolve) {P : Nlp n 0 0} {st : NewtonState n} (hx : st.x.Finite)
    (hg : st.g.Finite) (hH : st.H.Finite) {i : ℕ} {D : Fl} {F : Filter} {ls : NewtonLineSearch n}
    (hls : newtonLineSearch env P st i D newtonRounds 1 F = some ls) {R : Reason} {x : Vec n} {f used : Fl}
    (hacc : ls.accepted = some (R, x, f, used)) : ∃ (u δ : ℝ) (p : Fin n → ℝ), 0 < u ∧ u ≤ 1 ∧ 0 ≤ δ ∧
      (∀ j, (∑ l, lowerSym st.H.real j l * p l) + δ * p j = -st.g.real j) ∧ ∀ j, x j = .fin (st.x.real j + u * p j) := by
  obtain ⟨hf, δ, h0, hp⟩ := newton_step_newton hE hg hH i
  have hS := newton_line_search_sound env P st i D F ls hls R x f used hacc
  have key : ∀ u : ℝ, 0 < u → u ≤ 1 → x = newtonPoint env st i (.fin u) → ∃ (u δ : ℝ) (p : Fin n → ℝ), 0 < u ∧ u ≤ 1 ∧
      0 ≤ δ ∧ (∀ j, (∑ l, lowerSym st.H.real j l * p l) + δ * p j = -st.g.real j) ∧
      ∀ j, x j = .fin (st.x.real j + u * p j) := fun u hu0 hu1 hxe =>
    ⟨u, δ, (newtonStep env st i).real, hu0, hu1, h0, hp, fun j => by rw [hxe]; exact fin_move (hx j) (hf j)⟩
  cases R with
  | filter => obtain ⟨a, rfl, ha0, ha1, hxe, -⟩ := hS; exact key a (by linarith) ha1 hxe
  | correction => exact hS.elim
  | kktError => obtain ⟨rfl, hxe, -⟩ := hS; exact key 1 one_pos le_rfl hxe

end Slp
