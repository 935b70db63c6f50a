import Verif.Solver.LinearProps

/-!
A case for C83: minimise `x² + y²` subject to `x + y = 1`, and also `x ≥ 0` for the interior-point solver, with a linear
solver that regularises the constraints only where it must.
-/

namespace Slp

open Classical Matrix

/-- If the constraints are linearly independent, a system can be solved without regularising them, and with positive
curvature. -/
theorem LinSystem.solvable_curved (S : LinSystem) (A : Matrix (Fin S.m) (Fin S.n) ℝ) (hrank : ∀ y, Aᵀ *ᵥ y = 0 → y = 0)
    (h12 : ∀ i a, S.lhs.real (Fin.castAdd S.m a) (Fin.natAdd S.n i) = A i a)
    (h21 : ∀ i a, S.lhs.real (Fin.natAdd S.n i) (Fin.castAdd S.m a) = A i a)
    (h22 : ∀ i j, S.lhs.real (Fin.natAdd S.n i) (Fin.natAdd S.n j) = 0) : ∃ p δ, 0 ≤ δ ∧ S.Solved p δ 0 ∧
      ∀ q : Fin S.n → ℝ, q ≠ 0 →
        0 < ∑ a, q a * (∑ b, S.lhs.real (Fin.castAdd S.m a) (Fin.castAdd S.m b) * q b + δ * q a) := by
  set T : Matrix (Fin S.n) (Fin S.n) ℝ := fun a b => S.lhs.real (Fin.castAdd S.m a) (Fin.castAdd S.m b) with hT
  set c : ℝ := ∑ a, ∑ b, |T a b| with hc
  have hc0 : 0 ≤ c := Finset.sum_nonneg fun _ _ => Finset.sum_nonneg fun _ _ => abs_nonneg _
  have hlow : ∀ p : Fin S.n → ℝ, -(c * (p ⬝ᵥ p)) ≤ p ⬝ᵥ T *ᵥ p := by
    intro p
    have hsq : ∀ a, p a * p a ≤ p ⬝ᵥ p := fun a =>
      Finset.single_le_sum (f := fun a => p a * p a) (fun a _ => mul_self_nonneg _) (Finset.mem_univ a)
    have h1 : ∀ a b, -(|T a b| * (p ⬝ᵥ p)) ≤ p a * (T a b * p b) := by
      intro a b
      have h2 : |p a * p b| ≤ p ⬝ᵥ p := by
        rw [abs_le]
        constructor
        · nlinarith [sq_nonneg (p a + p b), hsq a, hsq b]
        · nlinarith [sq_nonneg (p a - p b), hsq a, hsq b]
      have h3 : |p a * (T a b * p b)| ≤ |T a b| * (p ⬝ᵥ p) := by
        rw [show p a * (T a b * p b) = T a b * (p a * p b) by ring, abs_mul]
        exact mul_le_mul_of_nonneg_left h2 (abs_nonneg _)
      exact (abs_le.1 h3).1
    have h4 : p ⬝ᵥ T *ᵥ p = ∑ a, ∑ b, p a * (T a b * p b) := by
      simp only [dotProduct, mulVec, Finset.mul_sum]
    rw [h4, hc, Finset.sum_mul, ← Finset.sum_neg_distrib]
    refine Finset.sum_le_sum fun a _ => ?_
    rw [Finset.sum_mul, ← Finset.sum_neg_distrib]
    exact Finset.sum_le_sum fun b _ => h1 a b
  set M : Matrix (Fin (S.n + S.m)) (Fin (S.n + S.m)) ℝ :=
    fun i j => S.lhs.real i j + if i = j then (if (i : ℕ) < S.n then c + 1 else -0) else 0 with hM
  have hrow1 : ∀ (w : Fin (S.n + S.m) → ℝ) a, (M *ᵥ w) (Fin.castAdd S.m a) =
      ((T *ᵥ (fun j => w (Fin.castAdd S.m j)) + (c + 1) • fun j => w (Fin.castAdd S.m j)) +
        Aᵀ *ᵥ fun i => w (Fin.natAdd S.n i)) a := by
    intro w a
    rw [mulVec, dotProduct, Fin.sum_univ_add, Pi.add_apply, Pi.add_apply]
    congr 1
    · have : ∀ b, M (Fin.castAdd S.m a) (Fin.castAdd S.m b) = T a b + if a = b then c + 1 else 0 := by
        intro b
        simp [hM, hT]
      simp only [this, add_mul, Finset.sum_add_distrib, ite_mul, zero_mul, Finset.sum_ite_eq, Finset.mem_univ, if_true]
      rw [← add_mul]
      rfl
    · refine Finset.sum_congr rfl fun b _ => ?_
      have hne : Fin.castAdd S.m a ≠ Fin.natAdd S.n b := fun h => by
        have := congrArg Fin.val h
        simp only [Fin.val_castAdd, Fin.val_natAdd] at this
        have := a.isLt
        omega
      simp [hM, h12, hne]
  have hrow2 : ∀ (w : Fin (S.n + S.m) → ℝ) a, (M *ᵥ w) (Fin.natAdd S.n a) = (A *ᵥ fun j => w (Fin.castAdd S.m j)) a := by
    intro w a
    rw [mulVec, dotProduct, Fin.sum_univ_add]
    have e : ∑ i : Fin S.m, M (Fin.natAdd S.n a) (Fin.natAdd S.n i) * w (Fin.natAdd S.n i) = 0 :=
      Finset.sum_eq_zero fun i _ => by simp [hM, h22]
    rw [e, add_zero]
    refine Finset.sum_congr rfl fun b _ => ?_
    have hne : Fin.natAdd S.n a ≠ Fin.castAdd S.m b := fun h => by
      have := congrArg Fin.val h
      simp only [Fin.val_castAdd, Fin.val_natAdd] at this
      have := b.isLt
      omega
    simp [hM, h21, hne]
  have hinj : ∀ w, M *ᵥ w = 0 → w = 0 := by
    intro w hw
    set p : Fin S.n → ℝ := fun j => w (Fin.castAdd S.m j) with hp
    set s : Fin S.m → ℝ := fun i => w (Fin.natAdd S.n i) with hs
    have h1 : (T *ᵥ p + (c + 1) • p) + Aᵀ *ᵥ s = 0 := funext fun a => by rw [← hrow1, hw]; rfl
    have h2 : A *ᵥ p = 0 := funext fun a => by rw [← hrow2, hw]; rfl
    have h3 : p ⬝ᵥ Aᵀ *ᵥ s = 0 := by rw [dotProduct_mulVec, vecMul_transpose, h2, zero_dotProduct]
    have h4 : p = 0 := by
      have h5 : p ⬝ᵥ ((T *ᵥ p + (c + 1) • p) + Aᵀ *ᵥ s) = 0 := by rw [h1, dotProduct_zero]
      rw [dotProduct_add, h3, add_zero, dotProduct_add, dotProduct_smul, smul_eq_mul] at h5
      have h6 := hlow p
      have h7 : 0 ≤ p ⬝ᵥ p := Finset.sum_nonneg fun _ _ => mul_self_nonneg _
      exact dotProduct_self_eq_zero.1 (le_antisymm (by nlinarith) h7)
    rw [h4, mulVec_zero, smul_zero, zero_add, zero_add] at h1
    have h5 := hrank s h1
    funext i
    induction i using Fin.addCases with
    | left i => exact congrFun h4 i
    | right i => exact congrFun h5 i
  have hdet : IsUnit M.det := by
    rw [isUnit_iff_ne_zero]
    intro h0
    obtain ⟨w, hw, hw0⟩ := Matrix.exists_mulVec_eq_zero_iff.2 h0
    exact hw (hinj w hw0)
  set R := S.rhs.real with hR
  have h1 : M *ᵥ (M⁻¹ *ᵥ R) = R := by rw [mulVec_mulVec, mul_nonsing_inv _ hdet, one_mulVec]
  refine ⟨fun j => if hj : j < S.n + S.m then .fin ((M⁻¹ *ᵥ R) ⟨j, hj⟩) else 0, c + 1, by linarith,
    ⟨fun j => ?_, fun i => ?_⟩, fun q hq => ?_⟩
  · simp [Fl.isFinite]
  rotate_left
  · have h2 : ∑ a, q a * (∑ b, S.lhs.real (Fin.castAdd S.m a) (Fin.castAdd S.m b) * q b + (c + 1) * q a) =
        q ⬝ᵥ T *ᵥ q + (c + 1) * (q ⬝ᵥ q) := by
      simp only [dotProduct, Finset.mul_sum, ← Finset.sum_add_distrib]
      refine Finset.sum_congr rfl fun a _ => ?_
      rw [mul_add, show (T *ᵥ q) a = ∑ b, S.lhs.real (Fin.castAdd S.m a) (Fin.castAdd S.m b) * q b from rfl, Finset.mul_sum]
      ring
    have h3 := hlow q
    have h4 : 0 < q ⬝ᵥ q := lt_of_le_of_ne (Finset.sum_nonneg fun _ _ => mul_self_nonneg _)
      fun h => hq (dotProduct_self_eq_zero.1 h.symm)
    rw [h2]
    nlinarith
  · refine Eq.trans ?_ (congrFun h1 i)
    refine Finset.sum_congr rfl fun j _ => ?_
    simp only [j.isLt, dif_pos]
    rfl

/-- If the constraints are linearly independent, a system can be solved without regularising them. -/
theorem LinSystem.solvable_independent (S : LinSystem) (A : Matrix (Fin S.m) (Fin S.n) ℝ) (hrank : ∀ y, Aᵀ *ᵥ y = 0 → y = 0)
    (h12 : ∀ i a, S.lhs.real (Fin.castAdd S.m a) (Fin.natAdd S.n i) = A i a)
    (h21 : ∀ i a, S.lhs.real (Fin.natAdd S.n i) (Fin.castAdd S.m a) = A i a)
    (h22 : ∀ i j, S.lhs.real (Fin.natAdd S.n i) (Fin.natAdd S.n j) = 0) : ∃ p δ, 0 ≤ δ ∧ S.Solved p δ 0 := by
  obtain ⟨p, δ, h1, h2, -⟩ := S.solvable_curved A hrank h12 h21 h22
  exact ⟨p, δ, h1, h2⟩

/-- An exact linear solver that regularises the constraints only where it must. -/
noncomputable def gentleEnv (factor : ℕ → Bool) (clock : ℕ → ℝ) (junk : ℕ → List Fl → Fl) : Env where
  factor := factor
  solve _ S := if h : ∃ p δ, 0 ≤ δ ∧ S.Solved p δ 0 then h.choose else S.solvable.choose
  estimate _ A := A.solvable.choose
  clock := clock
  junk := junk

theorem gentleEnv_exact (factor : ℕ → Bool) (clock : ℕ → ℝ) (junk : ℕ → List Fl → Fl) :
    (gentleEnv factor clock junk).ExactSolve ∧ (gentleEnv factor clock junk).ExactEstimate := by
  refine ⟨fun _ S _ => ?_, fun _ A _ => A.solvable.choose_spec⟩
  by_cases h : ∃ p δ, 0 ≤ δ ∧ S.Solved p δ 0
  · simp only [gentleEnv, dif_pos h]
    obtain ⟨δ, h1, h2⟩ := h.choose_spec
    exact ⟨δ, 0, h1, le_rfl, h2⟩
  · simp only [gentleEnv, dif_neg h]
    obtain ⟨δ, γ, h1, h2, h3, -⟩ := S.solvable.choose_spec
    exact ⟨δ, γ, h1, h2, h3⟩

theorem gentleEnv_solve {factor : ℕ → Bool} {clock : ℕ → ℝ} {junk : ℕ → List Fl → Fl} {S : LinSystem}
    (h : ∃ p δ, 0 ≤ δ ∧ S.Solved p δ 0) (i : ℕ) : ∃ δ, 0 ≤ δ ∧ S.Solved ((gentleEnv factor clock junk).solve i S) δ 0 := by
  simp only [gentleEnv, dif_pos h]
  exact h.choose_spec

variable {n m k : ℕ}

theorem kktDense_corners {H : Matrix (Fin n) (Fin n) ℝ} {σ : Fin k → ℝ} {Ae : Matrix (Fin m) (Fin n) ℝ}
    {Ai : Matrix (Fin k) (Fin n) ℝ} {a : Fin n} {i : Fin m} :
    kktDense H σ Ae Ai (Fin.castAdd m a) (Fin.natAdd n i) = Ae i a ∧
    kktDense H σ Ae Ai (Fin.natAdd n i) (Fin.castAdd m a) = Ae i a := by
  constructor <;> simp [kktDense]

theorem kktDense_corner {H : Matrix (Fin n) (Fin n) ℝ} {σ : Fin k → ℝ} {Ae : Matrix (Fin m) (Fin n) ℝ}
    {Ai : Matrix (Fin k) (Fin n) ℝ} {i j : Fin m} :
    kktDense H σ Ae Ai (Fin.natAdd n i) (Fin.natAdd n j) = 0 := by simp [kktDense]

/-- Problems with linearly independent linear equality constraints are among those C83 is about. -/
theorem gentle_answers {factor : ℕ → Bool} {clock : ℕ → ℝ} {junk : ℕ → List Fl → Fl} {P : Nlp n m k} (hP : P.Total)
    {q : LinearConstraints n m k} (hq : P.HasLinear q) (hrank : ∀ y, q.Aᵀ *ᵥ y = 0 → y = 0) (st : IpmState n m k)
    (h : st.Sound P) : st.Answers (gentleEnv factor clock junk) (fun _ γ => γ = 0) := by
  intro i rhs _
  have hl := (kktLhsF_real (env := gentleEnv factor clock junk) (h.regular hP)).2
  have eA : st.e.Ae.real = q.A := by
    funext i j
    show (st.e.Ae i j).toReal = _
    rw [h.e, show (P.eval st.x st.y st.z).Ae = P.Ae st.x from rfl, hq.Ae _ h.x]; rfl
  rw [eA] at hl
  obtain ⟨δ, h1, h2⟩ := gentleEnv_solve (factor := factor) (clock := clock) (junk := junk)
    (S := st.system (gentleEnv factor clock junk) rhs)
    ((st.system (gentleEnv factor clock junk) rhs).solvable_independent q.A hrank
      (fun i a => (congrFun (congrFun hl (Fin.castAdd m a)) (Fin.natAdd n i)).trans kktDense_corners.1)
      (fun i a => (congrFun (congrFun hl (Fin.natAdd n i)) (Fin.castAdd m a)).trans kktDense_corners.2)
      (fun i j => (congrFun (congrFun hl (Fin.natAdd n i)) (Fin.natAdd n j)).trans kktDense_corner)) i
  exact ⟨δ, 0, h1, le_rfl, rfl, h2⟩

theorem gentle_sqp_answers {factor : ℕ → Bool} {clock : ℕ → ℝ} {junk : ℕ → List Fl → Fl} {P : Nlp n m 0} (hP : P.Total)
    {q : LinearConstraints n m 0} (hq : P.HasLinear q) (hrank : ∀ y, q.Aᵀ *ᵥ y = 0 → y = 0) (st : SqpState n m)
    (h : st.Sound P) : st.Answers (gentleEnv factor clock junk) (fun _ γ => γ = 0) := by
  intro i ce _
  have hr := h.regular hP
  have hl : FMat.real (kktLhsF (gentleEnv factor clock junk) st.e (Fin.elim0 : Vec 0) Fin.elim0) =
      kktDense st.e.H.real (sigma (Vec.real (Fin.elim0 : Vec 0)) (Vec.real (Fin.elim0 : Vec 0))) st.e.Ae.real
        st.e.Ai.real := by
    funext a b
    have e : kktLhsF (gentleEnv factor clock junk) st.e (Fin.elim0 : Vec 0) Fin.elim0 a b = .fin (kktDense st.e.H.real
        (sigma (Vec.real (Fin.elim0 : Vec 0)) (Vec.real (Fin.elim0 : Vec 0))) st.e.Ae.real st.e.Ai.real a b) :=
      if_pos ⟨hr.H, hr.Ae, fun i => i.elim0, fun i => i.elim0, fun i => i.elim0, fun i => i.elim0⟩
    exact congrArg Fl.toReal e
  have eA : st.e.Ae.real = q.A := by
    funext i j
    show (st.e.Ae i j).toReal = _
    rw [h.e, show (P.eval st.x st.y Fin.elim0).Ae = P.Ae st.x from rfl, hq.Ae _ h.x]; rfl
  rw [eA] at hl
  obtain ⟨δ, h1, h2⟩ := gentleEnv_solve (factor := factor) (clock := clock) (junk := junk)
    (S := st.system (gentleEnv factor clock junk) ce)
    ((st.system (gentleEnv factor clock junk) ce).solvable_independent q.A hrank
      (fun i a => (congrFun (congrFun hl (Fin.castAdd m a)) (Fin.natAdd n i)).trans kktDense_corners.1)
      (fun i a => (congrFun (congrFun hl (Fin.natAdd n i)) (Fin.castAdd m a)).trans kktDense_corners.2)
      (fun i j => (congrFun (congrFun hl (Fin.natAdd n i)) (Fin.natAdd n j)).trans kktDense_corner)) i
  exact ⟨δ, 0, h1, le_rfl, rfl, h2⟩

/-- Minimise `x² + y²` subject to `x + y = 1` and `x ≥ 0`. -/
noncomputable def lineNlp : Nlp 2 1 1 where
  f x := x 0 * x 0 + x 1 * x 1
  g x := ![.fin 2 * x 0, .fin 2 * x 1]
  H _ _ _ := ![![.fin 2, 0], ![0, .fin 2]]
  ce x := ![x 0 + x 1 - .fin 1]
  Ae _ := ![![.fin 1, .fin 1]]
  ci x := ![x 0]
  Ai _ := ![![.fin 1, 0]]
  scaling := .identity

/-- Its constraints. -/
def lineConstraints : LinearConstraints 2 1 1 := ⟨!![1, 1], ![1], !![1, 0], ![0]⟩

theorem lineNlp_linear : lineNlp.HasLinear lineConstraints := by
  refine ⟨fun x h i => ?_, fun x h i j => ?_, fun x h i => ?_, fun x h i j => ?_⟩
  · fin_cases i
    show x 0 + x 1 - .fin 1 = _
    rw [Fl.finite_toReal (h 0), Fl.finite_toReal (h 1), Fl.fin_add, Fl.fin_sub]
    simp [lineConstraints, mulVec, dotProduct, Vec.real]
  · fin_cases i; fin_cases j <;> simp [lineNlp, lineConstraints]
  · fin_cases i
    show x 0 = _
    rw [Fl.finite_toReal (h 0)]
    simp [lineConstraints, mulVec, dotProduct, Vec.real]
  · fin_cases i; fin_cases j <;> simp [lineNlp, lineConstraints, Fl.zero_def]

theorem lineNlp_total : lineNlp.Total := by
  refine ⟨fun x h => ?_, fun x h i => ?_, fun x y z _ h _ i j => ?_, fun x h i => ?_, fun x h i j => ?_, fun x h i => ?_,
    fun x h i j => ?_⟩
  · exact Fl.finite_add.2 ⟨Fl.finite_mul.2 ⟨h 0, h 0⟩, Fl.finite_mul.2 ⟨h 1, h 1⟩⟩
  · fin_cases i
    · exact Fl.finite_mul.2 ⟨rfl, h 0⟩
    · exact Fl.finite_mul.2 ⟨rfl, h 1⟩
  · fin_cases i <;> fin_cases j <;> rfl
  · rw [lineNlp_linear.ce x h]; rfl
  · rw [lineNlp_linear.Ae x h]; rfl
  · rw [lineNlp_linear.ci x h]; rfl
  · rw [lineNlp_linear.Ai x h]; rfl

theorem line_rank : ∀ y, lineConstraints.Aᵀ *ᵥ y = 0 → y = 0 := fun y hy => by
  have := congrFun hy 0
  funext i
  rw [Subsingleton.elim i 0]
  simpa [lineConstraints, mulVec, dotProduct] using this

/-- A run that meets the hypotheses, from any guess. -/
example (factor : ℕ → Bool) (clock : ℕ → ℝ) (junk : ℕ → List Fl → Fl) (v : Fin 2 → ℝ) :
    ∃ res, interiorPoint (gentleEnv factor clock junk) ⟨1e-8, 5000, .pinf, false⟩ lineNlp [] (fun j => .fin (v j)) .start =
      some res ∧ res.world.outer.Pairwise lineConstraints.NotWorse := by
  have ht : (0 : ℝ) < 1e-8 := by norm_num
  have hS : 0 < lineNlp.scaling.f := one_pos
  obtain ⟨res, h1, -⟩ := ipm_ends (gentleEnv factor clock junk) ⟨1e-8, 5000, .pinf, false⟩ lineNlp []
    (fun j => .fin (v j)) ht hS
  exact ⟨res, h1, (ipm_violation (gentleEnv_exact ..).1 (gentleEnv_exact ..).2 lineNlp_total lineNlp_linear
    (gentle_answers lineNlp_total lineNlp_linear line_rank) ht hS (by simp) h1).1⟩

/-- A run of the SQP solver, without the inequality, that meets the hypotheses: if it starts on the line, it stays there. -/
example (factor : ℕ → Bool) (clock : ℕ → ℝ) (junk : ℕ → List Fl → Fl) (v : Fin 2 → ℝ) (hv : v 0 + v 1 = 1) :
    ∃ (P : Nlp 2 1 0) (res : SqpResult 2 1), P.ce = lineNlp.ce ∧ P.f = lineNlp.f ∧
      sqp (gentleEnv factor clock junk) ⟨1e-8, 5000, .pinf, false⟩ P [] (fun j => .fin (v j)) .start = some res ∧
      (res.status ≠ .locallyInfeasible → res.status ≠ .feasibilityRestorationFailed →
        res.x.real 0 + res.x.real 1 = 1) := by
  set P : Nlp 2 1 0 := ⟨lineNlp.f, lineNlp.g, fun x y _ => lineNlp.H x y fun _ => 0, lineNlp.ce, lineNlp.Ae,
    fun _ => Fin.elim0, fun _ => Fin.elim0, .identity, fun x => List.ofFn x⟩ with hP
  have hT : P.Total :=
    ⟨lineNlp_total.f, lineNlp_total.g, fun _ _ _ hx hy _ => lineNlp_total.H _ _ (fun _ => 0) hx hy fun _ => rfl,
      lineNlp_total.ce, lineNlp_total.Ae, fun _ _ i => i.elim0, fun _ _ i => i.elim0⟩
  set q : LinearConstraints 2 1 0 := ⟨lineConstraints.A, lineConstraints.b, fun i => i.elim0, Fin.elim0⟩ with hq
  have hL : P.HasLinear q := ⟨lineNlp_linear.ce, lineNlp_linear.Ae, fun _ _ i => i.elim0, fun _ _ i => i.elim0⟩
  have ht : (0 : ℝ) < (⟨1e-8, 5000, .pinf, false⟩ : SolverOptions).tolerance := by norm_num
  obtain ⟨res, h1, -⟩ := sqp_correct_partial (gentleEnv factor clock junk) ⟨1e-8, 5000, .pinf, false⟩ P []
    (fun j => .fin (v j)) ht
  refine ⟨P, res, rfl, rfl, h1, fun h2 h3 => ?_⟩
  have := (sqp_stays_feasible (gentleEnv_exact ..).1 (gentleEnv_exact ..).2 hT hL (gentle_sqp_answers hT hL line_rank) ht
    (by simp) (v := v) (by
      funext i
      rw [Subsingleton.elim i 0]
      simpa [q, lineConstraints, mulVec, dotProduct] using hv) h1 h2 h3).1
  simpa [q, lineConstraints, mulVec, dotProduct] using congrFun this 0

end Slp
