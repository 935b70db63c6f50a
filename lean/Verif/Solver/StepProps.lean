import Verif.Solver.StepModel
import Verif.Solver.SparseLemmas
import Mathlib.Analysis.Calculus.Deriv.Mul
import Mathlib.Analysis.Calculus.Deriv.Add
import Mathlib.Tactic.Positivity

/-!
C33: the step solves the linearised optimality conditions. The specification is the full (not condensed)
Newton system, first as equations and then as directional derivatives of the optimality conditions.
-/

namespace Slp

open Matrix

variable {n m k : ℕ}

/-- The four linearised conditions at values `g`, `ce`, `c = cᵢ − s` with Hessian `H`: the matrix form of
Newton's method for the perturbed optimality conditions, with regularisation `δ`, `γ`. -/
structure NewtonSystem (H : Matrix (Fin n) (Fin n) ℝ) (δ γ : ℝ) (g : Fin n → ℝ)
    (Ae : Matrix (Fin m) (Fin n) ℝ) (ce : Fin m → ℝ) (Ai : Matrix (Fin k) (Fin n) ℝ) (c s : Fin k → ℝ)
    (y : Fin m → ℝ) (z : Fin k → ℝ) (μ : ℝ) (p : PStep n m k) : Prop where
  stationarity : ∀ j, (∑ l, H j l * p.px l) + δ * p.px j - ∑ i, Ae i j * p.py i - ∑ i, Ai i j * p.pz i =
    -(g j - ∑ i, Ae i j * y i - ∑ i, Ai i j * z i)
  complementarity : ∀ i, z i * p.ps i + s i * p.pz i = -(s i * z i - μ)
  equality : ∀ i, (∑ l, Ae i l * p.px l) + γ * p.py i = -ce i
  inequality : ∀ i, (∑ l, Ai i l * p.px l) - p.ps i = -c i

/-- The matrix the solver factors, block by block. -/
theorem regularized_blocks {topLeft Ae : Sparse} {H : Matrix (Fin n) (Fin n) ℝ} {σ : Fin k → ℝ}
    {Ai : Matrix (Fin k) (Fin n) ℝ} (hH : ∀ i j, H i j = H j i) (ht : IsTopLeft n topLeft H σ Ai)
    (he : Ae.WF) (hr : Ae.rows = m) (δ γ : ℝ) :
    (∀ i j : Fin n, regularized n δ γ (kktLhs n m topLeft Ae) i j =
      H i j + ∑ l, Ai l i * σ l * Ai l j + if i = j then δ else 0) ∧
    (∀ (i : Fin n) (j : Fin m), regularized n δ γ (kktLhs n m topLeft Ae) i (n + j) = Ae.coeff j i) ∧
    (∀ (i : Fin m) (j : Fin n), regularized n δ γ (kktLhs n m topLeft Ae) (n + i) j = Ae.coeff i j) ∧
    (∀ i j : Fin m, regularized n δ γ (kktLhs n m topLeft Ae) (n + i) (n + j) = if i = j then -γ else 0) := by
  obtain ⟨hw, h1, h2, h3⟩ := ht
  have hc : ∀ i j, (kktLhs n m topLeft Ae).coeff i j =
      if j < n then (if i < n then topLeft.coeff i j else Ae.coeff (i - n) j) else 0 := by
    intro i j
    unfold kktLhs
    rw [Sparse.ofSorted_coeff, appendAsTriplets_coeff (by simp [hw, he]), tripletCoeff_nil, zero_add]
    simp only [stackCoeff, h1, h2, hr, Nat.zero_le, true_and, Nat.sub_zero, and_true]
    split_ifs with a b c
    · rfl
    · rfl
    · exact (Sparse.coeff_row he (by omega)).symm
    · rfl
  have sym : ∀ i j : Fin n, H i j + ∑ l, Ai l i * σ l * Ai l j = H j i + ∑ l, Ai l j * σ l * Ai l i := by
    intro i j
    rw [hH i j]
    congr 1
    exact Finset.sum_congr rfl fun l _ => by ring
  refine ⟨fun i j => ?_, fun i j => ?_, fun i j => ?_, fun i j => ?_⟩
  · unfold regularized symmetrized
    have hij : ((i : ℕ) = (j : ℕ)) ↔ i = j := Fin.ext_iff.symm
    simp only [hij, i.isLt, if_true, hc, j.isLt]
    congr 1
    split_ifs with h
    · rw [h3, if_pos (by exact h)]
    · rw [h3, if_pos (by rw [Fin.le_def]; omega), sym i j]
  · unfold regularized symmetrized
    rw [if_neg (by omega), if_neg (by omega), add_zero, hc, if_pos i.isLt, if_neg (by omega)]
    simp
  · unfold regularized symmetrized
    rw [if_pos (by omega), if_neg (by omega), add_zero, hc, if_pos j.isLt, if_neg (by omega)]
    simp
  · unfold regularized symmetrized
    have h0 : ∀ a b : ℕ, (kktLhs n m topLeft Ae).coeff (n + a) (n + b) = 0 := by
      intro a b
      rw [hc, if_neg (by omega)]
    simp only [h0, ite_self, zero_add]
    have hij : (n + (i : ℕ) = n + (j : ℕ)) ↔ i = j := by rw [Fin.ext_iff]; omega
    simp only [hij, show ¬ (n + (i : ℕ) < n) by omega, if_false]

/-- The rows of the system. -/
theorem solves_rows {topLeft Ae : Sparse} {H : Matrix (Fin n) (Fin n) ℝ} {σ : Fin k → ℝ}
    {Ai : Matrix (Fin k) (Fin n) ℝ} (hH : ∀ i j, H i j = H j i) (ht : IsTopLeft n topLeft H σ Ai)
    (he : Ae.WF) (hr : Ae.rows = m) {δ γ : ℝ} {p rhs : Fin (n + m) → ℝ}
    (hp : Solves n m δ γ (kktLhs n m topLeft Ae) p rhs) :
    (∀ i : Fin n, (∑ l, H i l * p (Fin.castAdd m l)) +
        (∑ l, Ai l i * (σ l * ∑ j, Ai l j * p (Fin.castAdd m j))) + δ * p (Fin.castAdd m i) +
        ∑ j, Ae.mat m n j i * p (Fin.natAdd n j) = rhs (Fin.castAdd m i)) ∧
    ∀ i : Fin m, (∑ l, Ae.mat m n i l * p (Fin.castAdd m l)) - γ * p (Fin.natAdd n i) =
      rhs (Fin.natAdd n i) := by
  obtain ⟨b1, b2, b3, b4⟩ := regularized_blocks hH ht he hr δ γ
  constructor
  · intro i
    have h := hp (Fin.castAdd m i)
    rw [Fin.sum_univ_add] at h
    simp only [Fin.val_castAdd, Fin.val_natAdd, b1, b2] at h
    rw [← h]
    congr 1
    simp only [add_mul, Finset.sum_add_distrib, ite_mul, zero_mul, Finset.sum_ite_eq, Finset.mem_univ, if_true]
    congr 2
    simp only [Finset.sum_mul, Finset.mul_sum]
    rw [Finset.sum_comm]
    exact Finset.sum_congr rfl fun l _ => Finset.sum_congr rfl fun j _ => by ring
  · intro i
    have h := hp (Fin.natAdd n i)
    rw [Fin.sum_univ_add] at h
    simp only [Fin.val_castAdd, Fin.val_natAdd, b3, b4] at h
    rw [← h]
    simp only [ite_mul, zero_mul, Finset.sum_ite_eq, Finset.mem_univ, if_true]
    unfold Sparse.mat
    ring

/-- Common part of the Newton step and the second-order correction, for a solution given row by row. -/
theorem step_of_rows {H : Matrix (Fin n) (Fin n) ℝ} {Ae : Matrix (Fin m) (Fin n) ℝ} {Ai : Matrix (Fin k) (Fin n) ℝ}
    {g : Fin n → ℝ} {ce y : Fin m → ℝ} {c s z : Fin k → ℝ} {μ δ γ : ℝ} {p rhs : Fin (n + m) → ℝ}
    (hs : ∀ i, s i ≠ 0)
    (r1 : ∀ i : Fin n, (∑ l, H i l * p (Fin.castAdd m l)) +
        (∑ l, Ai l i * (sigma s z l * ∑ j, Ai l j * p (Fin.castAdd m j))) + δ * p (Fin.castAdd m i) +
        ∑ j, Ae j i * p (Fin.natAdd n j) = rhs (Fin.castAdd m i))
    (r2 : ∀ i : Fin m, (∑ l, Ae i l * p (Fin.castAdd m l)) - γ * p (Fin.natAdd n i) = rhs (Fin.natAdd n i))
    (hx : ∀ j, rhs (Fin.castAdd m j) = -g j + ∑ i, Ae i j * y i + ∑ i, Ai i j * (μ * (s i)⁻¹ - sigma s z i * c i))
    (hy : ∀ i, rhs (Fin.natAdd n i) = -ce i) :
    NewtonSystem H δ γ g Ae ce Ai c s y z μ (computeStep p Ai s z μ c) := by
  refine ⟨fun j => ?_, fun i => ?_, fun i => ?_, fun i => ?_⟩
  · have h := r1 j
    rw [hx j] at h
    unfold computeStep
    simp only [Matrix.mulVec, dotProduct, Pi.add_apply]
    have e1 : ∑ i, Ai i j * (μ * (s i)⁻¹ - z i - sigma s z i *
        (c i + ∑ l, Ai i l * p (Fin.castAdd m l))) =
        ∑ i, Ai i j * (μ * (s i)⁻¹ - sigma s z i * c i) - ∑ i, Ai i j * z i -
          ∑ i, Ai i j * (sigma s z i * ∑ l, Ai i l * p (Fin.castAdd m l)) := by
      rw [← Finset.sum_sub_distrib, ← Finset.sum_sub_distrib]
      exact Finset.sum_congr rfl fun i _ => by ring
    have e2 : ∑ i, Ae i j * -p (Fin.natAdd n i) = -∑ i, Ae i j * p (Fin.natAdd n i) := by
      rw [← Finset.sum_neg_distrib]
      exact Finset.sum_congr rfl fun i _ => by ring
    rw [e1, e2]
    linarith
  · unfold computeStep sigma
    simp only
    have := hs i
    field_simp
    ring
  · have h := r2 i
    rw [hy i] at h
    unfold computeStep
    simp only
    linarith
  · unfold computeStep
    simp only [Matrix.mulVec, dotProduct, Pi.add_apply]
    ring

/-- Common part of the Newton step and the second-order correction. -/
theorem recovered_step {topLeft Ae : Sparse} {H : Matrix (Fin n) (Fin n) ℝ} {Ai : Matrix (Fin k) (Fin n) ℝ}
    {g : Fin n → ℝ} {ce y : Fin m → ℝ} {c s z : Fin k → ℝ} {μ δ γ : ℝ} {p rhs : Fin (n + m) → ℝ}
    (hs : ∀ i, s i ≠ 0) (hH : ∀ i j, H i j = H j i) (ht : IsTopLeft n topLeft H (sigma s z) Ai) (he : Ae.WF)
    (hr : Ae.rows = m) (hp : Solves n m δ γ (kktLhs n m topLeft Ae) p rhs)
    (hx : ∀ j, rhs (Fin.castAdd m j) = -g j + ∑ i, Ae.mat m n i j * y i +
      ∑ i, Ai i j * (μ * (s i)⁻¹ - sigma s z i * c i))
    (hy : ∀ i, rhs (Fin.natAdd n i) = -ce i) :
    NewtonSystem H δ γ g (Ae.mat m n) ce Ai c s y z μ (computeStep p Ai s z μ c) := by
  obtain ⟨r1, r2⟩ := solves_rows hH ht he hr hp
  exact step_of_rows hs r1 r2 hx hy

theorem mulVec_transpose {a b : ℕ} (A : Matrix (Fin a) (Fin b) ℝ) (v : Fin a → ℝ) (j : Fin b) :
    (Aᵀ *ᵥ v) j = ∑ i, A i j * v i := by
  simp [Matrix.mulVec, dotProduct]

theorem kktRhs_rows {g : Fin n → ℝ} {Ae : Matrix (Fin m) (Fin n) ℝ} {Ai : Matrix (Fin k) (Fin n) ℝ} {ce y : Fin m → ℝ}
    {ci s z : Fin k → ℝ} {μ : ℝ} (hs : ∀ i, 0 < s i) :
    (∀ j, kktRhs g Ae ce Ai ci s y z μ (Fin.castAdd m j) = -g j + ∑ i, Ae i j * y i +
      ∑ i, Ai i j * (μ * (s i)⁻¹ - sigma s z i * (ci - s) i)) ∧
    ∀ i, kktRhs g Ae ce Ai ci s y z μ (Fin.natAdd n i) = -ce i := by
  constructor
  · intro j
    unfold kktRhs
    simp only [Fin.addCases_left, Pi.add_apply, Pi.neg_apply, mulVec_transpose]
    congr 1
    refine Finset.sum_congr rfl fun i _ => ?_
    have := (hs i).ne'
    unfold sigma
    simp only [Pi.sub_apply]
    field_simp
    ring
  · intro i
    unfold kktRhs
    simp [Fin.addCases_right]

theorem socRhs_rows {g : Fin n → ℝ} {Ae : Matrix (Fin m) (Fin n) ℝ} {Ai : Matrix (Fin k) (Fin n) ℝ} {ce y : Fin m → ℝ}
    {c s z : Fin k → ℝ} {μ : ℝ} :
    (∀ j, socRhs g Ae ce Ai c s y z μ (Fin.castAdd m j) = -g j + ∑ i, Ae i j * y i +
      ∑ i, Ai i j * (μ * (s i)⁻¹ - sigma s z i * c i)) ∧
    ∀ i, socRhs g Ae ce Ai c s y z μ (Fin.natAdd n i) = -ce i := by
  constructor
  · intro j
    unfold socRhs
    simp only [Fin.addCases_left, Pi.add_apply, Pi.neg_apply, mulVec_transpose]
  · intro i
    unfold socRhs
    simp [Fin.addCases_right]

/-- C33: the Newton step satisfies all four blocks. With regularisation, the Hessian is `H + δI` and the
equality block is relaxed by `γ`. -/
theorem newton_step_correct {topLeft Ae : Sparse} {H : Matrix (Fin n) (Fin n) ℝ}
    {Ai : Matrix (Fin k) (Fin n) ℝ} {g : Fin n → ℝ} {ce y : Fin m → ℝ} {ci s z : Fin k → ℝ} {μ δ γ : ℝ}
    {p : Fin (n + m) → ℝ} (hs : ∀ i, 0 < s i) (hH : ∀ i j, H i j = H j i)
    (ht : IsTopLeft n topLeft H (sigma s z) Ai) (he : Ae.WF) (hr : Ae.rows = m)
    (hp : Solves n m δ γ (kktLhs n m topLeft Ae) p (kktRhs g (Ae.mat m n) ce Ai ci s y z μ)) :
    NewtonSystem H δ γ g (Ae.mat m n) ce Ai (ci - s) s y z μ (computeStep p Ai s z μ (ci - s)) :=
  recovered_step (fun i => (hs i).ne') hH ht he hr hp (kktRhs_rows hs).1 (kktRhs_rows hs).2

/-- C33: a second-order correction satisfies them with the corrected constraint values. -/
theorem soc_step_correct {topLeft Ae : Sparse} {H : Matrix (Fin n) (Fin n) ℝ}
    {Ai : Matrix (Fin k) (Fin n) ℝ} {g : Fin n → ℝ} {ceSoc y : Fin m → ℝ} {c s z : Fin k → ℝ} {μ δ γ : ℝ}
    {p : Fin (n + m) → ℝ} (hs : ∀ i, 0 < s i) (hH : ∀ i j, H i j = H j i)
    (ht : IsTopLeft n topLeft H (sigma s z) Ai) (he : Ae.WF) (hr : Ae.rows = m)
    (hp : Solves n m δ γ (kktLhs n m topLeft Ae) p (socRhs g (Ae.mat m n) ceSoc Ai c s y z μ)) :
    NewtonSystem H δ γ g (Ae.mat m n) ceSoc Ai c s y z μ (computeStep p Ai s z μ c) :=
  recovered_step (fun i => (hs i).ne') hH ht he hr hp socRhs_rows.1 socRhs_rows.2

/-- C33: without inequality constraints. -/
theorem sqp_step_correct {H Ae : Sparse} {Hm : Matrix (Fin n) (Fin n) ℝ} {g : Fin n → ℝ} {ce y : Fin m → ℝ}
    {δ γ : ℝ} {p : Fin (n + m) → ℝ} (hw : H.WF) (hn : H.rows = n ∧ H.cols = n)
    (hl : ∀ i j : Fin n, H.coeff i j = if j ≤ i then Hm i j else 0) (hH : ∀ i j, Hm i j = Hm j i) (he : Ae.WF)
    (hr : Ae.rows = m) (hp : Solves n m δ γ (kktLhs n m H Ae) p (sqpRhs g (Ae.mat m n) ce y)) :
    let s := computeStep (k := 0) p (fun i => i.elim0) (fun i => i.elim0) (fun i => i.elim0) 0 fun i => i.elim0
    (∀ j, (∑ l, Hm j l * s.px l) + δ * s.px j - ∑ i, Ae.mat m n i j * s.py i =
        -(g j - ∑ i, Ae.mat m n i j * y i)) ∧
      ∀ i, (∑ l, Ae.mat m n i l * s.px l) + γ * s.py i = -ce i := by
  have ht : IsTopLeft n H Hm (sigma (k := 0) (fun i => i.elim0) fun i => i.elim0) (fun i => i.elim0) := by
    refine ⟨hw, hn.1, hn.2, fun i j => ?_⟩
    simp [hl]
  have h := recovered_step (k := 0) (g := g) (ce := ce) (y := y) (c := fun i => i.elim0)
    (μ := 0) (s := fun i => i.elim0) (z := fun i => i.elim0) (fun i => i.elim0) hH ht he hr hp
    (fun j => ?_) fun i => ?_
  · refine ⟨fun j => ?_, h.equality⟩
    have := h.stationarity j
    simpa using this
  · unfold sqpRhs
    simp [Fin.addCases_left, mulVec_transpose]
  · unfold sqpRhs
    simp [Fin.addCases_right]

/-- C33, as derivatives: along the (unregularised) step, every optimality condition changes at the rate that
would bring it to zero after a full step. The problem is given along the step: gradient `G`, Jacobians `AE`,
`AI` and constraint values `CE`, `CI` at `x + t pˣ`, with the Hessian of the Lagrangian acting as the
derivative of its gradient and the Jacobians as the derivatives of the constraints. -/
theorem newton_step_linearises {topLeft Ae : Sparse} {H : Matrix (Fin n) (Fin n) ℝ}
    {Ai : Matrix (Fin k) (Fin n) ℝ} {g : Fin n → ℝ} {ce y : Fin m → ℝ} {ci s z : Fin k → ℝ} {μ : ℝ}
    {p : Fin (n + m) → ℝ} (hs : ∀ i, 0 < s i) (hH : ∀ i j, H i j = H j i)
    (ht : IsTopLeft n topLeft H (sigma s z) Ai) (he : Ae.WF) (hr : Ae.rows = m)
    (hp : Solves n m 0 0 (kktLhs n m topLeft Ae) p (kktRhs g (Ae.mat m n) ce Ai ci s y z μ))
    {G : ℝ → Fin n → ℝ} {AE : ℝ → Matrix (Fin m) (Fin n) ℝ} {AI : ℝ → Matrix (Fin k) (Fin n) ℝ}
    {CE : ℝ → Fin m → ℝ} {CI : ℝ → Fin k → ℝ} (step : PStep n m k)
    (hstep : step = computeStep p Ai s z μ (ci - s)) (h0 : G 0 = g) (h1 : AE 0 = Ae.mat m n)
    (h2 : AI 0 = Ai) (h3 : CE 0 = ce) (h4 : CI 0 = ci)
    (dL : ∀ j, HasDerivAt (fun t => G t j - ∑ i, AE t i j * y i - ∑ i, AI t i j * z i)
      (∑ l, H j l * step.px l) 0)
    (dAE : ∀ i j, DifferentiableAt ℝ (fun t => AE t i j) 0)
    (dAI : ∀ i j, DifferentiableAt ℝ (fun t => AI t i j) 0)
    (dCE : ∀ i, HasDerivAt (fun t => CE t i) (∑ l, AE 0 i l * step.px l) 0)
    (dCI : ∀ i, HasDerivAt (fun t => CI t i) (∑ l, AI 0 i l * step.px l) 0) :
    (∀ j, HasDerivAt (fun t => G t j - ∑ i, AE t i j * (y i + t * step.py i) -
        ∑ i, AI t i j * (z i + t * step.pz i)) (-(G 0 j - ∑ i, AE 0 i j * y i - ∑ i, AI 0 i j * z i)) 0) ∧
      (∀ i, HasDerivAt (fun t => (s i + t * step.ps i) * (z i + t * step.pz i) - μ) (-(s i * z i - μ)) 0) ∧
      (∀ i, HasDerivAt (fun t => CE t i) (-CE 0 i) 0) ∧
      ∀ i, HasDerivAt (fun t => CI t i - (s i + t * step.ps i)) (-(CI 0 i - s i)) 0 := by
  have N := newton_step_correct hs hH ht he hr hp
  rw [← hstep] at N
  rw [h0, h3, h4]
  have lin : ∀ a b : ℝ, HasDerivAt (fun t : ℝ => a + t * b) b 0 := by
    intro a b
    simpa using ((hasDerivAt_id (0 : ℝ)).mul_const b).const_add a
  have prod : ∀ {F : ℝ → ℝ} (b : ℝ), DifferentiableAt ℝ F 0 →
      HasDerivAt (fun t => F t * (t * b)) (F 0 * b) 0 := by
    intro F b hF
    have h := hF.hasDerivAt.mul ((hasDerivAt_id (0 : ℝ)).mul_const b)
    have h' : HasDerivAt (fun t => F t * (t * b)) (deriv F 0 * (id 0 * b) + F 0 * (1 * b)) 0 := h
    simpa using h'
  refine ⟨fun j => ?_, fun i => ?_, fun i => ?_, fun i => ?_⟩
  · have d1 : HasDerivAt (fun t => ∑ i, AE t i j * (t * step.py i)) (∑ i, AE 0 i j * step.py i) 0 := by
      have := HasDerivAt.sum (u := Finset.univ) fun i _ => prod (F := fun t => AE t i j) (step.py i) (dAE i j)
      refine this.congr_of_eventuallyEq (Filter.Eventually.of_forall fun t => ?_)
      simp [Finset.sum_apply]
    have d2 : HasDerivAt (fun t => ∑ i, AI t i j * (t * step.pz i)) (∑ i, AI 0 i j * step.pz i) 0 := by
      have := HasDerivAt.sum (u := Finset.univ) fun i _ => prod (F := fun t => AI t i j) (step.pz i) (dAI i j)
      refine this.congr_of_eventuallyEq (Filter.Eventually.of_forall fun t => ?_)
      simp [Finset.sum_apply]
    have d := ((dL j).sub d1).sub d2
    have e : (∑ l, H j l * step.px l) - ∑ i, AE 0 i j * step.py i - ∑ i, AI 0 i j * step.pz i =
        -(g j - ∑ i, AE 0 i j * y i - ∑ i, AI 0 i j * z i) := by
      have := N.stationarity j
      rw [h1, h2]
      linarith
    rw [e] at d
    refine d.congr_of_eventuallyEq (Filter.Eventually.of_forall fun t => ?_)
    simp only [Pi.sub_apply, mul_add, Finset.sum_add_distrib]
    ring
  · have d := ((lin (s i) (step.ps i)).mul (lin (z i) (step.pz i))).sub_const μ
    have e : step.ps i * (z i + 0 * step.pz i) + (s i + 0 * step.ps i) * step.pz i = -(s i * z i - μ) := by
      have := N.complementarity i
      linarith
    rw [e] at d
    exact d
  · have := N.equality i
    have d := dCE i
    rw [h1, show ∑ l, Ae.mat m n i l * step.px l = -ce i by linarith] at d
    exact d
  · have d := (dCI i).sub (lin (s i) (step.ps i))
    have := N.inequality i
    rw [h2, show ∑ l, Ai i l * step.px l - step.ps i = -(ci i - s i) by
      simpa using this] at d
    exact d

/-- An instance: minimise `x²/2` subject to `x ≥ 0` at `x = 1`, `s = z = μ = 1`. -/
example : ∃ p : Fin (1 + 0) → ℝ,
    Solves 1 0 0 0 (kktLhs 1 0 ⟨1, 1, fun j => if j = 0 then [(0, 2)] else []⟩ (.empty 0 1)) p
      (kktRhs (fun _ => 1) ((Sparse.empty 0 1).mat 0 1) (fun i => i.elim0) (fun _ _ : Fin 1 => 1)
        (fun _ => 1) (fun _ => 1) (fun i => i.elim0) (fun _ => 1) 1) ∧
      IsTopLeft 1 ⟨1, 1, fun j => if j = 0 then [(0, 2)] else []⟩ (fun _ _ => 1)
        (sigma (fun _ : Fin 1 => 1) fun _ => 1) (fun _ _ => 1) := by
  have ht : IsTopLeft 1 ⟨1, 1, fun j => if j = 0 then [(0, 2)] else []⟩ (fun _ _ => 1)
      (sigma (fun _ : Fin 1 => 1) fun _ => 1) (fun _ _ => 1) := by
    refine ⟨⟨fun j => ?_, fun j => ?_, fun j hj => ?_⟩, rfl, rfl, fun i j => ?_⟩
    · dsimp only; split_ifs <;> simp
    · dsimp only; split_ifs <;> simp
    · dsimp only at hj ⊢; rw [if_neg (by omega)]
    · fin_cases i; fin_cases j
      simp [Sparse.coeff, sigma]
      norm_num
  refine ⟨fun _ => 0, fun i => ?_, ht⟩
  have : i = Fin.castAdd 0 0 := by fin_cases i; rfl
  subst this
  unfold kktRhs
  rw [Fin.addCases_left]
  simp [sigma, Matrix.mulVec, dotProduct, Matrix.transpose]

end Slp
