import Verif.Solver.NewtonModel
import Verif.Solver.SqpModel
import Verif.Solver.MultiplierModel
import Mathlib.LinearAlgebra.Matrix.Gershgorin
import Mathlib.LinearAlgebra.Matrix.Rank
import Mathlib.LinearAlgebra.Matrix.NonsingularInverse
import Mathlib.Algebra.Order.Star.Real

/-!
Contracts of the linear algebra used by the solver loops: what an answer of `RegularizedLDLT::solve()` and of
`lagrange_multiplier_estimate()` is if no rounding errors occur. The loops are modelled for arbitrary answers; theorems
about what the steps mean assume these contracts.
-/

namespace Slp

open Classical Matrix

/-- The operands are finite (an assumption on the solver called at `interior_point.hpp:463-473`). -/
def LinSystem.Finite (S : LinSystem) : Prop := S.lhs.Finite ∧ S.rhs.Finite

/-- `p` is a finite solution of the system with the regularisation `[δI 0; 0 −γI]`
(`dense_regularized_ldlt.hpp:142-154,200-207`, `sparse_regularized_ldlt.hpp:158-170,217-224`). -/
def LinSystem.Solved (S : LinSystem) (p : ℕ → Fl) (δ γ : ℝ) : Prop :=
  (∀ j : Fin (S.n + S.m), (p j).isFinite = true) ∧
    ∀ i, ∑ j, (S.lhs.real i j + if i = j then (if (i : ℕ) < S.n then δ else -γ) else 0) * (p j).toReal = S.rhs.real i

/-- The matrix with that regularisation is not singular, as the number of zero eigenvalues in the inertia that is accepted
requires (`dense_regularized_ldlt.hpp:60-71,90-99`,
`sparse_regularized_ldlt.hpp:75-87,106-115`). -/
def LinSystem.Nonsingular (S : LinSystem) (δ γ : ℝ) : Prop :=
  ∀ v : Fin (S.n + S.m) → ℝ,
    (∀ i, ∑ j, (S.lhs.real i j + if i = j then (if (i : ℕ) < S.n then δ else -γ) else 0) * v j = 0) → v = 0

/-- `Â = [Aₑ 0; Aᵢ −S]` (`lagrange_multiplier_estimate.hpp:87-95`); how it is assembled is modelled by `aHat`. -/
def aHatDense {n m k : ℕ} (Ae : Matrix (Fin m) (Fin n) ℝ) (Ai : Matrix (Fin k) (Fin n) ℝ) (s : Fin k → ℝ) :
    Matrix (Fin (m + k)) (Fin (n + k)) ℝ := fun i j =>
  Fin.addCases
    (fun a => Fin.addCases (fun b => Ae a b) (fun _ => 0) j)
    (fun a => Fin.addCases (fun b => Ai a b) (fun b => if a = b then -s a else 0) j) i

/-- The operands are finite (an assumption on the solver called at
`lagrange_multiplier_estimate.hpp:42-44,107-108`). -/
def EstimateArgs.Finite (A : EstimateArgs) : Prop :=
  A.g.Finite ∧ A.Ae.Finite ∧ A.Ai.Finite ∧ A.s.Finite ∧ A.μ.isFinite = true

/-- `sol` is a finite solution of the normal equations (`lagrange_multiplier_estimate.hpp:42-44,97-108`). -/
def EstimateArgs.Solved (A : EstimateArgs) (sol : ℕ → Fl) : Prop :=
  (∀ j : Fin (A.m + A.k), (sol j).isFinite = true) ∧
    SolvesNormal (aHatDense A.Ae.real A.Ai.real A.s.real) (rhsTemp A.g.real A.k A.μ.toReal)
      fun j : Fin (A.m + A.k) => (sol j).toReal

/-- The linear solver answers finite systems with finite solutions (an assumption on the solver called at
`interior_point.hpp:463-473`). -/
def Env.ExactSolve (env : Env) : Prop :=
  ∀ (i : ℕ) (S : LinSystem), S.Finite → ∃ δ γ, 0 ≤ δ ∧ 0 ≤ γ ∧ S.Solved (env.solve i S) δ γ

/-- Besides, the matrices are not singular: see `LinSystem.Nonsingular` (an assumption on the solver called at
`interior_point.hpp:463-473`, `sqp.hpp:320-330`, `newton.hpp:186-191`). -/
def Env.NonsingularSolve (env : Env) : Prop :=
  ∀ (i : ℕ) (S : LinSystem), S.Finite → ∃ δ γ, 0 ≤ δ ∧ 0 ≤ γ ∧ S.Solved (env.solve i S) δ γ ∧ S.Nonsingular δ γ

theorem Env.NonsingularSolve.exact {env : Env} (h : env.NonsingularSolve) : env.ExactSolve := fun i S hS => by
  obtain ⟨δ, γ, h1, h2, h3, -⟩ := h i S hS
  exact ⟨δ, γ, h1, h2, h3⟩

/-- The multiplier estimates of finite data are finite solutions (an assumption on the solver called at
`lagrange_multiplier_estimate.hpp:42-44,107-108`). -/
def Env.ExactEstimate (env : Env) : Prop := ∀ (i : ℕ) (A : EstimateArgs), A.Finite → A.Solved (env.estimate i A)

/-- Every finite system has a solution for some regularisation, with a nonsingular matrix. -/
theorem LinSystem.solvable (S : LinSystem) : ∃ p δ γ, 0 ≤ δ ∧ 0 ≤ γ ∧ S.Solved p δ γ ∧ S.Nonsingular δ γ := by
  set c : ℝ := 1 + ∑ i, ∑ j, |S.lhs.real i j| with hc
  have hc0 : ∀ i, ∑ j, |S.lhs.real i j| < c := by
    intro i
    have := Finset.single_le_sum (f := fun i => ∑ j, |S.lhs.real i j|)
      (fun i _ => Finset.sum_nonneg fun j _ => abs_nonneg _) (Finset.mem_univ i)
    have h2 : ∑ j, |S.lhs.real i j| ≤ ∑ i, ∑ j, |S.lhs.real i j| := this
    linarith
  have hcp : 0 ≤ c := by
    have : 0 ≤ ∑ i, ∑ j, |S.lhs.real i j| := Finset.sum_nonneg fun i _ => Finset.sum_nonneg fun j _ => abs_nonneg _
    linarith
  set M : Matrix (Fin (S.n + S.m)) (Fin (S.n + S.m)) ℝ :=
    fun i j => S.lhs.real i j + if i = j then (if (i : ℕ) < S.n then c else -c) else 0 with hM
  have hdet : M.det ≠ 0 := by
    refine det_ne_zero_of_sum_row_lt_diag fun i => ?_
    have h1 : ∑ j ∈ Finset.univ.erase i, ‖M i j‖ = ∑ j ∈ Finset.univ.erase i, |S.lhs.real i j| := by
      refine Finset.sum_congr rfl fun j hj => ?_
      simp only [hM, if_neg (Finset.ne_of_mem_erase hj).symm, add_zero, Real.norm_eq_abs]
    have h2 := Finset.add_sum_erase Finset.univ (fun j => |S.lhs.real i j|) (Finset.mem_univ i)
    have h3 := hc0 i
    have h4 : c - |S.lhs.real i i| ≤ ‖M i i‖ := by
      simp only [hM, if_true, Real.norm_eq_abs]
      have a1 := neg_abs_le (S.lhs.real i i)
      have a2 := le_abs_self (S.lhs.real i i)
      split_ifs
      · exact le_trans (by linarith) (le_abs_self _)
      · exact le_trans (by linarith) (neg_le_abs _)
    rw [h1]
    linarith
  refine ⟨fun j => if h : j < S.n + S.m then .fin ((M⁻¹ *ᵥ S.rhs.real) ⟨j, h⟩) else 0, c, c, hcp, hcp,
    ⟨fun j => ?_, fun i => ?_⟩, fun v hv => eq_zero_of_mulVec_eq_zero hdet (funext hv)⟩
  · simp [Fl.isFinite]
  · have : M *ᵥ (M⁻¹ *ᵥ S.rhs.real) = S.rhs.real := by
      rw [mulVec_mulVec, mul_nonsing_inv _ (isUnit_iff_ne_zero.2 hdet), one_mulVec]
    rw [← congrFun this i]
    simp only [mulVec, dotProduct, hM]
    refine Finset.sum_congr rfl fun j _ => ?_
    simp [Fl.toReal]

/-- The normal equations always have a solution. -/
theorem EstimateArgs.solvable (A : EstimateArgs) : ∃ sol, A.Solved sol := by
  set B := aHatDense A.Ae.real A.Ai.real A.s.real
  set r := rhsTemp A.g.real A.k A.μ.toReal
  have hle : LinearMap.range (B * Bᵀ).mulVecLin ≤ LinearMap.range B.mulVecLin := by
    rintro _ ⟨v, rfl⟩
    exact ⟨Bᵀ *ᵥ v, by rw [mulVecLin_apply, mulVecLin_apply, mulVec_mulVec]⟩
  have heq := Submodule.eq_of_le_of_finrank_eq hle (rank_self_mul_transpose B)
  have hr : B *ᵥ r ∈ LinearMap.range (B * Bᵀ).mulVecLin := by
    rw [heq]; exact ⟨r, rfl⟩
  obtain ⟨v, hv⟩ := hr
  refine ⟨fun j => if h : j < A.m + A.k then .fin (v ⟨j, h⟩) else 0, fun j => by simp [Fl.isFinite], fun i => ?_⟩
  have := congrFun hv i
  simp only [mulVecLin_apply, mulVec, dotProduct, Matrix.mul_apply, transpose_apply] at this
  simp only [Fin.is_lt, dif_pos, Fin.eta]
  exact this

/-- An environment whose linear algebra is exact (a solver as called at `interior_point.hpp:463-473`,
`lagrange_multiplier_estimate.hpp:42-44,107-108`). -/
noncomputable def exactEnv (factor : ℕ → Bool) (clock : ℕ → ℝ) (junk : ℕ → List Fl → Fl) : Env where
  factor := factor
  solve _ S := S.solvable.choose
  estimate _ A := A.solvable.choose
  clock := clock
  junk := junk

/-- It meets both contracts. -/
theorem exactEnv_exact (factor : ℕ → Bool) (clock : ℕ → ℝ) (junk : ℕ → List Fl → Fl) :
    (exactEnv factor clock junk).ExactSolve ∧ (exactEnv factor clock junk).ExactEstimate :=
  ⟨fun _ S _ => by
    obtain ⟨δ, γ, h1, h2, h3, -⟩ := S.solvable.choose_spec
    exact ⟨δ, γ, h1, h2, h3⟩, fun _ A _ => A.solvable.choose_spec⟩

theorem exactEnv_nonsingular (factor : ℕ → Bool) (clock : ℕ → ℝ) (junk : ℕ → List Fl → Fl) :
    (exactEnv factor clock junk).NonsingularSolve := fun _ S _ => S.solvable.choose_spec

end Slp
