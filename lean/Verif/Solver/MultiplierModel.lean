import Verif.Solver.StepModel

/-! Model of `optimization/solver/util/lagrange_multiplier_estimate.hpp`. Exact reals. -/

namespace Slp

variable {n m k : ℕ}

/-- The linear solver's contract: `x` solves `A Aᵀ x = A r` (`SimplicialLDLT{A * A.transpose()}.solve(A * r)`)
(`lagrange_multiplier_estimate.hpp:42-44,97-108`). -/
def SolvesNormal {a b : ℕ} (A : Matrix (Fin a) (Fin b) ℝ) (r : Fin b → ℝ) (x : Fin a → ℝ) : Prop :=
  ∀ i, ∑ j, (∑ l, A i l * A j l) * x j = ∑ l, A i l * r l

/-- `y` is what `lagrange_multiplier_estimate(g, A_e)` returns (`lagrange_multiplier_estimate.hpp:33-45`). -/
def IsSqpEstimate (g : Fin n → ℝ) (Ae : Sparse) (y : Fin m → ℝ) : Prop := SolvesNormal (Ae.mat m n) g y

/-- `A_hat` (`lagrange_multiplier_estimate.hpp:87-95`). -/
def aHat (Ae Ai : Sparse) (s : List ℝ) : Sparse :=
  .ofSorted (Ae.rows + Ai.rows) (Ae.cols + s.length)
    (appendDiagonal (appendAsTriplets [] 0 0 [Ae, Ai]) Ae.rows Ai.cols (s.map fun x => -x))

/-- `rhs_temp` (`lagrange_multiplier_estimate.hpp:102-104`). -/
def rhsTemp (g : Fin n → ℝ) (k : ℕ) (μ : ℝ) : Fin (n + k) → ℝ := Fin.addCases g fun _ => -μ

/-- `std::clamp(v, lo, hi)` (`lagrange_multiplier_estimate.hpp:127`). -/
noncomputable def clamp (v lo hi : ℝ) : ℝ := if v < lo then lo else if hi < v then hi else v

/-- The reset of one multiplier (`lagrange_multiplier_estimate.hpp:125-128`), with `κ_Σ = 1e10`. -/
noncomputable def clampDual (μ s z : ℝ) : ℝ := clamp z (1 / 1e10 * μ / s) (1e10 * μ / s)

/-- `lagrange_multiplier_estimate(g, A_e, A_i, s, μ)` (`lagrange_multiplier_estimate.hpp:55-131`), given the
solution `sol` of the linear system. -/
noncomputable def ipmEstimate (s : Fin k → ℝ) (μ : ℝ) (sol : Fin (m + k) → ℝ) : (Fin m → ℝ) × (Fin k → ℝ) :=
  (fun i => sol (Fin.castAdd k i), fun i => clampDual μ (s i) (sol (Fin.natAdd m i)))

/-- `sol` is what the linear solver returns there (`lagrange_multiplier_estimate.hpp:97-108`). -/
def IsIpmSolution (g : Fin n → ℝ) (Ae Ai : Sparse) (s : Fin k → ℝ) (μ : ℝ) (sol : Fin (m + k) → ℝ) : Prop :=
  SolvesNormal ((aHat Ae Ai (List.ofFn s)).mat (m + k) (n + k)) (rhsTemp g k μ) sol

end Slp
