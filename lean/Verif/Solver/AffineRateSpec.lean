import Verif.Solver.AffineSpec

/-! Specification for C81: how steep the cost is along the constraints. -/

namespace Slp

open Matrix

variable {n m : ℕ}

/-- Along the constraints the slope of the cost is at most `γ`. -/
def AffineProblem.SlopeAtMost (q : AffineProblem n m) (v : Fin n → ℝ) (γ : ℝ) : Prop :=
  ∀ r, q.A *ᵥ r = 0 → |q.cost.g v ⬝ᵥ r| ≤ γ * euclid r

/-- A bound that is squared, relative to `2a²/L`, with each iteration. -/
noncomputable def squaredBound (a L : ℝ) (k : ℕ) : ℝ := 2 * a ^ 2 / L * (1 / 2) ^ 2 ^ k

end Slp
