import Verif.Solver.AffineSpec

/-! Specification for C82: the first step from a guess that violates linear equality constraints. -/

namespace Slp

open Matrix

variable {n m : ℕ}

/-- On the constraints, the second-order Taylor polynomial of the cost at `x` is stationary at `v`. -/
def AffineProblem.ModelStationary (q : AffineProblem n m) (x v : Fin n → ℝ) : Prop :=
  v ∈ q.feasible ∧ ∀ p, q.A *ᵥ p = 0 → (q.cost.g x + q.cost.H x *ᵥ (v - x)) ⬝ᵥ p = 0

/-- The sum of the violations of the constraints. -/
def AffineProblem.violation (q : AffineProblem n m) (x : Fin n → ℝ) : ℝ := ∑ i, |(q.A *ᵥ x) i - q.b i|

/-- Moving from `x` to `v` is worth it: the violation is large compared to the slope of the cost, or the cost
decreases. -/
def AffineProblem.Worthwhile (q : AffineProblem n m) (x v : Fin n → ℝ) : Prop :=
  1e-4 < q.violation x ∨ 0 ≤ q.cost.g x ⬝ᵥ (v - x) ∨
    (-(q.cost.g x ⬝ᵥ (v - x))) ^ (2.3 : ℝ) ≤ q.violation x ^ (1.1 : ℝ) ∨
    q.cost.f v ≤ q.cost.f x + 1e-8 * (q.cost.g x ⬝ᵥ (v - x))

/-- The solver's test for constraints that cannot be satisfied near `x`. -/
def AffineProblem.SeemsInfeasible (q : AffineProblem n m) (x : Fin n → ℝ) : Prop :=
  euclid (q.Aᵀ *ᵥ (q.A *ᵥ x - q.b)) < 1e-6 ∧ 1e-2 < euclid (q.A *ᵥ x - q.b)

end Slp
