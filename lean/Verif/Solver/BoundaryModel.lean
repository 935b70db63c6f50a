import Mathlib.Data.Real.Basic

/-! Model of `optimization/solver/util/fraction_to_the_boundary_rule.hpp`. -/

namespace Slp

/-- One round of the loop (`fraction_to_the_boundary_rule.hpp:37-39`). -/
noncomputable def boundaryStep (τ α : ℝ) (xp : ℝ × ℝ) : ℝ :=
  if α * xp.2 < -τ * xp.1 then -τ / xp.2 * xp.1 else α

/-- `fraction_to_the_boundary_rule(x, p, τ)` (`fraction_to_the_boundary_rule.hpp:20-43`); the list holds
the elements of `x` and `p`. -/
noncomputable def fractionToTheBoundary (xp : List (ℝ × ℝ)) (τ : ℝ) : ℝ := xp.foldl (boundaryStep τ) 1

end Slp
