import Mathlib.Analysis.SpecialFunctions.Log.Basic

/-! Model of `compute_p_n()` in `optimization/solver/util/feasibility_restoration.hpp`, over exact reals. -/

namespace Slp

/-- One round of the loop (`feasibility_restoration.hpp:90-97`): the elements of `p` and `n`. -/
noncomputable def computePNRow (c ρ μ : ℝ) : ℝ × ℝ :=
  let a := ρ
  let b := ρ * c - μ
  let c' := -μ * c / 2
  let n := (-b + Real.sqrt (b * b - 4 * a * c')) / (2 * a)
  (c + n, n)

/-- `compute_p_n(c, ρ, μ)` (`feasibility_restoration.hpp:49-100`). -/
noncomputable def computePN (c : List ℝ) (ρ μ : ℝ) : List ℝ × List ℝ :=
  (c.map fun x => (computePNRow x ρ μ).1, c.map fun x => (computePNRow x ρ μ).2)

end Slp
