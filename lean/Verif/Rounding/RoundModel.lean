import Mathlib.Data.Fin.Tuple.Basic
import Mathlib.Data.Real.Basic
import Mathlib.Order.Interval.Finset.Fin
import Mathlib.Tactic.Linarith
import Mathlib.Tactic.Positivity

/-!
Model of the part of `interior_point()` that keeps the slack variables and the multipliers of the inequality
constraints positive, in rounded arithmetic (`optimization/solver/interior_point.hpp`,
`optimization/solver/util/fraction_to_the_boundary_rule.hpp`, `optimization/solver/util/feasibility_restoration.hpp`,
`optimization/solver/util/lagrange_multiplier_estimate.hpp`).

The other models of the solver take the arithmetic operations to be exact. Here each operation has a relative
error of at most `u`. Overflow and underflow are not modelled; the step directions are arbitrary numbers.
-/

namespace Slp

/-- Rounded arithmetic: `rnd` gives the floating-point number for an exact result (the arithmetic of `Scalar` in
`interior_point.hpp:62-866`). -/
structure Rounding where
  /-- The unit roundoff (2⁻⁵³ for `double`). -/
  u : ℝ
  /-- The floating-point number an operation returns for its exact result. -/
  rnd : ℝ → ℝ
  /-- `x + α * p` as compiled: with two roundings, or with one if the compiler contracts it. -/
  axpy : ℝ → ℝ → ℝ → ℝ
  /-- `pow(μ, 1.5)`. Nothing is assumed about it. -/
  pow : ℝ → ℝ
  nonneg : 0 ≤ u
  err : ∀ x, |rnd x - x| ≤ u * |x|
  axpy_eq : ∀ x α p, axpy x α p = rnd (x + rnd (α * p)) ∨ axpy x α p = rnd (x + α * p)

namespace Rounding

variable (R : Rounding) {k : ℕ}

/-- One round of the loop of `fraction_to_the_boundary_rule()` (`fraction_to_the_boundary_rule.hpp:37-39`). -/
noncomputable def boundaryStep (τ α x p : ℝ) : ℝ :=
  if R.rnd (α * p) < R.rnd (-τ * x) then R.rnd (R.rnd (-τ / p) * x) else α

/-- `fraction_to_the_boundary_rule(x, p, τ)` (`fraction_to_the_boundary_rule.hpp:20-43`). -/
noncomputable def boundary (x p : Fin k → ℝ) (τ : ℝ) : ℝ :=
  (List.finRange k).foldl (fun α i => R.boundaryStep τ α (x i) (p i)) 1

/-- `α *= α_reduction_factor` (`interior_point.hpp:355,535,687`). -/
noncomputable def halve (α : ℝ) : ℝ := R.rnd (α * (1 / 2))

/-- `std::clamp(v, lo, hi)` (`interior_point.hpp:800`). -/
noncomputable def clamp (v lo hi : ℝ) : ℝ := if v < lo then lo else if hi < v then hi else v

/-- `Scalar(1) / κ_Σ * μ / s[row]` (`interior_point.hpp:799-800`). -/
noncomputable def dualLow (μ s : ℝ) : ℝ := R.rnd (R.rnd (R.rnd (1 / 10000000000) * μ) / s)
/-- `κ_Σ * μ / s[row]` (`interior_point.hpp:799-800`). -/
noncomputable def dualHigh (μ s : ℝ) : ℝ := R.rnd (R.rnd (10000000000 * μ) / s)

/-- The multiplier after the reset (`interior_point.hpp:797-801`, `lagrange_multiplier_estimate.hpp:125-128`). -/
noncomputable def clampDual (μ s z : ℝ) : ℝ := clamp z (R.dualLow μ s) (R.dualHigh μ s)

/-- `τ_min` (`interior_point.hpp:298`). -/
noncomputable def tauMin : ℝ := R.rnd 0.99

/-- `μ_min` (`interior_point.hpp:294-295`), `f` being `scaling.f`. -/
noncomputable def muMin (f tol : ℝ) : ℝ := R.rnd (R.rnd (f * tol) / 10)

end Rounding

/-- The variables of `interior_point()` that decide on the signs of `s` and `z` (`interior_point.hpp:131-134,301`). -/
structure Slacks (k : ℕ) where
  /-- Slack variables. -/
  s : Fin k → ℝ
  /-- Multipliers of the inequality constraints. -/
  z : Fin k → ℝ
  /-- Barrier parameter. -/
  μ : ℝ
  /-- Fraction-to-the-boundary factor. -/
  τ : ℝ

namespace Rounding

variable (R : Rounding) {k : ℕ}

/-- The state after a step is accepted (`interior_point.hpp:488,497,513-525,780-801`): `ps` and `pz` are the
directions and `r` is how many times the step size was halved. An accepted second-order correction
(`interior_point.hpp:623-629`) and the step taken since it reduces the KKT error (`interior_point.hpp:695-698`) are
those with `r = 0`. With `feasible_ipm` the slacks may be set to `c_i` instead, which is not modelled. -/
noncomputable def accept (σ : Slacks k) (ps pz : Fin k → ℝ) (r : ℕ) : Slacks k :=
  let α := R.halve^[r] (R.boundary σ.s ps σ.τ)
  let αz := R.boundary σ.z pz σ.τ
  let s := fun i => R.axpy (σ.s i) α (ps i)
  { σ with s, z := fun i => R.clampDual σ.μ (s i) (R.axpy (σ.z i) αz (pz i)) }

/-- `update_barrier_parameter_and_reset_filter()` (`interior_point.hpp:308-333`). -/
noncomputable def reduceBarrier (μmin : ℝ) (σ : Slacks k) : Slacks k :=
  let μ := max μmin (min (R.rnd (R.rnd 0.2 * σ.μ)) (R.pow σ.μ))
  { σ with μ, τ := max R.tauMin (R.rnd (1 - μ)) }

/-- The states of an interior-point solve that starts at `σ₀`, `restore σ s` telling which slacks feasibility
restoration can return when it is called at `σ`. The barrier parameter is reduced only while it exceeds its minimum
(`interior_point.hpp:827`). After feasibility restoration the multipliers are an estimate `z`, clamped
(`feasibility_restoration.hpp:609-621`). -/
inductive Run (μmin : ℝ) (restore : Slacks k → (Fin k → ℝ) → Prop) (σ₀ : Slacks k) : Slacks k → Prop
  | start : Run μmin restore σ₀ σ₀
  | accept {σ} (ps pz : Fin k → ℝ) (r : ℕ) :
      Run μmin restore σ₀ σ → Run μmin restore σ₀ (R.accept σ ps pz r)
  | reduce {σ} : μmin < σ.μ → Run μmin restore σ₀ σ → Run μmin restore σ₀ (R.reduceBarrier μmin σ)
  | restored {σ} (s z : Fin k → ℝ) : restore σ s → Run μmin restore σ₀ σ →
      Run μmin restore σ₀ { σ with s, z := fun i => R.clampDual σ.μ (s i) (z i) }

/-- What feasibility restoration does to the slacks (`feasibility_restoration.hpp:393-421,602-610`): an interior-point
solve with `l` further inequality constraints, whose slacks start at 1, with some multipliers, a barrier parameter
that is no smaller and a cost that is not scaled. It does not call feasibility restoration itself
(`interior_point.hpp:726-728`). -/
def Restores (tol : ℝ) (l : ℕ) (σ : Slacks k) (s : Fin k → ℝ) : Prop :=
  ∃ (z : Fin (k + l) → ℝ) (μ : ℝ) (σ' : Slacks (k + l)), σ.μ ≤ μ ∧
    R.Run (R.muMin 1 tol) (fun _ _ => False) ⟨Fin.append σ.s fun _ => 1, z, μ, R.tauMin⟩ σ' ∧
    s = fun i => σ'.s (Fin.castAdd l i)

/-- The start of `interior_point()` (`interior_point.hpp:74-79,298-301`). -/
noncomputable def begin (k : ℕ) (f : ℝ) : Slacks k := ⟨fun _ => 1, fun _ => 1, R.rnd (R.rnd 0.1 * f), R.tauMin⟩

/-- The states of the solver for a problem with `k` inequality constraints and `l` restoration variables, cost
scaling factor `f` and tolerance `tol` (the iterations of `interior_point.hpp:62-866`). -/
def States (k l : ℕ) (f tol : ℝ) : Slacks k → Prop :=
  R.Run (R.muMin f tol) (R.Restores tol l) (R.begin k f)

end Rounding

end Slp
