import Verif.Rounding.RoundModel
import Mathlib.Algebra.BigOperators.Group.Finset.Basic
import Mathlib.Data.Fintype.Basic

/-!
Model of the stopping tests of the solvers in rounded arithmetic: the scaling of the problem's values
(`optimization/problem.hpp:392,488-506,624-658`) and `unscaled_kkt_error<INF_NORM_SCALED>()`, for the interior-point
method with `μ = 0` (`optimization/solver/util/kkt_error.hpp:24-251`). Overflow and underflow are not modelled.
-/

namespace Slp
namespace Rounding

/-- The possible results of adding up `x i` for `i ∈ S`: in any order, with any number of accumulators, skipping zeros,
the terms being rounded before they are added (`round`) or not (`fma`, or `exact` if they are floating-point numbers).
`d` is the largest number of roundings a term goes through. This covers `lpNorm<1>()` and the elements of a sparse
matrix-vector product (`kkt_error.hpp:114-135`). -/
inductive Sum (R : Rounding) {ι : Type} [DecidableEq ι] (x : ι → ℝ) : Finset ι → ℝ → ℕ → Prop
  | empty : Sum R x ∅ 0 0
  | exact (i) : Sum R x {i} (x i) 0
  | round (i) : Sum R x {i} (R.rnd (x i)) 1
  | skip {S v d} (i) : x i = 0 → i ∉ S → Sum R x S v d → Sum R x (insert i S) v d
  | fma {S v d} (i) : i ∉ S → Sum R x S v d → Sum R x (insert i S) (R.rnd (v + x i)) (d + 1)
  | add {S T v w d e} : Disjoint S T → Sum R x S v d → Sum R x T w e →
      Sum R x (S ∪ T) (R.rnd (v + w)) (Max.max d e + 1)

/-- The largest absolute value, `lpNorm<Eigen::Infinity>()` (`kkt_error.hpp:131-135`). -/
noncomputable def largest {n : ℕ} (v : Fin n → ℝ) : ℝ := (List.ofFn v).foldr (fun x r => Max.max |x| r) 0

end Rounding

/-- What the stopping test depends on: the values and derivatives of the user's problem at the iterate (as autodiff
returns them), the scaling factors and the solver's slacks and multipliers (`kkt_error.hpp:216-251`,
`problem.hpp:624-658`). -/
structure KktData (n m k : ℕ) where
  /-- The gradient of the cost. -/
  g : Fin n → ℝ
  /-- The Jacobian of the equality constraints. -/
  Ae : Fin m → Fin n → ℝ
  /-- The equality constraints. -/
  ce : Fin m → ℝ
  /-- The Jacobian of the inequality constraints. -/
  Ai : Fin k → Fin n → ℝ
  /-- The inequality constraints. -/
  ci : Fin k → ℝ
  /-- The scaling factor of the cost. -/
  f : ℝ
  /-- The scaling factors of the equality constraints. -/
  de : Fin m → ℝ
  /-- The scaling factors of the inequality constraints. -/
  di : Fin k → ℝ
  /-- The slacks. -/
  s : Fin k → ℝ
  /-- The multipliers of the equality constraints. -/
  y : Fin m → ℝ
  /-- The multipliers of the inequality constraints. -/
  z : Fin k → ℝ

namespace KktData

variable {n m k : ℕ} (P : KktData n m k) (R : Rounding)

/-- `inv_d_f` (`kkt_error.hpp:234`). -/
noncomputable def invF : ℝ := R.rnd (1 / P.f)
/-- `inv_d_c_e` (`kkt_error.hpp:235`). -/
noncomputable def invE (i : Fin m) : ℝ := R.rnd (1 / P.de i)
/-- `inv_d_c_i` (`kkt_error.hpp:236`). -/
noncomputable def invI (i : Fin k) : ℝ := R.rnd (1 / P.di i)
/-- `is_identity()` (`problem_scaling.hpp:112-114`). `c_e` and `c_i` have one element for each constraint, so with
constraints everything is unscaled, even by factors of one. -/
def Identity : Prop := P.f = 1 ∧ m = 0 ∧ k = 0

open Classical in
/-- `g_unscaled` (`kkt_error.hpp:159-163,186-193,230-238`); the solver's `g` is `scaling.f * g.value()`
(`problem.hpp:392,488,628`). -/
noncomputable def g' (j : Fin n) : ℝ :=
  if P.Identity then R.rnd (P.f * P.g j) else R.rnd (P.invF R * R.rnd (P.f * P.g j))
/-- `A_e_unscaled` (`kkt_error.hpp:239`, `problem.hpp:650`). -/
noncomputable def Ae' (i : Fin m) (j : Fin n) : ℝ := R.rnd (P.invE R i * R.rnd (P.de i * P.Ae i j))
/-- `c_e_unscaled` (`kkt_error.hpp:240`, `problem.hpp:646`). -/
noncomputable def ce' (i : Fin m) : ℝ := R.rnd (P.invE R i * R.rnd (P.de i * P.ce i))
/-- `A_i_unscaled` (`kkt_error.hpp:241`, `problem.hpp:658`). -/
noncomputable def Ai' (i : Fin k) (j : Fin n) : ℝ := R.rnd (P.invI R i * R.rnd (P.di i * P.Ai i j))
/-- `c_i_unscaled` (`kkt_error.hpp:242`, `problem.hpp:654`). -/
noncomputable def ci' (i : Fin k) : ℝ := R.rnd (P.invI R i * R.rnd (P.di i * P.ci i))
/-- `s_unscaled` (`kkt_error.hpp:243`). -/
noncomputable def s' (i : Fin k) : ℝ := R.rnd (P.invI R i * P.s i)
/-- `y_unscaled` (`kkt_error.hpp:244`). -/
noncomputable def y' (i : Fin m) : ℝ := R.rnd (R.rnd (P.de i * P.y i) * P.invF R)
/-- `z_unscaled` (`kkt_error.hpp:245`). -/
noncomputable def z' (i : Fin k) : ℝ := R.rnd (R.rnd (P.di i * P.z i) * P.invF R)

/-- `E` is a possible value of `unscaled_kkt_error<INF_NORM_SCALED>()` with `μ = 0` (`kkt_error.hpp:112-135`): `e` and `i`
are the elements of `A_e.transpose() * y` and `A_i.transpose() * z`, `vy` and `vz` are the 1-norms of `y` and `z`. No
term of these sums goes through more than `D` roundings. -/
def Computes (D : ℕ) (E : ℝ) : Prop :=
  ∃ (e i : Fin n → ℝ) (vy vz : ℝ),
    (∀ j, ∃ d ≤ D, R.Sum (fun r => P.Ae' R r j * P.y' R r) Finset.univ (e j) d) ∧
    (∀ j, ∃ d ≤ D, R.Sum (fun r => P.Ai' R r j * P.z' R r) Finset.univ (i j) d) ∧
    (∃ d ≤ D, R.Sum (fun r => |P.y' R r|) Finset.univ vy d) ∧
    (∃ d ≤ D, R.Sum (fun r => |P.z' R r|) Finset.univ vz d) ∧
    let sd := R.rnd (Max.max 100 (R.rnd (R.rnd (vy + vz) / (m + k : ℕ))) / 100)
    let sc := R.rnd (Max.max 100 (R.rnd (vz / k)) / 100)
    E = Max.max (Max.max (Max.max
      (R.rnd (Rounding.largest (fun j => R.rnd (R.rnd (P.g' R j - e j) - i j)) / sd))
      (R.rnd (Rounding.largest (fun r => R.rnd (R.rnd (P.s' R r * P.z' R r) - 0)) / sc)))
      (Rounding.largest (P.ce' R))) (Rounding.largest fun r => R.rnd (P.ci' R r - P.s' R r))

/-- `E` is a possible value of `unscaled_kkt_error<INF_NORM_SCALED>()` for SQP (`kkt_error.hpp:60-72,178-199`): `e` are
the elements of `A_e.transpose() * y` and `vy` is the 1-norm of `y`. -/
def ComputesSqp (P : KktData n m 0) (R : Rounding) (D : ℕ) (E : ℝ) : Prop :=
  ∃ (e : Fin n → ℝ) (vy : ℝ),
    (∀ j, ∃ d ≤ D, R.Sum (fun r => P.Ae' R r j * P.y' R r) Finset.univ (e j) d) ∧
    (∃ d ≤ D, R.Sum (fun r => |P.y' R r|) Finset.univ vy d) ∧
    let sd := R.rnd (Max.max 100 (R.rnd (vy / m)) / 100)
    E = Max.max (R.rnd (Rounding.largest (fun j => R.rnd (P.g' R j - e j)) / sd)) (Rounding.largest (P.ce' R))

/-- The value of `unscaled_kkt_error<INF_NORM_SCALED>()` for Newton's method (`kkt_error.hpp:35-36,155-166`). -/
noncomputable def newtonError (P : KktData n 0 0) (R : Rounding) : ℝ := Rounding.largest (P.g' R)

end KktData
end Slp
