import Verif.Solver.Fl
import Verif.Solver.SparseModel
import Mathlib.Data.Matrix.Mul
import Mathlib.Algebra.BigOperators.Fin

/-!
Model of `kkt_error.hpp` and `problem_scaling.hpp` in `optimization/solver/util`, for finite data, over exact
reals. A sparse matrix is represented by the matrix it denotes except where its stored elements matter.
-/

namespace Slp

open Matrix

/-- `v.lpNorm<Eigen::Infinity>()` (`kkt_error.hpp:36,38,66-75,131-144`). -/
noncomputable def infNorm {n : ℕ} (v : Fin n → ℝ) : ℝ := (List.ofFn v).foldr (fun x r => max |x| r) 0

/-- `v.lpNorm<1>()` (`kkt_error.hpp:36,38,66-75,131-144`). -/
noncomputable def oneNorm {n : ℕ} (v : Fin n → ℝ) : ℝ := ∑ i, |v i|

/-- The real number a finite scalar denotes (modelling only, of the `Scalar` of `kkt_error.hpp:16-251`). -/
noncomputable def Fl.toReal : Fl → ℝ
  | .fin x => x
  | _ => 0

/-! ### Scaling -/

/-- A scaling factor, `min(1, g_max / norm)` (`problem_scaling.hpp:60-62,79-82,102-106`). -/
noncomputable def scaleFactor (norm : ℝ) : Fl := Fl.min 1 (Fl.fin 100 / Fl.fin norm)

/-- `ProblemScaling` (`problem_scaling.hpp:21-115`): default constructed, or with factors for every
constraint. -/
inductive Scaling (m k : ℕ) where
  | identity
  | factors (f : ℝ) (ce : Fin m → ℝ) (ci : Fin k → ℝ)

/-- The constructors from derivatives (`problem_scaling.hpp:59-107`); without inequality constraints, or
without any constraints, `k`, or `m` and `k`, are zero. -/
noncomputable def Scaling.of {n : ℕ} (m k : ℕ) (g : Fin n → ℝ) (Ae Ai : Sparse) : Scaling m k :=
  .factors (scaleFactor (infNorm g)).toReal (fun i => (scaleFactor (sparseInfNorms Ae i)).toReal)
    (fun i => (scaleFactor (sparseInfNorms Ai i)).toReal)

/-- `is_identity()` (`problem_scaling.hpp:112-114`). -/
def Scaling.isIdentity {m k : ℕ} : Scaling m k → Prop
  | .identity => True
  | .factors f _ _ => f = 1 ∧ m = 0 ∧ k = 0

/-- `scaling.f` (`problem_scaling.hpp:30`). -/
def Scaling.f {m k : ℕ} : Scaling m k → ℝ
  | .identity => 1
  | .factors f _ _ => f

/-! ### Errors -/

/-- `kkt_error<INF_NORM_SCALED>(g)` (`kkt_error.hpp:29-40`). -/
noncomputable def kktInfNewton {n : ℕ} (g : Fin n → ℝ) : ℝ := infNorm g

/-- `kkt_error<ONE_NORM>(g)` (`kkt_error.hpp:29-40`). -/
noncomputable def kktOneNewton {n : ℕ} (g : Fin n → ℝ) : ℝ := oneNorm g

variable {n m k : ℕ}

/-- `kkt_error<INF_NORM_SCALED>(g, A_e, c_e, y)` (`kkt_error.hpp:50-73`). For no constraints the quotient is
NaN and `std::max` returns its first argument, as with the value zero used here. -/
noncomputable def kktInfSqp (g : Fin n → ℝ) (Ae : Matrix (Fin m) (Fin n) ℝ) (ce y : Fin m → ℝ) : ℝ :=
  let sd := max 100 (oneNorm y / m) / 100
  max (infNorm (g - Aeᵀ *ᵥ y) / sd) (infNorm ce)

/-- `kkt_error<ONE_NORM>(g, A_e, c_e, y)` (`kkt_error.hpp:73-77`). -/
noncomputable def kktOneSqp (g : Fin n → ℝ) (Ae : Matrix (Fin m) (Fin n) ℝ) (ce y : Fin m → ℝ) : ℝ :=
  oneNorm (g - Aeᵀ *ᵥ y) + oneNorm ce

/-- `kkt_error<INF_NORM_SCALED>(g, A_e, c_e, A_i, c_i, s, y, z, μ)` (`kkt_error.hpp:92-135`). -/
noncomputable def kktInfIpm (g : Fin n → ℝ) (Ae : Matrix (Fin m) (Fin n) ℝ) (ce : Fin m → ℝ)
    (Ai : Matrix (Fin k) (Fin n) ℝ) (ci s : Fin k → ℝ) (y : Fin m → ℝ) (z : Fin k → ℝ) (μ : ℝ) : ℝ :=
  let sd := max 100 ((oneNorm y + oneNorm z) / (m + k : ℕ)) / 100
  let sc := max 100 (oneNorm z / k) / 100
  max (max (max (infNorm (g - Aeᵀ *ᵥ y - Aiᵀ *ᵥ z) / sd) (infNorm (fun i => s i * z i - μ) / sc))
    (infNorm ce)) (infNorm (ci - s))

/-- `kkt_error<ONE_NORM>(g, A_e, c_e, A_i, c_i, s, y, z, μ)` (`kkt_error.hpp:136-146`). -/
noncomputable def kktOneIpm (g : Fin n → ℝ) (Ae : Matrix (Fin m) (Fin n) ℝ) (ce : Fin m → ℝ)
    (Ai : Matrix (Fin k) (Fin n) ℝ) (ci s : Fin k → ℝ) (y : Fin m → ℝ) (z : Fin k → ℝ) (μ : ℝ) : ℝ :=
  oneNorm (g - Aeᵀ *ᵥ y - Aiᵀ *ᵥ z) + oneNorm (fun i => s i * z i - μ) + oneNorm ce + oneNorm (ci - s)

/-- `d.asDiagonal() * A` (`kkt_error.hpp:239,241`). -/
def rowScale (d : Fin m → ℝ) (A : Matrix (Fin m) (Fin n) ℝ) : Matrix (Fin m) (Fin n) ℝ := fun i j => d i * A i j

open Classical in
/-- `unscaled_kkt_error<INF_NORM_SCALED>(scaling, g)` (`kkt_error.hpp:154-166`). -/
noncomputable def unscaledInfNewton (S : Scaling m k) (g : Fin n → ℝ) : ℝ :=
  if S.isIdentity then kktInfNewton g else kktInfNewton fun j => 1 / S.f * g j

open Classical in
/-- `unscaled_kkt_error<INF_NORM_SCALED>(scaling, g, A_e, c_e, y)` (`kkt_error.hpp:177-200`). A scaling with
factor other than one but without constraint factors does not occur. -/
noncomputable def unscaledInfSqp (S : Scaling m k) (g : Fin n → ℝ) (Ae : Matrix (Fin m) (Fin n) ℝ)
    (ce y : Fin m → ℝ) : ℝ :=
  if S.isIdentity then kktInfSqp g Ae ce y else
    match S with
    | .identity => kktInfSqp g Ae ce y
    | .factors f de _ =>
        kktInfSqp (fun j => 1 / f * g j) (rowScale (fun i => (de i)⁻¹) Ae) (fun i => (de i)⁻¹ * ce i)
          (fun i => de i * y i * (1 / f))

open Classical in
/-- `unscaled_kkt_error<INF_NORM_SCALED>(scaling, g, A_e, c_e, A_i, c_i, s, y, z, μ)`
(`kkt_error.hpp:216-251`). -/
noncomputable def unscaledInfIpm (S : Scaling m k) (g : Fin n → ℝ) (Ae : Matrix (Fin m) (Fin n) ℝ)
    (ce : Fin m → ℝ) (Ai : Matrix (Fin k) (Fin n) ℝ) (ci s : Fin k → ℝ) (y : Fin m → ℝ) (z : Fin k → ℝ)
    (μ : ℝ) : ℝ :=
  if S.isIdentity then kktInfIpm g Ae ce Ai ci s y z μ else
    match S with
    | .identity => kktInfIpm g Ae ce Ai ci s y z μ
    | .factors f de di =>
        kktInfIpm (fun j => 1 / f * g j) (rowScale (fun i => (de i)⁻¹) Ae) (fun i => (de i)⁻¹ * ce i)
          (rowScale (fun i => (di i)⁻¹) Ai) (fun i => (di i)⁻¹ * ci i) (fun i => (di i)⁻¹ * s i)
          (fun i => de i * y i * (1 / f)) (fun i => di i * z i * (1 / f)) (1 / f * μ)

end Slp
