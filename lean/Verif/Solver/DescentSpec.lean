import Verif.Solver.QuadraticSpec
import Mathlib.Analysis.Calculus.Deriv.Comp
import Mathlib.Topology.Algebra.Module.FiniteDimension
import Mathlib.LinearAlgebra.Matrix.ToLin

/-! Twice differentiable costs with a domain, for C56. -/

namespace Slp

open Matrix

/-- The linear map `v ↦ g · v`. -/
noncomputable def dotMap {n : ℕ} (g : Fin n → ℝ) : (Fin n → ℝ) →L[ℝ] ℝ := ∑ i, g i • ContinuousLinearMap.proj i

/-- The linear map `v ↦ Hv`. -/
noncomputable def mulMap {n : ℕ} (H : Matrix (Fin n) (Fin n) ℝ) : (Fin n → ℝ) →L[ℝ] (Fin n → ℝ) :=
  LinearMap.toContinuousLinearMap (Matrix.toLin' H)

/-- A cost on an open domain with its gradient and Hessian. -/
structure SmoothCost (n : ℕ) where
  dom : Set (Fin n → ℝ)
  f : (Fin n → ℝ) → ℝ
  g : (Fin n → ℝ) → Fin n → ℝ
  H : (Fin n → ℝ) → Matrix (Fin n) (Fin n) ℝ
  isOpen : IsOpen dom
  deriv : ∀ v ∈ dom, HasFDerivAt f (dotMap (g v)) v
  deriv2 : ∀ v ∈ dom, HasFDerivAt g (mulMap (H v)) v

variable {n : ℕ}

/-- The points that are not worse than `u`. -/
def SmoothCost.level (c : SmoothCost n) (u : Fin n → ℝ) : Set (Fin n → ℝ) := {v | v ∈ c.dom ∧ c.f v ≤ c.f u}

/-- The functions of `P` are the cost, its gradient and the lower triangle of its Hessian; outside the domain the cost
is not finite. -/
structure Nlp.IsCost (P : Nlp n 0 0) (c : SmoothCost n) : Prop where
  f : ∀ x, x.Finite → x.real ∈ c.dom → P.f x = .fin (c.f x.real)
  outside : ∀ x, x.Finite → x.real ∉ c.dom → (P.f x).isFinite = false
  g : ∀ x, x.Finite → x.real ∈ c.dom → ∀ j, P.g x j = .fin (c.g x.real j)
  H : ∀ x, x.Finite → x.real ∈ c.dom → ∀ i j, (P.H x Fin.elim0 Fin.elim0 i j).isFinite = true ∧
    (j ≤ i → P.H x Fin.elim0 Fin.elim0 i j = .fin (c.H x.real i j))

/-- The linear solver solves the system of Newton's method at `v`, regularised so that the quadratic form of its matrix
is between those of `a` and `b` times the identity. -/
def SmoothCost.SolvedAt (c : SmoothCost n) (env : Env) (a b : ℝ) (v : Fin n → ℝ) : Prop :=
  ∀ (i : ℕ) (S : LinSystem), S = ⟨n, 0, fun j l => .fin (c.H v j l), fun j => .fin (-c.g v j)⟩ →
    ∃ δ : ℝ, 0 ≤ δ ∧ S.Solved (env.solve i S) δ 0 ∧
      ∀ w : Fin n → ℝ, a * (w ⬝ᵥ w) ≤ w ⬝ᵥ c.H v *ᵥ w + δ * (w ⬝ᵥ w) ∧ w ⬝ᵥ c.H v *ᵥ w + δ * (w ⬝ᵥ w) ≤ b * (w ⬝ᵥ w)

/-- The Euclidean norm. -/
noncomputable def euclid (v : Fin n → ℝ) : ℝ := √(v ⬝ᵥ v)

/-- The Hessian is Lipschitz continuous on a set. -/
def SmoothCost.LipschitzHessian (c : SmoothCost n) (S : Set (Fin n → ℝ)) (L : ℝ) : Prop :=
  ∀ v ∈ S, ∀ w ∈ S, ∀ q r : Fin n → ℝ, r ⬝ᵥ c.H w *ᵥ q - r ⬝ᵥ c.H v *ᵥ q ≤ L * euclid (w - v) * euclid q * euclid r

end Slp
