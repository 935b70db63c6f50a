import Verif.Solver.DescentSpec

/-! Smooth costs with linear equality constraints, for C78. -/

namespace Slp

open Matrix

variable {n m : ℕ}

/-- Minimise a smooth cost subject to `Av = b`. -/
structure AffineProblem (n m : ℕ) where
  cost : SmoothCost n
  A : Matrix (Fin m) (Fin n) ℝ
  b : Fin m → ℝ

/-- The points that satisfy the constraints. -/
def AffineProblem.feasible (q : AffineProblem n m) : Set (Fin n → ℝ) := {v | q.A *ᵥ v = q.b}

/-- The feasible points that are not worse than `u`. -/
def AffineProblem.level (q : AffineProblem n m) (u : Fin n → ℝ) : Set (Fin n → ℝ) := q.cost.level u ∩ q.feasible

/-- The functions of `P` are the cost, the constraints and their derivatives; outside the domain the cost is not
finite. -/
structure Nlp.IsAffine (P : Nlp n m 0) (q : AffineProblem n m) : Prop where
  f : ∀ x, x.Finite → x.real ∈ q.cost.dom → P.f x = .fin (q.cost.f x.real)
  outside : ∀ x, x.Finite → x.real ∉ q.cost.dom → (P.f x).isFinite = false
  g : ∀ x, x.Finite → x.real ∈ q.cost.dom → ∀ j, P.g x j = .fin (q.cost.g x.real j)
  H : ∀ x y, x.Finite → y.Finite → x.real ∈ q.cost.dom → ∀ i j, (P.H x y Fin.elim0 i j).isFinite = true ∧
    (j ≤ i → P.H x y Fin.elim0 i j = .fin (q.cost.H x.real i j))
  ce : ∀ x, x.Finite → ∀ i, P.ce x i = .fin ((q.A *ᵥ x.real) i - q.b i)
  Ae : ∀ x, x.Finite → ∀ i j, P.Ae x i j = .fin (q.A i j)

/-- The linear system `[H Aᵀ; A 0][p; −r] = −[g − Aᵀy; Av − b]`. -/
def AffineProblem.system (q : AffineProblem n m) (v : Fin n → ℝ) (y : Fin m → ℝ) : LinSystem where
  n := n
  m := m
  lhs i j := .fin (Fin.addCases
    (fun a => Fin.addCases (fun b => q.cost.H v a b) (fun b => q.A b a) j)
    (fun a => Fin.addCases (fun b => q.A a b) (fun _ => 0) j) i)
  rhs i := .fin (Fin.addCases (fun a => -(q.cost.g v a - (q.Aᵀ *ᵥ y) a)) (fun a => -((q.A *ᵥ v) a - q.b a)) i)

/-- Along the constraints the curvature of the cost is between `a` and `b` on a set. -/
def AffineProblem.Curvature (q : AffineProblem n m) (S : Set (Fin n → ℝ)) (a b : ℝ) : Prop :=
  ∀ v ∈ S, ∀ p : Fin n → ℝ, q.A *ᵥ p = 0 → a * (p ⬝ᵥ p) ≤ p ⬝ᵥ q.cost.H v *ᵥ p ∧ p ⬝ᵥ q.cost.H v *ᵥ p ≤ b * (p ⬝ᵥ p)

end Slp
