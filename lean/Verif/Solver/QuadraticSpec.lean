import Verif.Solver.ExactModel

/-! Quadratic problems with linear equality constraints, for C53. -/

namespace Slp

open Matrix

/-- Minimise `½xᵀQx + cᵀx + k` subject to `Ax = b`. -/
structure EqualityQp (n m : ℕ) where
  Q : Matrix (Fin n) (Fin n) ℝ
  c : Fin n → ℝ
  k : ℝ
  A : Matrix (Fin m) (Fin n) ℝ
  b : Fin m → ℝ

variable {n m : ℕ}

/-- The cost. -/
noncomputable def EqualityQp.cost (q : EqualityQp n m) (v : Fin n → ℝ) : ℝ := (v ⬝ᵥ q.Q *ᵥ v) / 2 + q.c ⬝ᵥ v + q.k

/-- `v` is a minimiser. -/
def EqualityQp.Minimises (q : EqualityQp n m) (v : Fin n → ℝ) : Prop :=
  q.A *ᵥ v = q.b ∧ ∀ w, q.A *ᵥ w = q.b → q.cost v ≤ q.cost w

/-- The cost is convex on the constraints. -/
def EqualityQp.Convex (q : EqualityQp n m) : Prop := q.Qᵀ = q.Q ∧ ∀ v, q.A *ᵥ v = 0 → 0 ≤ v ⬝ᵥ q.Q *ᵥ v

/-- The functions of `P` are those of the quadratic problem and their derivatives. -/
structure Nlp.IsQp (P : Nlp n m 0) (q : EqualityQp n m) : Prop where
  f : ∀ x, x.Finite → P.f x = .fin (q.cost x.real)
  g : ∀ x, x.Finite → ∀ j, P.g x j = .fin ((q.Q *ᵥ x.real) j + q.c j)
  H : ∀ x y, x.Finite → y.Finite → ∀ i j, (P.H x y Fin.elim0 i j).isFinite = true ∧
    (j ≤ i → P.H x y Fin.elim0 i j = .fin (q.Q i j))
  ce : ∀ x, x.Finite → ∀ i, P.ce x i = .fin ((q.A *ᵥ x.real) i - q.b i)
  Ae : ∀ x, x.Finite → ∀ i j, P.Ae x i j = .fin (q.A i j)

/-- The factors are positive. -/
def Scaling.PositiveFactors {k : ℕ} : Scaling m k → Prop
  | .identity => True
  | .factors f ce ci => 0 < f ∧ (∀ i, 0 < ce i) ∧ ∀ i, 0 < ci i

/-- The matrix of a system without equality constraints exceeds `10⁻⁴` times the identity, so that its factorisation
has pivots that are not regularised (`strongly_convex_pivots`). -/
def LinSystem.StronglyConvex (S : LinSystem) : Prop :=
  S.m = 0 ∧ S.lhs.realᵀ = S.lhs.real ∧ ∀ v, 1e-4 * (v ⬝ᵥ v) ≤ v ⬝ᵥ S.lhs.real *ᵥ v

/-- The linear solver solves the system without regularisation. -/
def Env.Plain (env : Env) (S : LinSystem) : Prop := ∀ i, S.Solved (env.solve i S) 0 0

end Slp
