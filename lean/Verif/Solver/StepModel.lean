import Verif.Solver.SparseModel
import Mathlib.Data.Matrix.Mul
import Mathlib.Algebra.BigOperators.Fin

/-!
Model of the linear algebra of one iteration of `optimization/solver/interior_point.hpp` and `sqp.hpp`: the
system handed to the linear solver and the step recovered from its solution. Exact reals.
-/

namespace Slp

open Matrix

/-- The dense view of a sparse matrix (modelling only, of the matrices of `interior_point.hpp:426-440`). -/
def Sparse.mat (A : Sparse) (m n : ℕ) : Matrix (Fin m) (Fin n) ℝ := fun i j => A.coeff i j

/-- `lhs` from the lower triangle of the top-left block and the equality Jacobian
(`interior_point.hpp:434-440`, `sqp.hpp:294-300`). -/
def kktLhs (n m : ℕ) (topLeft Ae : Sparse) : Sparse :=
  .ofSorted (n + m) (n + m) (appendAsTriplets [] 0 0 [topLeft, Ae])

/-- The symmetric matrix a solver that reads only the lower triangle sees (`interior_point.hpp:431`). -/
def symmetrized (L : Sparse) (i j : ℕ) : ℝ := if j ≤ i then L.coeff i j else L.coeff j i

/-- That matrix with the regularisation `[δI 0; 0 −γI]` added (`dense_regularized_ldlt.hpp:200-207`,
`sparse_regularized_ldlt.hpp:217-224`). -/
def regularized (n : ℕ) (δ γ : ℝ) (L : Sparse) (i j : ℕ) : ℝ :=
  symmetrized L i j + if i = j then (if i < n then δ else -γ) else 0

variable {n m k : ℕ}

/-- `Σ = S⁻¹Z`, as a diagonal (`interior_point.hpp:426`). -/
noncomputable def sigma (s z : Fin k → ℝ) : Fin k → ℝ := fun i => (s i)⁻¹ * z i

/-- What `top_left` holds (`interior_point.hpp:432-433`): the lower triangle of `H + AᵢᵀΣAᵢ`, where `H` is
itself stored as a lower triangle. (`ipmTopLeft` in `PatternModel` is the product itself.) -/
def IsTopLeft (n : ℕ) (topLeft : Sparse) (H : Matrix (Fin n) (Fin n) ℝ) (σ : Fin k → ℝ)
    (Ai : Matrix (Fin k) (Fin n) ℝ) : Prop :=
  topLeft.WF ∧ topLeft.rows = n ∧ topLeft.cols = n ∧
    ∀ i j : Fin n, topLeft.coeff i j = if j ≤ i then H i j + ∑ l, Ai l i * σ l * Ai l j else 0

/-- `rhs` of the Newton step (`interior_point.hpp:444-448`). -/
noncomputable def kktRhs (g : Fin n → ℝ) (Ae : Matrix (Fin m) (Fin n) ℝ) (ce : Fin m → ℝ)
    (Ai : Matrix (Fin k) (Fin n) ℝ) (ci s : Fin k → ℝ) (y : Fin m → ℝ) (z : Fin k → ℝ) (μ : ℝ) :
    Fin (n + m) → ℝ :=
  Fin.addCases
    (-g + Aeᵀ *ᵥ y + Aiᵀ *ᵥ (fun i => -sigma s z i * ci i + μ * (s i)⁻¹ + z i))
    (-ce)

/-- `rhs` of a second-order correction (`interior_point.hpp:613-616`); `c` is the corrected `cᵢ − s`. -/
noncomputable def socRhs (g : Fin n → ℝ) (Ae : Matrix (Fin m) (Fin n) ℝ) (ceSoc : Fin m → ℝ)
    (Ai : Matrix (Fin k) (Fin n) ℝ) (c s : Fin k → ℝ) (y : Fin m → ℝ) (z : Fin k → ℝ) (μ : ℝ) :
    Fin (n + m) → ℝ :=
  Fin.addCases
    (-g + Aeᵀ *ᵥ y + Aiᵀ *ᵥ (fun i => μ * (s i)⁻¹ - sigma s z i * c i))
    (-ceSoc)

/-- `rhs` of the step without inequality constraints (`sqp.hpp:304-306`). -/
def sqpRhs (g : Fin n → ℝ) (Ae : Matrix (Fin m) (Fin n) ℝ) (ce y : Fin m → ℝ) : Fin (n + m) → ℝ :=
  Fin.addCases (-g + Aeᵀ *ᵥ y) (-ce)

/-- `Step` (`interior_point.hpp:140-149`). -/
structure PStep (n m k : ℕ) where
  px : Fin n → ℝ
  ps : Fin k → ℝ
  py : Fin m → ℝ
  pz : Fin k → ℝ

/-- `compute_step` (`interior_point.hpp:470-481`), given the solution `p` of the linear system; without
inequality constraints it is `sqp.hpp:327-333`. -/
noncomputable def computeStep (p : Fin (n + m) → ℝ) (Ai : Matrix (Fin k) (Fin n) ℝ) (s z : Fin k → ℝ)
    (μ : ℝ) (ciMinusS : Fin k → ℝ) : PStep n m k :=
  let px : Fin n → ℝ := fun i => p (Fin.castAdd m i)
  let ps : Fin k → ℝ := ciMinusS + Ai *ᵥ px
  { px := px
    py := fun i => -p (Fin.natAdd n i)
    ps := ps
    pz := fun i => μ * (s i)⁻¹ - z i - sigma s z i * ps i }

/-- The linear solver's contract: `p` solves the regularised symmetric system (`interior_point.hpp:463-473`). -/
def Solves (n m : ℕ) (δ γ : ℝ) (L : Sparse) (p rhs : Fin (n + m) → ℝ) : Prop :=
  ∀ i : Fin (n + m), ∑ j : Fin (n + m), regularized n δ γ L i j * p j = rhs i

end Slp
