import Verif.Matrix.MatModel
import Mathlib.Data.Real.Basic
import Mathlib.LinearAlgebra.Matrix.Defs

/-! What it means for a matrix of expressions to have a real matrix as its value. -/

namespace Slp.VMat

/-- `ev` gives expressions a real value, and the operations on expressions mean the operations on reals
(division where the divisor is not zero). That `Variable` behaves like this is C01 and C03. -/
structure Reals {α : Type} [Zero α] [Add α] [Sub α] [Mul α] [Div α] [Neg α] (ev : α → ℝ) : Prop where
  zero : ev 0 = 0
  add : ∀ a b, ev (a + b) = ev a + ev b
  sub : ∀ a b, ev (a - b) = ev a - ev b
  mul : ∀ a b, ev (a * b) = ev a * ev b
  neg : ∀ a, ev (-a) = -ev a
  div : ∀ a b, ev b ≠ 0 → ev (a / b) = ev a / ev b

/-- The matrix (or block) `A` has shape `m` by `n` and its elements have the values `M`. -/
def View.Is {α : Type} (ev : α → ℝ) {m n : ℕ} (A : View α) (M : Matrix (Fin m) (Fin n) ℝ) : Prop :=
  A.rows = m ∧ A.cols = n ∧
    ∀ (i : Fin m) (j : Fin n), ∃ a, A.get (i : ℕ) (j : ℕ) = some a ∧ ev a = M i j

/-- The same for a matrix. -/
def Mat.Is {α : Type} (ev : α → ℝ) {m n : ℕ} (A : Mat α) (M : Matrix (Fin m) (Fin n) ℝ) : Prop :=
  A.storage.length = A.rows * A.cols ∧ A.view.Is ev M

end Slp.VMat
