import Verif.Matrix.QrModel
import Verif.Matrix.MakeModel

/-!
Model of the linear solver inside `exp()`, `Q.T().to_eigen().lu().solve(P.T().to_eigen())`
(`variable_matrix.hpp:1124-1125`), for matrices of expressions.

As for `householderQr()`, see `QrModel`, Eigen's algorithm is written down as its documentation and sources describe it;
its source is not part of `/repo`. The rows that are swapped are chosen by comparisons of expressions, which
`InequalityConstraints::operator bool` (`variable.hpp:886-892`) decides by the values `now` that the expressions have
while `exp()` runs. For expressions `a > b` is the constraint `a - b >= 0` (`variable.hpp:963-977`), so that among equal
elements the last one is chosen, not the first one. Simplifications: sums are taken in the order of the indices; columns
are eliminated one by one (Eigen does so in blocks for more than 16 columns).
-/

namespace Slp.VMat

section
variable {α : Type} [Zero α] [Add α] [Sub α] [Mul α] [Div α] [Neg α]

open Classical in
/-- `lu.col(k).tail(n - k).unaryExpr(Scoring()).maxCoeff(&row)`: the row of the element that is largest in absolute value
(part of `variable_matrix.hpp:1125`). -/
noncomputable def pivotRow (now : α → ℝ) (abs : α → α) (n k : ℕ) (a : ℕ → ℕ → α) : ℕ :=
  (List.range' (k + 1) (n - (k + 1))).foldl (fun b i => if 0 ≤ now (abs (a i k) - abs (a b k)) then i else b) k

/-- `lu.row(k).swap(lu.row(b))` (part of `variable_matrix.hpp:1125`). -/
def swapRows (k b : ℕ) (a : ℕ → ℕ → α) : ℕ → ℕ → α :=
  fun i j => if i = k then a b j else if i = b then a k j else a i j

open Classical in
/-- One column of `unblocked_lu()` (part of `variable_matrix.hpp:1125`). The row of the largest element is recorded; if
that element is not zero, the rows are swapped and the elements below the diagonal are divided by it. -/
noncomputable def luColumn (now : α → ℝ) (abs : α → α) (n : ℕ) (s : (ℕ → ℕ → α) × List ℕ) (k : ℕ) :
    (ℕ → ℕ → α) × List ℕ :=
  let b := pivotRow now abs n k s.1
  let a :=
    if now (abs (s.1 b k)) ≠ 0 then
      let a := swapRows k b s.1
      fun i j => if j = k ∧ k < i then a i k / a k k else a i j
    else s.1
  (fun i j => if k < i ∧ k < j then a i j - a i k * a k j else a i j, s.2 ++ [b])

/-- `lu()` (part of `variable_matrix.hpp:1125`): both factors in one matrix, and the rows that were swapped with row 0,
row 1, .... -/
noncomputable def partialPivLu (now : α → ℝ) (abs : α → α) (n : ℕ) (a : ℕ → ℕ → α) : (ℕ → ℕ → α) × List ℕ :=
  (List.range n).foldl (luColumn now abs n) (a, [])

/-- The product with `permutationP()` (part of `variable_matrix.hpp:1125`). -/
def permuteRows (bs : List ℕ) (c : ℕ → ℕ → α) : ℕ → ℕ → α := bs.zipIdx.foldl (fun c b => swapRows b.2 b.1 c) c

/-- `solveInPlace()` with the lower triangle, whose diagonal is 1 (part of `variable_matrix.hpp:1125`). -/
def forwardSubstitute (n : ℕ) (L c : ℕ → ℕ → α) : ℕ → ℕ → α :=
  (List.range n).foldl
    (fun x i i' j => if i' = i then x i j - sumFromTo (fun t => L i t * x t j) 0 i else x i' j) c

/-- `A.to_eigen().lu().solve(B.to_eigen())` for a square matrix `A` (`variable_matrix.hpp:1125`), called while the
expressions have the values `now`. -/
noncomputable def luSolve (now : α → ℝ) (abs : α → α) (A B : Mat α) : Option (Mat α) :=
  let n := A.rows
  let f := partialPivLu now abs n A.toEigen
  let x := backSubstitute n f.1 (forwardSubstitute n f.1 (permuteRows f.2 B.toEigen))
  Mat.ofFnM n B.cols fun i j => some (x i j)

/-- `exp()` called while the expressions have the values `now` (`variable_matrix.hpp:1044-1126`). -/
noncomputable def Mat.expNow (now : α → ℝ) (abs : α → α) (p q : List α) (A : Mat α) : Option (Mat α) :=
  A.exp (luSolve now abs) p q

/-- `exp()` of a block, called while the expressions have the values `now` (`variable_block.hpp:630-632`). -/
noncomputable def Block.expNow (now : α → ℝ) (abs : α → α) (p q : List α) (b : Block) (A : Mat α) : Option (Mat α) :=
  b.exp (luSolve now abs) p q A

end

end Slp.VMat
