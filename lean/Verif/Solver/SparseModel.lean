import Mathlib.Data.Real.Basic
import Mathlib.Algebra.BigOperators.Group.List.Basic

/-!
Model of `append_as_triplets.hpp` and `sparse_inf_norms.hpp` in `optimization/solver/util`, and of the part of
`Eigen::SparseMatrix` they use. Values are exact reals; sizes are natural numbers.
-/

namespace Slp

/-- A column-major sparse matrix: the stored elements of each column, as `InnerIterator` visits them
(`Eigen::SparseMatrix`, as read by `append_as_triplets.hpp:38-45`). -/
structure Sparse where
  rows : ℕ
  cols : ℕ
  col : ℕ → List (ℕ × ℝ)

/-- What Eigen guarantees of a compressed matrix: each column is sorted by row without repetition and every
element is within the matrix (`Eigen::SparseMatrix`, as read by `append_as_triplets.hpp:38-45`). -/
structure Sparse.WF (A : Sparse) : Prop where
  sorted : ∀ j, (A.col j).Pairwise (fun a b => a.1 < b.1)
  rows : ∀ j, ∀ e ∈ A.col j, e.1 < A.rows
  cols : ∀ j, A.cols ≤ j → A.col j = []

/-- The element in row `i` and column `j`; zero when it is not stored (`Eigen::SparseMatrix`, as read by
`append_as_triplets.hpp:38-45`). -/
def Sparse.coeff (A : Sparse) (i j : ℕ) : ℝ := (((A.col j).filter (fun e => e.1 = i)).map Prod.snd).sum

/-- `Eigen::Triplet` (`append_as_triplets.hpp:25-48`). -/
structure SpEntry where
  row : ℕ
  col : ℕ
  val : ℝ

/-- The row offset of each matrix (`append_as_triplets.hpp:30-35`), starting from `off`. -/
def rowOffsets : ℕ → List Sparse → List ℕ
  | _, [] => []
  | off, A :: As => off :: rowOffsets (off + A.rows) As

/-- The innermost loop (`append_as_triplets.hpp:40-45`): one column of one matrix. -/
def appendColumn (rowOffset colOffset c : ℕ) (A : Sparse × ℕ) : List SpEntry :=
  (A.1.col c).map fun e => ⟨rowOffset + A.2 + e.1, colOffset + c, e.2⟩

/-- `append_as_triplets(triplets, row_offset, col_offset, mats)` (`append_as_triplets.hpp:25-48`). The list
of matrices must not be empty: the code reads the first one. -/
def appendAsTriplets (ts : List SpEntry) (rowOffset colOffset : ℕ) (mats : List Sparse) : List SpEntry :=
  ts ++ (List.range (mats.head?.elim 0 Sparse.cols)).flatMap fun c =>
    (mats.zip (rowOffsets 0 mats)).flatMap (appendColumn rowOffset colOffset c)

/-- `append_diagonal_as_triplets(triplets, row_offset, col_offset, diag)`
(`append_as_triplets.hpp:57-64`). -/
def appendDiagonal (ts : List SpEntry) (rowOffset colOffset : ℕ) (diag : List ℝ) : List SpEntry :=
  ts ++ diag.zipIdx.map fun e => ⟨rowOffset + e.2, colOffset + e.2, e.1⟩

/-- `setFromSortedTriplets()` on a matrix of the given size, for triplets sorted by column and then by row
without repetition (`interior_point.hpp:440`). -/
def Sparse.ofSorted (rows cols : ℕ) (ts : List SpEntry) : Sparse where
  rows := rows
  cols := cols
  col := fun j => (ts.filter (fun t => t.col = j)).map fun t => (t.row, t.val)

/-- The matrix with the given diagonal, as Eigen builds it from a diagonal expression (`interior_point.hpp:426`). -/
def Sparse.diagonal (d : List ℝ) : Sparse where
  rows := d.length
  cols := d.length
  col := fun j => (d[j]?).elim [] fun x => [(j, x)]

/-- A matrix without stored elements: `SparseMatrix{rows, cols}`, or any matrix after `resize(rows, cols)`
(`interior_point.hpp:437-439`). -/
def Sparse.empty (rows cols : ℕ) : Sparse := ⟨rows, cols, fun _ => []⟩

/-- `A + B` (Eigen's sparse sum, with the union of the stored elements) (`interior_point.hpp:432-433`). -/
noncomputable def Sparse.add (A B : Sparse) : Sparse where
  rows := A.rows
  cols := A.cols
  col := fun j => (List.range A.rows).filterMap fun i =>
    if (∃ e ∈ A.col j, e.1 = i) ∨ (∃ e ∈ B.col j, e.1 = i) then some (i, A.coeff i j + B.coeff i j) else none

/-- One round of the loop in `sparse_inf_norms()` (`sparse_inf_norms.hpp:25-28`). -/
def normStep (norms : ℕ → ℝ) (e : ℕ × ℝ) : ℕ → ℝ := Function.update norms e.1 (max (norms e.1) |e.2|)

/-- `sparse_inf_norms(mat)` (`sparse_inf_norms.hpp:17-32`). -/
def sparseInfNorms (A : Sparse) : ℕ → ℝ :=
  (List.range A.cols).foldl (fun norms j => (A.col j).foldl normStep norms) fun _ => 0

end Slp
