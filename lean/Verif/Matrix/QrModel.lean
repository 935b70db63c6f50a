import Verif.Matrix.MatModel
import Mathlib.Data.Real.Basic

/-!
Model of the general branch of `solve(A, B)`, `A.to_eigen().householderQr().solve(B.to_eigen())`
(`variable_matrix.hpp:1737-1740`), for matrices of expressions.

Eigen's algorithm is written down as its documentation and sources describe it; its source is not part of `/repo`. The
point is that it is instantiated with `Variable`: the comparisons that it makes are turned into `bool` by
`EqualityConstraints::operator bool` and `InequalityConstraints::operator bool` (`variable.hpp:828-834,886-892`), that is,
they look at the values that the variables have while `solve()` runs. These values are `now`. Simplifications: sums are
taken in the order of the indices; reflections are applied one by one (Eigen applies them in blocks for 48 and more
columns); the reciprocal of a diagonal element and a multiplication are a division.
-/

namespace Slp.VMat

section
variable {α : Type} [Zero α] [Add α] [Sub α] [Mul α] [Div α] [Neg α]

/-- The elements of `to_eigen()` (`variable_matrix.hpp:1009-1021`). -/
def Mat.toEigen (A : Mat α) (i j : ℕ) : α := (A.get i j).getD 0

/-- `f(a) + ... + f(b - 1)`: the sums in `variable_matrix.hpp:1739`. -/
def sumFromTo (f : ℕ → α) (a b : ℕ) : α := (List.range' a (b - a)).foldl (fun s i => s + f i) 0

/-- What `makeHouseholder()` returns: the vector `(1, essential)`, indexed by the rows of the whole matrix, the factor
`tau` and the new diagonal element `beta` (part of `variable_matrix.hpp:1739`). -/
structure Reflector (α : Type) where
  essential : ℕ → α
  tau : α
  beta : α

open Classical in
/-- `makeHouseholder()` for column `k` below row `k` of a matrix with `m` rows (part of `variable_matrix.hpp:1739`).
The comparison `tailSqNorm <= tol`, where `tol` is a new `Variable` with value zero since `std::numeric_limits` is not
specialised for `Variable`, and the comparison `c0 >= 0` are decided by the present values. -/
noncomputable def makeHouseholder (now : α → ℝ) (sqrt : α → α) (m k : ℕ) (a : ℕ → ℕ → α) : Reflector α :=
  let tailSqNorm := sumFromTo (fun i => a i k * a i k) (k + 1) m
  let c0 := a k k
  if now tailSqNorm ≤ 0 then ⟨fun _ => 0, 0, c0⟩
  else
    let norm := sqrt (c0 * c0 + tailSqNorm)
    let beta := if 0 ≤ now c0 then -norm else norm
    ⟨fun i => a i k / (c0 - beta), (beta - c0) / beta, beta⟩

open Classical in
/-- `applyHouseholderOnTheLeft()` to the rows from `k` on (part of `variable_matrix.hpp:1739`); `one` is `Scalar(1)`. -/
noncomputable def Reflector.apply (now : α → ℝ) (one : α) (m k : ℕ) (h : Reflector α) (a : ℕ → ℕ → α) : ℕ → ℕ → α :=
  if m = k + 1 then fun i j => if i = k then a i j * (one - h.tau) else a i j
  else if now h.tau ≠ 0 then
    fun i j =>
      let tmp := sumFromTo (fun s => h.essential s * a s j) (k + 1) m + a k j
      if i < k then a i j
      else if i = k then a i j - h.tau * tmp
      else a i j - h.tau * h.essential i * tmp
  else a

/-- One column of `householder_qr_inplace_unblocked()` (part of `variable_matrix.hpp:1739`): the reflector replaces the
column, and the columns to the right are reflected. -/
noncomputable def qrColumn (now : α → ℝ) (one : α) (sqrt : α → α) (m : ℕ) (s : (ℕ → ℕ → α) × List (Reflector α)) (k : ℕ) :
    (ℕ → ℕ → α) × List (Reflector α) :=
  let h := makeHouseholder now sqrt m k s.1
  let a' := h.apply now one m k s.1
  (fun i j =>
    if j < k then s.1 i j
    else if j = k then (if i < k then s.1 i j else if i = k then h.beta else h.essential i)
    else a' i j, s.2 ++ [h])

/-- `householderQr()` (part of `variable_matrix.hpp:1739`): the packed matrix and the reflectors. -/
noncomputable def householderQr (now : α → ℝ) (one : α) (sqrt : α → α) (m n : ℕ) (a : ℕ → ℕ → α) :
    (ℕ → ℕ → α) × List (Reflector α) :=
  (List.range (Nat.min m n)).foldl (qrColumn now one sqrt m) (a, [])

/-- The product with the adjoint of `householderQ()` (part of `variable_matrix.hpp:1739`). -/
noncomputable def applyAll (now : α → ℝ) (one : α) (m : ℕ) (hs : List (Reflector α)) (c : ℕ → ℕ → α) : ℕ → ℕ → α :=
  hs.zipIdx.foldl (fun c h => h.1.apply now one m h.2 c) c

/-- `solveInPlace()` with the upper triangle of the leading `r` by `r` block (part of `variable_matrix.hpp:1739`). -/
def backSubstitute (r : ℕ) (R c : ℕ → ℕ → α) : ℕ → ℕ → α :=
  (List.range r).reverse.foldl
    (fun x i i' j => if i' = i then (x i j - sumFromTo (fun t => R i t * x t j) (i + 1) r) / R i i else x i' j) c

/-- `A.to_eigen().householderQr().solve(B.to_eigen())` (`variable_matrix.hpp:1738-1739`). Unknowns beyond the number of
rows are zero. -/
noncomputable def qrSolve (now : α → ℝ) (one : α) (sqrt : α → α) (A B : Mat α) : Option (Mat α) :=
  let r := Nat.min A.rows A.cols
  let f := householderQr now one sqrt A.rows A.cols A.toEigen
  let c := applyAll now one A.rows f.2 B.toEigen
  let x := backSubstitute r f.1 c
  Mat.ofFnM A.cols B.cols fun i j => some (if i < r then x i j else 0)

/-- `solve(A, B)` called while the expressions have the values `now` (`variable_matrix.hpp:1515-1741`). -/
noncomputable def solveNow (now : α → ℝ) (one : α) (sqrt : α → α) (A B : Mat α) : Option (Mat α) :=
  solve (qrSolve now one sqrt) A B

end

end Slp.VMat
