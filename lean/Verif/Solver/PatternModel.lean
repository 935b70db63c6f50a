import Verif.Autodiff.ApiModel
import Verif.Autodiff.RealOps
import Verif.Solver.StepModel
import Verif.Solver.RestoreModel

/-!
The positions that sparse matrices store: what `Jacobian::value()` and `Hessian::value()` return as
`Eigen::SparseMatrix`, the products and sums that the solvers form with them, and `SparseRegularizedLDLT`, which analyses
the positions of the first matrix it is given and reuses the analysis. Eigen's operations store positions regardless of
the values there; zeros are kept. Exact reals.
-/

namespace Slp

open Classical in
/-- The matrix with the given positions and elements (`Eigen::SparseMatrix`, as read by
`append_as_triplets.hpp:38-45`). -/
noncomputable def Sparse.tabulate (rows cols : ℕ) (stored : ℕ → ℕ → Prop) (val : ℕ → ℕ → ℝ) : Sparse where
  rows := rows
  cols := cols
  col := fun j => if j < cols then
    (List.range rows).filterMap fun i => if stored i j then some (i, val i j) else none
  else []

/-- The position is stored (`Eigen::SparseMatrix`, as read by `append_as_triplets.hpp:38-45`). -/
def Sparse.Stored (A : Sparse) (i j : ℕ) : Prop := ∃ e ∈ A.col j, e.1 = i

/-- `setFromTriplets()`: elements with the same position are summed (`jacobian.hpp:103,153`, `hessian.hpp:98,151`). -/
noncomputable def Sparse.ofTriplets (rows cols : ℕ) (ts : List (Triplet ℝ)) : Sparse :=
  .tabulate rows cols (fun i j => ∃ t ∈ ts, t.row = i ∧ t.col = j) fun i j => fromTriplets ts i j

/-- `A.triangularView<Eigen::Lower>()` (`hessian.hpp:99-101,152-154`, `interior_point.hpp:433`). -/
noncomputable def Sparse.lower (A : Sparse) : Sparse :=
  .tabulate A.rows A.cols (fun i j => A.Stored i j ∧ j ≤ i) A.coeff

/-- `c * A` (`problem.hpp:396,493,635`). -/
def Sparse.scale (c : ℝ) (A : Sparse) : Sparse := { A with col := fun j => (A.col j).map fun e => (e.1, c * e.2) }

/-- `d.asDiagonal() * A` (`problem.hpp:506,650,658`). -/
def Sparse.scaleRows (d : ℕ → ℝ) (A : Sparse) : Sparse :=
  { A with col := fun j => (A.col j).map fun e => (e.1, d e.1 * e.2) }

/-- `Aᵀ * Σ * A` for a diagonal `Σ` with all its elements stored; Eigen's products of sparse matrices store a position if
it has a pair of stored factors (`interior_point.hpp:343,433`). -/
noncomputable def Sparse.gram (σ : ℕ → ℝ) (A : Sparse) : Sparse :=
  .tabulate A.cols A.cols (fun i j => ∃ l, l < A.rows ∧ A.Stored l i ∧ A.Stored l j) fun i j =>
    ∑ l ∈ Finset.range A.rows, A.coeff l i * σ l * A.coeff l j

/-- `nonZeros()`, which counts stored elements (`newton.hpp:138`, `sqp.hpp:233`, `interior_point.hpp:342-347`). -/
def Sparse.nonZeros (A : Sparse) : ℕ := ((List.range A.cols).map fun j => (A.col j).length).sum

/-! ### Matrices that autodiff returns -/

/-- The triplets from which `value()` makes the matrix (`jacobian.hpp:102-104,134-153`, `hessian.hpp:97-98,132-151`). -/
def JacObj.triplets {S : Type} [ScalarOps S] (J : JacObj S) (h : Heap S) : List (Triplet S) :=
  if J.nonlinear = [] then J.cached
  else J.cached ++ (nonlinearTriplets J J.nonlinear (J.topLists.foldl (fun h l => updateValues l h) h)).1

/-- What `value()` of the `j`th `Jacobian` returns, as a sparse matrix (`jacobian.hpp:134-156`). -/
noncomputable def Api.jacMatrix (s : Api ℝ) (j : ℕ) : Option Sparse :=
  (s.jacs[j]?).map fun J => .ofTriplets J.vars.length J.wrt.length (J.triplets s.heap)

/-- What `value()` of the `j`th `Hessian` returns, as a sparse matrix (`hessian.hpp:132-157`). -/
noncomputable def Api.hessMatrix (s : Api ℝ) (j : ℕ) : Option Sparse :=
  (s.hess[j]?).map fun H =>
    let A := Sparse.ofTriplets H.2.vars.length H.2.wrt.length (H.2.triplets s.heap)
    if H.1 then A.lower else A

/-! ### Matrices that the solvers factorise -/

/-- `H` of the Lagrangian in `Problem::solve` (`problem.hpp:493,635`). -/
noncomputable def lagrangianH (f : ℝ) (Hf Hc : Sparse) : Sparse := (Hf.scale f).add Hc

/-- `top_left` (`interior_point.hpp:432-433`). -/
noncomputable def ipmTopLeft (σ : ℕ → ℝ) (H Ai : Sparse) : Sparse := H.add (Ai.gram σ).lower

/-- `lhs` of the interior-point method (`interior_point.hpp:432-440`). -/
noncomputable def ipmLhs (n m : ℕ) (σ : ℕ → ℝ) (H Ae Ai : Sparse) : Sparse := kktLhs n m (ipmTopLeft σ H Ai) Ae

/-- Whether the interior-point method uses the sparse solver (`interior_point.hpp:338-348`). -/
def ipmUseSparse (n m : ℕ) (H Ae Ai : Sparse) : Prop :=
  ((H.nonZeros + (Ai.gram 1).lower.nonZeros + Ae.nonZeros : ℕ) : ℝ) < 0.25 * (n + m) * (n + m)

/-- Whether SQP uses the sparse solver (`sqp.hpp:229-233`). -/
def sqpUseSparse (n m : ℕ) (H Ae : Sparse) : Prop := ((H.nonZeros + Ae.nonZeros : ℕ) : ℝ) < 0.25 * (n + m) * (n + m)

/-- Whether Newton's method uses the sparse solver (`newton.hpp:136-138`). -/
def newtonUseSparse (n : ℕ) (H : Sparse) : Prop := (H.nonZeros : ℝ) < 0.25 * (n * n)

/-! ### The sparse solver -/

/-- The matrices have the same size and store the same positions (what `sparse_regularized_ldlt.hpp:57-63` asks of
matrices). -/
def SamePattern (A B : Sparse) : Prop :=
  A.rows = B.rows ∧ A.cols = B.cols ∧ ∀ j, (A.col j).map Prod.fst = (B.col j).map Prod.fst

/-- `regularization(δ, γ)` (`sparse_regularized_ldlt.hpp:217-224`). -/
def regularization (n m : ℕ) (δ γ : ℝ) : Sparse := .diagonal (List.replicate n δ ++ List.replicate m (-γ))

/-- What the factorisation keeps: the matrix whose positions were analysed
(`sparse_regularized_ldlt.hpp:185-188`). -/
structure SparseLdlt where
  analysed : Option Sparse

open Classical in
/-- `factorize(A)`. It is undefined (`none`) unless the positions of `A` are those that were analysed
(`sparse_regularized_ldlt.hpp:74,105`). -/
noncomputable def SparseLdlt.factorize (st : SparseLdlt) (A : Sparse) : Option SparseLdlt :=
  match st.analysed with
  | none => none
  | some P => if SamePattern P A then some st else none

/-- `compute(lhs)`, which tries the given values of `δ` and `γ` after zeros (`sparse_regularized_ldlt.hpp:64-152`). -/
noncomputable def SparseLdlt.compute (n m : ℕ) (st : SparseLdlt) (lhs : Sparse × List (ℝ × ℝ)) : Option SparseLdlt := do
  let A := lhs.1.add (regularization n m 0 0)
  let st1 : SparseLdlt := if st.analysed.isNone then ⟨some A⟩ else st
  let st2 ← st1.factorize A
  lhs.2.foldlM (fun st a => st.factorize (lhs.1.add (regularization n m a.1 a.2))) st2

/-- All calls of `compute()` in a solve, on one solver (`interior_point.hpp:340,463`, `sqp.hpp:231,320`,
`newton.hpp:136,186`). -/
noncomputable def SparseLdlt.computeAll (n m : ℕ) (ls : List (Sparse × List (ℝ × ℝ))) : Option SparseLdlt :=
  ls.foldlM (SparseLdlt.compute n m) ⟨none⟩

end Slp
