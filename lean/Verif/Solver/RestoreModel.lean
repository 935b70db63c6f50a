import Verif.Solver.SparseModel
import Mathlib.Data.Fin.Basic
import Mathlib.Algebra.BigOperators.Fin

/-!
Model of the functions that `feasibility_restoration()` hands to the interior-point solver
(`optimization/solver/util/feasibility_restoration.hpp`), over exact reals. `nv`, `ne` and `ni` are the
numbers of decision variables, equality constraints and inequality constraints of the original problem.
-/

namespace Slp.Restore

/-- The number of restoration variables, `x_p.rows()` (`feasibility_restoration.hpp:408`). -/
abbrev size (nv ne ni : ℕ) : ℕ := nv + 2 * ne + 2 * ni

/-- `x_p.segment(0, num_vars)` (`feasibility_restoration.hpp:437`). -/
def origin {nv ne ni : ℕ} (xp : Fin (size nv ne ni) → ℝ) : Fin nv → ℝ := fun j => xp ⟨j, by have := j.2; unfold size; omega⟩

/-- An element of `Dᵣ` (`feasibility_restoration.hpp:163-164,405-406`); the inverse of zero is infinite. -/
noncomputable def weight (x : ℝ) : ℝ := if x = 0 then 1 else min (x ^ 2)⁻¹ 1

/-- The cost (`feasibility_restoration.hpp:187-197,436-447`). -/
noncomputable def cost {nv ne ni : ℕ} (ρ ζ : ℝ) (xr : Fin nv → ℝ) (xp : Fin (size nv ne ni) → ℝ) : ℝ :=
  ρ * (∑ k : Fin (2 * ne + 2 * ni), xp ⟨nv + k, by have := k.2; unfold size; omega⟩) +
    ζ / 2 * ∑ j : Fin nv, (origin xp j - xr j) * weight (xr j) * (origin xp j - xr j)

/-- The gradient of the cost (`feasibility_restoration.hpp:198-210,448-462`). -/
noncomputable def grad {nv ne ni : ℕ} (ρ ζ : ℝ) (xr : Fin nv → ℝ) (xp : Fin (size nv ne ni) → ℝ) :
    Fin (size nv ne ni) → ℝ :=
  fun j => if h : j < nv then ζ * weight (xr ⟨j, h⟩) * (origin xp ⟨j, h⟩ - xr ⟨j, h⟩) else ρ

/-- `d2f_dx2` (`feasibility_restoration.hpp:221-225,476-480`). -/
noncomputable def costHessian {nv : ℕ} (ne ni : ℕ) (ζ : ℝ) (xr : Fin nv → ℝ) : Sparse :=
  Sparse.ofSorted (size nv ne ni) (size nv ne ni)
    (appendAsTriplets [] 0 0 [Sparse.diagonal (List.ofFn fun j => ζ * weight (xr j))])

/-- The Hessian (`feasibility_restoration.hpp:211-239,463-496`). `H_c` is the constraint part of the original
Hessian; `resize()` discards the elements of a sparse matrix. -/
noncomputable def hessian {nv : ℕ} (ne ni : ℕ) (ζ : ℝ) (xr : Fin nv → ℝ) (_Hc : Sparse) : Sparse :=
  (costHessian ne ni ζ xr).add (Sparse.empty (size nv ne ni) (size nv ne ni))

/-- The equality constraints (`feasibility_restoration.hpp:244-253,501-510`). -/
def ce {nv ne ni : ℕ} (c : (Fin nv → ℝ) → Fin ne → ℝ) (xp : Fin (size nv ne ni) → ℝ) : Fin ne → ℝ :=
  fun i => c (origin xp) i - xp ⟨nv + i, by have := i.2; unfold size; omega⟩ +
    xp ⟨nv + ne + i, by have := i.2; unfold size; omega⟩

/-- The equality constraint Jacobian (`feasibility_restoration.hpp:254-277,511-534`), from the original
one. -/
def Ae (nv ne ni : ℕ) (A : Sparse) : Sparse :=
  let t1 := appendAsTriplets [] 0 0 [A]
  let t2 := appendDiagonal t1 0 nv (List.replicate ne (-1))
  let t3 := appendDiagonal t2 0 (nv + ne) (List.replicate ne 1)
  Sparse.ofSorted A.rows (size nv ne ni) t3

/-- The inequality constraints (`feasibility_restoration.hpp:535-552`). -/
def ci {nv ne ni : ℕ} (c : (Fin nv → ℝ) → Fin ni → ℝ) (xp : Fin (size nv ne ni) → ℝ) :
    Fin (ni + (2 * ne + 2 * ni)) → ℝ :=
  fun i => if h : i < ni then
      c (origin xp) ⟨i, h⟩ - xp ⟨nv + 2 * ne + i, by unfold size; omega⟩ +
        xp ⟨nv + 2 * ne + ni + i, by unfold size; omega⟩
    else xp ⟨nv + (i - ni), by have := i.2; unfold size; omega⟩

/-- The inequality constraint Jacobian (`feasibility_restoration.hpp:553-593`), from the original one. -/
def Ai (nv ne ni : ℕ) (A : Sparse) : Sparse :=
  let t1 := appendAsTriplets [] 0 0 [A]
  let t2 := appendDiagonal t1 ni nv (List.replicate (2 * ne) 1)
  let eye := Sparse.diagonal (List.replicate ni 1)
  let negEye := Sparse.diagonal (List.replicate ni (-1))
  let t3 := appendAsTriplets t2 0 (nv + 2 * ne) [negEye, Sparse.empty (2 * ne) ni, eye]
  let t4 := appendAsTriplets t3 0 (nv + 2 * ne + ni) [eye, Sparse.empty (2 * ne + ni) ni, eye]
  Sparse.ofSorted (2 * ne + 3 * ni) (size nv ne ni) t4

/-- The inequality constraints in the SQP version (`feasibility_restoration.hpp:278-284`). -/
def ciSqp {nv ne : ℕ} (xp : Fin (size nv ne 0) → ℝ) : Fin (2 * ne) → ℝ :=
  fun i => xp ⟨nv + i, by have := i.2; unfold size; omega⟩

/-- The inequality constraint Jacobian in the SQP version (`feasibility_restoration.hpp:285-301`). -/
def AiSqp (nv ne : ℕ) : Sparse :=
  Sparse.ofSorted (2 * ne) (size nv ne 0) (appendDiagonal [] 0 nv (List.replicate (2 * ne) 1))

end Slp.Restore
