import Verif.Solver.RestoreModel
import Verif.Solver.SparseLemmas
import Mathlib.Data.List.GetD
import Mathlib.Analysis.Calculus.FDeriv.Pi
import Mathlib.Analysis.Calculus.Deriv.Mul
import Mathlib.Analysis.Calculus.Deriv.Add
import Mathlib.Analysis.Calculus.FDeriv.Comp
import Mathlib.Analysis.Calculus.FDeriv.Add
import Mathlib.Analysis.Calculus.FDeriv.Mul
import Mathlib.Analysis.Calculus.Deriv.Pow
import Mathlib.LinearAlgebra.Matrix.ToLin
import Mathlib.Topology.Algebra.Module.FiniteDimension

/-!
C35 (restoration): the matrices of the restoration problem are the derivatives of its functions, except for
the Hessian, which misses the curvature of the constraints.
-/

namespace Slp

/-- The linear map a matrix denotes. -/
noncomputable def Sparse.toMap (A : Sparse) (m n : ℕ) : (Fin n → ℝ) →L[ℝ] (Fin m → ℝ) :=
  LinearMap.toContinuousLinearMap (Matrix.toLin' fun (i : Fin m) (j : Fin n) => A.coeff i j)

theorem Sparse.toMap_apply (A : Sparse) {m n : ℕ} (v : Fin n → ℝ) (i : Fin m) :
    A.toMap m n v i = ∑ j : Fin n, A.coeff i j * v j := by
  rfl

namespace Restore

/-- A vector continued by zeros. -/
noncomputable def ext {n : ℕ} (v : Fin n → ℝ) (j : ℕ) : ℝ := if h : j < n then v ⟨j, h⟩ else 0

theorem ext_eq {n : ℕ} (v : Fin n → ℝ) {j : ℕ} (h : j < n) : ext v j = v ⟨j, h⟩ := by simp [ext, h]

theorem sum_ext {n : ℕ} (c : ℕ → ℝ) (v : Fin n → ℝ) :
    ∑ j : Fin n, c j * v j = ∑ j ∈ Finset.range n, c j * ext v j := by
  rw [Finset.sum_range]
  exact Finset.sum_congr rfl fun j _ => by rw [ext_eq v j.2]

theorem sum_block {n co C : ℕ} (h : co + C ≤ n) (f : ℕ → ℝ) (w : ℕ → ℝ) :
    ∑ j ∈ Finset.range n, (if co ≤ j ∧ j - co < C then f (j - co) else 0) * w j =
      ∑ j ∈ Finset.range C, f j * w (co + j) := by
  simp only [ite_mul, zero_mul]
  rw [← Finset.sum_filter]
  refine Finset.sum_nbij' (fun j => j - co) (fun j => co + j) ?_ ?_ ?_ ?_ ?_
  · intro j hj
    simp only [Finset.mem_filter, Finset.mem_range] at hj ⊢
    omega
  · intro j hj
    simp only [Finset.mem_filter, Finset.mem_range] at hj ⊢
    omega
  · intro j hj
    simp only [Finset.mem_filter, Finset.mem_range] at hj
    omega
  · intro j hj; omega
  · intro j hj
    simp only [Finset.mem_filter, Finset.mem_range] at hj
    rw [show co + (j - co) = j by omega]

theorem sum_diag {n co : ℕ} (d : List ℝ) (h : co + d.length ≤ n) (k : ℕ) (w : ℕ → ℝ) :
    ∑ j ∈ Finset.range n, (if co ≤ j ∧ k = j - co then d.getD (j - co) 0 else 0) * w j =
      d.getD k 0 * w (co + k) := by
  by_cases hk : k < d.length
  · rw [Finset.sum_eq_single (co + k)]
    · rw [if_pos (by omega)]; simp
    · intro j _ hj
      rw [if_neg (by omega), zero_mul]
    · intro hj
      simp only [Finset.mem_range] at hj
      omega
  · rw [List.getD_eq_default _ _ (by omega), zero_mul]
    refine Finset.sum_eq_zero fun j _ => ?_
    split_ifs with hj
    · rw [List.getD_eq_default _ _ (by omega), zero_mul]
    · rw [zero_mul]

/-! ### Equality constraints -/

theorem before_of_col {ts us : List SpEntry} {k : ℕ} (h1 : ts.Pairwise SpEntry.Before)
    (h2 : us.Pairwise SpEntry.Before) (h3 : ∀ t ∈ ts, t.col < k) (h4 : ∀ t ∈ us, k ≤ t.col) :
    (ts ++ us).Pairwise SpEntry.Before :=
  List.pairwise_append.2 ⟨h1, h2, fun a ha b hb => Or.inl (lt_of_lt_of_le (h3 a ha) (h4 b hb))⟩

theorem Ae_wf {nv ne ni : ℕ} {A : Sparse} (hA : A.WF) (hr : A.rows = ne) (hc : A.cols = nv) :
    (Ae nv ne ni A).WF := by
  obtain ⟨a1, a2⟩ := appendAsTriplets_sorted (ro := 0) (co := 0) (A := A) (As := []) (by simpa using hA)
  obtain ⟨b1, b2⟩ := appendDiagonal_sorted (ro := 0) (co := nv) (d := List.replicate ne (-1))
  obtain ⟨c1, c2⟩ := appendDiagonal_sorted (ro := 0) (co := nv + ne) (d := List.replicate ne 1)
  simp only [List.length_replicate, List.map_cons, List.map_nil, List.sum_cons, List.sum_nil] at *
  unfold Ae
  simp only
  rw [appendDiagonal_eq, appendDiagonal_eq (appendAsTriplets [] 0 0 [A])]
  refine Sparse.ofSorted_wf ?_ ?_
  · refine before_of_col (k := nv + ne) (before_of_col (k := nv) a1 b1 ?_ ?_) c1 ?_ ?_
    · intro t ht; have := a2 t ht; omega
    · intro t ht; have := b2 t ht; omega
    · intro t ht
      rcases List.mem_append.1 ht with ht | ht
      · have := a2 t ht; omega
      · have := b2 t ht; omega
    · intro t ht; have := c2 t ht; omega
  · intro t ht
    unfold size
    rcases List.mem_append.1 ht with ht | ht
    · rcases List.mem_append.1 ht with ht | ht
      · have := a2 t ht; omega
      · have := b2 t ht; omega
    · have := c2 t ht; omega

theorem Ae_mul {nv ne ni : ℕ} {A : Sparse} (hA : A.WF) (hr : A.rows = ne) (hc : A.cols = nv)
    (v : Fin (size nv ne ni) → ℝ) (i : Fin ne) :
    (Ae nv ne ni A).toMap ne (size nv ne ni) v i = A.toMap ne nv (origin v) i -
      v ⟨nv + i, by have := i.2; unfold size; omega⟩ + v ⟨nv + ne + i, by have := i.2; unfold size; omega⟩ := by
  have hi := i.2
  rw [Sparse.toMap_apply, Sparse.toMap_apply, sum_ext (fun j => (Ae nv ne ni A).coeff i j)]
  have hcoeff : ∀ j, (Ae nv ne ni A).coeff i j =
      (if 0 ≤ j ∧ j - 0 < nv then A.coeff i (j - 0) else 0) +
      (if nv ≤ j ∧ (i : ℕ) = j - nv then (List.replicate ne (-1)).getD (j - nv) 0 else 0) +
      (if nv + ne ≤ j ∧ (i : ℕ) = j - (nv + ne) then (List.replicate ne 1).getD (j - (nv + ne)) 0 else 0) := by
    intro j
    unfold Ae
    simp only
    rw [Sparse.ofSorted_coeff, appendDiagonal_eq, appendDiagonal_eq (appendAsTriplets [] 0 0 [A]),
      tripletCoeff_append, tripletCoeff_append, appendAsTriplets_coeff (by simpa using hA), tripletCoeff_nil,
      zero_add, appendDiagonal_coeff, appendDiagonal_coeff]
    simp only [stackCoeff, Nat.sub_zero, hr, hi, if_true, hc, Nat.zero_le, true_and, and_true]
  simp only [hcoeff, add_mul, Finset.sum_add_distrib]
  rw [sum_block (by unfold size; omega), sum_diag _ (by simp [size]; omega), sum_diag _ (by simp [size]; omega)]
  rw [List.getD_eq_getElem _ _ (by simp), List.getD_eq_getElem _ _ (by simp)]
  simp only [List.getElem_replicate, zero_add]
  rw [ext_eq v (show nv + (i : ℕ) < size nv ne ni by unfold size; omega),
    ext_eq v (show nv + ne + (i : ℕ) < size nv ne ni by unfold size; omega), Finset.sum_range]
  have : ∀ j : Fin nv, ext v j = origin v j := fun j => by
    rw [ext_eq v (show (j : ℕ) < size nv ne ni by have := j.2; unfold size; omega)]; rfl
  simp only [this]
  ring

theorem hasFDerivAt_coord {n : ℕ} (k : Fin n) (x : Fin n → ℝ) :
    HasFDerivAt (fun y : Fin n → ℝ => y k) (ContinuousLinearMap.proj (R := ℝ) (φ := fun _ => ℝ) k) x :=
  (ContinuousLinearMap.proj (R := ℝ) (φ := fun _ : Fin n => ℝ) k).hasFDerivAt

/-- The restriction to the original variables, as a linear map. -/
noncomputable def originMap (nv ne ni : ℕ) : (Fin (size nv ne ni) → ℝ) →L[ℝ] (Fin nv → ℝ) :=
  ContinuousLinearMap.pi fun j => ContinuousLinearMap.proj ⟨j, by have := j.2; unfold size; omega⟩

theorem hasFDerivAt_origin {nv ne ni : ℕ} (x : Fin (size nv ne ni) → ℝ) :
    HasFDerivAt (origin (nv := nv) (ne := ne) (ni := ni)) (originMap nv ne ni) x :=
  (originMap nv ne ni).hasFDerivAt

/-- C35: the equality constraint Jacobian of the restoration problem is the derivative of its equality
constraints. -/
theorem restoration_equality_jacobian {nv ne ni : ℕ} {c : (Fin nv → ℝ) → Fin ne → ℝ} {A : Sparse}
    (hA : A.WF) (hr : A.rows = ne) (hc : A.cols = nv) {xp : Fin (size nv ne ni) → ℝ}
    (h : HasFDerivAt c (A.toMap ne nv) (origin xp)) :
    (Ae nv ne ni A).WF ∧ HasFDerivAt (ce c) ((Ae nv ne ni A).toMap ne (size nv ne ni)) xp := by
  refine ⟨Ae_wf hA hr hc, ?_⟩
  rw [hasFDerivAt_pi']
  intro i
  have h1 := ((hasFDerivAt_pi'.1 h i).comp xp (hasFDerivAt_origin xp))
  have h2 := (h1.sub (hasFDerivAt_coord ⟨nv + i, by have := i.2; unfold size; omega⟩ xp)).add
    (hasFDerivAt_coord ⟨nv + ne + i, by have := i.2; unfold size; omega⟩ xp)
  refine h2.congr_fderiv ?_
  ext v
  exact (Ae_mul hA hr hc v i).symm

/-! ### Inequality constraints -/

theorem Ai_wf {nv ne ni : ℕ} {A : Sparse} (hA : A.WF) (hr : A.rows = ni) (hc : A.cols = nv) :
    (Ai nv ne ni A).WF := by
  obtain ⟨a1, a2⟩ := appendAsTriplets_sorted (ro := 0) (co := 0) (A := A) (As := []) (by simpa using hA)
  obtain ⟨b1, b2⟩ := appendDiagonal_sorted (ro := ni) (co := nv) (d := List.replicate (2 * ne) 1)
  have w1 := Sparse.diagonal_wf (List.replicate ni 1)
  have w2 := Sparse.diagonal_wf (List.replicate ni (-1))
  obtain ⟨c1, c2⟩ := appendAsTriplets_sorted (ro := 0) (co := nv + 2 * ne)
    (A := Sparse.diagonal (List.replicate ni (-1)))
    (As := [Sparse.empty (2 * ne) ni, Sparse.diagonal (List.replicate ni 1)])
    (by simp [w1, w2, Sparse.empty_wf])
  obtain ⟨d1, d2⟩ := appendAsTriplets_sorted (ro := 0) (co := nv + 2 * ne + ni)
    (A := Sparse.diagonal (List.replicate ni 1))
    (As := [Sparse.empty (2 * ne + ni) ni, Sparse.diagonal (List.replicate ni 1)])
    (by simp [w1, Sparse.empty_wf])
  have r1 : ∀ x, (Sparse.diagonal (List.replicate ni x)).rows = ni := fun x => by simp [Sparse.diagonal]
  have r2 : ∀ x, (Sparse.diagonal (List.replicate ni x)).cols = ni := fun x => by simp [Sparse.diagonal]
  have r3 : ∀ r c, (Sparse.empty r c).rows = r := fun r c => rfl
  simp only [List.length_replicate, List.map_cons, List.map_nil, List.sum_cons, List.sum_nil, r1, r2, r3] at *
  unfold Ai
  simp only
  rw [appendAsTriplets_eq (appendAsTriplets _ 0 (nv + 2 * ne) _),
    appendAsTriplets_eq (appendDiagonal _ _ _ _), appendDiagonal_eq (appendAsTriplets [] 0 0 [A])]
  refine Sparse.ofSorted_wf ?_ ?_
  · refine before_of_col (k := nv + 2 * ne + ni) (before_of_col (k := nv + 2 * ne)
      (before_of_col (k := nv) a1 b1 ?_ ?_) c1 ?_ ?_) d1 ?_ ?_
    · intro t ht; have := a2 t ht; omega
    · intro t ht; have := b2 t ht; omega
    · intro t ht
      rcases List.mem_append.1 ht with ht | ht
      · have := a2 t ht; omega
      · have := b2 t ht; omega
    · intro t ht; have := c2 t ht; omega
    · intro t ht
      rcases List.mem_append.1 ht with ht | ht
      · rcases List.mem_append.1 ht with ht | ht
        · have := a2 t ht; omega
        · have := b2 t ht; omega
      · have := c2 t ht; omega
    · intro t ht; have := d2 t ht; omega
  · intro t ht
    unfold size
    rcases List.mem_append.1 ht with ht | ht
    · rcases List.mem_append.1 ht with ht | ht
      · rcases List.mem_append.1 ht with ht | ht
        · have := a2 t ht; omega
        · have := b2 t ht; omega
      · have := c2 t ht; omega
    · have := d2 t ht; omega

theorem sum_eye {ni : ℕ} (k : ℕ) (x : ℝ) (w : ℕ → ℝ) :
    ∑ j ∈ Finset.range ni, (Sparse.diagonal (List.replicate ni x)).coeff k j * w j =
      if k < ni then x * w k else 0 := by
  simp only [Sparse.diagonal_coeff]
  by_cases hk : k < ni
  · rw [if_pos hk, Finset.sum_eq_single k]
    · rw [if_pos rfl, List.getD_eq_getElem _ _ (by simpa using hk), List.getElem_replicate]
    · intro j _ hj
      rw [if_neg (Ne.symm hj), zero_mul]
    · intro h; simp at h; omega
  · rw [if_neg hk]
    refine Finset.sum_eq_zero fun j hj => ?_
    rw [Finset.mem_range] at hj
    rw [if_neg (by omega), zero_mul]

theorem sum_stack {ni z : ℕ} (x : ℝ) (k : ℕ) (w : ℕ → ℝ) :
    ∑ j ∈ Finset.range ni, stackCoeff [Sparse.diagonal (List.replicate ni x), Sparse.empty z ni,
        Sparse.diagonal (List.replicate ni 1)] k j * w j =
      if k < ni then x * w k else if k < ni + z then 0 else if k < ni + z + ni then w (k - ni - z) else 0 := by
  have r1 : ∀ x, (Sparse.diagonal (List.replicate ni x)).rows = ni := fun x => by simp [Sparse.diagonal]
  have r3 : ∀ r c, (Sparse.empty r c).rows = r := fun r c => rfl
  simp only [stackCoeff, r1, r3]
  by_cases h1 : k < ni
  · simp only [if_pos h1, sum_eye]
  · simp only [if_neg h1]
    by_cases h2 : k - ni < z
    · simp only [if_pos h2, Sparse.empty_coeff, zero_mul, Finset.sum_const_zero, if_pos (show k < ni + z by omega)]
    · simp only [if_neg h2, if_neg (show ¬ k < ni + z by omega)]
      by_cases h3 : k - ni - z < ni
      · simp only [if_pos h3, if_pos (show k < ni + z + ni by omega), sum_eye, one_mul]
      · simp only [if_neg h3, if_neg (show ¬ k < ni + z + ni by omega), zero_mul, Finset.sum_const_zero]

theorem Ai_mul {nv ne ni : ℕ} {A : Sparse} (hA : A.WF) (hr : A.rows = ni) (hc : A.cols = nv)
    (v : Fin (size nv ne ni) → ℝ) (i : Fin (ni + (2 * ne + 2 * ni))) :
    (Ai nv ne ni A).toMap (ni + (2 * ne + 2 * ni)) (size nv ne ni) v i =
      if h : i < ni then
        A.toMap ni nv (origin v) ⟨i, h⟩ - v ⟨nv + 2 * ne + i, by unfold size; omega⟩ +
          v ⟨nv + 2 * ne + ni + i, by unfold size; omega⟩
      else v ⟨nv + (i - ni), by have := i.2; unfold size; omega⟩ := by
  have hi := i.2
  have w1 := Sparse.diagonal_wf (List.replicate ni 1)
  have w2 := Sparse.diagonal_wf (List.replicate ni (-1))
  have r1 : ∀ x, (Sparse.diagonal (List.replicate ni x)).rows = ni := fun x => by simp [Sparse.diagonal]
  have r2 : ∀ x, (Sparse.diagonal (List.replicate ni x)).cols = ni := fun x => by simp [Sparse.diagonal]
  rw [Sparse.toMap_apply, sum_ext (fun j => (Ai nv ne ni A).coeff i j)]
  have hcoeff : ∀ j, (Ai nv ne ni A).coeff i j =
      (if 0 ≤ j ∧ j - 0 < nv then stackCoeff [A] i (j - 0) else 0) +
      (if nv ≤ j ∧ (i : ℕ) = j - nv + ni then (List.replicate (2 * ne) 1).getD (j - nv) 0 else 0) +
      (if nv + 2 * ne ≤ j ∧ j - (nv + 2 * ne) < ni then
        stackCoeff [Sparse.diagonal (List.replicate ni (-1)), Sparse.empty (2 * ne) ni,
          Sparse.diagonal (List.replicate ni 1)] i (j - (nv + 2 * ne)) else 0) +
      (if nv + 2 * ne + ni ≤ j ∧ j - (nv + 2 * ne + ni) < ni then
        stackCoeff [Sparse.diagonal (List.replicate ni 1), Sparse.empty (2 * ne + ni) ni,
          Sparse.diagonal (List.replicate ni 1)] i (j - (nv + 2 * ne + ni)) else 0) := by
    intro j
    unfold Ai
    simp only
    rw [Sparse.ofSorted_coeff, appendAsTriplets_coeff (by simp [w1, Sparse.empty_wf]),
      appendAsTriplets_coeff (by simp [w1, w2, Sparse.empty_wf]), appendDiagonal_eq,
      tripletCoeff_append, appendAsTriplets_coeff (by simpa using hA), tripletCoeff_nil,
      zero_add, appendDiagonal_coeff]
    simp only [Nat.sub_zero, hc, Nat.zero_le, true_and, and_true, r2]
    congr 3
    exact if_congr (by omega) rfl rfl
  simp only [hcoeff, add_mul, Finset.sum_add_distrib]
  rw [sum_block (by unfold size; omega), sum_block (by unfold size; omega), sum_block (by unfold size; omega),
    sum_stack _ _ (fun j => ext v (nv + 2 * ne + j)), sum_stack _ _ (fun j => ext v (nv + 2 * ne + ni + j))]
  by_cases h : (i : ℕ) < ni
  · rw [dif_pos h, if_pos h, if_pos h, Sparse.toMap_apply]
    have e1 : ∑ j ∈ Finset.range (size nv ne ni),
        (if nv ≤ j ∧ (i : ℕ) = j - nv + ni then (List.replicate (2 * ne) 1).getD (j - nv) 0 else 0) * ext v j
          = (0 : ℝ) := Finset.sum_eq_zero fun j _ => by rw [if_neg (by omega), zero_mul]
    rw [e1, ext_eq v (show nv + 2 * ne + (i : ℕ) < size nv ne ni by unfold size; omega),
      ext_eq v (show nv + 2 * ne + ni + (i : ℕ) < size nv ne ni by unfold size; omega), Finset.sum_range]
    have : ∀ j : Fin nv, ext v (0 + j) = origin v j := fun j => by
      rw [zero_add, ext_eq v (show (j : ℕ) < size nv ne ni by have := j.2; unfold size; omega)]; rfl
    simp only [this, stackCoeff, hr, if_pos h]
    ring
  · rw [dif_neg h, if_neg h, if_neg h]
    have e0 : ∑ j ∈ Finset.range nv, stackCoeff [A] i j * ext v (0 + j) = 0 :=
      Finset.sum_eq_zero fun j _ => by simp [stackCoeff, hr, h]
    have e1 : ∑ j ∈ Finset.range (size nv ne ni),
        (if nv ≤ j ∧ (i : ℕ) = j - nv + ni then (List.replicate (2 * ne) 1).getD (j - nv) 0 else 0) * ext v j
          = (List.replicate (2 * ne) (1 : ℝ)).getD (i - ni) 0 * ext v (nv + (i - ni)) := by
      rw [← sum_diag (n := size nv ne ni) (List.replicate (2 * ne) (1 : ℝ)) (by rw [List.length_replicate]; unfold size; omega) (i - ni) (ext v)]
      refine Finset.sum_congr rfl fun j _ => ?_
      congr 1
      exact if_congr (by omega) rfl rfl
    rw [e0, e1, zero_add, ← ext_eq v (show nv + ((i : ℕ) - ni) < size nv ne ni by unfold size; omega)]
    by_cases h1 : (i : ℕ) < ni + 2 * ne
    · rw [if_pos h1, if_pos (by omega), List.getD_eq_getElem _ _ (by simp; omega), List.getElem_replicate]
      ring
    · rw [if_neg h1, List.getD_eq_default _ _ (by simp; omega)]
      by_cases h2 : (i : ℕ) < ni + 2 * ne + ni
      · rw [if_pos h2, if_pos (by omega), show nv + 2 * ne + ((i : ℕ) - ni - 2 * ne) = nv + (i - ni) by omega]
        ring
      · rw [if_neg h2, if_neg (by omega), if_pos (by omega),
          show nv + 2 * ne + ni + ((i : ℕ) - ni - (2 * ne + ni)) = nv + (i - ni) by omega]
        ring

/-- C35: the inequality constraint Jacobian of the restoration problem is the derivative of its inequality
constraints. -/
theorem restoration_inequality_jacobian {nv ne ni : ℕ} {c : (Fin nv → ℝ) → Fin ni → ℝ} {A : Sparse}
    (hA : A.WF) (hr : A.rows = ni) (hc : A.cols = nv) {xp : Fin (size nv ne ni) → ℝ}
    (h : HasFDerivAt c (A.toMap ni nv) (origin xp)) :
    (Ai nv ne ni A).WF ∧
      HasFDerivAt (ci c) ((Ai nv ne ni A).toMap (ni + (2 * ne + 2 * ni)) (size nv ne ni)) xp := by
  refine ⟨Ai_wf hA hr hc, ?_⟩
  rw [hasFDerivAt_pi']
  intro i
  by_cases hi : (i : ℕ) < ni
  · have h1 := ((hasFDerivAt_pi'.1 h ⟨i, hi⟩).comp xp (hasFDerivAt_origin xp))
    have h2 := (h1.sub (hasFDerivAt_coord ⟨nv + 2 * ne + i, by unfold size; omega⟩ xp)).add
      (hasFDerivAt_coord ⟨nv + 2 * ne + ni + i, by unfold size; omega⟩ xp)
    have h3 : (fun x => ci c x i) = fun x : Fin (size nv ne ni) → ℝ => c (origin x) ⟨i, hi⟩ -
        x ⟨nv + 2 * ne + i, by unfold size; omega⟩ + x ⟨nv + 2 * ne + ni + i, by unfold size; omega⟩ := by
      funext x; unfold ci; rw [dif_pos hi]
    rw [h3]
    refine h2.congr_fderiv ?_
    ext v
    have := Ai_mul hA hr hc (ne := ne) v i
    rw [dif_pos hi] at this
    exact this.symm
  · have h3 : (fun x => ci c x i) = fun x : Fin (size nv ne ni) → ℝ =>
        x ⟨nv + (i - ni), by have := i.2; unfold size; omega⟩ := by
      funext x; unfold ci; rw [dif_neg hi]
    rw [h3]
    refine (hasFDerivAt_coord _ xp).congr_fderiv ?_
    ext v
    have := Ai_mul hA hr hc (ne := ne) v i
    rw [dif_neg hi] at this
    exact this.symm

/-- C35: the same for the SQP version, whose inequality constraints are the bounds on the slacks. -/
theorem restoration_sqp_jacobian {nv ne : ℕ} (xp : Fin (size nv ne 0) → ℝ) :
    (AiSqp nv ne).WF ∧ HasFDerivAt ciSqp ((AiSqp nv ne).toMap (2 * ne) (size nv ne 0)) xp := by
  obtain ⟨b1, b2⟩ := appendDiagonal_sorted (ro := 0) (co := nv) (d := List.replicate (2 * ne) 1)
  refine ⟨Sparse.ofSorted_wf b1 fun t ht => ?_, ?_⟩
  · have := b2 t ht
    simp only [List.length_replicate] at this
    unfold size
    omega
  · rw [hasFDerivAt_pi']
    intro i
    have hi := i.2
    refine (hasFDerivAt_coord ⟨nv + i, by unfold size; omega⟩ xp).congr_fderiv ?_
    ext v
    show v _ = (AiSqp nv ne).toMap _ _ v i
    rw [Sparse.toMap_apply, sum_ext (fun j => (AiSqp nv ne).coeff i j)]
    have hcoeff : ∀ j, (AiSqp nv ne).coeff i j =
        if nv ≤ j ∧ (i : ℕ) = j - nv then (List.replicate (2 * ne) 1).getD (j - nv) 0 else 0 := by
      intro j
      unfold AiSqp
      rw [Sparse.ofSorted_coeff, appendDiagonal_coeff]
      simp
    simp only [hcoeff]
    rw [sum_diag _ (by simp [size]), List.getD_eq_getElem _ _ (by simp), List.getElem_replicate,
      ext_eq v (show nv + (i : ℕ) < size nv ne 0 by unfold size; omega), one_mul]

/-! ### Cost -/

/-- C35: the gradient of the restoration problem is the derivative of its cost. -/
theorem restoration_gradient {nv ne ni : ℕ} (ρ ζ : ℝ) (xr : Fin nv → ℝ) (xp : Fin (size nv ne ni) → ℝ) :
    HasFDerivAt (cost (ne := ne) (ni := ni) ρ ζ xr)
      (∑ j, grad (ne := ne) (ni := ni) ρ ζ xr xp j •
        ContinuousLinearMap.proj (R := ℝ) (φ := fun _ : Fin (size nv ne ni) => ℝ) j) xp := by
  have h1 : HasFDerivAt (fun x : Fin (size nv ne ni) → ℝ =>
      ∑ k : Fin (2 * ne + 2 * ni), x ⟨nv + k, by have := k.2; unfold size; omega⟩)
      (∑ k : Fin (2 * ne + 2 * ni), ContinuousLinearMap.proj (R := ℝ) (φ := fun _ : Fin (size nv ne ni) => ℝ)
        ⟨nv + k, by have := k.2; unfold size; omega⟩) xp :=
    HasFDerivAt.fun_sum fun k _ => hasFDerivAt_coord _ xp
  have h2 : HasFDerivAt (fun x : Fin (size nv ne ni) → ℝ =>
      ∑ j : Fin nv, (origin x j - xr j) * weight (xr j) * (origin x j - xr j))
      (∑ j : Fin nv, (2 * weight (xr j) * (origin xp j - xr j)) •
        ContinuousLinearMap.proj (R := ℝ) (φ := fun _ : Fin (size nv ne ni) => ℝ)
          ⟨j, by have := j.2; unfold size; omega⟩) xp := by
    refine HasFDerivAt.fun_sum fun j _ => ?_
    have hj : HasFDerivAt (fun x : Fin (size nv ne ni) → ℝ => origin x j - xr j)
        (ContinuousLinearMap.proj (R := ℝ) (φ := fun _ : Fin (size nv ne ni) => ℝ)
          ⟨j, by have := j.2; unfold size; omega⟩) xp :=
      (hasFDerivAt_coord ⟨j, by have := j.2; unfold size; omega⟩ xp).sub_const (xr j)
    refine ((hj.mul_const (weight (xr j))).mul hj).congr_fderiv ?_
    ext v
    simp
    ring
  refine ((h1.const_mul ρ).add (h2.const_mul (ζ / 2))).congr_fderiv ?_
  ext v
  simp only [add_apply, smul_apply, sum_apply,
    ContinuousLinearMap.proj_apply, smul_eq_mul]
  have split : ∑ j : Fin (size nv ne ni), grad (ne := ne) (ni := ni) ρ ζ xr xp j * v j =
      ∑ j : Fin nv, (ζ * weight (xr j) * (origin xp j - xr j)) * v ⟨j, by have := j.2; unfold size; omega⟩ +
      ∑ k : Fin (2 * ne + 2 * ni), ρ * v ⟨nv + k, by have := k.2; unfold size; omega⟩ := by
    have e : size nv ne ni = nv + (2 * ne + 2 * ni) := by unfold size; omega
    rw [← (finCongr e.symm).sum_comp, Fin.sum_univ_add]
    congr 1
    · refine Finset.sum_congr rfl fun j _ => ?_
      have hj : ((finCongr e.symm) (Fin.castAdd (2 * ne + 2 * ni) j) : ℕ) < nv := by simp
      unfold grad
      rw [dif_pos hj]
      rfl
    · refine Finset.sum_congr rfl fun j _ => ?_
      have hj : ¬ ((finCongr e.symm) (Fin.natAdd nv j) : ℕ) < nv := by simp
      unfold grad
      rw [dif_neg hj]
      rfl
  rw [split, Finset.mul_sum, Finset.mul_sum, add_comm]
  congr 1
  refine Finset.sum_congr rfl fun j _ => ?_
  ring

theorem costHessian_coeff {nv : ℕ} (ne ni : ℕ) (ζ : ℝ) (xr : Fin nv → ℝ) (i j : ℕ) :
    (costHessian ne ni ζ xr).coeff i j = if h : i = j ∧ i < nv then ζ * weight (xr ⟨i, h.2⟩) else 0 := by
  unfold costHessian
  rw [Sparse.ofSorted_coeff, appendAsTriplets_coeff (by simp [Sparse.diagonal_wf]), tripletCoeff_nil, zero_add]
  simp only [stackCoeff, Sparse.diagonal_coeff, Nat.sub_zero]
  have hr : (Sparse.diagonal (List.ofFn fun j => ζ * weight (xr j))).rows = nv := by simp [Sparse.diagonal]
  have hc : (Sparse.diagonal (List.ofFn fun j => ζ * weight (xr j))).cols = nv := by simp [Sparse.diagonal]
  rw [hr, hc]
  by_cases hij : i = j
  · subst hij
    by_cases hi : i < nv
    · rw [if_pos (by simp [hi]), if_pos hi, if_pos rfl, dif_pos ⟨rfl, hi⟩,
        List.getD_eq_getElem _ _ (by simpa using hi)]
      simp
    · rw [if_neg (by simp [hi]), dif_neg (by simp [hi])]
  · rw [dif_neg (by simp [hij])]
    split_ifs <;> rfl

theorem costHessian_wf {nv : ℕ} (ne ni : ℕ) (ζ : ℝ) (xr : Fin nv → ℝ) : (costHessian ne ni ζ xr).WF := by
  obtain ⟨h1, h2⟩ := appendAsTriplets_sorted (ro := 0) (co := 0)
    (A := Sparse.diagonal (List.ofFn fun j => ζ * weight (xr j))) (As := []) (by simp [Sparse.diagonal_wf])
  refine Sparse.ofSorted_wf h1 fun t ht => ?_
  have := h2 t ht
  simp [Sparse.diagonal] at this
  unfold size
  omega

/-- C35: the cost part of the Hessian of the restoration problem is the derivative of its gradient. -/
theorem restoration_cost_hessian {nv ne ni : ℕ} (ρ ζ : ℝ) (xr : Fin nv → ℝ)
    (xp : Fin (size nv ne ni) → ℝ) :
    HasFDerivAt (grad (ne := ne) (ni := ni) ρ ζ xr)
      ((costHessian ne ni ζ xr).toMap (size nv ne ni) (size nv ne ni)) xp := by
  rw [hasFDerivAt_pi']
  intro i
  have key : ∀ v, (costHessian ne ni ζ xr).toMap (size nv ne ni) (size nv ne ni) v i =
      if h : i < nv then ζ * weight (xr ⟨i, h⟩) * v i else 0 := by
    intro v
    rw [Sparse.toMap_apply]
    simp only [costHessian_coeff]
    rw [Finset.sum_eq_single i]
    · by_cases h : (i : ℕ) < nv
      · rw [dif_pos ⟨rfl, h⟩, dif_pos h]
      · rw [dif_neg (by simp [h]), dif_neg h, zero_mul]
    · intro j _ hj
      rw [dif_neg (by rintro ⟨h, -⟩; exact hj (Fin.ext h.symm)), zero_mul]
    · simp
  by_cases h : (i : ℕ) < nv
  · have h3 : (fun x => grad (ne := ne) (ni := ni) ρ ζ xr x i) =
        fun x : Fin (size nv ne ni) → ℝ => ζ * weight (xr ⟨i, h⟩) * (x i - xr ⟨i, h⟩) := by
      funext x; unfold grad; rw [dif_pos h]; rfl
    rw [h3]
    refine (((hasFDerivAt_coord i xp).sub_const _).const_mul _).congr_fderiv ?_
    ext v
    have := key v
    rw [dif_pos h] at this
    exact this.symm
  · have h3 : (fun x => grad (ne := ne) (ni := ni) ρ ζ xr x i) = fun _ => ρ := by
      funext x; unfold grad; rw [dif_neg h]
    rw [h3]
    refine (hasFDerivAt_const ρ xp).congr_fderiv ?_
    ext v
    have := key v
    rw [dif_neg h] at this
    exact this.symm

/-- C35, the part that holds of the Hessian: it is the Hessian of the Lagrangian when the constraints are
affine (their part `H_c` is zero). Missing: curved constraints, see `restoration_hessian_wrong`. -/
theorem restoration_hessian_partial {nv : ℕ} (ne ni : ℕ) (ζ : ℝ) (xr : Fin nv → ℝ) {Hc : Sparse}
    (hHc : ∀ i j, Hc.coeff i j = 0) (i j : ℕ) :
    (hessian ne ni ζ xr Hc).coeff i j = (costHessian ne ni ζ xr).coeff i j + Hc.coeff i j := by
  unfold hessian
  rw [Sparse.add_coeff (costHessian_wf _ _ _ _) (Sparse.empty_wf _ _) rfl, Sparse.empty_coeff, hHc]

/-- The Hessian used in restoration misses the curvature of the constraints: for the constraint `x² = 0`
and multiplier 1 the derivative of the gradient of the Lagrangian in `x` is `ζ Dᵣ - 2`, while the matrix
holds `ζ Dᵣ`. -/
theorem restoration_hessian_wrong (ρ ζ : ℝ) (Hc : Sparse) (xr : Fin 1 → ℝ) (xp : Fin (size 1 1 0) → ℝ) :
    ∃ d, HasDerivAt (fun t : ℝ => grad (ne := 1) (ni := 0) ρ ζ xr (Function.update xp 0 t) 0 -
        1 * (Ae 1 1 0 (Sparse.ofSorted 1 1 [⟨0, 0, 2 * t⟩])).coeff 0 0) d (xp 0) ∧
      (hessian 1 0 ζ xr Hc).coeff 0 0 ≠ d := by
  refine ⟨ζ * weight (xr 0) - 2, ?_, ?_⟩
  · have : (fun t : ℝ => grad (ne := 1) (ni := 0) ρ ζ xr (Function.update xp 0 t) 0 -
        1 * (Ae 1 1 0 (Sparse.ofSorted 1 1 [⟨0, 0, 2 * t⟩])).coeff 0 0) =
        fun t => ζ * weight (xr 0) * (t - xr 0) - 2 * t := by
      funext t
      have e1 : grad (ne := 1) (ni := 0) ρ ζ xr (Function.update xp 0 t) 0 =
          ζ * weight (xr 0) * (t - xr 0) := by
        unfold grad origin
        simp
      have e2 : (Ae 1 1 0 (Sparse.ofSorted 1 1 [⟨0, 0, 2 * t⟩])).coeff 0 0 = 2 * t := by
        unfold Ae
        simp only
        rw [Sparse.ofSorted_coeff]
        simp [appendDiagonal, appendAsTriplets, appendColumn, rowOffsets, Sparse.ofSorted, List.range_succ,
          tripletCoeff]
      rw [e1, e2, one_mul]
    rw [this]
    have h := (((hasDerivAt_id (xp 0)).sub_const (xr 0)).const_mul (ζ * weight (xr 0))).sub
      ((hasDerivAt_id (xp 0)).const_mul 2)
    have h' : HasDerivAt (fun t => ζ * weight (xr 0) * (t - xr 0) - 2 * t) (ζ * weight (xr 0) * 1 - 2 * 1) (xp 0) := h
    rwa [mul_one, mul_one] at h'
  · rw [show (hessian 1 0 ζ xr Hc).coeff 0 0 = ζ * weight (xr 0) by
      unfold hessian
      rw [Sparse.add_coeff (costHessian_wf _ _ _ _) (Sparse.empty_wf _ _) rfl, Sparse.empty_coeff,
        costHessian_coeff]
      simp]
    intro h
    linarith

/-- One variable with one equality and one inequality constraint. -/
example : (Ae 1 1 1 (Sparse.diagonal [2])).WF ∧ (Ai 1 1 1 (Sparse.diagonal [3])).WF :=
  ⟨Ae_wf (Sparse.diagonal_wf _) rfl rfl, Ai_wf (Sparse.diagonal_wf _) rfl rfl⟩

end Restore

end Slp
