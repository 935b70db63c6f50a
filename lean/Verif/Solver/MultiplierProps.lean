import Verif.Solver.MultiplierModel
import Verif.Solver.SparseLemmas
import Mathlib.Tactic.Positivity
import Mathlib.Tactic.FieldSimp
import Mathlib.Tactic.FinCases

/-! C37: the multiplier estimates minimise the least-squares residual of the optimality conditions. -/

namespace Slp

variable {n m k : ℕ}

/-- The normal equations characterise the least-squares solution. -/
theorem normal_least_squares {a b : ℕ} {A : Matrix (Fin a) (Fin b) ℝ} {r : Fin b → ℝ} {x : Fin a → ℝ}
    (h : SolvesNormal A r x) (w : Fin a → ℝ) :
    ∑ l, (r l - ∑ i, A i l * x i) ^ 2 ≤ ∑ l, (r l - ∑ i, A i l * w i) ^ 2 := by
  have h0 : ∀ i, ∑ l, A i l * (r l - ∑ j, A j l * x j) = 0 := by
    intro i
    have := h i
    simp only [mul_sub, Finset.sum_sub_distrib, ← this]
    rw [sub_eq_zero]
    simp only [Finset.sum_mul, Finset.mul_sum]
    rw [Finset.sum_comm]
    exact Finset.sum_congr rfl fun l _ => Finset.sum_congr rfl fun j _ => by ring
  have h1 : ∑ l, (r l - ∑ i, A i l * w i) ^ 2 = ∑ l, (r l - ∑ i, A i l * x i) ^ 2 +
      ∑ l, (∑ i, A i l * (x i - w i)) ^ 2 +
      2 * ∑ i, (x i - w i) * ∑ l, A i l * (r l - ∑ j, A j l * x j) := by
    have e : ∑ i, (x i - w i) * ∑ l, A i l * (r l - ∑ j, A j l * x j) =
        ∑ l, (r l - ∑ j, A j l * x j) * ∑ i, A i l * (x i - w i) := by
      simp only [Finset.mul_sum]
      rw [Finset.sum_comm]
      refine Finset.sum_congr rfl fun l _ => Finset.sum_congr rfl fun i _ => ?_
      ring
    rw [e, Finset.mul_sum, ← Finset.sum_add_distrib, ← Finset.sum_add_distrib]
    refine Finset.sum_congr rfl fun l _ => ?_
    have e2 : ∑ i, A i l * (x i - w i) = ∑ i, A i l * x i - ∑ i, A i l * w i := by
      rw [← Finset.sum_sub_distrib]
      exact Finset.sum_congr rfl fun i _ => by ring
    rw [e2]
    ring
  rw [h1]
  have h2 : 0 ≤ ∑ l, (∑ i, A i l * (x i - w i)) ^ 2 := Finset.sum_nonneg fun _ _ => sq_nonneg _
  have h3 : ∑ i, (x i - w i) * ∑ l, A i l * (r l - ∑ j, A j l * x j) = 0 :=
    Finset.sum_eq_zero fun i _ => by rw [h0, mul_zero]
  rw [h3]
  linarith

/-- C37: without inequality constraints, no multipliers make the gradient of the Lagrangian smaller. -/
theorem sqp_estimate_correct {g : Fin n → ℝ} {Ae : Sparse} {y : Fin m → ℝ} (h : IsSqpEstimate g Ae y)
    (w : Fin m → ℝ) :
    ∑ j : Fin n, (g j - ∑ i : Fin m, Ae.coeff i j * y i) ^ 2 ≤
      ∑ j : Fin n, (g j - ∑ i : Fin m, Ae.coeff i j * w i) ^ 2 :=
  normal_least_squares h w

/-- The assembled matrix is `[Aₑ 0; Aᵢ −S]`, and the triplets are in the order Eigen requires. -/
theorem aHat_blocks {Ae Ai : Sparse} {s : Fin k → ℝ} (he : Ae.WF) (hi : Ai.WF) (r1 : Ae.rows = m)
    (r2 : Ai.rows = k) (c1 : Ae.cols = n) (c2 : Ai.cols = n) :
    (∀ (i : Fin m) (j : Fin n), (aHat Ae Ai (List.ofFn s)).coeff i j = Ae.coeff i j) ∧
    (∀ (i : Fin m) (j : Fin k), (aHat Ae Ai (List.ofFn s)).coeff i (n + j) = 0) ∧
    (∀ (i : Fin k) (j : Fin n), (aHat Ae Ai (List.ofFn s)).coeff (m + i) j = Ai.coeff i j) ∧
    (∀ i j : Fin k, (aHat Ae Ai (List.ofFn s)).coeff (m + i) (n + j) = if i = j then -s i else 0) ∧
    (appendDiagonal (appendAsTriplets [] 0 0 [Ae, Ai]) Ae.rows Ai.cols ((List.ofFn s).map fun x => -x)).Pairwise
      (fun a b => a.col < b.col ∨ a.col = b.col ∧ a.row < b.row) := by
  have hw : ∀ B ∈ [Ae, Ai], B.WF := by simp [he, hi]
  have hc : ∀ i j, (aHat Ae Ai (List.ofFn s)).coeff i j =
      (if j < n then stackCoeff [Ae, Ai] i j else 0) +
        tripletCoeff (appendDiagonal [] m n ((List.ofFn s).map fun x => -x)) i j := by
    intro i j
    unfold aHat
    rw [Sparse.ofSorted_coeff, appendDiagonal_eq, tripletCoeff_append, appendAsTriplets_coeff hw,
      tripletCoeff_nil, zero_add, r1, c2, c1]
    simp
  have hd : ∀ i j, tripletCoeff (appendDiagonal [] m n ((List.ofFn s).map fun x => -x)) (m + i) (n + j) =
      if i = j then ((List.ofFn s).map fun x => -x).getD i 0 else 0 := by
    intro i j
    rw [appendDiagonal_coeff]
    by_cases h : i = j
    · subst h; simp
    · rw [if_neg (by omega), if_neg h]
  have hz : ∀ i j, (i < m ∨ j < n) →
      tripletCoeff (appendDiagonal [] m n ((List.ofFn s).map fun x => -x)) i j = 0 := by
    intro i j h
    rw [appendDiagonal_coeff, if_neg (by omega)]
  refine ⟨fun i j => ?_, fun i j => ?_, fun i j => ?_, fun i j => ?_, ?_⟩
  · rw [hc, hz _ _ (Or.inl i.isLt), if_pos j.isLt, add_zero, stackCoeff, if_pos (by omega)]
  · rw [hc, hz _ _ (Or.inl i.isLt), if_neg (by omega), add_zero]
  · rw [hc, hz _ _ (Or.inr j.isLt), if_pos j.isLt, add_zero, stackCoeff, if_neg (by omega), stackCoeff,
      if_pos (by omega), r1]
    congr 1
    omega
  · rw [hc, hd, if_neg (by omega), zero_add]
    have : ((List.ofFn s).map fun x => -x).getD (i : ℕ) 0 = -s i := by
      rw [List.getD_eq_getElem?_getD, List.getElem?_map, List.getElem?_ofFn]
      simp
    rw [this]
    exact if_congr Fin.ext_iff.symm rfl rfl
  · rw [appendDiagonal_eq]
    refine List.pairwise_append.mpr ⟨(appendAsTriplets_sorted hw).1, appendDiagonal_sorted.1, ?_⟩
    intro a ha b hb
    have h1 := (appendAsTriplets_sorted (ro := 0) (co := 0) hw).2 a ha
    have h2 := (appendDiagonal_sorted (ro := Ae.rows) (co := Ai.cols)).2 b hb
    left
    omega

/-- C37: with inequality constraints, the multipliers before clamping minimise the residual of stationarity
and complementarity together; afterwards each inequality multiplier is the closest number to it in
`[μ/(κs), κμ/s]`, in particular positive. -/
theorem ipm_estimate_correct {g : Fin n → ℝ} {Ae Ai : Sparse} {s : Fin k → ℝ} {μ : ℝ}
    {sol : Fin (m + k) → ℝ} (he : Ae.WF) (hi : Ai.WF) (r1 : Ae.rows = m) (r2 : Ai.rows = k)
    (c1 : Ae.cols = n) (c2 : Ai.cols = n) (hs : ∀ i, 0 < s i) (hμ : 0 < μ)
    (h : IsIpmSolution g Ae Ai s μ sol) :
    ∃ z : Fin k → ℝ,
      (∀ (y' : Fin m → ℝ) (z' : Fin k → ℝ),
        ∑ j : Fin n, (g j - ∑ i : Fin m, Ae.coeff i j * (ipmEstimate s μ sol).1 i -
            ∑ i : Fin k, Ai.coeff i j * z i) ^ 2 + ∑ i, (s i * z i - μ) ^ 2 ≤
          ∑ j : Fin n, (g j - ∑ i : Fin m, Ae.coeff i j * y' i - ∑ i : Fin k, Ai.coeff i j * z' i) ^ 2 +
            ∑ i, (s i * z' i - μ) ^ 2) ∧
      ∀ i, 0 < (ipmEstimate s μ sol).2 i ∧
        1 / 1e10 * μ / s i ≤ (ipmEstimate s μ sol).2 i ∧ (ipmEstimate s μ sol).2 i ≤ 1e10 * μ / s i ∧
        ∀ t, 1 / 1e10 * μ / s i ≤ t → t ≤ 1e10 * μ / s i →
          |(ipmEstimate s μ sol).2 i - z i| ≤ |t - z i| := by
  obtain ⟨b1, b2, b3, b4, -⟩ := aHat_blocks (s := s) he hi r1 r2 c1 c2
  refine ⟨fun i => sol (Fin.natAdd m i), fun y' z' => ?_, fun i => ?_⟩
  · have key := normal_least_squares h (Fin.addCases y' z')
    have e : ∀ w : Fin (m + k) → ℝ,
        ∑ l, (rhsTemp g k μ l - ∑ i, (aHat Ae Ai (List.ofFn s)).mat (m + k) (n + k) i l * w i) ^ 2 =
        ∑ j : Fin n, (g j - ∑ i : Fin m, Ae.coeff i j * w (Fin.castAdd k i) -
            ∑ i : Fin k, Ai.coeff i j * w (Fin.natAdd m i)) ^ 2 +
          ∑ i, (s i * w (Fin.natAdd m i) - μ) ^ 2 := by
      intro w
      rw [Fin.sum_univ_add]
      congr 1
      · refine Finset.sum_congr rfl fun j _ => ?_
        unfold rhsTemp Sparse.mat
        rw [Fin.addCases_left, Fin.sum_univ_add]
        simp only [Fin.val_castAdd, Fin.val_natAdd, b1, b3]
        ring
      · refine Finset.sum_congr rfl fun j _ => ?_
        unfold rhsTemp Sparse.mat
        rw [Fin.addCases_right, Fin.sum_univ_add]
        simp only [Fin.val_castAdd, Fin.val_natAdd, b2, b4, zero_mul, Finset.sum_const_zero, ite_mul,
          Finset.sum_ite_eq', Finset.mem_univ, if_true]
        ring
    rw [e, e] at key
    simp only [Fin.addCases_left, Fin.addCases_right] at key
    exact key
  · show 0 < clampDual μ (s i) _ ∧ _ ≤ clampDual μ (s i) _ ∧ clampDual μ (s i) _ ≤ _ ∧ _
    have hsi := hs i
    have l0 : 0 < 1 / 1e10 * μ / s i := by positivity
    have lu : 1 / 1e10 * μ / s i ≤ 1e10 * μ / s i := by
      gcongr
      norm_num
    have hb : 1 / 1e10 * μ / s i ≤ clampDual μ (s i) (sol (Fin.natAdd m i)) ∧
        clampDual μ (s i) (sol (Fin.natAdd m i)) ≤ 1e10 * μ / s i := by
      unfold clampDual clamp
      split_ifs with h1 h2
      · exact ⟨le_rfl, lu⟩
      · exact ⟨lu, le_rfl⟩
      · exact ⟨not_lt.mp h1, not_lt.mp h2⟩
    refine ⟨lt_of_lt_of_le l0 hb.1, hb.1, hb.2, fun t t1 t2 => ?_⟩
    show |clampDual μ (s i) (sol (Fin.natAdd m i)) - sol (Fin.natAdd m i)| ≤ _
    unfold clampDual clamp
    split_ifs with h1 h2
    · rw [abs_of_pos (by linarith), abs_of_pos (by linarith)]
      linarith
    · rw [abs_of_neg (by linarith), abs_of_neg (by linarith)]
      linarith
    · simp

/-- An instance: one variable with gradient 3, one inequality with gradient 1 and slack 2, `μ = 1`: the
multiplier minimising `(3 − z)² + (2z − 1)²` is 1. -/
example : IsIpmSolution (m := 0) (k := 1) (fun _ : Fin 1 => 3) (.empty 0 1) (.diagonal [1]) (fun _ => 2) 1
    (fun _ => 1) := by
  obtain ⟨b1, b2, b3, b4, -⟩ := aHat_blocks (n := 1) (m := 0) (k := 1) (s := fun _ => (2 : ℝ))
    (Sparse.empty_wf 0 1) (Sparse.diagonal_wf [1]) rfl rfl rfl rfl
  intro i
  have hi : i = Fin.natAdd 0 0 := by fin_cases i; rfl
  subst hi
  unfold Sparse.mat rhsTemp
  have a := b3 0 0
  have b := b4 0 0
  have hc : (Sparse.diagonal [1]).coeff 0 0 = 1 := by rw [Sparse.diagonal_coeff]; simp
  simp only [Fin.isValue, Fin.val_zero, hc, add_zero, if_true] at a b
  rw [Fin.sum_univ_add (a := 0) (b := 1), Fin.sum_univ_add (a := 1) (b := 1)]
  simp only [Fin.sum_univ_zero, Fin.sum_univ_one, Fin.val_natAdd, Fin.val_castAdd, Fin.addCases_left,
    Fin.addCases_right, Fin.isValue, Fin.val_zero, add_zero, zero_add, a, b]
  rw [Fin.sum_univ_add (a := 1) (b := 1)]
  simp only [Fin.sum_univ_one, Fin.val_natAdd, Fin.val_castAdd, Fin.isValue, Fin.val_zero, add_zero, a, b]
  norm_num

end Slp
