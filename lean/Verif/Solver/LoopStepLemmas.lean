import Verif.Solver.ExactModel
import Verif.Solver.StepProps
import Verif.Solver.PositiveLemmas

/-! Lemmas on the linear systems of the solver loops. -/

namespace Slp

open Classical Matrix

variable {n m k : ℕ}

theorem lowerSym_symm (H : Matrix (Fin n) (Fin n) ℝ) (i j : Fin n) : lowerSym H i j = lowerSym H j i := by
  unfold lowerSym
  rcases lt_trichotomy i j with h | rfl | h
  · rw [if_neg (not_le.2 h), if_pos h.le]
  · rfl
  · rw [if_pos h.le, if_neg (not_le.2 h)]

/-- The rows of a solved system. -/
theorem kkt_solved_rows {lhs : FMat (n + m) (n + m)} {rhs : Vec (n + m)} {H : Matrix (Fin n) (Fin n) ℝ}
    {σ : Fin k → ℝ} {Ae : Matrix (Fin m) (Fin n) ℝ} {Ai : Matrix (Fin k) (Fin n) ℝ} {p : ℕ → Fl} {δ γ : ℝ}
    (hl : lhs.real = kktDense H σ Ae Ai) (h : LinSystem.Solved ⟨n, m, lhs, rhs⟩ p δ γ) :
    let q : Fin (n + m) → ℝ := fun j => (p j).toReal
    (∀ i : Fin n, (∑ l, lowerSym H i l * q (Fin.castAdd m l)) +
        (∑ l, Ai l i * (σ l * ∑ j, Ai l j * q (Fin.castAdd m j))) + δ * q (Fin.castAdd m i) +
        ∑ j, Ae j i * q (Fin.natAdd n j) = rhs.real (Fin.castAdd m i)) ∧
    ∀ i : Fin m, (∑ l, Ae i l * q (Fin.castAdd m l)) - γ * q (Fin.natAdd n i) = rhs.real (Fin.natAdd n i) := by
  intro q
  have h2 : ∀ i : Fin (n + m), ∑ j, (lhs.real i j + if i = j then (if (i : ℕ) < n then δ else -γ) else 0) * q j =
      rhs.real i := h.2
  rw [hl] at h2
  constructor
  · intro i
    have := h2 (Fin.castAdd m i)
    rw [Fin.sum_univ_add] at this
    have e1 : ∀ j : Fin n, (Fin.castAdd m i = Fin.castAdd m j) = (i = j) := fun j => by
      rw [(Fin.castAdd_injective n m).eq_iff]
    have e2 : ∀ j : Fin m, (Fin.castAdd m i = Fin.natAdd n j) = False := fun j => by
      rw [eq_iff_iff, iff_false, Fin.ext_iff]; simp only [Fin.val_castAdd, Fin.val_natAdd]; omega
    simp only [kktDense, Fin.addCases_left, Fin.addCases_right, e1, e2, Fin.val_castAdd, i.isLt, if_true, if_false,
      add_zero] at this
    rw [← this]
    congr 1
    simp only [add_mul, Finset.sum_add_distrib, ite_mul, zero_mul, Finset.sum_ite_eq, Finset.mem_univ, if_true]
    congr 2
    simp only [Finset.sum_mul, Finset.mul_sum]
    rw [Finset.sum_comm]
    exact Finset.sum_congr rfl fun l _ => Finset.sum_congr rfl fun j _ => by ring
  · intro i
    have := h2 (Fin.natAdd n i)
    rw [Fin.sum_univ_add] at this
    have e1 : ∀ j : Fin n, (Fin.natAdd n i = Fin.castAdd m j) = False := fun j => by
      rw [eq_iff_iff, iff_false, Fin.ext_iff]; simp only [Fin.val_castAdd, Fin.val_natAdd]; omega
    have e2 : ∀ j : Fin m, (Fin.natAdd n i = Fin.natAdd n j) = (i = j) := fun j => by
      rw [(Fin.natAdd_injective m n).eq_iff]
    simp only [kktDense, Fin.addCases_left, Fin.addCases_right, e1, e2, Fin.val_natAdd,
      show ¬ (n + (i : ℕ) < n) by omega, if_false, add_zero, zero_add] at this
    rw [← this]
    simp only [ite_mul, zero_mul, Finset.sum_ite_eq, Finset.mem_univ, if_true]
    ring

/-- The matrix agrees with the one assembled from sparse blocks, whose lower triangle the linear solver reads. -/
theorem kktDense_assembled {topLeft Ae : Sparse} {H : Matrix (Fin n) (Fin n) ℝ} {σ : Fin k → ℝ}
    {Ai : Matrix (Fin k) (Fin n) ℝ} (ht : IsTopLeft n topLeft (lowerSym H) σ Ai) (he : Ae.WF) (hr : Ae.rows = m) :
    ∀ i j : Fin (n + m), kktDense H σ (Ae.mat m n) Ai i j = symmetrized (kktLhs n m topLeft Ae) i j := by
  obtain ⟨b1, b2, b3, b4⟩ := regularized_blocks (lowerSym_symm H) ht he hr 0 0
  have e : ∀ i j : ℕ, symmetrized (kktLhs n m topLeft Ae) i j = regularized n 0 0 (kktLhs n m topLeft Ae) i j := by
    intro i j; unfold regularized; simp
  intro i j
  rw [e]
  unfold kktDense
  refine Fin.addCases (fun a => ?_) (fun a => ?_) i <;> refine Fin.addCases (fun b => ?_) (fun b => ?_) j
  · simp only [Fin.addCases_left, Fin.val_castAdd, b1, ite_self, add_zero]
  · simp only [Fin.addCases_left, Fin.addCases_right, Fin.val_castAdd, Fin.val_natAdd, b2]; rfl
  · simp only [Fin.addCases_left, Fin.addCases_right, Fin.val_castAdd, Fin.val_natAdd, b3]; rfl
  · simp only [Fin.addCases_right, Fin.val_natAdd, b4, neg_zero, ite_self]

end Slp
