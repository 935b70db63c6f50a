import Verif.Solver.QuadraticSpec
import Verif.Solver.LdltProps
import Mathlib.LinearAlgebra.Matrix.Block

/-! C53: strongly convex systems are factorised without regularisation. -/

namespace Slp

open Matrix

variable {n : ℕ}

/-- `D` are the pivots of an exact factorisation `P M Pᵀ = L D Lᵀ` with a permutation `P` and a unit lower triangular `L`,
as computed by the factorisations of Eigen. -/
def UnitFactorizes (M : Matrix (Fin n) (Fin n) ℝ) (D : List Fl) : Prop :=
  ∃ (σ : Equiv.Perm (Fin n)) (d : Fin n → ℝ) (L : Matrix (Fin n) (Fin n) ℝ), D = List.ofFn (fun i => Fl.fin (d i)) ∧
    (∀ i, L i i = 1) ∧ (∀ i j, i < j → L i j = 0) ∧ M.submatrix σ σ = L * Matrix.diagonal d * Lᵀ

/-- Solving with the transpose of a unit lower triangular matrix. -/
theorem exists_backsolve {L : Matrix (Fin n) (Fin n) ℝ} (h1 : ∀ i, L i i = 1) (h2 : ∀ i j, i < j → L i j = 0) (i : Fin n) :
    ∃ v : Fin n → ℝ, Lᵀ *ᵥ v = Pi.single i 1 ∧ v i = 1 := by
  have hdet : L.det = 1 := by
    rw [det_of_isLowerTriangular L (fun a b hab => h2 a b hab)]
    simp [h1]
  have hdet' : IsUnit Lᵀ.det := by rw [det_transpose, hdet]; exact isUnit_one
  refine ⟨Lᵀ⁻¹ *ᵥ Pi.single i 1, ?_⟩
  set v := Lᵀ⁻¹ *ᵥ Pi.single i (1 : ℝ) with hv
  have hs : Lᵀ *ᵥ v = Pi.single i 1 := by
    rw [hv, mulVec_mulVec, mul_nonsing_inv _ hdet', one_mulVec]
  refine ⟨hs, ?_⟩
  have row : ∀ l, (∀ k, l < k → v k = 0) → v l = (Pi.single i (1 : ℝ) : Fin n → ℝ) l := by
    intro l hl
    rw [← congrFun hs l]
    show _ = ∑ k, L k l * v k
    rw [Finset.sum_eq_single l]
    · rw [h1, one_mul]
    · intro k _ hk
      rcases lt_or_gt_of_ne hk with h | h
      · rw [h2 k l h, zero_mul]
      · rw [hl k h, mul_zero]
    · simp
  have zero : ∀ (d : ℕ) (l : Fin n), i < l → n ≤ l + d → v l = 0 := by
    intro d
    induction d with
    | zero => intro l _ h; omega
    | succ d ih =>
      intro l hl hd
      rw [row l fun k hk => ih k (hl.trans hk) (by have : (l : ℕ) < k := hk; omega)]
      exact Pi.single_eq_of_ne (ne_of_gt hl) _
  rw [row i fun k hk => zero n k hk (by omega)]
  exact Pi.single_eq_same i 1

/-- C53: every pivot of a matrix that exceeds `10⁻⁴` times the identity is at least `10⁻⁴`. -/
theorem strongly_convex_pivots {M : Matrix (Fin n) (Fin n) ℝ} (hM : ∀ v, 1e-4 * (v ⬝ᵥ v) ≤ v ⬝ᵥ M *ᵥ v) {D : List Fl}
    (hD : UnitFactorizes M D) : D.length = n ∧ ∀ d ∈ D, ∃ a : ℝ, d = .fin a ∧ 1e-4 ≤ a := by
  obtain ⟨σ, d, L, rfl, h1, h2, h3⟩ := hD
  refine ⟨List.length_ofFn, fun e he => ?_⟩
  obtain ⟨i, rfl⟩ := (List.mem_ofFn' _ _).1 he
  refine ⟨d i, rfl, ?_⟩
  obtain ⟨v, hv, hvi⟩ := exists_backsolve h1 h2 i
  have hq : v ⬝ᵥ (M.submatrix σ σ) *ᵥ v = d i := by
    rw [h3, ← mulVec_mulVec, ← mulVec_mulVec, hv, dotProduct_mulVec, ← Matrix.mulVec_transpose, hv]
    simp
  have hle : 1e-4 * (v ⬝ᵥ v) ≤ v ⬝ᵥ (M.submatrix σ σ) *ᵥ v := by
    have := hM (v ∘ σ.symm)
    have e1 : (v ∘ σ.symm) ⬝ᵥ (v ∘ σ.symm) = v ⬝ᵥ v := Equiv.sum_comp σ.symm fun k => v k * v k
    have e2 : (v ∘ σ.symm) ⬝ᵥ M *ᵥ (v ∘ σ.symm) = v ⬝ᵥ (M.submatrix σ σ) *ᵥ v := by
      simp only [dotProduct, mulVec, submatrix_apply, Function.comp]
      rw [← Equiv.sum_comp σ]
      refine Finset.sum_congr rfl fun a _ => ?_
      rw [← Equiv.sum_comp σ fun b => M (σ a) b * v (σ.symm b)]
      simp
    rwa [e1, e2] at this
  have hvv : 1 ≤ v ⬝ᵥ v := by
    have : v i * v i ≤ v ⬝ᵥ v := Finset.single_le_sum (f := fun k => v k * v k) (fun k _ => mul_self_nonneg _) (Finset.mem_univ i)
    rw [hvi] at this
    linarith
  rw [hq] at hle
  norm_num at hle ⊢
  linarith

/-- C53: a strongly convex system without constraints is factorised without regularisation. -/
theorem strongly_convex_unregularised {M : Matrix (Fin n) (Fin n) ℝ} (hM : ∀ v, 1e-4 * (v ⬝ᵥ v) ≤ v ⬝ᵥ M *ᵥ v)
    {F : Ldlt.Factor} {D : List Fl} (hF : F 0 0 0 = some D) (hD : UnitFactorizes M D) (γmin prev : ℝ) (fuel : ℕ) :
    Ldlt.compute F n 0 γmin prev fuel = some ⟨true, 0, 0, 0⟩ := by
  obtain ⟨h1, h2⟩ := strongly_convex_pivots hM hD
  refine Ldlt.compute_unregularised hF ?_ ?_
  · have key : ∀ (l : List Fl) (r : Ldlt.Inertia), (∀ d ∈ l, ∃ a : ℝ, d = .fin a ∧ 1e-4 ≤ a) →
        l.foldl Ldlt.Inertia.count r = { r with positive := r.positive + l.length } := by
      intro l
      induction l with
      | nil => intro r _; rfl
      | cons d l ih =>
        intro r h
        obtain ⟨a, rfl, ha⟩ := h d (by simp)
        rw [List.foldl_cons, ih _ fun d hd => h d (by simp [hd])]
        have : Ldlt.Inertia.count r (.fin a) = { r with positive := r.positive + 1 } := by
          unfold Ldlt.Inertia.count
          rw [if_pos]
          rw [gt_iff_lt, Fl.fin_lt]
          refine lt_of_lt_of_le ?_ ha
          unfold Ldlt.epsilon
          norm_num
        rw [this, List.length_cons]
        simp only [Ldlt.Inertia.mk.injEq, and_true]
        omega
    unfold Ldlt.Inertia.of
    rw [key D _ h2, h1]
    simp
  · intro d hd
    obtain ⟨a, rfl, ha⟩ := h2 d hd
    rw [Fl.abs_fin, Fl.fin_le]
    exact ha.trans (le_abs_self a)

/-- The identity is such a matrix. -/
example : (∀ v, 1e-4 * (v ⬝ᵥ v) ≤ v ⬝ᵥ (1 : Matrix (Fin 2) (Fin 2) ℝ) *ᵥ v) ∧
    UnitFactorizes (1 : Matrix (Fin 2) (Fin 2) ℝ) [.fin 1, .fin 1] := by
  refine ⟨fun v => ?_, 1, fun _ => 1, 1, rfl, by simp, fun i j h => one_apply_ne h.ne, ?_⟩
  · rw [one_mulVec]
    have : 0 ≤ v ⬝ᵥ v := Finset.sum_nonneg fun i _ => mul_self_nonneg _
    generalize v ⬝ᵥ v = a at this
    norm_num
    linarith
  · simp

end Slp
