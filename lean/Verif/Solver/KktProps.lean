import Verif.Solver.KktLemmas
import Verif.Solver.SparseProps

/-!
C32: automatic scaling. The specification is the list of first-order optimality conditions of a problem with
gradient `g`, constraint values `ce`, `ci` and Jacobians `Ae`, `Ai`, perturbed by the barrier parameter.
-/

namespace Slp

open Matrix

variable {n m k : ℕ}

/-- The (perturbed) first-order optimality conditions. -/
structure FirstOrder (g : Fin n → ℝ) (Ae : Matrix (Fin m) (Fin n) ℝ) (ce : Fin m → ℝ)
    (Ai : Matrix (Fin k) (Fin n) ℝ) (ci s : Fin k → ℝ) (y : Fin m → ℝ) (z : Fin k → ℝ) (μ : ℝ) : Prop where
  stationary : ∀ j, g j = ∑ i, y i * Ae i j + ∑ i, z i * Ai i j
  complementary : ∀ i, s i * z i = μ
  equality : ∀ i, ce i = 0
  inequality : ∀ i, ci i = s i
  slack : ∀ i, 0 ≤ s i
  dual : ∀ i, 0 ≤ z i

theorem transpose_mulVec_eq (A : Matrix (Fin m) (Fin n) ℝ) (y : Fin m → ℝ) (j : Fin n) :
    (Aᵀ *ᵥ y) j = ∑ i, y i * A i j := by
  simp [Matrix.mulVec, dotProduct, Matrix.transpose_apply, mul_comm]

/-- C32: every scaling factor is in (0, 1], the scaled gradient and Jacobian rows have no element above 100
at the starting point, and what is below 100 already is not scaled. -/
theorem scaling_correct (g : Fin n → ℝ) {Ae Ai : Sparse} (he : Ae.WF) (hi : Ai.WF) :
    ∃ f de di, Scaling.of m k g Ae Ai = .factors f de di ∧
      scaleFactor (infNorm g) = Fl.fin f ∧
      (∀ i : Fin m, scaleFactor (sparseInfNorms Ae i) = Fl.fin (de i)) ∧
      (∀ i : Fin k, scaleFactor (sparseInfNorms Ai i) = Fl.fin (di i)) ∧
      (0 < f ∧ f ≤ 1 ∧ (∀ j, |f * g j| ≤ 100) ∧ ((∀ j, |g j| ≤ 100) → f = 1)) ∧
      (∀ i, 0 < de i ∧ de i ≤ 1 ∧ (∀ j, |de i * Ae.coeff i j| ≤ 100) ∧
        ((∀ j, |Ae.coeff i j| ≤ 100) → de i = 1)) ∧
      (∀ i, 0 < di i ∧ di i ≤ 1 ∧ (∀ j, |di i * Ai.coeff i j| ≤ 100) ∧
        ((∀ j, |Ai.coeff i j| ≤ 100) → di i = 1)) := by
  have row : ∀ {A : Sparse}, A.WF → ∀ i : ℕ, ∃ d : ℝ, scaleFactor (sparseInfNorms A i) = Fl.fin d ∧
      0 < d ∧ d ≤ 1 ∧ (∀ j, |d * A.coeff i j| ≤ 100) ∧ ((∀ j, |A.coeff i j| ≤ 100) → d = 1) := by
    intro A hA i
    obtain ⟨h1, h2⟩ := row_norm_correct hA i
    have h0 : 0 ≤ sparseInfNorms A i := le_trans (abs_nonneg _) (h1 0)
    obtain ⟨d, hd, d0, d1, d2, d3, -⟩ := scaleFactor_spec h0
    refine ⟨d, hd, d0, d1, fun j => ?_, fun h => d3 ?_⟩
    · rw [abs_mul, abs_of_pos d0]
      exact le_trans (mul_le_mul_of_nonneg_left (h1 j) d0.le) d2
    · rcases h2 with h2 | ⟨j, -, h2⟩
      · rw [h2]; norm_num
      · rw [h2]; exact h j
  obtain ⟨f, hf, f0, f1, f2, f3, -⟩ := scaleFactor_spec (infNorm_nonneg g)
  choose de hde using fun i : Fin m => row he i
  choose di hdi using fun i : Fin k => row hi i
  refine ⟨f, de, di, ?_, hf, fun i => (hde i).1, fun i => (hdi i).1, ⟨f0, f1, fun j => ?_, fun h => f3 ?_⟩,
    fun i => (hde i).2, fun i => (hdi i).2⟩
  · unfold Scaling.of
    rw [hf]
    congr 1
    · funext i; rw [(hde i).1]; rfl
    · funext i; rw [(hdi i).1]; rfl
  · rw [abs_mul, abs_of_pos f0]
    exact le_trans (mul_le_mul_of_nonneg_left (abs_le_infNorm g j) f0.le) f2
  · rw [infNorm_le]
    exact ⟨by norm_num, h⟩

/-- C32: a row whose largest element exceeds 100 is scaled to exactly 100. -/
theorem scaling_tight (g : Fin n → ℝ) (h : ∃ j, 100 ≤ |g j|) :
    ∃ f, scaleFactor (infNorm g) = Fl.fin f ∧ ∃ j, |f * g j| = 100 := by
  obtain ⟨f, hf, f0, -, -, -, f4⟩ := scaleFactor_spec (infNorm_nonneg g)
  refine ⟨f, hf, ?_⟩
  obtain ⟨j, hj⟩ := h
  have h1 := f4 (le_trans hj (abs_le_infNorm g j))
  rcases infNorm_attained g with h | ⟨i, h⟩
  · rw [h] at h1; norm_num at h1
  · refine ⟨i, ?_⟩
    rw [abs_mul, abs_of_pos f0, ← h, h1]

/-- C32: a point is first-order optimal for the scaled problem if and only if it is for the problem the user
stated, the slacks, multipliers and barrier parameter being unscaled as the code does. -/
theorem scaled_optimal_iff {f : ℝ} {de : Fin m → ℝ} {di : Fin k → ℝ} (hf : 0 < f) (hde : ∀ i, 0 < de i)
    (hdi : ∀ i, 0 < di i) (g : Fin n → ℝ) (Ae : Matrix (Fin m) (Fin n) ℝ) (ce : Fin m → ℝ)
    (Ai : Matrix (Fin k) (Fin n) ℝ) (ci s : Fin k → ℝ) (y : Fin m → ℝ) (z : Fin k → ℝ) (μ : ℝ) :
    FirstOrder (fun j => f * g j) (rowScale de Ae) (fun i => de i * ce i) (rowScale di Ai)
        (fun i => di i * ci i) s y z μ ↔
      FirstOrder g Ae ce Ai ci (fun i => s i / di i) (fun i => de i * y i / f) (fun i => di i * z i / f)
        (μ / f) := by
  have key : ∀ j, f * g j = ∑ i, y i * rowScale de Ae i j + ∑ i, z i * rowScale di Ai i j ↔
      g j = ∑ i, de i * y i / f * Ae i j + ∑ i, di i * z i / f * Ai i j := by
    intro j
    have e1 : ∑ i, y i * rowScale de Ae i j = f * ∑ i, de i * y i / f * Ae i j := by
      rw [Finset.mul_sum]
      refine Finset.sum_congr rfl fun i _ => ?_
      unfold rowScale
      field_simp
    have e2 : ∑ i, z i * rowScale di Ai i j = f * ∑ i, di i * z i / f * Ai i j := by
      rw [Finset.mul_sum]
      refine Finset.sum_congr rfl fun i _ => ?_
      unfold rowScale
      field_simp
    rw [e1, e2, ← mul_add]
    exact mul_right_inj' hf.ne'
  constructor
  · rintro ⟨h1, h2, h3, h4, h5, h6⟩
    refine ⟨fun j => (key j).mp (h1 j), fun i => ?_, fun i => ?_, fun i => ?_, fun i => ?_, fun i => ?_⟩
    · have := hdi i
      rw [← h2 i]; field_simp
    · exact (mul_eq_zero.mp (h3 i)).resolve_left (hde i).ne'
    · rw [eq_div_iff (hdi i).ne', mul_comm, h4 i]
    · exact div_nonneg (h5 i) (hdi i).le
    · exact div_nonneg (mul_nonneg (hdi i).le (h6 i)) hf.le
  · rintro ⟨h1, h2, h3, h4, h5, h6⟩
    refine ⟨fun j => (key j).mpr (h1 j), fun i => ?_, fun i => ?_, fun i => ?_, fun i => ?_, fun i => ?_⟩
    · have h := h2 i
      have := hdi i
      field_simp at h
      exact h
    · show de i * ce i = 0
      rw [h3 i, mul_zero]
    · have := hdi i
      show di i * ci i = s i
      rw [h4 i]; field_simp
    · have h := mul_nonneg (h5 i) (hdi i).le
      rwa [div_mul_cancel₀ _ (hdi i).ne'] at h
    · have h := h6 i
      rw [le_div_iff₀ hf, zero_mul] at h
      exact (mul_nonneg_iff_of_pos_left (hdi i)).mp h

/-- Scaling does not change which side of zero a constraint is on, so it does not change feasibility. -/
theorem scaled_feasible_iff {de : Fin m → ℝ} {di : Fin k → ℝ} (hde : ∀ i, 0 < de i) (hdi : ∀ i, 0 < di i)
    (ce : Fin m → ℝ) (ci : Fin k → ℝ) :
    ((∀ i, de i * ce i = 0) ∧ ∀ i, 0 ≤ di i * ci i) ↔ (∀ i, ce i = 0) ∧ ∀ i, 0 ≤ ci i := by
  refine and_congr (forall_congr' fun i => ?_) (forall_congr' fun i => ?_)
  · rw [mul_eq_zero, or_iff_right (hde i).ne']
  · exact mul_nonneg_iff_of_pos_left (hdi i)

theorem rowScale_inv {d : Fin m → ℝ} (hd : ∀ i, 0 < d i) (A : Matrix (Fin m) (Fin n) ℝ) :
    rowScale (fun i => (d i)⁻¹) (rowScale d A) = A := by
  funext i j
  unfold rowScale
  rw [← mul_assoc, inv_mul_cancel₀ (hd i).ne', one_mul]

/-- C32: the error compared with the tolerance is the one of the problem the user stated, at the unscaled
slacks and multipliers. -/
theorem unscaled_error_ipm {f : ℝ} {de : Fin m → ℝ} {di : Fin k → ℝ} (hf : 0 < f) (hde : ∀ i, 0 < de i)
    (hdi : ∀ i, 0 < di i) (g : Fin n → ℝ) (Ae : Matrix (Fin m) (Fin n) ℝ) (ce : Fin m → ℝ)
    (Ai : Matrix (Fin k) (Fin n) ℝ) (ci s : Fin k → ℝ) (y : Fin m → ℝ) (z : Fin k → ℝ) (μ : ℝ) :
    unscaledInfIpm (.factors f de di) (fun j => f * g j) (rowScale de Ae) (fun i => de i * ce i)
        (rowScale di Ai) (fun i => di i * ci i) s y z μ =
      kktInfIpm g Ae ce Ai ci (fun i => s i / di i) (fun i => de i * y i / f) (fun i => di i * z i / f)
        (μ / f) := by
  have e1 : (fun j => 1 / f * (f * g j)) = g := by funext j; field_simp
  have e2 : (fun i => (de i)⁻¹ * (de i * ce i)) = ce := by
    funext i; rw [← mul_assoc, inv_mul_cancel₀ (hde i).ne', one_mul]
  have e3 : (fun i => (di i)⁻¹ * (di i * ci i)) = ci := by
    funext i; rw [← mul_assoc, inv_mul_cancel₀ (hdi i).ne', one_mul]
  have e4 : (fun i => (di i)⁻¹ * s i) = fun i => s i / di i := by funext i; rw [mul_comm]; rfl
  have e5 : (fun i => de i * y i * (1 / f)) = fun i => de i * y i / f := by funext i; rw [mul_one_div]
  have e6 : (fun i => di i * z i * (1 / f)) = fun i => di i * z i / f := by funext i; rw [mul_one_div]
  have e7 : 1 / f * μ = μ / f := by rw [mul_comm, mul_one_div]
  have key : kktInfIpm (fun j => 1 / f * (f * g j)) (rowScale (fun i => (de i)⁻¹) (rowScale de Ae))
      (fun i => (de i)⁻¹ * (de i * ce i)) (rowScale (fun i => (di i)⁻¹) (rowScale di Ai))
      (fun i => (di i)⁻¹ * (di i * ci i)) (fun i => (di i)⁻¹ * s i) (fun i => de i * y i * (1 / f))
      (fun i => di i * z i * (1 / f)) (1 / f * μ) =
      kktInfIpm g Ae ce Ai ci (fun i => s i / di i) (fun i => de i * y i / f) (fun i => di i * z i / f)
        (μ / f) := by
    rw [e1, e2, e3, e4, e5, e6, e7, rowScale_inv hde, rowScale_inv hdi]
  unfold unscaledInfIpm
  split_ifs with h
  · obtain ⟨rfl, rfl, rfl⟩ := h
    rw [← key]
    congr 1 <;> first | exact funext fun i => i.elim0 | (funext j; simp) | simp
  · exact key

/-- C32: the same without inequality constraints. -/
theorem unscaled_error_sqp {f : ℝ} {de : Fin m → ℝ} (hf : 0 < f) (hde : ∀ i, 0 < de i) (g : Fin n → ℝ)
    (Ae : Matrix (Fin m) (Fin n) ℝ) (ce y : Fin m → ℝ) (di : Fin 0 → ℝ) :
    unscaledInfSqp (.factors f de di) (fun j => f * g j) (rowScale de Ae) (fun i => de i * ce i) y =
      kktInfSqp g Ae ce fun i => de i * y i / f := by
  have e1 : (fun j => 1 / f * (f * g j)) = g := by funext j; field_simp
  have e2 : (fun i => (de i)⁻¹ * (de i * ce i)) = ce := by
    funext i; rw [← mul_assoc, inv_mul_cancel₀ (hde i).ne', one_mul]
  have e5 : (fun i => de i * y i * (1 / f)) = fun i => de i * y i / f := by funext i; rw [mul_one_div]
  have key : kktInfSqp (fun j => 1 / f * (f * g j)) (rowScale (fun i => (de i)⁻¹) (rowScale de Ae))
      (fun i => (de i)⁻¹ * (de i * ce i)) (fun i => de i * y i * (1 / f)) =
      kktInfSqp g Ae ce fun i => de i * y i / f := by
    rw [e1, e2, e5, rowScale_inv hde]
  unfold unscaledInfSqp
  split_ifs with h
  · obtain ⟨rfl, rfl, -⟩ := h
    rw [← key]
    congr 1 <;> first | exact funext fun i => i.elim0 | (funext j; simp)
  · exact key

/-- C32: the same without constraints. -/
theorem unscaled_error_newton {f : ℝ} (hf : 0 < f) (g : Fin n → ℝ) (de di : Fin 0 → ℝ) :
    unscaledInfNewton (.factors f de di) (fun j => f * g j) = kktInfNewton g := by
  unfold unscaledInfNewton
  split_ifs with h
  · obtain ⟨rfl, -, -⟩ := h
    simp
  · congr 1
    funext j
    show 1 / f * (f * g j) = g j
    field_simp

/-- C32: without scaling, the error is the problem's own. -/
theorem unscaled_error_identity (g : Fin n → ℝ) (Ae : Matrix (Fin m) (Fin n) ℝ) (ce : Fin m → ℝ)
    (Ai : Matrix (Fin k) (Fin n) ℝ) (ci s : Fin k → ℝ) (y : Fin m → ℝ) (z : Fin k → ℝ) (μ : ℝ) :
    unscaledInfIpm .identity g Ae ce Ai ci s y z μ = kktInfIpm g Ae ce Ai ci s y z μ ∧
      unscaledInfSqp (.identity : Scaling m k) g Ae ce y = kktInfSqp g Ae ce y ∧
      unscaledInfNewton (.identity : Scaling m k) g = kktInfNewton g := by
  refine ⟨?_, ?_, ?_⟩
  · simp [unscaledInfIpm, Scaling.isIdentity]
  · simp [unscaledInfSqp, Scaling.isIdentity]
  · simp [unscaledInfNewton, Scaling.isIdentity]

/-- C22 (the measure): an error within `t` bounds each residual: equality constraints by `t`, inequality
constraints from below by `−t`, stationarity and complementarity by `t` times the damping the code documents
(1 unless the multipliers are larger than 100 on average). -/
theorem error_bounds_ipm {g : Fin n → ℝ} {Ae : Matrix (Fin m) (Fin n) ℝ} {ce : Fin m → ℝ}
    {Ai : Matrix (Fin k) (Fin n) ℝ} {ci s : Fin k → ℝ} {y : Fin m → ℝ} {z : Fin k → ℝ} {μ t : ℝ}
    (h : kktInfIpm g Ae ce Ai ci s y z μ ≤ t) :
    (∀ i, |ce i| ≤ t) ∧ (∀ i, |ci i - s i| ≤ t) ∧ ((∀ i, 0 ≤ s i) → ∀ i, -t ≤ ci i) ∧
      (∀ j, |g j - ∑ i, y i * Ae i j - ∑ i, z i * Ai i j| ≤
        t * max 1 ((∑ i, |y i| + ∑ i, |z i|) / (m + k : ℕ) / 100)) ∧
      ∀ i, |s i * z i - μ| ≤ t * max 1 ((∑ i, |z i|) / k / 100) := by
  unfold kktInfIpm at h
  simp only [max_le_iff] at h
  obtain ⟨⟨⟨h1, h2⟩, h3⟩, h4⟩ := h
  have hs : ∀ a : ℝ, max 100 a / 100 = max 1 (a / 100) := by
    intro a
    have := max_div_div_right (by norm_num : (0 : ℝ) ≤ 100) 100 a
    rw [← this]
    norm_num
  rw [hs, div_le_iff₀ (by positivity)] at h1 h2
  refine ⟨(infNorm_le.mp h3).2, (infNorm_le.mp h4).2, fun hs i => ?_, fun j => ?_, (infNorm_le.mp h2).2⟩
  · have := (abs_le.mp ((infNorm_le.mp h4).2 i)).1
    have h0 := hs i
    simp only [Pi.sub_apply] at this
    linarith
  · have := (infNorm_le.mp h1).2 j
    simp only [Pi.sub_apply, transpose_mulVec_eq] at this
    exact this

/-- C22 (the measure) without inequality constraints. -/
theorem error_bounds_sqp {g : Fin n → ℝ} {Ae : Matrix (Fin m) (Fin n) ℝ} {ce y : Fin m → ℝ} {t : ℝ}
    (h : kktInfSqp g Ae ce y ≤ t) :
    (∀ i, |ce i| ≤ t) ∧ ∀ j, |g j - ∑ i, y i * Ae i j| ≤ t * max 1 ((∑ i, |y i|) / m / 100) := by
  unfold kktInfSqp at h
  simp only [max_le_iff] at h
  obtain ⟨h1, h3⟩ := h
  have hs : ∀ a : ℝ, max 100 a / 100 = max 1 (a / 100) := by
    intro a
    have := max_div_div_right (by norm_num : (0 : ℝ) ≤ 100) 100 a
    rw [← this]
    norm_num
  rw [hs, div_le_iff₀ (by positivity)] at h1
  refine ⟨(infNorm_le.mp h3).2, fun j => ?_⟩
  have := (infNorm_le.mp h1).2 j
  simp only [Pi.sub_apply, transpose_mulVec_eq] at this
  exact this

/-- C22 (the measure) without constraints. -/
theorem error_bounds_newton {g : Fin n → ℝ} {t : ℝ} (h : kktInfNewton g ≤ t) : ∀ j, |g j| ≤ t :=
  (infNorm_le.mp h).2

/-- C22, C32 (the measure): with nonnegative slacks and multipliers, the error is zero exactly at the points
that meet the first-order conditions; so is the error used by the line search. -/
theorem error_zero_iff {g : Fin n → ℝ} {Ae : Matrix (Fin m) (Fin n) ℝ} {ce : Fin m → ℝ}
    {Ai : Matrix (Fin k) (Fin n) ℝ} {ci s : Fin k → ℝ} {y : Fin m → ℝ} {z : Fin k → ℝ} {μ : ℝ}
    (hs : ∀ i, 0 ≤ s i) (hz : ∀ i, 0 ≤ z i) :
    (kktInfIpm g Ae ce Ai ci s y z μ = 0 ↔ FirstOrder g Ae ce Ai ci s y z μ) ∧
      (kktOneIpm g Ae ce Ai ci s y z μ = 0 ↔ FirstOrder g Ae ce Ai ci s y z μ) := by
  have spec : ((∀ j, (g - Aeᵀ *ᵥ y - Aiᵀ *ᵥ z) j = 0) ∧ (∀ i, s i * z i - μ = 0) ∧ (∀ i, ce i = 0) ∧
      ∀ i, (ci - s) i = 0) ↔ FirstOrder g Ae ce Ai ci s y z μ := by
    simp only [Pi.sub_apply, transpose_mulVec_eq, sub_eq_zero]
    constructor
    · rintro ⟨h1, h2, h3, h4⟩
      exact ⟨fun j => by linarith [sub_eq_iff_eq_add.mp (h1 j)], h2, h3, h4, hs, hz⟩
    · rintro ⟨h1, h2, h3, h4, -, -⟩
      exact ⟨fun j => by linarith [h1 j], h2, h3, h4⟩
  constructor
  · rw [← spec]
    unfold kktInfIpm
    simp only
    have a1 : ∀ (p : ℕ) (v : Fin p → ℝ) (a : ℝ), 0 ≤ infNorm v / (max 100 a / 100) := fun p v a =>
      div_nonneg (infNorm_nonneg v) (le_trans zero_le_one (damping_pos a))
    rw [max_eq_zero_iff (le_max_of_le_right (infNorm_nonneg _)) (infNorm_nonneg _),
      max_eq_zero_iff (le_max_of_le_right (a1 _ _ _)) (infNorm_nonneg _),
      max_eq_zero_iff (a1 _ _ _) (a1 _ _ _), max_div_eq_zero (damping_pos _),
      max_div_eq_zero (damping_pos _), infNorm_eq_zero, infNorm_eq_zero, infNorm_eq_zero, infNorm_eq_zero]
    tauto
  · rw [← spec]
    unfold kktOneIpm
    have a : ∀ {a b : ℝ}, 0 ≤ a → 0 ≤ b → (a + b = 0 ↔ a = 0 ∧ b = 0) := fun ha hb =>
      add_eq_zero_iff_of_nonneg ha hb
    rw [a (by have := @oneNorm_nonneg; exact add_nonneg (add_nonneg (this _) (this _)) (this _))
        (oneNorm_nonneg _), a (add_nonneg (oneNorm_nonneg _) (oneNorm_nonneg _)) (oneNorm_nonneg _),
      a (oneNorm_nonneg _) (oneNorm_nonneg _), oneNorm_eq_zero, oneNorm_eq_zero, oneNorm_eq_zero,
      oneNorm_eq_zero]
    tauto

/-- A problem to which all of this applies: minimise `1000 x` subject to `x ≥ 0`. Its gradient is scaled by
1/10; the solution `x = 0` with multiplier 1000 is the scaled problem's solution with multiplier 100. -/
example : FirstOrder (fun _ : Fin 1 => (1000 : ℝ)) (fun (i : Fin 0) _ => i.elim0) (fun i => i.elim0)
      (fun _ _ : Fin 1 => 1) (fun _ => 0) (fun _ => 0) (fun i => i.elim0) (fun _ => 1000) 0 ∧
    (∃ f, scaleFactor (infNorm fun _ : Fin 1 => (1000 : ℝ)) = Fl.fin f ∧ ∃ _ : Fin 1, |f * 1000| = 100) := by
  refine ⟨⟨by simp, by simp, fun i => i.elim0, by simp, by simp, by simp⟩, ?_⟩
  exact scaling_tight _ ⟨0, by rw [abs_of_pos] <;> norm_num⟩

example : ∃ (d : Fin 2 → ℝ), (∀ i, 0 < d i) ∧
    unscaledInfSqp (k := 0) (.factors 1 d fun i => i.elim0) (fun _ : Fin 2 => (3 : ℝ)) (rowScale d 1)
      (fun _ => 0) (fun i => 3 / d i) = 0 := by
  refine ⟨fun _ => 1 / 2, fun _ => by norm_num, ?_⟩
  have := unscaled_error_sqp (f := 1) (de := fun _ : Fin 2 => (1 / 2 : ℝ)) one_pos (fun _ => by norm_num)
    (fun _ : Fin 2 => (3 : ℝ)) 1 (fun _ => 0) (fun _ => 3 / (1 / 2)) (fun i => i.elim0)
  simp only [one_mul, mul_zero] at this
  rw [this]
  unfold kktInfSqp
  have h1 : (fun _ : Fin 2 => (3 : ℝ)) - (1 : Matrix (Fin 2) (Fin 2) ℝ)ᵀ *ᵥ
      (fun _ => 1 / 2 * (3 / (1 / 2)) / 1) = fun _ => 0 := by
    funext i
    simp
    norm_num
  have h2 : infNorm (fun _ : Fin 2 => (0 : ℝ)) = 0 := infNorm_eq_zero.mpr fun _ => rfl
  simp only [h1, h2, zero_div, max_self]

end Slp
