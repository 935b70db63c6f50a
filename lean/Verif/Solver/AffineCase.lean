import Verif.Solver.AffineProps
import Verif.Solver.DescentCase

/-! Solvable systems, and an example for C78: minimise `y − log x` subject to `x = y`, from (1.1, 1.1). -/

namespace Slp

open Matrix

variable {n m : ℕ}

/-- With constraints of full rank and positive curvature along them, the system has a solution without
regularisation. -/
theorem AffineProblem.system_solvable (q : AffineProblem n m) {v : Fin n → ℝ} (hrank : ∀ y, q.Aᵀ *ᵥ y = 0 → y = 0)
    (hpos : ∀ p, q.A *ᵥ p = 0 → p ≠ 0 → 0 < p ⬝ᵥ q.cost.H v *ᵥ p) (y : Fin m → ℝ) : ∃ p, (q.system v y).Solved p 0 0 := by
  set M : Matrix (Fin (n + m)) (Fin (n + m)) ℝ := (q.system v y).lhs.real with hM
  have hrow1 : ∀ (w : Fin (n + m) → ℝ) a, (M *ᵥ w) (Fin.castAdd m a) =
      (q.cost.H v *ᵥ (fun j => w (Fin.castAdd m j)) + q.Aᵀ *ᵥ fun i => w (Fin.natAdd n i)) a := by
    intro w a
    rw [mulVec, dotProduct, Fin.sum_univ_add, Pi.add_apply]
    congr 1 <;> refine Finset.sum_congr rfl fun b _ => ?_ <;>
      simp [hM, FMat.real, AffineProblem.system, Fl.toReal]
  have hrow2 : ∀ (w : Fin (n + m) → ℝ) a, (M *ᵥ w) (Fin.natAdd n a) = (q.A *ᵥ fun j => w (Fin.castAdd m j)) a := by
    intro w a
    rw [mulVec, dotProduct, Fin.sum_univ_add]
    have e : ∑ i : Fin m, M (Fin.natAdd n a) (Fin.natAdd n i) * w (Fin.natAdd n i) = 0 :=
      Finset.sum_eq_zero fun i _ => by simp [hM, FMat.real, AffineProblem.system, Fl.toReal]
    rw [e, add_zero]
    refine Finset.sum_congr rfl fun b _ => ?_
    simp [hM, FMat.real, AffineProblem.system, Fl.toReal]
  have hinj : ∀ w, M *ᵥ w = 0 → w = 0 := by
    intro w hw
    set p : Fin n → ℝ := fun j => w (Fin.castAdd m j) with hp
    set s : Fin m → ℝ := fun i => w (Fin.natAdd n i) with hs
    have h1 : q.cost.H v *ᵥ p + q.Aᵀ *ᵥ s = 0 := funext fun a => by rw [← hrow1, hw]; rfl
    have h2 : q.A *ᵥ p = 0 := funext fun a => by rw [← hrow2, hw]; rfl
    have h3 : p ⬝ᵥ q.Aᵀ *ᵥ s = 0 := by rw [dotProduct_mulVec, vecMul_transpose, h2, zero_dotProduct]
    have h4 : p = 0 := by
      by_contra hne
      have := hpos p h2 hne
      have h5 : p ⬝ᵥ (q.cost.H v *ᵥ p + q.Aᵀ *ᵥ s) = 0 := by rw [h1, dotProduct_zero]
      rw [dotProduct_add, h3, add_zero] at h5
      exact this.ne' h5
    rw [h4, mulVec_zero, zero_add] at h1
    have h5 := hrank s h1
    funext i
    induction i using Fin.addCases with
    | left i => exact congrFun h4 i
    | right i => exact congrFun h5 i
  have hdet : IsUnit M.det := by
    rw [isUnit_iff_ne_zero]
    intro h0
    obtain ⟨w, hw, hw0⟩ := Matrix.exists_mulVec_eq_zero_iff.2 h0
    exact hw (hinj w hw0)
  set R : Fin (n + m) → ℝ := (q.system v y).rhs.real with hR
  have h1 : M *ᵥ (M⁻¹ *ᵥ R) = R := by rw [mulVec_mulVec, mul_nonsing_inv _ hdet, one_mulVec]
  refine ⟨fun j => if hj : j < n + m then .fin ((M⁻¹ *ᵥ R) ⟨j, hj⟩) else 0, fun j => ?_, fun i => ?_⟩
  · have : (j : ℕ) < n + m := j.isLt
    simp only [this, dif_pos]; rfl
  · refine Eq.trans ?_ (congrFun h1 i)
    refine Finset.sum_congr rfl fun j _ => ?_
    have : (j : ℕ) < n + m := j.isLt
    simp only [this, dif_pos, neg_zero, ite_self, add_zero]
    rfl

/-- `y − log x` for positive `x`. -/
noncomputable def slopeCost : SmoothCost 2 where
  dom := {v | 0 < v 0}
  f v := v 1 - Real.log (v 0)
  g v := ![-(v 0)⁻¹, 1]
  H v := !![((v 0) ^ 2)⁻¹, 0; 0, 0]
  isOpen := isOpen_lt continuous_const (continuous_apply 0)
  deriv v hv := by
    have h0 := (hasFDerivAt_apply (𝕜 := ℝ) (F' := fun _ : Fin 2 => ℝ) 0 v)
    have h1 := (hasFDerivAt_apply (𝕜 := ℝ) (F' := fun _ : Fin 2 => ℝ) 1 v)
    refine (h1.fun_sub (h0.log (ne_of_gt hv))).congr_fderiv ?_
    ext w
    simp [dotMap]
    ring
  deriv2 v hv := by
    have h := (hasFDerivAt_apply (𝕜 := ℝ) (F' := fun _ : Fin 2 => ℝ) 0 v)
    rw [hasFDerivAt_pi']
    intro i
    fin_cases i
    · have hd : HasDerivAt (fun y : ℝ => -y⁻¹) (((v 0) ^ 2)⁻¹) (v 0) := by
        have := (hasDerivAt_inv (x := v 0) (ne_of_gt hv)).neg
        rwa [neg_neg] at this
      refine (hd.comp_hasFDerivAt v h).congr_fderiv ?_
      ext w
      show _ = (mulMap _ w) 0
      rw [mulMap_apply]
      simp [mulVec, dotProduct]
    · refine (hasFDerivAt_const (1 : ℝ) v).congr_fderiv ?_
      ext w
      show _ = (mulMap _ w) 1
      rw [mulMap_apply]
      simp [mulVec, dotProduct]

/-- Subject to `x = y`. -/
noncomputable def slopeProblem : AffineProblem 2 1 := ⟨slopeCost, !![1, -1], 0⟩

/-- Its functions, with an infinite cost outside the domain. -/
noncomputable def slopeNlp : Nlp 2 1 0 where
  f x := if 0 < x.real 0 then .fin (slopeCost.f x.real) else .pinf
  g x j := .fin (slopeCost.g x.real j)
  H x _ _ i j := .fin (slopeCost.H x.real i j)
  ce x i := .fin ((slopeProblem.A *ᵥ x.real) i - slopeProblem.b i)
  Ae _ i j := .fin (slopeProblem.A i j)
  ci _ := Fin.elim0
  Ai _ := Fin.elim0
  scaling := .identity

theorem slopeNlp_isAffine : slopeNlp.IsAffine slopeProblem :=
  ⟨fun _ _ h => if_pos h, fun x _ h => by show Fl.isFinite (if _ then _ else _) = false; rw [if_neg (show ¬ 0 < x.real 0 from h)]; rfl,
    fun _ _ _ _ => rfl, fun _ _ _ _ _ _ _ => ⟨rfl, fun _ => rfl⟩, fun _ _ _ => rfl, fun _ _ _ _ => rfl⟩

/-- The guess. -/
noncomputable def slopeGuess : Vec 2 := fun _ => .fin 1.1

theorem slope_feasible {v : Fin 2 → ℝ} : v ∈ slopeProblem.feasible ↔ v 1 = v 0 := by
  constructor
  · intro h
    have := congrFun h 0
    simp [slopeProblem, mulVec, dotProduct, Fin.sum_univ_two] at this
    linarith
  · intro h
    funext i
    rw [Subsingleton.elim i 0]
    simp [slopeProblem, mulVec, dotProduct, Fin.sum_univ_two, h]

theorem slope_null {p : Fin 2 → ℝ} (h : slopeProblem.A *ᵥ p = 0) : p 1 = p 0 := slope_feasible.1 h

theorem slopeLevel {v : Fin 2 → ℝ} (hv : v ∈ slopeProblem.level slopeGuess.real) :
    (fun _ => v 0) ∈ logCost.level logGuess.real := by
  obtain ⟨⟨h0, h1⟩, h2⟩ := hv
  rw [slope_feasible] at h2
  refine ⟨h0, ?_⟩
  change v 1 - Real.log (v 0) ≤ 1.1 - Real.log 1.1 at h1
  rw [h2] at h1
  exact h1

theorem slopeLevel_closed : IsClosed (slopeProblem.level slopeGuess.real) := by
  have he : slopeProblem.level slopeGuess.real =
      (fun (v : Fin 2 → ℝ) (_ : Fin 1) => v 0) ⁻¹' logCost.level logGuess.real ∩ {v | v 1 = v 0} := by
    ext v
    constructor
    · intro h; exact ⟨slopeLevel h, slope_feasible.1 h.2⟩
    · rintro ⟨⟨h0, h1⟩, h2⟩
      refine ⟨⟨h0, ?_⟩, slope_feasible.2 h2⟩
      change v 0 - Real.log (v 0) ≤ 1.1 - Real.log 1.1 at h1
      change v 1 - Real.log (v 0) ≤ 1.1 - Real.log 1.1
      rw [show v 1 = v 0 from h2]
      exact h1
  rw [he]
  exact (logLevel_closed.preimage (continuous_pi fun _ => continuous_apply 0)).inter
    (isClosed_eq (continuous_apply 1) (continuous_apply 0))

theorem slope_curvature : slopeProblem.Curvature (slopeProblem.level slopeGuess.real) 0.4 1 := by
  intro v hv p hp
  have h := logHessian _ (slopeLevel hv) (fun _ => p 0)
  have e1 : (fun _ : Fin 1 => p 0) ⬝ᵥ logCost.H (fun _ => v 0) *ᵥ (fun _ => p 0) = ((v 0) ^ 2)⁻¹ * (p 0 * p 0) := by
    simp [logCost, mulVec, dotProduct]; ring
  have e2 : (fun _ : Fin 1 => p 0) ⬝ᵥ (fun _ => p 0) = p 0 * p 0 := by simp [dotProduct]
  have e3 : p ⬝ᵥ slopeCost.H v *ᵥ p = ((v 0) ^ 2)⁻¹ * (p 0 * p 0) := by
    simp [slopeCost, mulVec, dotProduct, Fin.sum_univ_two]; ring
  have e4 : p ⬝ᵥ p = 2 * (p 0 * p 0) := by rw [dotProduct, Fin.sum_univ_two, slope_null hp]; ring
  rw [e1, e2] at h
  show 0.4 * (p ⬝ᵥ p) ≤ p ⬝ᵥ slopeCost.H v *ᵥ p ∧ p ⬝ᵥ slopeCost.H v *ᵥ p ≤ 1 * (p ⬝ᵥ p)
  rw [e3, e4]
  norm_num at h ⊢
  constructor <;> linarith [h.1, h.2]

theorem slope_lipschitz : slopeProblem.cost.LipschitzHessian (slopeProblem.level slopeGuess.real) 4 := by
  intro v hv w hw q r
  have h := logLipschitz _ (slopeLevel hv) _ (slopeLevel hw) (fun _ => q 0) (fun _ => r 0)
  have e : r ⬝ᵥ slopeCost.H w *ᵥ q - r ⬝ᵥ slopeCost.H v *ᵥ q =
      (fun _ : Fin 1 => r 0) ⬝ᵥ logCost.H (fun _ => w 0) *ᵥ (fun _ => q 0) -
        (fun _ : Fin 1 => r 0) ⬝ᵥ logCost.H (fun _ => v 0) *ᵥ (fun _ => q 0) := by
    simp [slopeCost, logCost, mulVec, dotProduct, Fin.sum_univ_two]
  show r ⬝ᵥ slopeCost.H w *ᵥ q - r ⬝ᵥ slopeCost.H v *ᵥ q ≤ _
  rw [e]
  refine h.trans ?_
  rw [euclid_one, euclid_one, euclid_one]
  have h1 : ∀ z : Fin 2 → ℝ, |z 0| ≤ euclid z := fun z => abs_le_euclid z 0
  exact mul_le_mul (mul_le_mul (mul_le_mul_of_nonneg_left (h1 (w - v)) (by norm_num)) (h1 q) (abs_nonneg _)
    (mul_nonneg (by norm_num) (euclid_nonneg _))) (h1 r) (abs_nonneg _)
    (mul_nonneg (mul_nonneg (by norm_num) (euclid_nonneg _)) (euclid_nonneg _))

theorem slope_plain : ∀ v ∈ slopeProblem.level slopeGuess.real, ∀ y, plainEnv.Plain (slopeProblem.system v y) :=
  fun v hv y => plainEnv_plain (slopeProblem.system_solvable (fun z hz => by
    have := congrFun hz 0
    funext i
    rw [Subsingleton.elim i 0]
    simpa [slopeProblem, mulVec, dotProduct] using this) (fun p hp hne => by
    have h1 : 0 < p ⬝ᵥ p := lt_of_le_of_ne (dot_self_nonneg p) fun h => hne (dotProduct_self_eq_zero.1 h.symm)
    have h2 := (slope_curvature v hv p hp).1
    have h3 : 0 < 0.4 * (p ⬝ᵥ p) := mul_pos (by norm_num) h1
    exact h3.trans_le h2) y)

theorem slopeLevel_convex : Convex ℝ (slopeProblem.level slopeGuess.real) := by
  intro v hv w hw a b ha hb hab
  have hf : (a • v + b • w) ∈ slopeProblem.feasible := by
    rw [slope_feasible]
    simp [slope_feasible.1 hv.2, slope_feasible.1 hw.2]
  have h := logLevel_convex (slopeLevel hv) (slopeLevel hw) ha hb hab
  refine ⟨⟨h.1, ?_⟩, hf⟩
  have h2 := h.2
  change (a • v + b • w) 0 - Real.log ((a • v + b • w) 0) ≤ 1.1 - Real.log 1.1 at h2
  show (a • v + b • w) 1 - Real.log ((a • v + b • w) 0) ≤ 1.1 - Real.log 1.1
  rw [slope_feasible.1 hf]
  exact h2

theorem slopeLevel_box : ∀ v ∈ slopeProblem.level slopeGuess.real, ∀ j, |v j| ≤ 1e10 := fun v hv j => by
  have := logLevel_box _ (slopeLevel hv) 0
  fin_cases j
  · exact this
  · have e := slope_feasible.1 hv.2
    show |v 1| ≤ _
    rw [e]; exact this

theorem slope_limit : slopeCost.f slopeGuess.real - 1 <
    (((2000000000 : ℤ) : ℝ) - 1) * affineDecrease 0.4 1 4 (1e-2 * Scaling.f (.identity : Scaling 1 0)) := by
  have a2 := Real.one_sub_inv_le_log_of_pos (show (0 : ℝ) < 1.1 by norm_num)
  show 1.1 - Real.log 1.1 - 1 < (((2000000000 : ℤ) : ℝ) - 1) * affineDecrease 0.4 1 4 (1e-2 * 1)
  have e : affineDecrease 0.4 1 4 (1e-2 * 1) = 7.92e-12 := by
    rw [affineDecrease, shortStep, min_eq_right (by norm_num), min_eq_right (by norm_num)]; norm_num
  rw [e]
  push_cast
  norm_num at a2 ⊢
  linarith

/-- Guesses that are not worse have smaller level sets. -/
theorem slope_sub {u : Fin 2 → ℝ} (h : slopeCost.f u ≤ slopeCost.f slopeGuess.real) :
    slopeProblem.level u ⊆ slopeProblem.level slopeGuess.real :=
  fun _ hv => ⟨⟨hv.1.1, hv.1.2.trans h⟩, hv.2⟩

theorem slope_sub_closed {u : Fin 2 → ℝ} (h : slopeCost.f u ≤ slopeCost.f slopeGuess.real) :
    IsClosed (slopeProblem.level u) := by
  have he : slopeProblem.level u = slopeProblem.level slopeGuess.real ∩ slopeCost.f ⁻¹' Set.Iic (slopeCost.f u) := by
    ext v
    exact ⟨fun hv => ⟨slope_sub h hv, hv.1.2⟩, fun hv => ⟨⟨hv.1.1.1, hv.2⟩, hv.1.2⟩⟩
  rw [he]
  refine ContinuousOn.preimage_isClosed_of_isClosed (fun v hv => ?_) slopeLevel_closed isClosed_Iic
  exact (slopeCost.deriv v hv.1.1).continuousAt.continuousWithinAt

theorem slope_low {v : Fin 2 → ℝ} (h : v ∈ slopeCost.dom) (hf : v ∈ slopeProblem.feasible) : 1 ≤ slopeCost.f v := by
  have e := slope_feasible.1 hf
  show 1 ≤ v 1 - Real.log (v 0)
  have := Real.log_le_sub_one_of_pos (show 0 < v 0 from h)
  rw [e]; linarith

/-- The run ends with SUCCESS at a point of the constraint; the cost alone is not bounded from below. -/
example : ∃ res, sqp plainEnv ⟨1e-2, 2000000000, .pinf, false⟩ slopeNlp [] slopeGuess .start = some res ∧
    res.status = .success ∧ res.x.real 1 = res.x.real 0 ∧ 0.8 ≤ res.x.real 0 ∧ res.x.real 0 ≤ 1.1 := by
  have hmem : slopeGuess.real ∈ slopeProblem.cost.dom := show (0 : ℝ) < 1.1 by norm_num
  have hfeas : slopeGuess.real ∈ slopeProblem.feasible := slope_feasible.2 rfl
  obtain ⟨res, h1, h2, -, -, h3, h4, h5, -⟩ := sqp_affine_succeeds (env := plainEnv)
    (opts := ⟨1e-2, 2000000000, .pinf, false⟩) (by norm_num) slopeNlp_isAffine trivial (by norm_num) (x := slopeGuess)
    (fun _ => rfl) hmem hfeas (fun _ => rfl) slope_plain slopeLevel_closed slopeLevel_box (low := 1)
    (fun v hv => slope_low hv.1.1 hv.2) (a := 0.4) (b := 1) (L := 4) (by norm_num) (by norm_num) (by norm_num)
    slope_curvature (by norm_num) slope_lipschitz (cbs := []) (by simp) rfl slope_limit
  obtain ⟨b1, b2⟩ := logLevel (slopeLevel ⟨⟨h3, h5⟩, h4⟩)
  exact ⟨res, h1, h2, slope_feasible.1 h4, b1, b2⟩

/-- The distance from the minimiser (1, 1). -/
example : ∃ z : Fin 2 → ℝ, z 0 = 1 ∧ z 1 = 1 ∧
    ∃ res, sqp plainEnv ⟨1e-2, 2000000000, .pinf, false⟩ slopeNlp [] slopeGuess .start = some res ∧
      res.status = .success ∧ 0.4 ^ 2 * ((res.x.real - z) ⬝ᵥ (res.x.real - z)) ≤
        (slopeCost.g res.x.real - slopeProblem.Aᵀ *ᵥ res.y.real) ⬝ᵥ (slopeCost.g res.x.real - slopeProblem.Aᵀ *ᵥ res.y.real) := by
  have hmem : slopeGuess.real ∈ slopeProblem.cost.dom := show (0 : ℝ) < 1.1 by norm_num
  have hfeas : slopeGuess.real ∈ slopeProblem.feasible := slope_feasible.2 rfl
  obtain ⟨z, hz, hzf, hmin, h⟩ := sqp_affine_convex (env := plainEnv)
    (opts := ⟨1e-2, 2000000000, .pinf, false⟩) (by norm_num) slopeNlp_isAffine trivial (by norm_num) (x := slopeGuess)
    (fun _ => rfl) hmem hfeas (fun _ => rfl) slope_plain slopeLevel_closed slopeLevel_convex slopeLevel_box
    (a := 0.4) (b := 1) (L := 4) (by norm_num) (by norm_num) (by norm_num)
    slope_curvature (by norm_num) slope_lipschitz (cbs := []) (by simp) rfl
  obtain ⟨res, h1, h2, -, -, -, -, h3⟩ := h (lt_of_le_of_lt (sub_le_sub_left (slope_low hz hzf) _) slope_limit)
  have hz1 := slope_feasible.1 hzf
  have hz0 : z 0 = 1 := by
    have a1 := hmin (fun _ => 1) (show (0 : ℝ) < 1 by norm_num) (slope_feasible.2 rfl)
    change z 1 - Real.log (z 0) ≤ 1 - Real.log 1 at a1
    rw [hz1, Real.log_one, sub_zero] at a1
    by_contra hne
    have := Real.log_lt_sub_one_of_pos (show 0 < z 0 from hz) hne
    linarith
  exact ⟨z, hz0, hz1.trans hz0, res, h1, h2, h3⟩

end Slp
