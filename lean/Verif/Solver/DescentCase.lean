import Verif.Solver.DescentLemmas
import Verif.Solver.QuadraticProps
import Mathlib.Analysis.Convex.SpecificFunctions.Basic
import Mathlib.Analysis.SpecialFunctions.Log.Deriv

/-! A cost that is defined for positive values only, for the examples of C56 and C57: `x - log x`, started at 1.1. -/

namespace Slp

open Matrix

/-- `x - log x` for positive `x`. -/
noncomputable def logCost : SmoothCost 1 where
  dom := {v | 0 < v 0}
  f v := v 0 - Real.log (v 0)
  g v := fun _ => 1 - (v 0)⁻¹
  H v := Matrix.of fun _ _ => ((v 0) ^ 2)⁻¹
  isOpen := isOpen_lt continuous_const (continuous_apply 0)
  deriv v hv := by
    have h := (hasFDerivAt_apply (𝕜 := ℝ) (F' := fun _ : Fin 1 => ℝ) 0 v)
    refine (h.fun_sub (h.log (ne_of_gt hv))).congr_fderiv ?_
    ext w
    simp [dotMap]
    ring
  deriv2 v hv := by
    have h := (hasFDerivAt_apply (𝕜 := ℝ) (F' := fun _ : Fin 1 => ℝ) 0 v)
    rw [hasFDerivAt_pi']
    intro i
    have hd : HasDerivAt (fun y : ℝ => 1 - y⁻¹) (((v 0) ^ 2)⁻¹) (v 0) := by
      have := (hasDerivAt_inv (x := v 0) (ne_of_gt hv)).const_sub 1
      rwa [neg_neg] at this
    refine (hd.comp_hasFDerivAt v h).congr_fderiv ?_
    ext w
    show _ = (mulMap _ w) i
    rw [mulMap_apply]
    simp [mulVec, dotProduct]

/-- Its functions, with an infinite cost outside the domain. -/
noncomputable def logNlp : Nlp 1 0 0 where
  f x := if 0 < x.real 0 then .fin (logCost.f x.real) else .pinf
  g x j := .fin (logCost.g x.real j)
  H x _ _ i j := .fin (logCost.H x.real i j)
  ce _ := Fin.elim0
  Ae _ := Fin.elim0
  ci _ := Fin.elim0
  Ai _ := Fin.elim0
  scaling := .identity

theorem logNlp_isCost : logNlp.IsCost logCost :=
  ⟨fun _ _ h => if_pos h, fun x _ h => by show Fl.isFinite (if _ then _ else _) = false; rw [if_neg (show ¬ 0 < x.real 0 from h)]; rfl,
    fun _ _ _ _ => rfl, fun _ _ _ _ _ => ⟨rfl, fun _ => rfl⟩⟩

/-- The guess. -/
noncomputable def logGuess : Vec 1 := fun _ => .fin 1.1

theorem logLevel {v : Fin 1 → ℝ} (hv : v ∈ logCost.level logGuess.real) : 0.8 ≤ v 0 ∧ v 0 ≤ 1.1 := by
  obtain ⟨h0, h1⟩ := hv
  change 0 < v 0 at h0
  change v 0 - Real.log (v 0) ≤ 1.1 - Real.log 1.1 at h1
  have hlog : ∀ s t : ℝ, 0 < s → 0 < t → Real.log t ≤ Real.log s + (t / s - 1) := fun s t hs ht => by
    have := Real.log_le_sub_one_of_pos (div_pos ht hs)
    rw [Real.log_div ht.ne' hs.ne'] at this
    linarith
  constructor
  · by_contra hc
    have a1 := hlog 1.1 1 (by norm_num) (by norm_num)
    have a2 := hlog 1 0.9 (by norm_num) (by norm_num)
    have a3 := hlog 0.9 0.8 (by norm_num) (by norm_num)
    have a4 := hlog 0.8 (v 0) (by norm_num) h0
    norm_num at a1 a2 a3 a4 h1 hc
    linarith
  · by_contra hc
    have a4 := hlog 1.1 (v 0) (by norm_num) h0
    norm_num at a4 h1 hc
    linarith

theorem logLevel_closed : IsClosed (logCost.level logGuess.real) := by
  have he : logCost.level logGuess.real =
      {v | 0.8 ≤ v 0} ∩ (fun v : Fin 1 → ℝ => v 0 - Real.log (v 0)) ⁻¹' Set.Iic (logCost.f logGuess.real) := by
    ext v
    constructor
    · intro h; exact ⟨(logLevel h).1, h.2⟩
    · rintro ⟨h1, h2⟩
      exact ⟨lt_of_lt_of_le (by norm_num) (show (0.8 : ℝ) ≤ v 0 from h1), h2⟩
  rw [he]
  refine ContinuousOn.preimage_isClosed_of_isClosed ?_ (isClosed_le continuous_const (continuous_apply 0)) isClosed_Iic
  refine (continuous_apply 0).continuousOn.sub ((continuous_apply 0).continuousOn.log fun v hv => ?_)
  have : (0.8 : ℝ) ≤ v 0 := hv
  have h8 : (0 : ℝ) < 0.8 := by norm_num
  linarith

theorem logLevel_convex : Convex ℝ (logCost.level logGuess.real) := by
  intro v hv w hw a b ha hb hab
  have h := strictConcaveOn_log_Ioi.concaveOn.2 (x := v 0) hv.1 (y := w 0) hw.1 ha hb hab
  have hp := (convex_Ioi (0 : ℝ)) (x := v 0) hv.1 (y := w 0) hw.1 ha hb hab
  refine ⟨hp, ?_⟩
  have h1 : v 0 - Real.log (v 0) ≤ logCost.f logGuess.real := hv.2
  have h2 : w 0 - Real.log (w 0) ≤ logCost.f logGuess.real := hw.2
  show (a • v + b • w) 0 - Real.log ((a • v + b • w) 0) ≤ _
  simp only [Pi.add_apply, Pi.smul_apply, smul_eq_mul] at h ⊢
  have h3 := mul_le_mul_of_nonneg_left h1 ha
  have h4 := mul_le_mul_of_nonneg_left h2 hb
  have h5 : a * logCost.f logGuess.real + b * logCost.f logGuess.real = logCost.f logGuess.real := by
    rw [← add_mul, hab, one_mul]
  nlinarith

theorem logLevel_box : ∀ v ∈ logCost.level logGuess.real, ∀ j, |v j| ≤ 1e10 := fun v hv j => by
  obtain ⟨h1, h2⟩ := logLevel hv
  rw [Subsingleton.elim j 0, abs_le]
  norm_num at h1 h2 ⊢
  constructor <;> linarith

theorem logHessian : ∀ v ∈ logCost.level logGuess.real, ∀ q : Fin 1 → ℝ,
    0.8 * (q ⬝ᵥ q) ≤ q ⬝ᵥ logCost.H v *ᵥ q ∧ q ⬝ᵥ logCost.H v *ᵥ q ≤ 2 * (q ⬝ᵥ q) := fun v hv q => by
  obtain ⟨h1, h2⟩ := logLevel hv
  have h8 : (0 : ℝ) < v 0 := hv.1
  have e : q ⬝ᵥ logCost.H v *ᵥ q = ((v 0) ^ 2)⁻¹ * (q ⬝ᵥ q) := by
    simp [logCost, mulVec, dotProduct]; ring
  have hq : 0 ≤ q ⬝ᵥ q := Finset.sum_nonneg fun i _ => mul_self_nonneg _
  rw [e]
  have l1 : 0.8 ≤ ((v 0) ^ 2)⁻¹ := by
    rw [le_inv_comm₀ (by norm_num) (by positivity)]
    norm_num at h1 h2 ⊢
    nlinarith
  have l2 : ((v 0) ^ 2)⁻¹ ≤ 2 := by
    rw [inv_le_comm₀ (by positivity) (by norm_num)]
    norm_num at h1 h2 ⊢
    nlinarith
  exact ⟨mul_le_mul_of_nonneg_right l1 hq, mul_le_mul_of_nonneg_right l2 hq⟩

theorem euclid_one (q : Fin 1 → ℝ) : euclid q = |q 0| := by
  rw [euclid, dotProduct, Fin.sum_univ_one, Real.sqrt_mul_self_eq_abs]

theorem logLipschitz : logCost.LipschitzHessian (logCost.level logGuess.real) 4 := by
  intro v hv w hw q r
  obtain ⟨a1, a2⟩ := logLevel hv
  obtain ⟨b1, b2⟩ := logLevel hw
  have hv0 : (0 : ℝ) < v 0 := hv.1
  have hw0 : (0 : ℝ) < w 0 := hw.1
  have e : r ⬝ᵥ logCost.H w *ᵥ q - r ⬝ᵥ logCost.H v *ᵥ q = (((w 0) ^ 2)⁻¹ - ((v 0) ^ 2)⁻¹) * (r 0 * q 0) := by
    simp [logCost, mulVec, dotProduct]; ring
  have hd : |((w 0) ^ 2)⁻¹ - ((v 0) ^ 2)⁻¹| ≤ 4 * |w 0 - v 0| := by
    have e2 : ((w 0) ^ 2)⁻¹ - ((v 0) ^ 2)⁻¹ = -((w 0 - v 0) * ((w 0)⁻¹ ^ 2 * (v 0)⁻¹ + (w 0)⁻¹ * (v 0)⁻¹ ^ 2)) := by
      field_simp; ring
    have i1 : (w 0)⁻¹ ≤ 1.25 := by rw [inv_le_comm₀ hw0 (by norm_num)]; norm_num at b1 ⊢; exact b1
    have i2 : (v 0)⁻¹ ≤ 1.25 := by rw [inv_le_comm₀ hv0 (by norm_num)]; norm_num at a1 ⊢; exact a1
    have j1 : 0 < (w 0)⁻¹ := inv_pos.2 hw0
    have j2 : 0 < (v 0)⁻¹ := inv_pos.2 hv0
    have k1 : (w 0)⁻¹ ^ 2 * (v 0)⁻¹ ≤ 1.25 ^ 2 * 1.25 :=
      mul_le_mul (pow_le_pow_left₀ j1.le i1 2) i2 j2.le (by norm_num)
    have k2 : (w 0)⁻¹ * (v 0)⁻¹ ^ 2 ≤ 1.25 * 1.25 ^ 2 :=
      mul_le_mul i1 (pow_le_pow_left₀ j2.le i2 2) (by positivity) (by norm_num)
    rw [e2, abs_neg, abs_mul, mul_comm 4, abs_of_pos (show 0 < _ + _ by positivity)]
    refine mul_le_mul_of_nonneg_left ?_ (abs_nonneg _)
    linarith [show (1.25 : ℝ) ^ 2 * 1.25 + 1.25 * 1.25 ^ 2 ≤ 4 by norm_num]
  rw [e, euclid_one, euclid_one, euclid_one, Pi.sub_apply]
  calc _ ≤ |(((w 0) ^ 2)⁻¹ - ((v 0) ^ 2)⁻¹) * (r 0 * q 0)| := le_abs_self _
    _ = |((w 0) ^ 2)⁻¹ - ((v 0) ^ 2)⁻¹| * (|r 0| * |q 0|) := by rw [abs_mul, abs_mul]
    _ ≤ 4 * |w 0 - v 0| * (|r 0| * |q 0|) := mul_le_mul_of_nonneg_right hd (by positivity)
    _ = _ := by ring

end Slp
