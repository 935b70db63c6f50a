import Verif.Solver.DescentSpec
import Mathlib.Analysis.Calculus.Deriv.MeanValue
import Mathlib.Analysis.Calculus.FDeriv.Symmetric
import Mathlib.Topology.Order.IntermediateValue

/-! Sufficient decrease along Newton directions, for C56. -/

namespace Slp

open Matrix Set Topology

variable {n : ℕ}

theorem dotMap_apply (g v : Fin n → ℝ) : dotMap g v = g ⬝ᵥ v := by
  simp [dotMap, dotProduct]

theorem mulMap_apply (H : Matrix (Fin n) (Fin n) ℝ) (v : Fin n → ℝ) : mulMap H v = H *ᵥ v := rfl

/-- The Hessian is symmetric. -/
theorem SmoothCost.symm (c : SmoothCost n) {v : Fin n → ℝ} (hv : v ∈ c.dom) : (c.H v)ᵀ = c.H v := by
  have h2 : HasFDerivAt (fun u => dotMap (c.g u)) (∑ i, (((ContinuousLinearMap.proj i : (Fin n → ℝ) →L[ℝ] ℝ).comp
      (mulMap (c.H v))).smulRight (ContinuousLinearMap.proj i : (Fin n → ℝ) →L[ℝ] ℝ))) v := by
    unfold dotMap
    refine HasFDerivAt.fun_sum fun i _ => ?_
    have h1 := (ContinuousLinearMap.proj i : (Fin n → ℝ) →L[ℝ] ℝ).hasFDerivAt.comp v (c.deriv2 v hv)
    exact h1.smul_const (ContinuousLinearMap.proj i : (Fin n → ℝ) →L[ℝ] ℝ)
  have h3 := second_derivative_symmetric_of_eventually (f := c.f) (f' := fun u => dotMap (c.g u))
    (Filter.mem_of_superset (c.isOpen.mem_nhds hv) fun u hu => c.deriv u hu) h2
  ext i j
  have h4 := h3 (Pi.single i 1) (Pi.single j 1)
  simp only [_root_.sum_apply, ContinuousLinearMap.smulRight_apply, ContinuousLinearMap.comp_apply,
    _root_.smul_apply, ContinuousLinearMap.proj_apply, mulMap_apply, smul_eq_mul] at h4
  simpa [Pi.single_apply] using h4

/-- Along a line. -/
theorem SmoothCost.deriv_line (c : SmoothCost n) (v p : Fin n → ℝ) {t : ℝ} (ht : v + t • p ∈ c.dom) :
    HasDerivAt (fun s : ℝ => c.f (v + s • p)) (c.g (v + t • p) ⬝ᵥ p) t := by
  have h1 : HasDerivAt (fun s : ℝ => v + s • p) p t := by
    simpa using ((hasDerivAt_id t).smul_const p).const_add v
  have := (c.deriv _ ht).comp_hasDerivAt t h1
  rwa [dotMap_apply] at this

theorem SmoothCost.deriv2_line (c : SmoothCost n) (v p : Fin n → ℝ) {t : ℝ} (ht : v + t • p ∈ c.dom) :
    HasDerivAt (fun s : ℝ => c.g (v + s • p) ⬝ᵥ p) (p ⬝ᵥ c.H (v + t • p) *ᵥ p) t := by
  have h1 : HasDerivAt (fun s : ℝ => v + s • p) p t := by
    simpa using ((hasDerivAt_id t).smul_const p).const_add v
  have h2 := (c.deriv2 _ ht).comp_hasDerivAt t h1
  have h3 := (dotMap p).hasFDerivAt.comp_hasDerivAt t h2
  simp only [mulMap_apply, dotMap_apply, Function.comp_def] at h3
  refine h3.congr_of_eventuallyEq ?_
  exact Filter.Eventually.of_forall fun s => dotProduct_comm _ _

/-- The quadratic bound while the segment stays among points with bounded curvature. -/
theorem SmoothCost.quadratic_bound (c : SmoothCost n) {v p : Fin n → ℝ} {a B : ℝ} (ha : 0 ≤ a)
    (hd : ∀ t ∈ Icc 0 a, v + t • p ∈ c.dom ∧ p ⬝ᵥ c.H (v + t • p) *ᵥ p ≤ B) :
    c.f (v + a • p) ≤ c.f v + a * (c.g v ⬝ᵥ p) + a ^ 2 / 2 * B := by
  have h1 : ∀ t ∈ Icc 0 a, c.g (v + t • p) ⬝ᵥ p ≤ c.g v ⬝ᵥ p + t * B := by
    intro t ht
    have hm : AntitoneOn (fun s : ℝ => c.g (v + s • p) ⬝ᵥ p - s * B) (Icc 0 a) := by
      have hder : ∀ s ∈ Icc 0 a, HasDerivAt (fun s : ℝ => c.g (v + s • p) ⬝ᵥ p - s * B)
          (p ⬝ᵥ c.H (v + s • p) *ᵥ p - B) s := fun s hs => by
        have := (c.deriv2_line v p (hd s hs).1).fun_sub ((hasDerivAt_id' s).mul_const B)
        rwa [one_mul] at this
      refine antitoneOn_of_deriv_nonpos (convex_Icc 0 a) (fun s hs => (hder s hs).continuousAt.continuousWithinAt) ?_ ?_
      · exact fun s hs => (hder s (interior_subset hs)).differentiableAt.differentiableWithinAt
      · intro s hs
        rw [(hder s (interior_subset hs)).deriv]
        linarith [(hd s (interior_subset hs)).2]
    have := hm (left_mem_Icc.2 ha) ht ht.1
    simp only [zero_smul, add_zero, zero_mul, sub_zero] at this
    linarith
  have hm : AntitoneOn (fun s : ℝ => c.f (v + s • p) - s * (c.g v ⬝ᵥ p) - s ^ 2 / 2 * B) (Icc 0 a) := by
    have hder : ∀ s ∈ Icc 0 a, HasDerivAt (fun s : ℝ => c.f (v + s • p) - s * (c.g v ⬝ᵥ p) - s ^ 2 / 2 * B)
        (c.g (v + s • p) ⬝ᵥ p - c.g v ⬝ᵥ p - s * B) s := fun s hs => by
      have h2 := ((c.deriv_line v p (hd s hs).1).sub ((hasDerivAt_id s).mul_const (c.g v ⬝ᵥ p))).sub
        ((((hasDerivAt_id s).pow 2).div_const 2).mul_const B)
      simp only [id, one_mul, Nat.cast_ofNat, mul_one, Nat.add_one_sub_one, pow_one] at h2
      refine h2.congr_deriv ?_
      ring
    refine antitoneOn_of_deriv_nonpos (convex_Icc 0 a) (fun s hs => (hder s hs).continuousAt.continuousWithinAt) ?_ ?_
    · exact fun s hs => (hder s (interior_subset hs)).differentiableAt.differentiableWithinAt
    · intro s hs
      rw [(hder s (interior_subset hs)).deriv]
      linarith [h1 s (interior_subset hs)]
  have := hm (left_mem_Icc.2 ha) (right_mem_Icc.2 ha) ha
  simp only [zero_smul, add_zero, zero_mul, sub_zero] at this
  norm_num at this
  linarith

/-- From a point of a level set that is closed within a set of points reached by steps along a descent direction, these
steps stay in it as long as the cost is seen to be less than at the start. -/
theorem SmoothCost.stays_on (c : SmoothCost n) {u v p : Fin n → ℝ} {K : Set (Fin n → ℝ)} (hK : ∀ t : ℝ, v + t • p ∈ K)
    (hcl : IsClosed (c.level u ∩ K)) (hv : v ∈ c.level u)
    (hD : c.g v ⬝ᵥ p < 0) {a : ℝ}
    (hdec : ∀ t, 0 < t → t < a → (∀ r ∈ Icc 0 t, v + r • p ∈ c.level u) → c.f (v + t • p) < c.f v) :
    ∀ t ∈ Icc 0 a, v + t • p ∈ c.level u := by
  set s : Set ℝ := {t | ∀ r ∈ Icc (0 : ℝ) 1, v + (r * t) • p ∈ c.level u ∩ K} with hs
  have hsc : IsClosed s := by
    have : s = ⋂ r ∈ Icc (0 : ℝ) 1, (fun t : ℝ => v + (r * t) • p) ⁻¹' (c.level u ∩ K) := by
      ext t; simp [hs]
    rw [this]
    refine isClosed_biInter fun r _ => hcl.preimage ?_
    fun_prop
  have key : Icc 0 a ⊆ s := by
    refine IsClosed.Icc_subset_of_forall_mem_nhdsWithin (hsc.inter isClosed_Icc) ?_ ?_
    · intro r _
      exact ⟨by simpa using hv, hK _⟩
    · rintro t ⟨hts, ht0, hta⟩
      have hseg : ∀ r ∈ Icc 0 t, v + r • p ∈ c.level u := by
        intro r hr
        rcases eq_or_lt_of_le ht0 with h | h
        · have : r = 0 := by rw [← h] at hr; exact le_antisymm hr.2 hr.1
          rw [this, zero_smul, add_zero]; exact hv
        · have := hts (r / t) ⟨div_nonneg hr.1 ht0, (div_le_one h).2 hr.2⟩
          rw [div_mul_cancel₀ _ h.ne'] at this
          exact this.1
      have hend := hseg t (right_mem_Icc.2 ht0)
      -- a neighbourhood to the right stays below
      have hnear : ∀ᶠ r in 𝓝[>] t, v + r • p ∈ c.level u := by
        have hcont : ContinuousAt (fun r : ℝ => v + r • p) t := by fun_prop
        have hdom : ∀ᶠ r in 𝓝[>] t, v + r • p ∈ c.dom :=
          (hcont.eventually (c.isOpen.mem_nhds hend.1)).filter_mono nhdsWithin_le_nhds
        rcases eq_or_lt_of_le ht0 with h | h
        · have hd := c.deriv_line v p (t := 0) (by rw [zero_smul, add_zero]; exact hv.1)
          rw [zero_smul, add_zero] at hd
          have h0 := (hasDerivAt_iff_tendsto_slope.1 hd).eventually (gt_mem_nhds hD)
          rw [← h] at hdom ⊢
          have h0' : ∀ᶠ r in 𝓝[>] (0 : ℝ), slope (fun s : ℝ => c.f (v + s • p)) 0 r < 0 :=
            h0.filter_mono (nhdsWithin_mono _ fun r hr => ne_of_gt hr)
          filter_upwards [hdom, h0', self_mem_nhdsWithin] with r h1 h2 h3
          refine ⟨h1, le_trans ?_ hv.2⟩
          rw [slope_def_field, zero_smul, add_zero, sub_zero] at h2
          have := (div_lt_iff₀ (show (0 : ℝ) < r from h3)).1 h2
          linarith
        · have hlt : c.f (v + t • p) < c.f v := hdec t h hta hseg
          have hfc : ContinuousAt (fun r : ℝ => c.f (v + r • p)) t := (c.deriv_line v p hend.1).continuousAt
          have h1 := (hfc.eventually (gt_mem_nhds hlt)).filter_mono (nhdsWithin_le_nhds (s := Ioi t))
          filter_upwards [hdom, h1] with r h2 h3
          exact ⟨h2, h3.le.trans hv.2⟩
      obtain ⟨b, hb, hsub⟩ := mem_nhdsGT_iff_exists_Ioo_subset.1 hnear
      refine mem_nhdsGT_iff_exists_Ioo_subset.2 ⟨b, hb, fun y hy r hr => ?_⟩
      have hy0 : 0 ≤ y := ht0.trans hy.1.le
      rcases le_or_gt (r * y) t with h | h
      · exact ⟨hseg _ ⟨mul_nonneg hr.1 hy0, h⟩, hK _⟩
      · exact ⟨hsub ⟨h, lt_of_le_of_lt (mul_le_of_le_one_left hy0 hr.2) hy.2⟩, hK _⟩
  intro t ht
  have := key ht 1 ⟨zero_le_one, le_rfl⟩
  rw [one_mul] at this
  exact this.1

/-- From a point of a closed level set, steps along a descent direction stay in it as long as the cost is seen to be
less than at the start. -/
theorem SmoothCost.stays (c : SmoothCost n) {u v p : Fin n → ℝ} (hcl : IsClosed (c.level u)) (hv : v ∈ c.level u)
    (hD : c.g v ⬝ᵥ p < 0) {a : ℝ}
    (hdec : ∀ t, 0 < t → t < a → (∀ r ∈ Icc 0 t, v + r • p ∈ c.level u) → c.f (v + t • p) < c.f v) :
    ∀ t ∈ Icc 0 a, v + t • p ∈ c.level u :=
  c.stays_on (K := univ) (fun _ => mem_univ _) (by rwa [inter_univ]) hv hD hdec

/-- `‖Bp‖² ≤ b·pᵀBp` for a symmetric `B` between 0 and `b`. -/
theorem image_sq_le {B : Matrix (Fin n) (Fin n) ℝ} (hsym : Bᵀ = B) {b : ℝ} (hb : 0 < b)
    (h : ∀ w, 0 ≤ w ⬝ᵥ B *ᵥ w ∧ w ⬝ᵥ B *ᵥ w ≤ b * (w ⬝ᵥ w)) (p : Fin n → ℝ) :
    B *ᵥ p ⬝ᵥ B *ᵥ p ≤ b * (p ⬝ᵥ B *ᵥ p) := by
  set q := B *ᵥ p with hq
  have h1 := (h (p - (1 / b) • q)).1
  have h2 := (h q).2
  have e1 : p ⬝ᵥ B *ᵥ q = q ⬝ᵥ q := by
    rw [dotProduct_mulVec, ← Matrix.mulVec_transpose, hsym]
  rw [mulVec_sub, mulVec_smul, ← hq, sub_dotProduct, dotProduct_sub, dotProduct_sub, smul_dotProduct, smul_dotProduct,
    dotProduct_smul, dotProduct_smul, e1] at h1
  simp only [smul_eq_mul] at h1
  have h3 : 1 / b * (1 / b * (q ⬝ᵥ B *ᵥ q)) ≤ 1 / b * (1 / b * (b * (q ⬝ᵥ q))) :=
    mul_le_mul_of_nonneg_left (mul_le_mul_of_nonneg_left h2 (by positivity)) (by positivity)
  have h4 : 1 / b * (1 / b * (b * (q ⬝ᵥ q))) = 1 / b * (q ⬝ᵥ q) := by field_simp
  have h5 : 1 / b * (q ⬝ᵥ q) ≤ p ⬝ᵥ q := by linarith
  calc q ⬝ᵥ q = b * (1 / b * (q ⬝ᵥ q)) := by field_simp
    _ ≤ b * (p ⬝ᵥ q) := mul_le_mul_of_nonneg_left h5 hb.le

/-- What a step with a step size in the allowed range achieves. -/
theorem SmoothCost.armijo_on (c : SmoothCost n) {u v p : Fin n → ℝ} {K : Set (Fin n → ℝ)} (hK : ∀ t : ℝ, v + t • p ∈ K)
    (hcl : IsClosed (c.level u ∩ K)) (hv : v ∈ c.level u) {a b : ℝ}
    (hB : ∀ w ∈ c.level u ∩ K, p ⬝ᵥ c.H w *ᵥ p ≤ b * (p ⬝ᵥ p)) (hD : c.g v ⬝ᵥ p < 0)
    (hp : a * (p ⬝ᵥ p) ≤ -(c.g v ⬝ᵥ p)) {t : ℝ} (ht0 : 0 < t) (ht : t * b ≤ 2 * (1 - 1e-8) * a) :
    v + t • p ∈ c.level u ∧ c.f (v + t • p) ≤ c.f v + 1e-8 * t * (c.g v ⬝ᵥ p) := by
  have hpp : 0 ≤ p ⬝ᵥ p := Finset.sum_nonneg fun i _ => mul_self_nonneg _
  have h1 : t * (b * (p ⬝ᵥ p)) ≤ 2 * (1 - 1e-8) * -(c.g v ⬝ᵥ p) := by
    calc t * (b * (p ⬝ᵥ p)) = t * b * (p ⬝ᵥ p) := by ring
      _ ≤ 2 * (1 - 1e-8) * a * (p ⬝ᵥ p) := mul_le_mul_of_nonneg_right ht hpp
      _ = 2 * (1 - 1e-8) * (a * (p ⬝ᵥ p)) := by ring
      _ ≤ _ := mul_le_mul_of_nonneg_left hp (by norm_num)
  have h2 := c.stays_on hK hcl hv hD (a := t) fun s hs hst hseg => by
    have h3 := c.quadratic_bound (v := v) (p := p) hs.le fun r hr => ⟨(hseg r hr).1, hB _ ⟨hseg r hr, hK r⟩⟩
    have h4 : s * (b * (p ⬝ᵥ p)) < -2 * (c.g v ⬝ᵥ p) := by
      rcases le_or_gt 0 (b * (p ⬝ᵥ p)) with h5 | h5
      · refine lt_of_le_of_lt ((mul_le_mul_of_nonneg_right hst.le h5).trans h1) ?_
        norm_num
        linarith
      · nlinarith
    nlinarith
  refine ⟨h2 t (right_mem_Icc.2 ht0.le), ?_⟩
  have h3 := c.quadratic_bound (v := v) (p := p) ht0.le fun r hr => ⟨(h2 r hr).1, hB _ ⟨h2 r hr, hK r⟩⟩
  refine h3.trans ?_
  have h4 := mul_le_mul_of_nonneg_left h1 (by positivity : (0 : ℝ) ≤ t / 2)
  norm_num at h4 ⊢
  nlinarith

/-- What a step of Newton's method with a step size in the allowed range achieves. -/
theorem SmoothCost.armijo (c : SmoothCost n) {u v p : Fin n → ℝ} (hcl : IsClosed (c.level u)) (hv : v ∈ c.level u) {a b : ℝ}
    (hB : ∀ w ∈ c.level u, p ⬝ᵥ c.H w *ᵥ p ≤ b * (p ⬝ᵥ p)) (hD : c.g v ⬝ᵥ p < 0)
    (hp : a * (p ⬝ᵥ p) ≤ -(c.g v ⬝ᵥ p)) {t : ℝ} (ht0 : 0 < t) (ht : t * b ≤ 2 * (1 - 1e-8) * a) :
    v + t • p ∈ c.level u ∧ c.f (v + t • p) ≤ c.f v + 1e-8 * t * (c.g v ⬝ᵥ p) :=
  c.armijo_on (K := univ) (fun _ => mem_univ _) (by rwa [inter_univ]) hv (fun w hw => hB w hw.1) hD hp ht0 ht

end Slp
