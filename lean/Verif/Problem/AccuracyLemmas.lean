import Verif.Problem.OneStepLemmas
import Verif.Problem.OcpProps
import Mathlib.Topology.MetricSpace.ProperSpace.Real
import Mathlib.Analysis.Calculus.ContDiff.FiniteDimension

/-! The error of many steps of a control problem. Time, input, slope of the input and timestep are made part of the
state. -/

namespace Slp.Ode

open Set Finset

variable {ns ni : ℕ}

/-- The dynamics are four times continuously differentiable in all their arguments. -/
def Smooth (F : RealDynamics ns ni) : Prop :=
  ContDiff ℝ 4 fun p : ℝ × (Fin ns → ℝ) × (Fin ni → ℝ) × ℝ => F p.1 p.2.1 p.2.2.1 p.2.2.2

/-- Time, state, input, slope of the input, timestep. -/
abbrev Ext (ns ni : ℕ) := ℝ × (Fin ns → ℝ) × (Fin ni → ℝ) × (Fin ni → ℝ) × ℝ

/-- The dynamics of all of them. -/
def ext (F : RealDynamics ns ni) : Ext ns ni → Ext ns ni := fun p =>
  (1, F p.1 p.2.1 p.2.2.1 p.2.2.2.2, p.2.2.2.1, 0, 0)

theorem ext_smooth {F : RealDynamics ns ni} (hF : Smooth F) : ContDiff ℝ 4 (ext F) := by
  refine contDiff_const.prodMk (ContDiff.prodMk ?_ (ContDiff.prodMk ?_ contDiff_const))
  · have h : ContDiff ℝ 4 fun p : Ext ns ni => (p.1, p.2.1, p.2.2.1, p.2.2.2.2) := by fun_prop
    exact hF.comp h
  · fun_prop

theorem ext_solves {F : RealDynamics ns ni} {y : ℝ → Fin ns → ℝ} {a b d : ℝ} {u s : Fin ni → ℝ}
    (hy : ∀ t ∈ Icc a b, HasDerivWithinAt y (F t (y t) (u + (t - a) • s) d) (Icc a b) t) :
    Solves (ext F) (fun t => (t, y t, u + (t - a) • s, s, d)) a b := by
  intro t ht
  have h1 : HasDerivAt (fun t : ℝ => t - a) 1 t := (hasDerivAt_id t).sub_const a
  have h2 : HasDerivAt (fun t => u + (t - a) • s) s t := by
    simpa using (h1.smul_const s).const_add u
  exact (hasDerivWithinAt_id t _).prodMk ((hy t ht).prodMk (h2.hasDerivWithinAt.prodMk
    ((hasDerivWithinAt_const t _ s).prodMk (hasDerivWithinAt_const t _ d))))

theorem ext_step (F : RealDynamics ns ni) (h t d : ℝ) (x : Fin ns → ℝ) (u : Fin ni → ℝ) :
    step (ext F) h (t, x, u, 0, d) = (t + h, classicRk4 (fun t x => F t x u d) t h x, u, 0, d) := by
  simp only [step, ext, classicRk4, Prod.smul_mk, Prod.mk_add_mk, smul_zero, add_zero, smul_eq_mul, mul_one,
    mul_zero]
  congr 1
  ring

theorem ext_norm_sub (t d : ℝ) (x x' : Fin ns → ℝ) (u s : Fin ni → ℝ) :
    ‖((t, x, u, s, d) : Ext ns ni) - (t, x', u, s, d)‖ = ‖x - x'‖ := by
  simp [Prod.norm_def]

theorem ext_norm_le {t d R : ℝ} {x : Fin ns → ℝ} {u s : Fin ni → ℝ} (h1 : |t| ≤ R) (h2 : ‖x‖ ≤ R) (h3 : ‖u‖ ≤ R)
    (h4 : ‖s‖ ≤ R) (h5 : |d| ≤ R) : ‖((t, x, u, s, d) : Ext ns ni)‖ ≤ R := by
  simp only [Prod.norm_def, Real.norm_eq_abs]
  exact max_le h1 (max_le h2 (max_le h3 (max_le h4 h5)))

theorem sum_times {h : ℕ → ℝ} {n : ℕ} (hh : ∀ k < n, 0 ≤ h k) {k : ℕ} (hk : k ≤ n) :
    0 ≤ ∑ i ∈ range k, h i ∧ ∑ i ∈ range k, h i ≤ ∑ i ∈ range n, h i :=
  ⟨sum_nonneg fun i hi => hh i (by have := mem_range.1 hi; omega),
    sum_le_sum_of_subset_of_nonneg (range_mono hk) fun i hi _ => hh i (mem_range.1 hi)⟩

/-- From the error of one step to that of all steps. -/
theorem many_steps {K C R : ℝ} (hK : 0 ≤ K) (hC : 0 ≤ C) (hR : 0 ≤ R) :
    ∃ c > 0, ∃ e > 0, ∀ (n : ℕ) (h δ : ℕ → ℝ) (H ε γ : ℝ), 0 ≤ ε → 0 ≤ γ → 0 ≤ δ 0 → (∀ k < n, 0 ≤ h k ∧ h k ≤ H) →
      ∑ i ∈ range n, h i ≤ R → δ 0 + H ^ 4 + γ + n * ε ≤ e →
      (∀ k < n, δ k ≤ 1 / 6 → δ (k + 1) ≤ (1 + K * h k) * δ k + (C * h k ^ 5 + 2 * h k * γ) + ε) →
      ∀ k ≤ n, δ k ≤ c * (δ 0 + H ^ 4 + γ + n * ε) := by
  have c1 : 0 < Real.exp (K * R) * (1 + (C + 2) * R) := mul_pos (Real.exp_pos _) (by positivity)
  refine ⟨_, c1, 1 / (6 * (Real.exp (K * R) * (1 + (C + 2) * R))), by positivity, ?_⟩
  intro n h δ H ε γ hε hγ hδ hh hT hsmall hstep
  have H4 : 0 ≤ H ^ 4 := by positivity
  have hh' : ∀ k < n, 0 ≤ h k := fun k hk => (hh k hk).1
  have bound : ∀ k ≤ n, Real.exp (K * ∑ i ∈ range k, h i) *
      (δ 0 + (C * H ^ 4 + 2 * γ) * ∑ i ∈ range k, h i + k * ε) ≤
      Real.exp (K * R) * (1 + (C + 2) * R) * (δ 0 + H ^ 4 + γ + n * ε) := by
    intro k hk
    obtain ⟨t1, t2⟩ := sum_times hh' hk
    have hkn : (k : ℝ) ≤ n := by exact_mod_cast hk
    rw [mul_assoc (Real.exp (K * R))]
    refine mul_le_mul (Real.exp_le_exp.2 (mul_le_mul_of_nonneg_left (by linarith) hK)) ?_ (by positivity)
      (Real.exp_pos _).le
    have k1 : (C * H ^ 4 + 2 * γ) * ∑ i ∈ range k, h i ≤ (C * H ^ 4 + 2 * γ) * R :=
      mul_le_mul_of_nonneg_left (by linarith) (by positivity)
    have k2 : (k : ℝ) * ε ≤ n * ε := mul_le_mul_of_nonneg_right hkn hε
    have k3 : 0 ≤ (C + 2) * R * (δ 0 + n * ε) + 2 * R * H ^ 4 + C * R * γ := by positivity
    linarith
  intro k hk
  refine (gronwall (n := n) (r := 1 / 6) (c := C * H ^ 4 + 2 * γ) hK (by positivity) hε hδ hh' (fun k hk hs => ?_) ?_ k
    hk).trans (bound k hk)
  · refine (hstep k hk hs).trans ?_
    have h1 : h k ^ 4 ≤ H ^ 4 := pow_le_pow_left₀ (hh k hk).1 (hh k hk).2 4
    have h2 := mul_le_mul_of_nonneg_left h1 (mul_nonneg hC (hh k hk).1)
    linarith
  · refine (bound n le_rfl).trans ?_
    rw [le_div_iff₀ (by positivity)] at hsmall
    linarith

/-- Runge-Kutta steps, each with an error of at most `ε`, along a solution of the differential equation whose input is
constant during each step. -/
theorem rk_accurate {F : RealDynamics ns ni} (hF : Smooth F) (R : ℝ) : ∃ c > 0, ∃ e > 0,
    ∀ (n : ℕ) (h : ℕ → ℝ) (x : ℕ → Fin ns → ℝ) (u : ℕ → Fin ni → ℝ) (y : ℝ → Fin ns → ℝ) (H ε : ℝ), 0 ≤ ε →
      (∀ k < n, 0 ≤ h k ∧ h k ≤ H) → H ≤ e → ∑ i ∈ range n, h i ≤ R → (∀ k < n, ‖u k‖ ≤ R) →
      (∀ k < n, ∀ t ∈ Icc (∑ i ∈ range k, h i) (∑ i ∈ range (k + 1), h i), ‖y t‖ ≤ R ∧
        HasDerivWithinAt y (F t (y t) (u k) (h k)) (Icc (∑ i ∈ range k, h i) (∑ i ∈ range (k + 1), h i)) t) →
      (∀ k < n, ‖x (k + 1) - classicRk4 (fun t x => F t x (u k) (h k)) (∑ i ∈ range k, h i) (h k) (x k)‖ ≤ ε) →
      ‖x 0 - y 0‖ + H ^ 4 + n * ε ≤ e →
      ∀ k ≤ n, ‖x k - y (∑ i ∈ range k, h i)‖ ≤ c * (‖x 0 - y 0‖ + H ^ 4 + n * ε) := by
  obtain ⟨K, C, r, hK, hC, hr, one⟩ := rk_one_step (ext_smooth hF) (|R| + 1)
  obtain ⟨c, hc, e, he, many⟩ := many_steps hK hC (abs_nonneg R)
  refine ⟨c, hc, Min.min (Min.min e r) 1, by positivity, ?_⟩
  intro n h x u y H ε hε hh hH hT hu hy hx hsmall
  have hR : R ≤ |R| := le_abs_self R
  have he1 : Min.min (Min.min e r) 1 ≤ e := (min_le_left _ _).trans (min_le_left _ _)
  have he2 : Min.min (Min.min e r) 1 ≤ r := (min_le_left _ _).trans (min_le_right _ _)
  have he3 : Min.min (Min.min e r) 1 ≤ 1 := min_le_right _ _
  have hh' : ∀ k < n, 0 ≤ h k := fun k hk => (hh k hk).1
  have := many n h (fun k => ‖x k - y (∑ i ∈ range k, h i)‖) H ε 0 hε le_rfl (norm_nonneg _) hh (hT.trans hR)
  simp only [sum_range_zero, add_zero, mul_zero] at this
  refine this (hsmall.trans he1) fun k hk hs => ?_
  obtain ⟨t1, t2⟩ := sum_times hh' hk.le
  obtain ⟨t3, t4⟩ := sum_times hh' (Nat.succ_le_of_lt hk)
  have es := sum_range_succ h k
  have hk0 := (hh k hk).1
  have hkH := (hh k hk).2
  rw [es] at t3 t4
  set a := ∑ i ∈ range k, h i
  have hyk := hy k hk
  rw [es] at hyk
  rw [es]
  have s1 : Solves (ext F) (fun t => (t, y t, u k + (t - a) • (0 : Fin ni → ℝ), 0, h k)) a (a + h k) :=
    ext_solves fun t ht => by simpa using (hyk t ht).2
  have s2 := one _ a (h k) (a, x k, u k, 0, h k) hk0 (by linarith) s1 (fun t ht => by
    refine ext_norm_le ?_ ?_ ?_ (by simp; positivity) ?_
    · rw [abs_of_nonneg (t1.trans ht.1)]; linarith [ht.2]
    · linarith [(hyk t ht).1]
    · simpa using (hu k hk).trans (by linarith)
    · rw [abs_of_nonneg hk0]; linarith [abs_nonneg R]) (by
    simp only [smul_zero, add_zero]
    rw [ext_norm_sub]; exact hs)
  simp only [smul_zero, add_zero] at s2
  rw [ext_step, ext_norm_sub, ext_norm_sub] at s2
  have s3 := norm_sub_le_norm_sub_add_norm_sub (x (k + 1)) (classicRk4 (fun t x => F t x (u k) (h k)) a (h k) (x k))
    (y (a + h k))
  linarith [hx k hk]

/-- The difference of the two sides of the collocation constraint for one step. -/
noncomputable def residual (F : RealDynamics ns ni) (t h : ℝ) (x₀ x₁ : Fin ns → ℝ) (u₀ u₁ : Fin ni → ℝ) : Fin ns → ℝ :=
  (-3 / (2 * h)) • (x₀ - x₁) - (1 / 4 : ℝ) • (F t x₀ u₀ h + F (t + h) x₁ u₁ h) -
    F (t + h / 2) ((1 / 2 : ℝ) • (x₀ + x₁) + (h / 8) • (F t x₀ u₀ h - F (t + h) x₁ u₁ h)) ((1 / 2 : ℝ) • (u₀ + u₁)) h

theorem ext_defect (F : RealDynamics ns ni) {t h : ℝ} (hh : h ≠ 0) (x₀ x₁ : Fin ns → ℝ) (u₀ u₁ : Fin ni → ℝ) :
    defect (ext F) h (t, x₀, u₀, h⁻¹ • (u₁ - u₀), h) (t + h, x₁, u₁, h⁻¹ • (u₁ - u₀), h) =
      (0, residual F t h x₀ x₁ u₀ u₁, 0, 0, 0) := by
  simp only [defect, ext, residual, Prod.smul_mk, Prod.mk_add_mk, Prod.mk_sub_mk, smul_zero, add_zero, sub_self,
    smul_eq_mul]
  refine Prod.ext ?_ (Prod.ext ?_ (Prod.ext ?_ (Prod.ext ?_ ?_)))
  · show -3 / (2 * h) * (t - (t + h)) - 1 / 4 * (1 + 1) - 1 = 0
    field_simp; ring
  · dsimp only
    rw [show 1 / 2 * (t + (t + h)) + h / 8 * 0 = t + h / 2 by ring]
    rw [show (1 / 2 : ℝ) * (h + h) = h by ring]
  · show (-3 / (2 * h)) • (u₀ - u₁) - (1 / 4 : ℝ) • (h⁻¹ • (u₁ - u₀) + h⁻¹ • (u₁ - u₀)) -
      (1 / 2 : ℝ) • (h⁻¹ • (u₁ - u₀) + h⁻¹ • (u₁ - u₀)) = 0
    rw [show -3 / (2 * h) = -3 / 2 * h⁻¹ by field_simp]
    module
  · simp
  · simp

/-- The same for collocated steps and solutions whose input is linear during each step. -/
theorem simpson_accurate {F : RealDynamics ns ni} (hF : Smooth F) (R : ℝ) : ∃ c > 0, ∃ e > 0,
    ∀ (n : ℕ) (h : ℕ → ℝ) (x : ℕ → Fin ns → ℝ) (u : ℕ → Fin ni → ℝ) (y : ℝ → Fin ns → ℝ) (H ε : ℝ), 0 ≤ ε →
      (∀ k < n, 0 < h k ∧ h k ≤ H) → H ≤ e → ∑ i ∈ range n, h i ≤ R → (∀ k ≤ n, ‖u k‖ ≤ R ∧ ‖x k‖ ≤ R) →
      (∀ k < n, ‖u (k + 1) - u k‖ ≤ R * h k) →
      (∀ k < n, ∀ t ∈ Icc (∑ i ∈ range k, h i) (∑ i ∈ range (k + 1), h i), ‖y t‖ ≤ R ∧
        HasDerivWithinAt y (F t (y t) (u k + ((t - ∑ i ∈ range k, h i) / h k) • (u (k + 1) - u k)) (h k))
          (Icc (∑ i ∈ range k, h i) (∑ i ∈ range (k + 1), h i)) t) →
      (∀ k < n, ‖residual F (∑ i ∈ range k, h i) (h k) (x k) (x (k + 1)) (u k) (u (k + 1))‖ ≤ ε) →
      ‖x 0 - y 0‖ + H ^ 4 + ε ≤ e →
      ∀ k ≤ n, ‖x k - y (∑ i ∈ range k, h i)‖ ≤ c * (‖x 0 - y 0‖ + H ^ 4 + ε) := by
  obtain ⟨K, C, r, hK, hC, hr, one⟩ := collocation_one_step (ext_smooth hF) (2 * |R| + 1)
  obtain ⟨c, hc, e, he, many⟩ := many_steps hK hC (abs_nonneg R)
  refine ⟨c, hc, Min.min (Min.min e r) 1, by positivity, ?_⟩
  intro n h x u y H ε hε hh hH hT hb hs hy hx hsmall
  have hR : R ≤ |R| := le_abs_self R
  have hR0 := abs_nonneg R
  have he1 : Min.min (Min.min e r) 1 ≤ e := (min_le_left _ _).trans (min_le_left _ _)
  have he2 : Min.min (Min.min e r) 1 ≤ r := (min_le_left _ _).trans (min_le_right _ _)
  have he3 : Min.min (Min.min e r) 1 ≤ 1 := min_le_right _ _
  have hh' : ∀ k < n, 0 ≤ h k := fun k hk => (hh k hk).1.le
  have := many n h (fun k => ‖x k - y (∑ i ∈ range k, h i)‖) H 0 ε le_rfl hε (norm_nonneg _)
    (fun k hk => ⟨hh' k hk, (hh k hk).2⟩) (hT.trans hR)
  simp only [sum_range_zero, add_zero, mul_zero] at this
  refine this (hsmall.trans he1) fun k hk hd => ?_
  obtain ⟨t1, t2⟩ := sum_times hh' hk.le
  obtain ⟨t3, t4⟩ := sum_times hh' (Nat.succ_le_of_lt hk)
  have es := sum_range_succ h k
  obtain ⟨hk0, hkH⟩ := hh k hk
  rw [es] at t3 t4
  set a := ∑ i ∈ range k, h i
  have hyk := hy k hk
  have hxk := hx k hk
  rw [es] at hyk
  rw [es]
  obtain ⟨u0, x0⟩ := hb k hk.le
  obtain ⟨u1, x1⟩ := hb (k + 1) hk
  set s := (h k)⁻¹ • (u (k + 1) - u k) with hsdef
  have sn : ‖s‖ ≤ 2 * |R| + 1 := by
    rw [hsdef, norm_smul, norm_inv, Real.norm_of_nonneg hk0.le, inv_mul_le_iff₀ hk0]
    have := hs k hk
    nlinarith
  have lin : ∀ t, u k + ((t - a) / h k) • (u (k + 1) - u k) = u k + (t - a) • s := fun t => by
    rw [hsdef, smul_smul, div_eq_mul_inv]
  have s1 : Solves (ext F) (fun t => (t, y t, u k + (t - a) • s, s, h k)) a (a + h k) :=
    ext_solves fun t ht => by rw [← lin]; exact (hyk t ht).2
  have ha : |a| ≤ 2 * |R| + 1 := by rw [abs_of_nonneg t1]; linarith [abs_nonneg R]
  have ha1 : |a + h k| ≤ 2 * |R| + 1 := by rw [abs_of_nonneg t3]; linarith [abs_nonneg R]
  have hd : |h k| ≤ 2 * |R| + 1 := by rw [abs_of_pos hk0]; linarith [abs_nonneg R]
  have e1 : u k + h k • s = u (k + 1) := by
    rw [hsdef, smul_smul, mul_inv_cancel₀ hk0.ne', one_smul]; abel
  have zb : ∀ t ∈ Icc a (a + h k), ‖((t, y t, u k + (t - a) • s, s, h k) : Ext ns ni)‖ ≤ 2 * |R| + 1 := fun t ht => by
    refine ext_norm_le ?_ ?_ ?_ sn hd
    · rw [abs_of_nonneg (t1.trans ht.1)]; linarith [ht.2]
    · linarith [(hyk t ht).1]
    · refine (norm_add_le _ _).trans ?_
      rw [norm_smul, Real.norm_of_nonneg (by linarith [ht.1])]
      have k1 : (t - a) * ‖s‖ ≤ h k * ‖s‖ := mul_le_mul_of_nonneg_right (by linarith [ht.2]) (norm_nonneg _)
      have k2 : h k * ‖s‖ = ‖u (k + 1) - u k‖ := by
        rw [hsdef, norm_smul, norm_inv, Real.norm_of_nonneg hk0.le, mul_inv_cancel_left₀ hk0.ne']
      have k3 := hs k hk
      nlinarith [abs_nonneg R]
  have s2 := one _ a (h k) (a, x k, u k, s, h k) (a + h k, x (k + 1), u (k + 1), s, h k) hk0 (by linarith) s1 zb
    (ext_norm_le ha (by linarith) (by linarith) sn hd) (ext_norm_le ha1 (by linarith) (by linarith) sn hd)
  simp only [sub_self, zero_smul, add_zero, add_sub_cancel_left, e1] at s2
  rw [ext_norm_sub, ext_norm_sub, ext_defect F hk0.ne'] at s2
  have s3 : ‖((0, residual F a (h k) (x k) (x (k + 1)) (u k) (u (k + 1)), 0, 0, 0) : Ext ns ni)‖ ≤ ε := by
    simpa [Prod.norm_def, hε] using hxk
  have s4 := mul_le_mul_of_nonneg_left s3 (show 0 ≤ 2 * h k by linarith)
  linarith

end Slp.Ode
