import Verif.Solver.DescentProps

/-! C57: near a minimiser Newton's method converges quadratically. -/

namespace Slp

open Classical Matrix Set

variable {n : ℕ}

theorem euclid_nonneg (v : Fin n → ℝ) : 0 ≤ euclid v := Real.sqrt_nonneg _

theorem dot_self_nonneg (v : Fin n → ℝ) : 0 ≤ v ⬝ᵥ v := Finset.sum_nonneg fun _ _ => mul_self_nonneg _

theorem euclid_sq (v : Fin n → ℝ) : euclid v ^ 2 = v ⬝ᵥ v := Real.sq_sqrt (dot_self_nonneg v)

theorem euclid_smul {t : ℝ} (ht : 0 ≤ t) (v : Fin n → ℝ) : euclid (t • v) = t * euclid v := by
  unfold euclid
  rw [smul_dotProduct, dotProduct_smul, smul_eq_mul, smul_eq_mul, ← mul_assoc, Real.sqrt_mul (mul_nonneg ht ht),
    Real.sqrt_mul_self ht]

theorem abs_le_euclid (v : Fin n → ℝ) (j : Fin n) : |v j| ≤ euclid v := by
  refine Real.le_sqrt_of_sq_le ?_
  rw [sq_abs, sq]
  exact Finset.single_le_sum (f := fun j => v j * v j) (fun i _ => mul_self_nonneg _) (Finset.mem_univ j)

/-- A function whose derivative grows at most linearly. -/
theorem le_of_deriv_le_linear {φ φ' : ℝ → ℝ} {a K : ℝ} (ha : 0 ≤ a) (hφ : ∀ s ∈ Icc 0 a, HasDerivAt φ (φ' s) s)
    (hK : ∀ s ∈ Icc 0 a, φ' s ≤ φ' 0 + s * K) : φ a ≤ φ 0 + a * φ' 0 + a ^ 2 / 2 * K := by
  have hm : AntitoneOn (fun s : ℝ => φ s - s * φ' 0 - s ^ 2 / 2 * K) (Icc 0 a) := by
    have hder : ∀ s ∈ Icc 0 a, HasDerivAt (fun s : ℝ => φ s - s * φ' 0 - s ^ 2 / 2 * K) (φ' s - φ' 0 - s * K) s :=
        fun s hs => by
      have h2 := ((hφ s hs).fun_sub ((hasDerivAt_id' s).mul_const (φ' 0))).fun_sub
        (((hasDerivAt_pow 2 s).div_const 2).mul_const K)
      refine h2.congr_deriv ?_
      norm_num
    refine antitoneOn_of_deriv_nonpos (convex_Icc 0 a) (fun s hs => (hder s hs).continuousAt.continuousWithinAt) ?_ ?_
    · exact fun s hs => (hder s (interior_subset hs)).differentiableAt.differentiableWithinAt
    · intro s hs
      rw [(hder s (interior_subset hs)).deriv]
      linarith [hK s (interior_subset hs)]
  have := hm (left_mem_Icc.2 ha) (right_mem_Icc.2 ha) ha
  norm_num at this
  linarith

/-- A function whose derivative grows at most quadratically. -/
theorem le_of_deriv_le_quadratic {φ φ' : ℝ → ℝ} {a A K : ℝ} (ha : 0 ≤ a) (hφ : ∀ s ∈ Icc 0 a, HasDerivAt φ (φ' s) s)
    (hK : ∀ s ∈ Icc 0 a, φ' s ≤ φ' 0 + s * A + s ^ 2 / 2 * K) : φ a ≤ φ 0 + a * φ' 0 + a ^ 2 / 2 * A + a ^ 3 / 6 * K := by
  have hm : AntitoneOn (fun s : ℝ => φ s - s * φ' 0 - s ^ 2 / 2 * A - s ^ 3 / 6 * K) (Icc 0 a) := by
    have hder : ∀ s ∈ Icc 0 a, HasDerivAt (fun s : ℝ => φ s - s * φ' 0 - s ^ 2 / 2 * A - s ^ 3 / 6 * K)
        (φ' s - φ' 0 - s * A - s ^ 2 / 2 * K) s := fun s hs => by
      have h2 := (((hφ s hs).fun_sub ((hasDerivAt_id' s).mul_const (φ' 0))).fun_sub
        (((hasDerivAt_pow 2 s).div_const 2).mul_const A)).fun_sub (((hasDerivAt_pow 3 s).div_const 6).mul_const K)
      refine h2.congr_deriv ?_
      simp only [Nat.reduceSub, pow_one]
      push_cast
      ring
    refine antitoneOn_of_deriv_nonpos (convex_Icc 0 a) (fun s hs => (hder s hs).continuousAt.continuousWithinAt) ?_ ?_
    · exact fun s hs => (hder s (interior_subset hs)).differentiableAt.differentiableWithinAt
    · intro s hs
      rw [(hder s (interior_subset hs)).deriv]
      linarith [hK s (interior_subset hs)]
  have := hm (left_mem_Icc.2 ha) (right_mem_Icc.2 ha) ha
  norm_num at this
  linarith

/-- The derivative of `r · g` along a line. -/
theorem SmoothCost.deriv_gradient (c : SmoothCost n) (v p r : Fin n → ℝ) {t : ℝ} (ht : v + t • p ∈ c.dom) :
    HasDerivAt (fun s : ℝ => r ⬝ᵥ c.g (v + s • p)) (r ⬝ᵥ c.H (v + t • p) *ᵥ p) t := by
  have h1 : HasDerivAt (fun s : ℝ => v + s • p) p t := by
    simpa using ((hasDerivAt_id t).smul_const p).const_add v
  have h2 := (c.deriv2 _ ht).comp_hasDerivAt t h1
  have h3 := (dotMap r).hasFDerivAt.comp_hasDerivAt t h2
  simp only [mulMap_apply, dotMap_apply, Function.comp_def] at h3
  exact h3

/-- The Hessian along a segment. -/
theorem SmoothCost.hessian_line (c : SmoothCost n) {S : Set (Fin n → ℝ)} {L : ℝ} (hL : c.LipschitzHessian S L)
    {v p : Fin n → ℝ} {t : ℝ} (ht0 : 0 ≤ t) (hv : v ∈ S) (hvt : v + t • p ∈ S) (r : Fin n → ℝ) :
    r ⬝ᵥ c.H (v + t • p) *ᵥ p ≤ r ⬝ᵥ c.H v *ᵥ p + t * (L * euclid p ^ 2 * euclid r) := by
  have := hL v hv _ hvt p r
  rw [add_sub_cancel_left, euclid_smul ht0] at this
  nlinarith

/-- A full step that is short compared to the change of the Hessian: it stays in the level set, satisfies the Armijo
condition, and the gradient at its end is almost the one that the Hessian predicts. -/
theorem SmoothCost.full_step_on (c : SmoothCost n) {u v p : Fin n → ℝ} {K : Set (Fin n → ℝ)} (hK : ∀ t : ℝ, v + t • p ∈ K)
    (hcl : IsClosed (c.level u ∩ K)) (hv : v ∈ c.level u) {a L : ℝ} (ha : 0 < a) (hL0 : 0 ≤ L)
    (hL : c.LipschitzHessian (c.level u ∩ K) L) (hcurv : p ⬝ᵥ c.H v *ᵥ p = -(c.g v ⬝ᵥ p))
    (hpp : a * (p ⬝ᵥ p) ≤ -(c.g v ⬝ᵥ p)) (hp0 : p ≠ 0) (hLp : L * euclid p ≤ a) :
    v + p ∈ c.level u ∧ c.f (v + p) ≤ c.f v + 1e-8 * (c.g v ⬝ᵥ p) ∧
      euclid (c.g (v + p) - (c.g v + c.H v *ᵥ p)) ≤ L / 2 * euclid p ^ 2 := by
  have hppos : 0 < p ⬝ᵥ p := lt_of_le_of_ne (dot_self_nonneg p) fun h => hp0 (dotProduct_self_eq_zero.1 h.symm)
  have hD : c.g v ⬝ᵥ p < 0 := by nlinarith
  have hE := euclid_nonneg p
  have hEs := euclid_sq p
  have hvK : v ∈ c.level u ∩ K := ⟨hv, by simpa using hK 0⟩
  -- the cost along the step
  have hcubic : ∀ t, 0 ≤ t → (∀ r ∈ Icc 0 t, v + r • p ∈ c.level u) →
      c.f (v + t • p) ≤ c.f v + t * (c.g v ⬝ᵥ p) + t ^ 2 / 2 * -(c.g v ⬝ᵥ p) + t ^ 3 / 6 * (L * euclid p ^ 3) := by
    intro t ht0 hseg
    have h1 : ∀ s ∈ Icc 0 t, c.g (v + s • p) ⬝ᵥ p ≤ c.g v ⬝ᵥ p + s * -(c.g v ⬝ᵥ p) + s ^ 2 / 2 * (L * euclid p ^ 3) := by
      intro s hs
      have h2 := le_of_deriv_le_linear (φ := fun s : ℝ => p ⬝ᵥ c.g (v + s • p))
        (φ' := fun s => p ⬝ᵥ c.H (v + s • p) *ᵥ p) (a := s) (K := L * euclid p ^ 3) hs.1
        (fun r hr => c.deriv_gradient v p p (hseg r ⟨hr.1, hr.2.trans hs.2⟩).1) fun r hr => by
          have := c.hessian_line hL hr.1 hvK ⟨hseg r ⟨hr.1, hr.2.trans hs.2⟩, hK r⟩ p
          simp only [zero_smul, add_zero]
          calc _ ≤ _ := this
            _ = _ := by ring
      simp only [zero_smul, add_zero] at h2
      rw [dotProduct_comm _ p, ← hcurv]
      rw [dotProduct_comm (c.g v) p]
      exact h2
    have h3 := le_of_deriv_le_quadratic (φ := fun s : ℝ => c.f (v + s • p)) (φ' := fun s => c.g (v + s • p) ⬝ᵥ p) (a := t)
      (A := -(c.g v ⬝ᵥ p)) (K := L * euclid p ^ 3) ht0 (fun r hr => c.deriv_line v p (hseg r hr).1) fun r hr => by
        simp only [zero_smul, add_zero]
        exact h1 r hr
    simp only [zero_smul, add_zero] at h3
    exact h3
  have hcube : L * euclid p ^ 3 ≤ -(c.g v ⬝ᵥ p) := by
    calc L * euclid p ^ 3 = L * euclid p * euclid p ^ 2 := by ring
      _ ≤ a * euclid p ^ 2 := mul_le_mul_of_nonneg_right hLp (by positivity)
      _ ≤ _ := by rw [hEs]; exact hpp
  have hstay := c.stays_on hK hcl hv hD (a := 1) fun t ht0 ht1 hseg => by
    have h1 := hcubic t ht0.le hseg
    have h2 : t ^ 3 / 6 * (L * euclid p ^ 3) ≤ t ^ 3 / 6 * -(c.g v ⬝ᵥ p) :=
      mul_le_mul_of_nonneg_left hcube (by positivity)
    have h3 : t ^ 3 ≤ t := by nlinarith [mul_pos ht0 ht0]
    have h4 : t ^ 2 ≤ t := by nlinarith
    nlinarith
  have hend := hstay 1 ⟨zero_le_one, le_rfl⟩
  have hc1 := hcubic 1 zero_le_one hstay
  rw [one_smul] at hend hc1
  refine ⟨hend, ?_, ?_⟩
  · norm_num at hc1 ⊢
    linarith
  · -- the gradient at the end
    set r := c.g (v + p) - (c.g v + c.H v *ᵥ p) with hr
    have h2 := le_of_deriv_le_linear (φ := fun s : ℝ => r ⬝ᵥ c.g (v + s • p))
      (φ' := fun s => r ⬝ᵥ c.H (v + s • p) *ᵥ p) (a := 1) (K := L * euclid p ^ 2 * euclid r) zero_le_one
      (fun s hs => c.deriv_gradient v p r (hstay s hs).1) fun s hs => by
        have := c.hessian_line hL hs.1 hvK ⟨hstay s hs, hK s⟩ r
        simp only [zero_smul, add_zero]
        exact this
    simp only [zero_smul, add_zero, one_smul, one_mul] at h2
    have h3 : euclid r ^ 2 ≤ L / 2 * euclid p ^ 2 * euclid r := by
      rw [euclid_sq]
      have e : r ⬝ᵥ r = r ⬝ᵥ c.g (v + p) - r ⬝ᵥ c.g v - r ⬝ᵥ c.H v *ᵥ p := by
        nth_rw 2 [hr]
        rw [dotProduct_sub, dotProduct_add]
        ring
      rw [e]
      norm_num at h2 ⊢
      linarith
    rcases eq_or_lt_of_le (euclid_nonneg r) with h | h
    · rw [← h]; positivity
    · nlinarith

/-- The Newton step near a minimiser: it stays in the level set, satisfies the Armijo condition, and squares the
gradient. -/
theorem SmoothCost.newton_full_step (c : SmoothCost n) {u v p : Fin n → ℝ} (hcl : IsClosed (c.level u)) (hv : v ∈ c.level u)
    {a L : ℝ} (ha : 0 < a) (hL0 : 0 < L) (hL : c.LipschitzHessian (c.level u) L)
    (hp : c.H v *ᵥ p = -c.g v) (hpp : a * (p ⬝ᵥ p) ≤ -(c.g v ⬝ᵥ p)) (hp0 : p ≠ 0) (hnear : L * euclid (c.g v) ≤ a ^ 2) :
    v + p ∈ c.level u ∧ c.f (v + p) ≤ c.f v + 1e-8 * (c.g v ⬝ᵥ p) ∧
      euclid (c.g (v + p)) ≤ L / (2 * a ^ 2) * euclid (c.g v) ^ 2 := by
  have hppos : 0 < p ⬝ᵥ p := lt_of_le_of_ne (dot_self_nonneg p) fun h => hp0 (dotProduct_self_eq_zero.1 h.symm)
  have hD : c.g v ⬝ᵥ p < 0 := by nlinarith
  have hEs := euclid_sq p
  have hsmall : a * euclid p ≤ euclid (c.g v) := by
    refine Real.le_sqrt_of_sq_le ?_
    rw [mul_pow, hEs]
    have h2 : 0 ≤ (c.g v + a • p) ⬝ᵥ (c.g v + a • p) := dot_self_nonneg _
    rw [add_dotProduct, dotProduct_add, dotProduct_add, smul_dotProduct, smul_dotProduct, dotProduct_smul,
      dotProduct_smul, dotProduct_comm p (c.g v)] at h2
    simp only [smul_eq_mul] at h2
    nlinarith
  have hLp : L * euclid p ≤ a := by
    have h1 : L * (a * euclid p) ≤ a ^ 2 := (mul_le_mul_of_nonneg_left hsmall hL0.le).trans hnear
    nlinarith
  have hcurv : p ⬝ᵥ c.H v *ᵥ p = -(c.g v ⬝ᵥ p) := by rw [hp, dotProduct_neg, dotProduct_comm]
  obtain ⟨h1, h2, h3⟩ := c.full_step_on (K := univ) (fun _ => mem_univ _) (by rwa [inter_univ]) hv ha hL0.le
    (by rwa [inter_univ]) hcurv hpp hp0 hLp
  rw [hp, add_neg_cancel, sub_zero] at h3
  refine ⟨h1, h2, h3.trans ?_⟩
  have h5 : (a * euclid p) ^ 2 ≤ euclid (c.g v) ^ 2 := pow_le_pow_left₀ (mul_nonneg ha.le (euclid_nonneg p)) hsmall 2
  rw [div_mul_eq_mul_div, div_mul_eq_mul_div, div_le_div_iff₀ (by norm_num) (by positivity)]
  nlinarith

/-- What a run from a guess near a minimiser maintains: the scaled gradient is at most `(1/2)^(2^k)` after `k`
iterations. -/
def NearAfter (c : SmoothCost n) (a L : ℝ) (k : ℕ) (v : Fin n → ℝ) : Prop :=
  L / (2 * a ^ 2) * euclid (c.g v) ≤ (1 / 2) ^ 2 ^ k

theorem NearAfter.near {c : SmoothCost n} {a L : ℝ} {k : ℕ} {v : Fin n → ℝ} (ha : 0 < a) (h : NearAfter c a L k v) :
    L * euclid (c.g v) ≤ a ^ 2 := by
  have h1 : ((1 : ℝ) / 2) ^ 2 ^ k ≤ 1 / 2 := by
    calc ((1 : ℝ) / 2) ^ 2 ^ k ≤ (1 / 2) ^ 1 := pow_le_pow_of_le_one (by norm_num) (by norm_num) Nat.one_le_two_pow
      _ = _ := pow_one _
  have h2 := h.trans h1
  rw [div_mul_eq_mul_div, div_le_div_iff₀ (by positivity) (by norm_num)] at h2
  linarith

theorem NearAfter.succ {c : SmoothCost n} {a L : ℝ} {k : ℕ} {v w : Fin n → ℝ} (hL : 0 < L)
    (h : NearAfter c a L k v) (hw : euclid (c.g w) ≤ L / (2 * a ^ 2) * euclid (c.g v) ^ 2) : NearAfter c a L (k + 1) w := by
  unfold NearAfter at *
  have hq : 0 ≤ L / (2 * a ^ 2) := by positivity
  calc L / (2 * a ^ 2) * euclid (c.g w) ≤ L / (2 * a ^ 2) * (L / (2 * a ^ 2) * euclid (c.g v) ^ 2) :=
        mul_le_mul_of_nonneg_left hw hq
    _ = (L / (2 * a ^ 2) * euclid (c.g v)) ^ 2 := by ring
    _ ≤ ((1 / 2) ^ 2 ^ k) ^ 2 := pow_le_pow_left₀ (mul_nonneg hq (euclid_nonneg _)) h 2
    _ = _ := by rw [← pow_mul, pow_succ]

/-- What the loop returns. -/
structure FastConverged (opts : SolverOptions) (P : Nlp n 0 0) (c : SmoothCost n) (u : Fin n → ℝ) (a L : ℝ)
    (res : NewtonResult n) : Prop where
  finite : res.x.Finite
  level : res.x.real ∈ c.level u
  near : NearAfter c a L res.iterations res.x.real
  few : ∀ k : ℕ, (2 * a ^ 2 / L) * (1 / 2) ^ 2 ^ k ≤ opts.tolerance * P.scaling.f → res.iterations ≤ k
  status : res.status = .success ∧ (∀ j, |c.g res.x.real j| ≤ opts.tolerance * P.scaling.f) ∨
    res.status = .callbackRequestedStop ∨ res.status = .timeout ∨
    res.status = .maxIterationsExceeded ∧ opts.maxIterations ≤ res.iterations

theorem newtonLoop_fast {env : Env} {opts : SolverOptions} (ht : 0 < opts.tolerance) {P : Nlp n 0 0}
    {c : SmoothCost n} (hP : P.IsCost c) (hS : 0 < P.scaling.f) {u : Fin n → ℝ} (hcl : IsClosed (c.level u))
    (hbox : ∀ v ∈ c.level u, ∀ j, |v j| ≤ 1e10) {a L : ℝ} (ha : 0 < a) (hL0 : 0 < L)
    (hH : ∀ v ∈ c.level u, ∀ q : Fin n → ℝ, a * (q ⬝ᵥ q) ≤ q ⬝ᵥ c.H v *ᵥ q)
    (hL : c.LipschitzHessian (c.level u) L)
    (hE : ∀ v ∈ c.level u, env.Plain ⟨n, 0, fun j l => .fin (c.H v j l), fun j => .fin (-c.g v j)⟩)
    {cbs : List Callback} {start : ℝ} (r : ℕ) (st : NewtonState n) (w : World)
    (v : Fin n → ℝ) (hst : st.At env P c v) (hv : v ∈ c.level u) (hnear : NearAfter c a L st.iterations v)
    (hfew : ∀ k : ℕ, (2 * a ^ 2 / L) * (1 / 2) ^ 2 ^ k ≤ opts.tolerance * P.scaling.f → st.iterations ≤ k)
    (res : NewtonResult n)
    (hres : newtonLoop env opts P cbs start r st w = some res) : FastConverged opts P c u a L res := by
  induction r generalizing st w v with
  | zero => exact absurd hres (by simp [newtonLoop])
  | succ r ih =>
    have hxf : st.x.Finite := fun j => by rw [hst.x]; rfl
    have hxr : st.x.real = v := by rw [hst.x]; rfl
    have here : ∀ status w', (status = .success ∧ (∀ j, |c.g v j| ≤ opts.tolerance * P.scaling.f) ∨
        status = .callbackRequestedStop ∨ status = .timeout) → FastConverged opts P c u a L (st.exit status w') := by
      intro status w' h
      refine ⟨hxf, ?_, ?_, hfew, ?_⟩
      · show st.x.real ∈ _; rw [hxr]; exact hv
      · show NearAfter c a L st.iterations st.x.real; rw [hxr]; exact hnear
      · show status = .success ∧ (∀ j, |c.g st.x.real j| ≤ _) ∨ _
        rw [hxr]
        rcases h with h | h | h
        · exact .inl h
        · exact .inr (.inl h)
        · exact .inr (.inr (.inl h))
    rw [newtonLoop] at hres
    by_cases c1 : ¬ st.E0 > .fin opts.tolerance
    · rw [if_pos c1] at hres
      obtain rfl := Option.some.inj hres
      refine here _ _ (.inl ⟨rfl, ?_⟩)
      rw [hst.E0, gt_iff_lt, Fl.fin_lt, not_lt] at c1
      exact (unscaledInfNewton_le hS ht.le).1 c1
    rw [if_neg c1] at hres
    have hbig : ∃ j, opts.tolerance * P.scaling.f < |c.g v j| := by
      rw [not_not, hst.E0, gt_iff_lt, Fl.fin_lt] at c1
      by_contra hc
      push Not at hc
      exact absurd ((unscaledInfNewton_le hS ht.le).2 hc) (not_le.2 c1)
    have hdiv : ¬ diverging env st.x := by
      rw [diverging, not_or, not_not]
      refine ⟨?_, hxf⟩
      rw [infNormF, if_pos hxf, hxr, gt_iff_lt, Fl.fin_lt, not_lt, infNorm_le]
      exact ⟨by norm_num, hbox v hv⟩
    rw [if_neg hdiv] at hres
    simp only at hres
    by_cases c3 : (runRegistered st.info 0 cbs w.calls).2 = true
    · rw [if_pos c3] at hres
      obtain rfl := Option.some.inj hres
      exact here _ _ (.inr (.inl rfl))
    rw [if_neg c3] at hres
    -- the step
    have hgf : st.g.Finite := fun j => by rw [hst.g]; rfl
    have hsol : st.system.Solved (env.solve w.solves st.system) 0 0 := by
      rw [hst.system hv.1]; exact hE v hv w.solves
    obtain ⟨hpf, hp⟩ := newton_step_solved hgf hsol
    set p := (newtonStep env st w.solves).real with hpd
    have hl : lowerSym st.H.real = c.H v := lowerSym_of (c.symm hv.1) fun i j => (hst.H i j).2
    have hHp : c.H v *ᵥ p = -c.g v := by
      funext j
      have := hp j
      rw [hl, hst.g, zero_mul, add_zero] at this
      exact this
    have hpp : a * (p ⬝ᵥ p) ≤ -(c.g v ⬝ᵥ p) := by
      have := hH v hv p
      rw [hHp, dotProduct_neg, dotProduct_comm p (c.g v)] at this
      exact this
    have hg0 : c.g v ≠ 0 := by
      intro h
      obtain ⟨j, hj⟩ := hbig
      rw [h] at hj
      simp only [Pi.zero_apply, abs_zero] at hj
      have : 0 < opts.tolerance * P.scaling.f := by positivity
      linarith
    have hp0 : p ≠ 0 := by
      intro h
      rw [h, mulVec_zero] at hHp
      exact hg0 (neg_eq_zero.1 hHp.symm)
    obtain ⟨hlev, harm, hquad⟩ := c.newton_full_step hcl hv ha hL0 hL hHp hpp hp0 (hnear.near ha)
    have hppos : 0 < p ⬝ᵥ p := lt_of_le_of_ne (dot_self_nonneg p) fun h => hp0 (dotProduct_self_eq_zero.1 h.symm)
    have hD : c.g v ⬝ᵥ p < 0 := by nlinarith
    have hdot : dotF env st.g (newtonStep env st w.solves) = .fin (c.g v ⬝ᵥ p) := by
      rw [dotF_fin hgf hpf, hst.g]; rfl
    have hx' : newtonPoint env st w.solves 1 = fun j => .fin ((v + p) j) := by
      funext j
      unfold newtonPoint
      have := fin_move (u := 1) (hxf j) (hpf j)
      rw [one_mul] at this
      rw [Fl.one_def, this]
      exact congrArg (fun y => Fl.fin (y + p j)) (congrFun hxr j)
    have hx'f : Vec.Finite (fun j => Fl.fin ((v + p) j)) := fun _ => rfl
    have hf' : P.f (fun j => Fl.fin ((v + p) j)) = .fin (c.f (v + p)) := hP.f _ hx'f hlev.1
    obtain ⟨t1, t2⟩ := newton_tryAdd hst.filter (f0 := c.f v) (f1 := c.f (v + p)) (a := 1) hD one_pos
    have hacc := t1.2 (by rw [mul_one]; exact harm)
    rw [← Fl.one_def] at hacc t2
    rw [show newtonRounds = 67 + 1 from rfl, newtonLineSearch] at hres
    simp only at hres
    rw [hx', hf', hst.f, hdot, if_neg (by rw [not_not]; rfl), if_pos hacc] at hres
    simp only [Option.bind_some, Option.elim] at hres
    have hnew := hnear.succ hL0 hquad
    have hfew' : ∀ k : ℕ, (2 * a ^ 2 / L) * (1 / 2) ^ 2 ^ k ≤ opts.tolerance * P.scaling.f → st.iterations + 1 ≤ k := by
      intro k hk
      rcases Nat.lt_or_ge st.iterations k with h | h
      · exact h
      · exfalso
        obtain ⟨j, hj⟩ := hbig
        have h1 : ((1 : ℝ) / 2) ^ 2 ^ st.iterations ≤ (1 / 2) ^ 2 ^ k :=
          pow_le_pow_of_le_one (by norm_num) (by norm_num) (Nat.pow_le_pow_right (by norm_num) h)
        have h2 : euclid (c.g v) ≤ 2 * a ^ 2 / L * (1 / 2) ^ 2 ^ k := by
          have h3 := hnear.trans h1
          rw [div_mul_eq_mul_div, div_le_iff₀ (by positivity)] at h3
          rw [div_mul_eq_mul_div, le_div_iff₀ hL0]
          linarith
        linarith [abs_le_euclid (c.g v) j]
    by_cases c4 : ((st.iterations + 1 : ℕ) : ℤ) ≥ opts.maxIterations
    · rw [if_pos c4] at hres
      obtain rfl := Option.some.inj hres
      exact ⟨hx'f, hlev, hnew, hfew', .inr (.inr (.inr ⟨rfl, c4⟩))⟩
    rw [if_neg c4] at hres
    by_cases c5 : Fl.fin (env.clock w.reads - start) > opts.timeout
    · rw [if_pos c5] at hres
      obtain rfl := Option.some.inj hres
      exact ⟨hx'f, hlev, hnew, hfew', .inr (.inr (.inl rfl))⟩
    rw [if_neg c5] at hres
    refine ih _ _ (v + p) ⟨rfl, rfl, funext (hP.g _ hx'f hlev.1), hP.H _ hx'f hlev.1, ?_, t2⟩ hlev hnew hfew' hres
    have hg' : P.g (fun j => Fl.fin ((v + p) j)) = fun j => .fin (c.g (v + p) j) := funext (hP.g _ hx'f hlev.1)
    show errZeroNewton env P.scaling (P.g fun j => Fl.fin ((v + p) j)) = _
    rw [hg']
    exact if_pos fun _ => rfl

/-- C57: Newton's method from a guess at which the gradient is at most `a²/L`, where the Hessian is at least `a` times
the identity and Lipschitz continuous with constant `L` on the level set of the guess, with a linear solver that does
not regularise these systems. After `k` iterations the gradient, relative to `2a²/L`, is at most `(1/2)^(2^k)`. The
run ends with SUCCESS unless a callback or the timeout stopped it or the iteration limit is at most the number of
iterations that this bound needs to reach the tolerance. -/
theorem newton_fast {env : Env} {opts : SolverOptions} (ht : 0 < opts.tolerance) {P : Nlp n 0 0}
    {c : SmoothCost n} (hP : P.IsCost c) (hS : 0 < P.scaling.f) {x : Vec n} (hx : x.Finite) (hdom : x.real ∈ c.dom)
    (hcl : IsClosed (c.level x.real)) (hbox : ∀ v ∈ c.level x.real, ∀ j, |v j| ≤ 1e10) {a L : ℝ} (ha : 0 < a) (hL0 : 0 < L)
    (hH : ∀ v ∈ c.level x.real, ∀ q : Fin n → ℝ, a * (q ⬝ᵥ q) ≤ q ⬝ᵥ c.H v *ᵥ q)
    (hL : c.LipschitzHessian (c.level x.real) L) (hnear : L * euclid (c.g x.real) ≤ a ^ 2)
    (hE : ∀ v ∈ c.level x.real, env.Plain ⟨n, 0, fun j l => .fin (c.H v j l), fun j => .fin (-c.g v j)⟩)
    (cbs : List Callback) {k : ℕ} (hk : 2 * a ^ 2 / L * (1 / 2) ^ 2 ^ k ≤ opts.tolerance * P.scaling.f) :
    ∃ res, newton env opts P cbs x .start = some res ∧ res.x.Finite ∧ res.x.real ∈ c.dom ∧
      euclid (c.g res.x.real) ≤ 2 * a ^ 2 / L * (1 / 2) ^ 2 ^ res.iterations ∧ res.iterations ≤ k ∧
      (res.status = .success ∧ (∀ j, |c.g res.x.real j| ≤ opts.tolerance * P.scaling.f) ∨
        res.status = .callbackRequestedStop ∨ res.status = .timeout ∨
        res.status = .maxIterationsExceeded ∧ opts.maxIterations ≤ k) := by
  have hxe : x = fun j => .fin (x.real j) := funext fun j => Fl.finite_toReal (hx j)
  have hg : (P.g x) = fun j => .fin (c.g x.real j) := funext (hP.g x hx hdom)
  have hgf : (P.g x).Finite := fun j => by rw [hg]; rfl
  have hat : (newtonInit env P x).At env P c x.real := by
    refine ⟨hxe, hP.f x hx hdom, hg, hP.H x hx hdom, ?_, rfl, rfl, rfl⟩
    show errZeroNewton env P.scaling (P.g x) = _
    rw [hg]
    exact if_pos fun _ => rfl
  obtain ⟨res, hres, -⟩ := newton_correct env opts P cbs x
  refine ⟨res, hres, ?_⟩
  unfold newton at hres
  simp only at hres
  rw [if_neg (by
    rw [not_not]
    exact ⟨by show (P.f x).isFinite = true; rw [hP.f x hx hdom]; rfl, hgf, fun i j => (hP.H x hx hdom i j).1⟩)] at hres
  have hfin := newtonLoop_fast ht hP hS hcl hbox ha hL0 hH hL hE _ _ _ _ hat ⟨hdom, le_rfl⟩ (by
    show L / (2 * a ^ 2) * euclid (c.g x.real) ≤ (1 / 2) ^ 2 ^ 0
    rw [div_mul_eq_mul_div, pow_zero, pow_one, div_le_div_iff₀ (by positivity) (by norm_num)]
    linarith) (fun _ _ => Nat.zero_le _) res hres
  refine ⟨hfin.finite, hfin.level.1, ?_, hfin.few k hk, ?_⟩
  · have h3 := hfin.near
    unfold NearAfter at h3
    rw [div_mul_eq_mul_div, div_le_iff₀ (by positivity)] at h3
    rw [div_mul_eq_mul_div, le_div_iff₀ hL0]
    linarith
  · rcases hfin.status with h | h | h | ⟨h, h'⟩
    · exact .inl h
    · exact .inr (.inl h)
    · exact .inr (.inr (.inl h))
    · exact .inr (.inr (.inr ⟨h, h'.trans (by exact_mod_cast hfin.few k hk)⟩))

/-- From 1.1, `x - log x` is minimised to a gradient of at most 1e-8 in at most five iterations. -/
example : ∃ res, newton plainEnv ⟨1e-8, 5000, .pinf, false⟩ logNlp [] logGuess .start = some res ∧ res.iterations ≤ 5 ∧
    res.status ≠ .maxIterationsExceeded ∧ euclid (logCost.g res.x.real) ≤ 0.32 * (1 / 2) ^ 2 ^ res.iterations := by
  obtain ⟨res, h1, -, -, h2, h3, h4⟩ := newton_fast (env := plainEnv) (opts := ⟨1e-8, 5000, .pinf, false⟩) (by norm_num)
    logNlp_isCost one_pos (x := logGuess) (fun _ => rfl) (show (0 : ℝ) < 1.1 by norm_num) logLevel_closed logLevel_box
    (a := 0.8) (L := 4) (by norm_num) (by norm_num) (fun v hv q => (logHessian v hv q).1) logLipschitz (by
      rw [euclid_one]
      show 4 * |1 - (1.1 : ℝ)⁻¹| ≤ 0.8 ^ 2
      rw [abs_of_nonneg (by norm_num)]
      norm_num)
    (fun v hv => plainEnv_plain (LinSystem.StronglyConvex.solvable (S := ⟨1, 0, fun j l => .fin (logCost.H v j l), fun j => .fin (-logCost.g v j)⟩) ⟨rfl, logCost.symm hv.1, fun q => le_trans
      (mul_le_mul_of_nonneg_right (by norm_num) (dot_self_nonneg q)) (logHessian v hv q).1⟩)) [] (k := 5) (by
      show 2 * 0.8 ^ 2 / 4 * (1 / 2) ^ 2 ^ 5 ≤ (1e-8 : ℝ) * 1
      norm_num)
  refine ⟨res, h1, h3, ?_, ?_⟩
  · rintro h
    rw [h] at h4
    rcases h4 with h4 | h4 | h4 | h4
    · exact absurd h4.1 (by simp)
    · exact absurd h4 (by simp)
    · exact absurd h4 (by simp)
    · exact absurd h4.2 (by norm_num)
  · have e : 2 * (0.8 : ℝ) ^ 2 / 4 = 0.32 := by norm_num
    rwa [e] at h2

end Slp
