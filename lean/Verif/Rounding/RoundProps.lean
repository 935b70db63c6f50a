import Verif.Rounding.RoundLemmas
import Verif.Rounding.BinaryModel

/-! The interior-point solver keeps the slacks and the multipliers positive in rounded arithmetic. -/

namespace Slp

variable {k : ℕ}

/-- The fraction-to-the-boundary rule in rounded arithmetic: the step size is positive, at most `(1 + 5u)ᵏ`, and takes
each variable at most `(1 + 5u)ᵏ τ` of the way to 0. -/
theorem rounded_boundary (R : Rounding) (hu : R.u ≤ 1 / 100) {τ : ℝ} (hτ : 0 < τ) (x p : Fin k → ℝ)
    (hx : ∀ i, 0 < x i) :
    0 < R.boundary x p τ ∧ R.boundary x p τ ≤ (1 + 5 * R.u) ^ k ∧
      ∀ i, (1 - (1 + 5 * R.u) ^ k * τ) * x i ≤ x i + R.boundary x p τ * p i := by
  obtain ⟨h1, h2, h3⟩ := R.boundary_spec hu hτ hx p
  exact ⟨h1, h2, fun i => by linarith [h3 i]⟩

/-- In every state of the solver the slacks and the multipliers of the inequality constraints are positive, the
barrier parameter is positive, the bounds given to `std::clamp` are in order, if the unit roundoff is small compared to
`scaling.f * tolerance` divided by the number of inequality constraints. The second condition is implied by the first
one if `f * tol` is at most 1/10. -/
theorem rounded_positive (R : Rounding) (k l : ℕ) {f tol : ℝ} (hf : 0 < f) (hf1 : f ≤ 1) (ht : 0 < tol)
    (ht1 : tol ≤ 1) (h1 : 110 * (k + l + 2) * R.u ≤ f * tol) (h2 : 1000 * (k + l + 2) * R.u ≤ 1)
    {σ : Slacks k} (h : R.States k l f tol σ) :
    (∀ i, 0 < σ.s i ∧ 0 < σ.z i) ∧ 0 < σ.μ ∧
      ∀ i, R.dualLow σ.μ (σ.s i) ≤ R.dualHigh σ.μ (σ.s i) := by
  have h0 := R.nonneg
  have hku : 0 ≤ (k : ℝ) * R.u := by positivity
  have hlu : 0 ≤ (l : ℝ) * R.u := by positivity
  have hu : R.u ≤ 1 / 2000 := by nlinarith
  have hu' : R.u ≤ 1 / 100 := by linarith
  have hu1 : R.u < 1 := by linarith
  have hft : 0 < f * tol := mul_pos hf ht
  -- a lower bound of the barrier parameter
  obtain ⟨μlo, hμlo⟩ : ∃ m, m = f * tol / 11 := ⟨_, rfl⟩
  have hpos : 0 < μlo := by rw [hμlo]; positivity
  have hmin : ∀ g, 0 ≤ g → f ≤ g → μlo ≤ R.muMin g tol := by
    intro g hg hfg
    have a : f * tol ≤ g * tol := mul_le_mul_of_nonneg_right hfg ht.le
    have b := (R.rnd_bounds hu' (mul_nonneg hg ht.le)).1
    have c := (R.rnd_bounds hu' (x := R.rnd (g * tol) / 10)
      (div_nonneg (R.rnd_nonneg hu1 (mul_nonneg hg ht.le)) (by norm_num))).1
    unfold Rounding.muMin
    linarith
  have g1 : 10 * (((k + l : ℕ) : ℝ) + 2) * R.u ≤ μlo := by rw [hμlo]; push_cast; linarith
  have g2 : 1000 * (((k + l : ℕ) : ℝ) + 2) * R.u ≤ 1 := by push_cast; linarith
  have k1 : 10 * ((k : ℝ) + 2) * R.u ≤ μlo := by rw [hμlo]; nlinarith
  have k2 : 1000 * ((k : ℝ) + 2) * R.u ≤ 1 := by nlinarith
  have hstart : R.Good μlo (R.begin k f) := by
    obtain ⟨t1, t2⟩ := R.tauMin_spec hu' k k2
    refine ⟨fun _ => one_pos, ?_, t1, t2⟩
    have a := (R.rnd_bounds hu' (x := 0.1) (by norm_num)).1
    have a' := R.rnd_pos hu1 (x := 0.1) (by norm_num)
    have b := (R.rnd_bounds hu' (x := R.rnd 0.1 * f) (by positivity)).1
    have c : 99 / 100 * 0.1 * f ≤ R.rnd 0.1 * f := mul_le_mul_of_nonneg_right a hf.le
    have d : f * tol ≤ f := by nlinarith
    change μlo ≤ R.rnd (R.rnd 0.1 * f)
    linarith
  have hr : ∀ (σ : Slacks k) (s : Fin k → ℝ), R.Good μlo σ → R.Restores tol l σ s → ∀ i, 0 < s i := by
    rintro σ s hσ ⟨z, μ, σ', hμ, hrun, rfl⟩ i
    have t := R.tauMin_spec hu' (k + l) g2
    have : R.Good μlo ⟨Fin.append σ.s fun _ => 1, z, μ, R.tauMin⟩ := by
      refine ⟨fun j => ?_, hσ.μ.trans hμ, t.1, t.2⟩
      refine Fin.addCases (fun j => ?_) (fun j => ?_) j
      · simpa using hσ.s j
      · simp
    exact (Rounding.Good.run hu' (hmin 1 zero_le_one hf1) hpos g1 g2 (fun _ _ _ h => h.elim) this hrun).s _
  have hgood : ∀ {σ : Slacks k}, R.States k l f tol σ → R.Good μlo σ :=
    fun h => Rounding.Good.run hu' (hmin f hf.le le_rfl) hpos k1 k2 hr hstart h
  have hg := hgood h
  have hμ : 0 < σ.μ := hpos.trans_le hg.μ
  refine ⟨fun i => ⟨hg.s i, ?_⟩, hμ, fun i => (R.dual_pos hu' hμ (hg.s i)).2⟩
  clear hg hμ
  induction h generalizing i with
  | start => exact one_pos
  | accept ps pz r h ih =>
    have g := hgood h
    exact R.clampDual_pos hu' (hpos.trans_le g.μ) ((g.accept hu' ps pz r).s i)
  | reduce _ h ih => exact ih i
  | restored s z hs h ih =>
    have g := hgood h
    exact R.clampDual_pos hu' (hpos.trans_le g.μ) (hr _ _ g hs i)

/-- The loop that reduces the barrier parameter ends in rounded arithmetic: if it has been reduced `n` times and
exceeds its minimum still, it has been more than `4ⁿ` times the minimum. -/
theorem rounded_barrier_terminates (R : Rounding) (hu : R.u ≤ 1 / 100) {μmin : ℝ} (hmin : 0 < μmin) (σ : Slacks k)
    (n : ℕ) (h : ∀ j ≤ n, μmin < ((R.reduceBarrier μmin)^[j] σ).μ) : 4 ^ n * μmin < σ.μ := by
  have h0 := R.nonneg
  induction n generalizing σ with
  | zero => simpa using h 0 le_rfl
  | succ n ih =>
    have h' := ih (R.reduceBarrier μmin σ) fun j hj => by
      have := h (j + 1) (by omega)
      rwa [Function.iterate_succ_apply] at this
    have hσ : 0 < σ.μ := hmin.trans (h 0 (by omega))
    have hlt : μmin < (R.reduceBarrier μmin σ).μ := by simpa using h 1 (by omega)
    have hle : (R.reduceBarrier μmin σ).μ ≤ σ.μ / 4 := by
      change max μmin _ ≤ _
      change μmin < max μmin _ at hlt
      rw [lt_max_iff] at hlt
      have hlt := hlt.resolve_left (lt_irrefl _)
      rw [max_eq_right hlt.le]
      refine (min_le_left _ _).trans ?_
      have a := R.rnd_le (x := 0.2) (by norm_num)
      have a' := R.rnd_nonneg (by linarith) (x := 0.2) (by norm_num)
      refine (R.rnd_le (mul_nonneg a' hσ.le)).trans ?_
      have : R.rnd 0.2 ≤ 0.202 := by linarith
      have : R.rnd 0.2 * σ.μ ≤ 0.202 * σ.μ := mul_le_mul_of_nonneg_right this hσ.le
      nlinarith [mul_nonneg a' hσ.le]
    calc (4 : ℝ) ^ (n + 1) * μmin = 4 * (4 ^ n * μmin) := by ring
      _ < 4 * (R.reduceBarrier μmin σ).μ := by linarith
      _ ≤ σ.μ := by linarith

/-- `double` satisfies the conditions for up to 1000 inequality constraints and restoration variables with the default
tolerance and a cost whose gradient at the initial guess is at most 10⁴ (scaling factor 10⁻²). -/
example : 110 * ((200 : ℕ) + (800 : ℕ) + 2) * (Rounding.binary 53).u ≤ 1e-2 * 1e-8 ∧
    1000 * ((200 : ℕ) + (800 : ℕ) + 2) * (Rounding.binary 53).u ≤ 1 := by
  have : (Rounding.binary 53).u = 2 ^ (-53 : ℤ) := rfl
  rw [this]
  norm_num

/-- The solver moves: a state after two accepted steps and a reduction of the barrier parameter. -/
example : (Rounding.binary 53).States 2 10 1 1e-8
    ((Rounding.binary 53).accept ((Rounding.binary 53).accept ((Rounding.binary 53).begin 2 1) ![-3, 1] ![1, -7] 2)
      ![1, -4] ![0, 0] 0) :=
  .accept _ _ _ (.accept _ _ _ .start)

open Rounding in
/-- The condition on the unit roundoff is needed. With `double`, the default tolerance and a cost whose gradient is
10¹⁰ at the initial guess (`scaling.f` is 10⁻⁸), `1 - μ` is rounded to 1 once the barrier parameter has reached its
minimum. The fraction-to-the-boundary rule then lets a slack become 0. -/
theorem rounded_slack_zero : ∃ σ, (Rounding.binary 53).States 1 4 1e-8 1e-8 σ ∧ σ.s 0 = 0 := by
  set R := Rounding.binary 53 with hR
  have hu : R.u = 2 ^ (-53 : ℤ) := rfl
  have hu' : R.u ≤ 1 / 100 := by rw [hu]; norm_num
  have h0 := R.nonneg
  have hu1 : R.u < 1 := by linarith
  -- the minimum
  have hm : 0 < R.muMin 1e-8 1e-8 ∧ 2 * R.muMin 1e-8 1e-8 < 2 ^ (-53 : ℤ) ∧ 9e-18 ≤ R.muMin 1e-8 1e-8 := by
    obtain ⟨a, a'⟩ := R.rnd_bounds hu' (x := 1e-8 * 1e-8) (by norm_num)
    have p := R.rnd_pos hu1 (x := 1e-8 * 1e-8) (by norm_num)
    obtain ⟨b, b'⟩ := R.rnd_bounds hu' (x := R.rnd (1e-8 * 1e-8) / 10) (by positivity)
    refine ⟨R.rnd_pos hu1 (by positivity), ?_, ?_⟩
    · unfold Rounding.muMin
      norm_num at *
      linarith
    · unfold Rounding.muMin
      norm_num at *
      linarith
  obtain ⟨hm0, hm1, hm2⟩ := hm
  have hm1' : R.muMin 1e-8 1e-8 < 1e-16 := by norm_num at hm1 ⊢; linarith
  -- the factor once the barrier parameter is at its minimum
  have hτ : ∀ σ : Slacks 1, (R.reduceBarrier (R.muMin 1e-8 1e-8) σ).μ = R.muMin 1e-8 1e-8 →
      (R.reduceBarrier (R.muMin 1e-8 1e-8) σ).τ = 1 := by
    intro σ h
    change max R.tauMin (R.rnd (1 - (R.reduceBarrier (R.muMin 1e-8 1e-8) σ).μ)) = 1
    rw [h, show R.rnd (1 - R.muMin 1e-8 1e-8) = 1 from nearest_one_sub (by norm_num) hm0 (by exact_mod_cast hm1)]
    refine max_eq_right ?_
    have := R.rnd_le (x := 0.99) (by norm_num)
    unfold Rounding.tauMin
    norm_num at *
    linarith
  -- the superlinear reduction
  have hpow : ∀ μ b c : ℝ, 0 ≤ μ → μ ≤ b → 0 ≤ c → b ≤ c ^ 2 → R.pow μ ≤ 101 / 100 * (b * c) := by
    intro μ b c h1 h2 h3 h4
    have hs : Real.sqrt μ ≤ c := Real.sqrt_le_iff.mpr ⟨h3, h2.trans h4⟩
    have := (R.rnd_bounds hu' (x := μ * Real.sqrt μ) (by positivity)).2
    refine this.trans (mul_le_mul_of_nonneg_left ?_ (by norm_num))
    exact mul_le_mul h2 hs (Real.sqrt_nonneg _) (h1.trans h2)
  have hend : ∃ σ, R.States 1 4 1e-8 1e-8 σ ∧ σ.s = (fun _ => 1) ∧ σ.τ = 1 := by
    have hμ0 : 9e-10 ≤ (R.begin 1 1e-8).μ ∧ (R.begin 1 1e-8).μ ≤ 11e-10 := by
      obtain ⟨a, a'⟩ := R.rnd_bounds hu' (x := 0.1) (by norm_num)
      have p := R.rnd_pos hu1 (x := 0.1) (by norm_num)
      obtain ⟨b, b'⟩ := R.rnd_bounds hu' (x := R.rnd 0.1 * 1e-8) (by positivity)
      change 9e-10 ≤ R.rnd (R.rnd 0.1 * 1e-8) ∧ R.rnd (R.rnd 0.1 * 1e-8) ≤ 11e-10
      norm_num at *
      constructor <;> linarith
    set σ₁ := R.reduceBarrier (R.muMin 1e-8 1e-8) (R.begin 1 1e-8) with hσ₁
    have h₁ : R.States 1 4 1e-8 1e-8 σ₁ := .reduce (by linarith [hμ0.1]) .start
    have hμ₁ : σ₁.μ ≤ 1e-13 := by
      refine max_le (by norm_num at *; linarith) ((min_le_right _ _).trans ?_)
      refine (hpow _ 11e-10 4e-5 (by linarith [hμ0.1]) hμ0.2 (by norm_num) (by norm_num)).trans (by norm_num)
    rcases eq_or_lt_of_le (le_max_left _ _ : R.muMin 1e-8 1e-8 ≤ σ₁.μ) with h | h
    · exact ⟨σ₁, h₁, rfl, hτ _ h.symm⟩
    · refine ⟨_, .reduce h h₁, rfl, hτ _ (max_eq_left ((min_le_right _ _).trans ?_))⟩
      refine (hpow _ 1e-13 4e-7 (hm0.trans h).le hμ₁ (by norm_num) (by norm_num)).trans (le_trans (by norm_num) hm2)
  obtain ⟨σ, h, hs, hτ1⟩ := hend
  refine ⟨R.accept σ (fun _ => -2) (fun _ => 0) 0, .accept _ _ _ h, ?_⟩
  have n2 : R.rnd (-2) = -2 := by change nearest 53 (-2) = -2; simpa using nearest_neg_two_zpow (p := 53) (by norm_num) 1
  have n1 : R.rnd (-1) = -1 := by change nearest 53 (-1) = -1; simpa using nearest_neg_two_zpow (p := 53) (by norm_num) 0
  have nh : R.rnd (1 / 2) = 1 / 2 := by change nearest 53 (1 / 2) = 1 / 2; simpa using nearest_two_zpow (p := 53) (by norm_num) (-1)
  have hb : R.boundary σ.s (fun _ => -2) σ.τ = 1 / 2 := by
    rw [hs, hτ1]
    simp only [Rounding.boundary, List.finRange_succ, List.finRange_zero, List.map_nil, List.foldl_cons,
      List.foldl_nil, Rounding.boundaryStep]
    norm_num [n2, n1]
    rw [nh, nh]
  change R.axpy (σ.s 0) (R.boundary σ.s (fun _ => -2) σ.τ) (-2) = 0
  rw [hb, hs]
  change nearest 53 (1 + R.rnd (1 / 2 * -2)) = 0
  norm_num [n1, nearest_zero]

end Slp
