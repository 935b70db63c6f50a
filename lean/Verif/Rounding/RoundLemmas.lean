import Verif.Rounding.RoundModel
import Mathlib.Algebra.Order.Ring.Pow
import Mathlib.Tactic.NormNum
import Mathlib.Tactic.Ring
import Mathlib.Tactic.FieldSimp

/-! Lemmas about rounded arithmetic. -/

namespace Slp
namespace Rounding

variable (R : Rounding) {k : ℕ}

theorem rnd_le {x : ℝ} (hx : 0 ≤ x) : R.rnd x ≤ (1 + R.u) * x := by
  have h := R.err x
  rw [abs_of_nonneg hx] at h
  have := (abs_le.mp h).2
  linarith

theorem le_rnd {x : ℝ} (hx : 0 ≤ x) : (1 - R.u) * x ≤ R.rnd x := by
  have h := R.err x
  rw [abs_of_nonneg hx] at h
  have := (abs_le.mp h).1
  linarith

theorem rnd_le_neg {x : ℝ} (hx : x ≤ 0) : R.rnd x ≤ (1 - R.u) * x := by
  have h := R.err x
  rw [abs_of_nonpos hx] at h
  have := (abs_le.mp h).2
  linarith

theorem le_rnd_neg {x : ℝ} (hx : x ≤ 0) : (1 + R.u) * x ≤ R.rnd x := by
  have h := R.err x
  rw [abs_of_nonpos hx] at h
  have := (abs_le.mp h).1
  linarith

theorem rnd_pos (hu : R.u < 1) {x : ℝ} (hx : 0 < x) : 0 < R.rnd x :=
  lt_of_lt_of_le (mul_pos (by linarith) hx) (R.le_rnd hx.le)

theorem rnd_nonneg (hu : R.u < 1) {x : ℝ} (hx : 0 ≤ x) : 0 ≤ R.rnd x :=
  (mul_nonneg (by linarith) hx).trans (R.le_rnd hx)

theorem rnd_nonpos (hu : R.u < 1) {x : ℝ} (hx : x ≤ 0) : R.rnd x ≤ 0 :=
  (R.rnd_le_neg hx).trans (mul_nonpos_of_nonneg_of_nonpos (by linarith) hx)

theorem rnd_neg_iff (hu : R.u < 1) {x : ℝ} (h : R.rnd x < 0) : x < 0 := by
  by_contra hx
  exact absurd (R.rnd_nonneg hu (not_lt.mp hx)) (not_le.mpr h)

theorem rnd_bounds (hu : R.u ≤ 1 / 100) {x : ℝ} (hx : 0 ≤ x) : 99 / 100 * x ≤ R.rnd x ∧ R.rnd x ≤ 101 / 100 * x :=
  ⟨(mul_le_mul_of_nonneg_right (by linarith) hx).trans (R.le_rnd hx),
    (R.rnd_le hx).trans (mul_le_mul_of_nonneg_right (by linarith) hx)⟩

/-- The growth of the step size in one round. -/
theorem growth (hu : R.u ≤ 1 / 100) : (1 + R.u) ^ 3 ≤ (1 + 5 * R.u) * (1 - R.u) := by
  have h0 := R.nonneg
  nlinarith [mul_nonneg h0 h0, mul_nonneg (mul_nonneg h0 h0) h0]

theorem growth2 (hu : R.u ≤ 1 / 100) : (1 + R.u) ^ 2 ≤ 1 + 5 * R.u := by
  have h0 := R.nonneg
  nlinarith [mul_nonneg h0 h0]

theorem growth1 (hu : R.u ≤ 1 / 100) : 1 + R.u ≤ (1 + 5 * R.u) * (1 - R.u) := by
  have h0 := R.nonneg
  nlinarith [mul_nonneg h0 h0]

/-- One round of the fraction-to-the-boundary rule. -/
theorem boundaryStep_spec (hu : R.u ≤ 1 / 100) {τ α x p : ℝ} (hτ : 0 < τ) (hα : 0 < α) (hx : 0 < x) :
    0 < R.boundaryStep τ α x p ∧ R.boundaryStep τ α x p ≤ (1 + 5 * R.u) * α ∧
      R.boundaryStep τ α x p * -p ≤ (1 + 5 * R.u) * (τ * x) := by
  have h0 := R.nonneg
  have hu1 : R.u < 1 := by linarith
  have h1u : (0 : ℝ) < 1 - R.u := by linarith
  have hτx : 0 < τ * x := mul_pos hτ hx
  have hτn : -τ * x ≤ 0 := by linarith
  unfold boundaryStep
  split
  · rename_i h
    have hαp : α * p < 0 := R.rnd_neg_iff hu1 (h.trans_le (R.rnd_nonpos hu1 hτn))
    have hp : p < 0 := by
      by_contra hp
      exact absurd (mul_nonneg hα.le (not_lt.mp hp)) (not_le.mpr hαp)
    have hq : 0 < -τ / p := div_pos_of_neg_of_neg (by linarith) hp
    have hr := R.rnd_pos hu1 hq
    have hr' := R.rnd_le hq.le
    have ha := R.rnd_le (mul_pos hr hx).le
    -- the new step size is at most `(1 + u)²` times the exact one
    have hn : R.rnd (R.rnd (-τ / p) * x) ≤ (1 + R.u) ^ 2 * (-τ / p * x) := by
      calc R.rnd (R.rnd (-τ / p) * x) ≤ (1 + R.u) * (R.rnd (-τ / p) * x) := ha
        _ ≤ (1 + R.u) * ((1 + R.u) * (-τ / p) * x) :=
            mul_le_mul_of_nonneg_left (mul_le_mul_of_nonneg_right hr' hx.le) (by linarith)
        _ = _ := by ring
    have hpp : -τ / p * x * -p = τ * x := by
      have := hp.ne
      field_simp
    refine ⟨R.rnd_pos hu1 (mul_pos hr hx), ?_, ?_⟩
    · have h3 : (1 + R.u) * (α * p) < (1 - R.u) * (-τ * x) :=
        (R.le_rnd_neg hαp.le).trans_lt (h.trans_le (R.rnd_le_neg hτn))
      -- the exact step size is less than `(1 + u) / (1 - u)` times the old one
      have h4 : (1 - R.u) * (-τ / p * x) ≤ (1 + R.u) * α := by
        have h5 : (1 - R.u) * (-τ / p * x) * -p ≤ (1 + R.u) * α * -p := by
          rw [mul_assoc, hpp]; nlinarith
        exact le_of_mul_le_mul_right h5 (by linarith)
      have h6 : (1 - R.u) * R.rnd (R.rnd (-τ / p) * x) ≤ (1 - R.u) * ((1 + 5 * R.u) * α) := by
        calc (1 - R.u) * R.rnd (R.rnd (-τ / p) * x)
            ≤ (1 - R.u) * ((1 + R.u) ^ 2 * (-τ / p * x)) := mul_le_mul_of_nonneg_left hn h1u.le
          _ = (1 + R.u) ^ 2 * ((1 - R.u) * (-τ / p * x)) := by ring
          _ ≤ (1 + R.u) ^ 2 * ((1 + R.u) * α) := mul_le_mul_of_nonneg_left h4 (by positivity)
          _ = (1 + R.u) ^ 3 * α := by ring
          _ ≤ (1 + 5 * R.u) * (1 - R.u) * α := mul_le_mul_of_nonneg_right (R.growth hu) hα.le
          _ = _ := by ring
      exact le_of_mul_le_mul_left h6 h1u
    · calc R.rnd (R.rnd (-τ / p) * x) * -p ≤ (1 + R.u) ^ 2 * (-τ / p * x) * -p :=
            mul_le_mul_of_nonneg_right hn (by linarith)
        _ = (1 + R.u) ^ 2 * (τ * x) := by rw [mul_assoc, hpp]
        _ ≤ _ := mul_le_mul_of_nonneg_right (R.growth2 hu) hτx.le
  · rename_i h
    refine ⟨hα, by nlinarith [mul_nonneg h0 hα.le], ?_⟩
    rcases le_or_gt 0 p with hp | hp
    · have : α * -p ≤ 0 := by nlinarith [mul_nonneg hα.le hp]
      exact this.trans (by positivity)
    · have hαp : α * p ≤ 0 := mul_nonpos_of_nonneg_of_nonpos hα.le hp.le
      have h3 := (R.le_rnd_neg hτn).trans ((not_lt.mp h).trans (R.rnd_le_neg hαp))
      have h6 : (1 - R.u) * (α * -p) ≤ (1 - R.u) * ((1 + 5 * R.u) * (τ * x)) := by
        calc (1 - R.u) * (α * -p) ≤ (1 + R.u) * (τ * x) := by linarith
          _ ≤ (1 + 5 * R.u) * (1 - R.u) * (τ * x) := mul_le_mul_of_nonneg_right (R.growth1 hu) hτx.le
          _ = _ := by ring
      exact le_of_mul_le_mul_left h6 h1u

/-- The loop of the fraction-to-the-boundary rule. -/
theorem foldl_spec (hu : R.u ≤ 1 / 100) {τ : ℝ} (hτ : 0 < τ) {x : Fin k → ℝ} (hx : ∀ i, 0 < x i) (p : Fin k → ℝ)
    (l : List (Fin k)) {α : ℝ} (hα : 0 < α) :
    let α' := l.foldl (fun α i => R.boundaryStep τ α (x i) (p i)) α
    0 < α' ∧ α' ≤ (1 + 5 * R.u) ^ l.length * α ∧
      ∀ i ∈ l, α' * -p i ≤ (1 + 5 * R.u) ^ l.length * (τ * x i) := by
  have h0 := R.nonneg
  have h1 : 1 ≤ 1 + 5 * R.u := by linarith
  induction l generalizing α with
  | nil => exact ⟨hα, by simp, by simp⟩
  | cons j l ih =>
    obtain ⟨s1, s2, s3⟩ := R.boundaryStep_spec hu (p := p j) hτ hα (hx j)
    obtain ⟨i1, i2, i3⟩ := ih s1
    refine ⟨i1, ?_, ?_⟩
    · calc _ ≤ _ := i2
        _ ≤ (1 + 5 * R.u) ^ l.length * ((1 + 5 * R.u) * α) := mul_le_mul_of_nonneg_left s2 (by positivity)
        _ = _ := by rw [List.length_cons]; ring
    · have hbound : ∀ i, 0 < τ * x i := fun i => mul_pos hτ (hx i)
      intro i hi
      rw [List.length_cons, List.foldl_cons]
      rcases List.mem_cons.mp hi with rfl | hi
      · rcases le_or_gt 0 (p i) with hp | hp
        · have : l.foldl (fun α i => R.boundaryStep τ α (x i) (p i)) (R.boundaryStep τ α (x i) (p i)) * -p i ≤ 0 := by
            nlinarith [mul_nonneg i1.le hp]
          exact this.trans (by have := hbound i; positivity)
        · calc _ ≤ (1 + 5 * R.u) ^ l.length * R.boundaryStep τ α (x i) (p i) * -p i :=
                mul_le_mul_of_nonneg_right i2 (by linarith)
            _ = (1 + 5 * R.u) ^ l.length * (R.boundaryStep τ α (x i) (p i) * -p i) := by ring
            _ ≤ (1 + 5 * R.u) ^ l.length * ((1 + 5 * R.u) * (τ * x i)) :=
                mul_le_mul_of_nonneg_left s3 (by positivity)
            _ = _ := by ring
      · calc _ ≤ _ := i3 i hi
          _ ≤ (1 + 5 * R.u) ^ (l.length + 1) * (τ * x i) :=
            mul_le_mul_of_nonneg_right (pow_le_pow_right₀ h1 (Nat.le_succ _)) (hbound i).le

theorem boundary_spec (hu : R.u ≤ 1 / 100) {τ : ℝ} (hτ : 0 < τ) {x : Fin k → ℝ} (hx : ∀ i, 0 < x i) (p : Fin k → ℝ) :
    0 < R.boundary x p τ ∧ R.boundary x p τ ≤ (1 + 5 * R.u) ^ k ∧
      ∀ i, R.boundary x p τ * -p i ≤ (1 + 5 * R.u) ^ k * (τ * x i) := by
  obtain ⟨h1, h2, h3⟩ := R.foldl_spec hu hτ hx p (List.finRange k) (α := 1) one_pos
  rw [List.length_finRange] at h2 h3
  exact ⟨h1, by rwa [mul_one] at h2, fun i => h3 i (List.mem_finRange i)⟩

theorem halve_spec (hu : R.u ≤ 1 / 100) {α : ℝ} (hα : 0 < α) (r : ℕ) :
    0 < R.halve^[r] α ∧ R.halve^[r] α ≤ α := by
  have h0 := R.nonneg
  induction r with
  | zero => exact ⟨hα, le_rfl⟩
  | succ r ih =>
    rw [Function.iterate_succ_apply']
    have hp : 0 < R.halve^[r] α * (1 / 2) := by have := ih.1; positivity
    refine ⟨R.rnd_pos (by linarith) hp, (R.rnd_le hp.le).trans ?_⟩
    nlinarith [ih.1, ih.2]

/-- Steps within the boundary keep variables positive. -/
theorem axpy_pos (hu : R.u ≤ 1 / 100) {x α p c : ℝ} (hx : 0 < x) (hα : 0 < α) (hp : α * -p ≤ c * x)
    (hc : (1 + R.u) * c < 1) : 0 < R.axpy x α p := by
  have h0 := R.nonneg
  have hu1 : R.u < 1 := by linarith
  have hcx : (1 + R.u) * c * x < x := by nlinarith
  rcases le_or_gt 0 p with hp0 | hp0
  · have hαp : 0 ≤ α * p := mul_nonneg hα.le hp0
    rcases R.axpy_eq x α p with h | h <;> rw [h]
    · exact R.rnd_pos hu1 (by linarith [R.rnd_nonneg hu1 hαp])
    · exact R.rnd_pos hu1 (by linarith)
  · have hαp : α * p < 0 := mul_neg_of_pos_of_neg hα hp0
    have h1 : -(α * p) * (1 + R.u) < x := by nlinarith
    rcases R.axpy_eq x α p with h | h <;> rw [h]
    · exact R.rnd_pos hu1 (by linarith [R.le_rnd_neg hαp.le])
    · exact R.rnd_pos hu1 (by nlinarith)

theorem dual_pos (hu : R.u ≤ 1 / 100) {μ s : ℝ} (hμ : 0 < μ) (hs : 0 < s) :
    0 < R.dualLow μ s ∧ R.dualLow μ s ≤ R.dualHigh μ s := by
  have h0 := R.nonneg
  have hu1 : R.u < 1 := by linarith
  have hk : 0 < R.rnd (1 / 10000000000) := R.rnd_pos hu1 (by norm_num)
  have hkμ := R.rnd_pos hu1 (mul_pos hk hμ)
  have hq : 0 < R.rnd (R.rnd (1 / 10000000000) * μ) / s := div_pos hkμ hs
  have hkμ' := R.rnd_pos hu1 (show (0 : ℝ) < 10000000000 * μ by positivity)
  refine ⟨R.rnd_pos hu1 hq, ?_⟩
  have l1 : R.rnd (1 / 10000000000) ≤ 1 := (R.rnd_le (by norm_num)).trans (by linarith)
  have l2 : R.rnd (R.rnd (1 / 10000000000) * μ) ≤ 2 * μ :=
    (R.rnd_le (mul_pos hk hμ).le).trans (by nlinarith [mul_nonneg h0 hμ.le, mul_le_mul_of_nonneg_right l1 hμ.le])
  have l3 : R.dualLow μ s ≤ 2 * (2 * μ / s) := by
    refine (R.rnd_le hq.le).trans ?_
    have : R.rnd (R.rnd (1 / 10000000000) * μ) / s ≤ 2 * μ / s := div_le_div_of_nonneg_right l2 hs.le
    nlinarith
  have m1 : 8 * μ ≤ R.rnd (10000000000 * μ) :=
    le_trans (by nlinarith) (R.le_rnd (show (0 : ℝ) ≤ 10000000000 * μ by positivity))
  have m2 : 8 * μ / s ≤ R.rnd (10000000000 * μ) / s := div_le_div_of_nonneg_right m1 hs.le
  have m3 : 1 / 2 * (8 * μ / s) ≤ R.dualHigh μ s := by
    refine le_trans ?_ (R.le_rnd (div_pos hkμ' hs).le)
    have : 0 < 8 * μ / s := by positivity
    nlinarith
  calc _ ≤ _ := l3
    _ = 1 / 2 * (8 * μ / s) := by ring
    _ ≤ _ := m3

theorem clampDual_pos (hu : R.u ≤ 1 / 100) {μ s z : ℝ} (hμ : 0 < μ) (hs : 0 < s) : 0 < R.clampDual μ s z := by
  obtain ⟨h1, h2⟩ := R.dual_pos hu hμ hs
  unfold clampDual clamp
  split
  · exact h1
  split
  · exact h1.trans_le h2
  · linarith

/-- `(1 + a)ⁿ ≤ 1 / (1 - n a)`. -/
theorem pow_mul_le_one {a : ℝ} (ha : 0 ≤ a) (n : ℕ) : (1 + a) ^ n * (1 - n * a) ≤ 1 := by
  induction n with
  | zero => simp
  | succ n ih =>
    have hp : 0 ≤ (1 + a) ^ n := by positivity
    have : (1 + a) * (1 - (n + 1 : ℕ) * a) ≤ 1 - n * a := by
      push_cast
      have : 0 ≤ (n : ℝ) * a * a := by positivity
      nlinarith
    calc (1 + a) ^ (n + 1) * (1 - (n + 1 : ℕ) * a) = (1 + a) ^ n * ((1 + a) * (1 - (n + 1 : ℕ) * a)) := by ring
      _ ≤ (1 + a) ^ n * (1 - n * a) := mul_le_mul_of_nonneg_left this hp
      _ ≤ 1 := ih

/-- A factor `τ` for which steps keep `k` variables positive. -/
theorem tau_safe (k : ℕ) {τ : ℝ} (hτ : τ < 1 - 5 * (k + 1) * R.u) (hτ0 : 0 < τ) :
    (1 + R.u) * ((1 + 5 * R.u) ^ k * τ) < 1 := by
  have h0 := R.nonneg
  have h := pow_mul_le_one (a := 5 * R.u) (by positivity) (k + 1)
  have hp : 0 < (1 + 5 * R.u) ^ (k + 1) := by positivity
  calc (1 + R.u) * ((1 + 5 * R.u) ^ k * τ) ≤ (1 + 5 * R.u) * ((1 + 5 * R.u) ^ k * τ) :=
        mul_le_mul_of_nonneg_right (by linarith) (by positivity)
    _ = (1 + 5 * R.u) ^ (k + 1) * τ := by ring
    _ < (1 + 5 * R.u) ^ (k + 1) * (1 - 5 * (k + 1) * R.u) := mul_lt_mul_of_pos_left hτ hp
    _ = (1 + 5 * R.u) ^ (k + 1) * (1 - (k + 1 : ℕ) * (5 * R.u)) := by push_cast; ring
    _ ≤ 1 := h

/-- What the solver maintains. -/
structure Good (μlo : ℝ) (σ : Slacks k) : Prop where
  s : ∀ i, 0 < σ.s i
  μ : μlo ≤ σ.μ
  τ : 0 < σ.τ
  safe : σ.τ < 1 - 5 * (k + 1) * R.u

theorem Good.accept {R : Rounding} (hu : R.u ≤ 1 / 100) {μlo : ℝ} {σ : Slacks k} (h : R.Good μlo σ)
    (ps pz : Fin k → ℝ) (r : ℕ) : R.Good μlo (R.accept σ ps pz r) := by
  refine ⟨fun i => ?_, h.μ, h.τ, h.safe⟩
  obtain ⟨h1, -, h3⟩ := R.boundary_spec hu h.τ h.s ps
  obtain ⟨h4, h5⟩ := R.halve_spec hu h1 r
  refine R.axpy_pos hu (h.s i) h4 (c := (1 + 5 * R.u) ^ k * σ.τ) ?_ (R.tau_safe k h.safe h.τ)
  rcases le_or_gt 0 (ps i) with hp | hp
  · have hn : R.halve^[r] (R.boundary σ.s ps σ.τ) * -ps i ≤ 0 := by nlinarith [mul_nonneg h4.le hp]
    have h0 := R.nonneg
    have := h.τ; have := h.s i
    exact hn.trans (by positivity)
  · calc _ ≤ R.boundary σ.s ps σ.τ * -ps i := mul_le_mul_of_nonneg_right h5 (by linarith)
      _ ≤ _ := h3 i
      _ = _ := by ring

theorem tauMin_spec (hu : R.u ≤ 1 / 100) (k : ℕ) (h2 : 1000 * (k + 2) * R.u ≤ 1) :
    0 < R.tauMin ∧ R.tauMin < 1 - 5 * (k + 1) * R.u := by
  have h0 := R.nonneg
  refine ⟨R.rnd_pos (by linarith) (by norm_num), (R.rnd_le (by norm_num)).trans_lt ?_⟩
  have : 0 ≤ (k : ℝ) * R.u := by positivity
  nlinarith

theorem Good.reduce {R : Rounding} (hu : R.u ≤ 1 / 100) {μlo μmin : ℝ} (hlo : μlo ≤ μmin) (hpos : 0 < μlo)
    (h1 : 10 * (k + 2) * R.u ≤ μlo) (h2 : 1000 * (k + 2) * R.u ≤ 1) {σ : Slacks k}
    (h : R.Good μlo σ) : R.Good μlo (R.reduceBarrier μmin σ) := by
  obtain ⟨t1, t2⟩ := R.tauMin_spec hu k h2
  have h0 := R.nonneg
  have hku : 0 ≤ (k : ℝ) * R.u := by positivity
  refine ⟨h.s, hlo.trans (le_max_left _ _), t1.trans_le (le_max_left _ _), max_lt t2 ?_⟩
  set μ := max μmin (min (R.rnd (R.rnd 0.2 * σ.μ)) (R.pow σ.μ)) with hμ
  have hm : μlo ≤ μ := hlo.trans (le_max_left _ _)
  change R.rnd (1 - μ) < _
  rcases le_or_gt (1 - μ) 0 with hc | hc
  · refine (R.rnd_nonpos (by linarith) hc).trans_lt ?_
    nlinarith
  · refine (R.rnd_le hc.le).trans_lt ?_
    nlinarith

theorem Good.run {R : Rounding} (hu : R.u ≤ 1 / 100) {μlo μmin : ℝ} (hlo : μlo ≤ μmin) (hpos : 0 < μlo)
    (h1 : 10 * (k + 2) * R.u ≤ μlo) (h2 : 1000 * (k + 2) * R.u ≤ 1) {restore : Slacks k → (Fin k → ℝ) → Prop}
    (hr : ∀ σ s, R.Good μlo σ → restore σ s → ∀ i, 0 < s i) {σ₀ σ : Slacks k} (h₀ : R.Good μlo σ₀)
    (h : R.Run μmin restore σ₀ σ) : R.Good μlo σ := by
  induction h with
  | start => exact h₀
  | accept ps pz r _ ih => exact ih.accept hu ps pz r
  | reduce _ _ ih => exact ih.reduce hu hlo hpos h1 h2
  | restored s z hs _ ih => exact ⟨hr _ _ ih hs, ih.μ, ih.τ, ih.safe⟩

end Rounding
end Slp
