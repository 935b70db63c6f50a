import Verif.Rounding.KktRoundProps

/-! What the stopping tests of SQP and Newton's method say about the user's problem in rounded arithmetic. -/

namespace Slp

open Rounding KktData

variable {n m : ℕ} {R : Rounding}

/-- A quotient that is rounded to at most `b`. -/
theorem KktData.le_of_quot (hu : R.u < 1) {N s S b : ℝ} {d : ℕ} (hb : 0 ≤ b) (hN : 0 ≤ N) (hs : 0 < s) (hS : 0 < S)
    (hn : R.Near d s S) (h : R.rnd (N / s) ≤ b) : N ≤ ((1 - R.u) ^ (d + 1))⁻¹ * b * S := by
  have a1 := ((near_rnd hu (N / s)).symm hu).le hu (R := R)
    (((near_rnd hu (N / s))).nonneg hu (div_nonneg hN hs.le))
  have a2 : N / s ≤ ((1 - R.u) ^ 1)⁻¹ * b :=
    a1.trans (mul_le_mul_of_nonneg_left h (inv_nonneg.mpr (pow_pos' hu _).le))
  rw [div_le_iff₀ hs] at a2
  have a3 := hn.le hu hS.le
  calc N ≤ _ := a2
    _ ≤ ((1 - R.u) ^ 1)⁻¹ * b * (((1 - R.u) ^ d)⁻¹ * S) :=
        mul_le_mul_of_nonneg_left a3 (mul_nonneg (inv_nonneg.mpr (pow_pos' hu _).le) hb)
    _ = _ := by rw [pow_add, mul_inv]; ring

/-- A quotient of a number that is at most `b S`. -/
theorem KktData.quot_le (hu : R.u < 1) {N s S b : ℝ} {d : ℕ} (hN : 0 ≤ N) (hS : 0 < S)
    (hn : R.Near d s S) (h : N ≤ b * S) : R.rnd (N / s) ≤ ((1 - R.u) ^ (d + 1))⁻¹ * b := by
  have a1 := (((Near.refl hu N).div hu hn).rnd hu).le hu (div_nonneg hN hS.le)
  refine a1.trans ?_
  rw [zero_add]
  exact mul_le_mul_of_nonneg_left (by rwa [div_le_iff₀ hS]) (inv_nonneg.mpr (pow_pos' hu _).le)

/-- An element of the residual of the stationarity condition, without inequality constraints. -/
theorem KktData.near_residual_sqp {P : KktData n m 0} {D : ℕ} (hu : R.u < 1) (hs : P.Scaled) (j : Fin n) {e : ℝ} {d : ℕ}
    (hd : d ≤ D) (he : R.Sum (fun r => P.Ae' R r j * P.y' R r) Finset.univ e d) :
    |R.rnd (P.g' R j - e) - (P.g j - ∑ i, P.Ae i j * P.multE i)| ≤
      (((1 - R.u) ^ (D + 7))⁻¹ - 1) * (|P.g j| + ∑ i, |P.Ae i j * P.multE i|) := by
  obtain ⟨tg, htg, hg⟩ := near_g hu hs j
  obtain ⟨te, hte, he⟩ := he.near hu fun r => (near_unscale hu (hs.de r).ne' (P.Ae r j)).mul hu
    (near_mult hu (P.de r) P.f (P.y r))
  obtain ⟨r1, hr1, h1⟩ := rnd_fac hu (P.g' R j - e)
  have e1 : R.rnd (P.g' R j - e) - (P.g j - ∑ i, P.Ae i j * P.multE i) =
      P.g j * (tg * r1 - 1) - (∑ i, P.Ae i j * P.multE i * (te i * r1) - ∑ i, P.Ae i j * P.multE i) := by
    have a1 : ∑ i, P.Ae i j * P.multE i * (te i * r1) = e * r1 := by
      rw [he, Finset.sum_mul]
      exact Finset.sum_congr rfl fun i _ => by unfold multE; ring
    rw [h1, hg, a1]; ring
  rw [e1]
  have b1 : |P.g j * (tg * r1 - 1)| ≤ (((1 - R.u) ^ (D + 7))⁻¹ - 1) * |P.g j| := by
    rw [abs_mul, mul_comm]
    exact mul_le_mul_of_nonneg_right (((htg.mul hu hr1).mono hu (by omega)).sub_one hu) (abs_nonneg _)
  have b2 := abs_sum_sub (R := R) (d := D + 7) (e := fun i => P.Ae i j * P.multE i) hu (S := Finset.univ)
    fun i => ((hte i).mul hu hr1).mono hu (by omega)
  calc _ ≤ _ := abs_sub _ _
    _ ≤ _ := add_le_add b1 b2
    _ = _ := by ring

/-- Without inequality constraints, the optimality conditions up to `ε` are these two. -/
theorem KktWithin.sqp {P : KktData n m 0} {ε : ℝ} :
    KktWithin ε P.g P.Ae P.ce P.Ai P.ci P.slack P.multE P.multI ↔
      (∀ j, |P.g j - ∑ i, P.Ae i j * P.multE i| ≤ ε * Max.max 1 ((∑ i, |P.multE i|) / m / 100)) ∧
        ∀ i, |P.ce i| ≤ ε := by
  constructor
  · intro h
    exact ⟨fun j => by simpa using h.stationary j, h.eq⟩
  · intro h
    exact ⟨fun j => by simpa using h.1 j, fun i => i.elim0, h.2, fun i => i.elim0⟩

/-- The stopping test of SQP, as `rounded_success`. -/
theorem rounded_success_sqp (R : Rounding) (hu : R.u < 1) (P : KktData n m 0) (hs : P.Scaled) {D : ℕ} {E tol M : ℝ}
    (hE : P.ComputesSqp R D E) (htol : E ≤ tol) (hM : P.Magnitude M) :
    let θ := ((1 - R.u) ^ (D + 7))⁻¹
    KktWithin (θ * tol + (θ - 1) * M) P.g P.Ae P.ce P.Ai P.ci P.slack P.multE P.multI ∧ ∀ i, |P.ce i| ≤ θ * tol := by
  intro θ
  obtain ⟨e, vy, he, ⟨dy, hdy, hy⟩, hE⟩ := hE
  have hθ : ∀ d ≤ D + 7, ((1 - R.u) ^ d)⁻¹ ≤ θ := fun d hd =>
    inv_anti₀ (pow_pos' hu _) (pow_le_pow_of_le_one (by linarith) (by linarith [R.nonneg]) hd)
  have hθ1 : 1 ≤ θ := by simpa using hθ 0 (by omega)
  have nY := near_norm hu (fun r => near_mult hu (P.de r) P.f (P.y r)) hdy hy
  have hY0 : 0 ≤ ∑ i, |P.multE i| := Finset.sum_nonneg fun _ _ => abs_nonneg _
  have nsd : R.Near (D + 5) (R.rnd (Max.max 100 (R.rnd (vy / m)) / 100)) (Max.max 1 ((∑ i, |P.multE i|) / m / 100)) :=
    near_sc hu nY hY0 m
  dsimp only at hE
  subst hE
  set sd := R.rnd (Max.max 100 (R.rnd (vy / m)) / 100) with hsd
  set SD := Max.max 1 ((∑ i, |P.multE i|) / m / 100) with hSD
  have hSD1 : 1 ≤ SD := le_max_left _ _
  have hsd0 : 0 < sd := nsd.pos hu (by linarith)
  obtain ⟨h1, h3⟩ := max_le_iff.mp htol
  have htol0 : 0 ≤ tol := (largest_nonneg _).trans h3
  rw [largest_le htol0] at h3
  have hMθ : 0 ≤ (θ - 1) * M := mul_nonneg (by linarith) hM.nonneg
  have heq : ∀ i, |P.ce i| ≤ θ * tol := fun r => by
    have a := (((near_unscale hu (hs.de r).ne' (P.ce r)).abs hu).symm hu).le hu (abs_nonneg _)
    refine a.trans ((mul_le_mul_of_nonneg_left (h3 r) (inv_nonneg.mpr (pow_pos' hu _).le)).trans ?_)
    exact mul_le_mul_of_nonneg_right (hθ 3 (by omega)) htol0
  refine ⟨KktWithin.sqp.mpr ⟨fun j => ?_, fun r => (heq r).trans (by linarith)⟩, heq⟩
  obtain ⟨d, hd, he⟩ := he j
  have a1 := near_residual_sqp hu hs j hd he
  have a2 := le_of_quot hu htol0 (largest_nonneg _) hsd0 (by linarith) nsd h1
  have a3 := (abs_le_largest (fun j => R.rnd (P.g' R j - e j)) j).trans a2
  have a4 : ((1 - R.u) ^ (D + 5 + 1))⁻¹ * tol * SD ≤ θ * tol * SD := by
    refine mul_le_mul_of_nonneg_right (mul_le_mul_of_nonneg_right (hθ _ (by omega)) htol0) (by linarith)
  have a5 : (((1 - R.u) ^ (D + 7))⁻¹ - 1) * (|P.g j| + ∑ i, |P.Ae i j * P.multE i|) ≤ (θ - 1) * M := by
    refine mul_le_mul (by linarith [hθ (D + 7) le_rfl]) ?_ (by positivity) (by linarith)
    simpa using hM.stationary j
  have a6 : (θ - 1) * M ≤ (θ - 1) * M * SD := le_mul_of_one_le_right hMθ hSD1
  have a7 := abs_sub_abs_le_abs_sub (P.g j - ∑ i, P.Ae i j * P.multE i) (R.rnd (P.g' R j - e j))
  rw [abs_sub_comm] at a1
  rw [add_mul]
  linarith

/-- The stopping test of SQP, as `rounded_success_attained`. -/
theorem rounded_success_attained_sqp (R : Rounding) (hu : R.u < 1) (P : KktData n m 0) (hs : P.Scaled) {D : ℕ} {E ε M : ℝ}
    (hE : P.ComputesSqp R D E) (hM : P.Magnitude M) (hε : 0 ≤ ε)
    (hk : KktWithin ε P.g P.Ae P.ce P.Ai P.ci P.slack P.multE P.multI) :
    let θ := ((1 - R.u) ^ (D + 7))⁻¹
    E ≤ θ * (ε + (θ - 1) * M) := by
  intro θ
  obtain ⟨k1, k2⟩ := KktWithin.sqp.mp hk
  obtain ⟨e, vy, he, ⟨dy, hdy, hy⟩, hE⟩ := hE
  have hθ : ∀ d ≤ D + 7, ((1 - R.u) ^ d)⁻¹ ≤ θ := fun d hd =>
    inv_anti₀ (pow_pos' hu _) (pow_le_pow_of_le_one (by linarith) (by linarith [R.nonneg]) hd)
  have hθ1 : 1 ≤ θ := by simpa using hθ 0 (by omega)
  have nY := near_norm hu (fun r => near_mult hu (P.de r) P.f (P.y r)) hdy hy
  have hY0 : 0 ≤ ∑ i, |P.multE i| := Finset.sum_nonneg fun _ _ => abs_nonneg _
  have nsd : R.Near (D + 5) (R.rnd (Max.max 100 (R.rnd (vy / m)) / 100)) (Max.max 1 ((∑ i, |P.multE i|) / m / 100)) :=
    near_sc hu nY hY0 m
  dsimp only at hE
  subst hE
  set sd := R.rnd (Max.max 100 (R.rnd (vy / m)) / 100) with hsd
  set SD := Max.max 1 ((∑ i, |P.multE i|) / m / 100) with hSD
  have hSD1 : 1 ≤ SD := le_max_left _ _
  have hMθ : 0 ≤ (θ - 1) * M := mul_nonneg (by linarith) hM.nonneg
  have hb : 0 ≤ ε + (θ - 1) * M := by linarith
  have lift : ∀ {d : ℕ} {b : ℝ}, d ≤ D + 7 → 0 ≤ b → b ≤ ε + (θ - 1) * M →
      ((1 - R.u) ^ d)⁻¹ * b ≤ θ * (ε + (θ - 1) * M) := fun hd h0 h =>
    mul_le_mul (hθ _ hd) h h0 (by linarith)
  refine max_le ?_ ?_
  · refine (quot_le hu (largest_nonneg _) (by linarith) nsd (b := ε + (θ - 1) * M) ?_).trans
      (lift (by omega) hb le_rfl)
    rw [largest_le (mul_nonneg hb (by linarith))]
    intro j
    obtain ⟨d, hd, he⟩ := he j
    have a1 := near_residual_sqp hu hs j hd he
    have a2 := k1 j
    have a5 : (((1 - R.u) ^ (D + 7))⁻¹ - 1) * (|P.g j| + ∑ i, |P.Ae i j * P.multE i|) ≤ (θ - 1) * M := by
      refine mul_le_mul (by linarith [hθ (D + 7) le_rfl]) ?_ (by positivity) (by linarith)
      simpa using hM.stationary j
    have a6 : (θ - 1) * M ≤ (θ - 1) * M * SD := le_mul_of_one_le_right hMθ hSD1
    have a7 := abs_sub_abs_le_abs_sub (R.rnd (P.g' R j - e j)) (P.g j - ∑ i, P.Ae i j * P.multE i)
    rw [add_mul]
    linarith
  · rw [largest_le (mul_nonneg (by linarith) hb)]
    intro r
    refine (((near_unscale hu (hs.de r).ne' (P.ce r)).abs hu).le hu (abs_nonneg _)).trans ?_
    refine (mul_le_mul_of_nonneg_left (k2 r) (inv_nonneg.mpr (pow_pos' hu _).le)).trans ?_
    exact lift (by omega) hε (by linarith)

/-- The stopping test of Newton's method: the error is accurate up to three roundings. -/
theorem rounded_success_newton (R : Rounding) (hu : R.u < 1) (P : KktData n 0 0) (hs : P.Scaled) {tol : ℝ}
    (htol : P.newtonError R ≤ tol) :
    KktWithin (((1 - R.u) ^ 3)⁻¹ * tol) P.g P.Ae P.ce P.Ai P.ci P.slack P.multE P.multI := by
  have htol0 : 0 ≤ tol := (largest_nonneg _).trans htol
  refine KktWithin.sqp.mpr ⟨fun j => ?_, fun i => i.elim0⟩
  have a := (((near_g hu hs j).abs hu).symm hu).le hu (abs_nonneg _)
  have b := (largest_le htol0).mp htol j
  have c := a.trans (mul_le_mul_of_nonneg_left b (inv_nonneg.mpr (pow_pos' hu _).le))
  simpa using c

/-- Conversely, Newton's method stops if the gradient is below the tolerance by these three roundings. -/
theorem rounded_success_attained_newton (R : Rounding) (hu : R.u < 1) (P : KktData n 0 0) (hs : P.Scaled) {ε : ℝ}
    (hε : 0 ≤ ε) (hk : KktWithin ε P.g P.Ae P.ce P.Ai P.ci P.slack P.multE P.multI) :
    P.newtonError R ≤ ((1 - R.u) ^ 3)⁻¹ * ε := by
  have h0 : 0 ≤ ((1 - R.u) ^ 3)⁻¹ := inv_nonneg.mpr (pow_pos' hu _).le
  refine (largest_le (mul_nonneg h0 hε)).mpr fun j => ?_
  have a := ((near_g hu hs j).abs hu).le hu (abs_nonneg _)
  have b := (KktWithin.sqp.mp hk).1 j
  exact a.trans (mul_le_mul_of_nonneg_left (by simpa using b) h0)

/-- The stopping test of SQP always has a value. -/
theorem KktData.computesSqp_exists (P : KktData n m 0) (R : Rounding) : ∃ E, P.ComputesSqp R m E := by
  choose e he using fun j => Rounding.Sum.exists R (fun r => P.Ae' R r j * P.y' R r) Finset.univ
  obtain ⟨vy, hy⟩ := Rounding.Sum.exists R (fun r => |P.y' R r|) Finset.univ
  exact ⟨_, e, vy, fun j => ⟨_, by simp, he j⟩, ⟨_, by simp, hy⟩, rfl⟩

/-- `f = (x₀² + x₁²) / 2` with `x₀ + x₁ = 2` at its solution, in `double`: the stopping test passes for a tolerance of
`10⁻⁸` whatever the roundings are. -/
example {E : ℝ} (hE : KktData.ComputesSqp (n := 2) (m := 1)
    ⟨![1, 1], ![![1, 1]], ![0], ![], ![], 1 / 2, ![1 / 4], ![], ![], ![2], ![]⟩ (Rounding.binary 53) 1 E) : E ≤ 1e-8 := by
  have hu : (Rounding.binary 53).u = 2 ^ (-53 : ℤ) := rfl
  have h := rounded_success_attained_sqp (Rounding.binary 53) (by rw [hu]; norm_num) _
    ⟨by norm_num, by norm_num, fun i => i.elim0⟩ hE (M := 2) (ε := 0)
    ⟨by norm_num [Fin.forall_fin_two, KktData.multE], fun i => i.elim0, by norm_num⟩ le_rfl
    (KktWithin.sqp.mpr ⟨by norm_num [Fin.forall_fin_two, KktData.multE], by norm_num⟩)
  refine h.trans ?_
  rw [hu]
  norm_num

end Slp
