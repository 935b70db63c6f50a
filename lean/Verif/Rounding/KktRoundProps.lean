import Verif.Rounding.FactorLemmas
import Verif.Rounding.BinaryModel

/-! What the stopping test of the interior-point solver says about the user's problem in rounded arithmetic. -/

namespace Slp

variable {n m k : ℕ}

/-- The optimality conditions of the user's problem hold up to `ε`, with the slacks `S` and the multipliers `Y` and `Z`. -/
structure KktWithin (ε : ℝ) (g : Fin n → ℝ) (Ae : Fin m → Fin n → ℝ) (ce : Fin m → ℝ) (Ai : Fin k → Fin n → ℝ)
    (ci S : Fin k → ℝ) (Y : Fin m → ℝ) (Z : Fin k → ℝ) : Prop where
  stationary : ∀ j, |g j - ∑ i, Ae i j * Y i - ∑ i, Ai i j * Z i| ≤
    ε * Max.max 1 ((∑ i, |Y i| + ∑ i, |Z i|) / (m + k) / 100)
  complementary : ∀ i, |S i * Z i| ≤ ε * Max.max 1 ((∑ i, |Z i|) / k / 100)
  eq : ∀ i, |ce i| ≤ ε
  ineq : ∀ i, |ci i - S i| ≤ ε

namespace KktData

variable (P : KktData n m k)

/-- The multipliers of the user's equality constraints, exactly. -/
noncomputable def multE (i : Fin m) : ℝ := P.de i * P.y i / P.f
/-- The multipliers of the user's inequality constraints, exactly. -/
noncomputable def multI (i : Fin k) : ℝ := P.di i * P.z i / P.f
/-- The slacks of the user's inequality constraints, exactly. -/
noncomputable def slack (i : Fin k) : ℝ := P.s i / P.di i

/-- The magnitude of the terms of the optimality conditions is at most `M`. -/
structure Magnitude (M : ℝ) : Prop where
  stationary : ∀ j, |P.g j| + ∑ i, |P.Ae i j * P.multE i| + ∑ i, |P.Ai i j * P.multI i| ≤ M
  ineq : ∀ i, |P.ci i| + |P.slack i| ≤ M
  nonneg : 0 ≤ M

/-- The scaling factors are positive. -/
structure Scaled : Prop where
  f : 0 < P.f
  de : ∀ i, 0 < P.de i
  di : ∀ i, 0 < P.di i

variable {P} {R : Rounding}

open Rounding

theorem near_unscale (hu : R.u < 1) {d : ℝ} (hd : d ≠ 0) (x : ℝ) : R.Near 3 (R.rnd (R.rnd (1 / d) * R.rnd (d * x))) x := by
  have h := ((near_rnd hu (1 / d)).mul hu (near_rnd hu (d * x))).rnd hu
  rwa [show 1 / d * (d * x) = x by field_simp] at h

theorem near_g (hu : R.u < 1) (hs : P.Scaled) (j : Fin n) : R.Near 3 (P.g' R j) (P.g j) := by
  unfold g'
  split
  next h => rw [h.1, one_mul]; exact (near_rnd hu (P.g j)).mono hu (by omega)
  next h => exact near_unscale hu hs.f.ne' (P.g j)

theorem near_mult (hu : R.u < 1) (d f x : ℝ) : R.Near 3 (R.rnd (R.rnd (d * x) * R.rnd (1 / f))) (d * x / f) := by
  have h := ((near_rnd hu (d * x)).mul hu (near_rnd hu (1 / f))).rnd hu
  rwa [show d * x * (1 / f) = d * x / f by ring] at h

theorem near_slack (hu : R.u < 1) (d x : ℝ) : R.Near 2 (R.rnd (R.rnd (1 / d) * x)) (x / d) := by
  have h := ((near_rnd hu (1 / d)).mul hu (Near.refl hu x)).rnd hu
  rwa [show 1 / d * x = x / d by ring] at h

theorem near_norm {q D d : ℕ} (hu : R.u < 1) {x e : Fin q → ℝ} (hx : ∀ i, R.Near 3 (x i) (e i)) {v : ℝ} (hd : d ≤ D)
    (h : R.Sum (fun i => |x i|) Finset.univ v d) : R.Near (D + 3) v (∑ i, |e i|) := by
  obtain ⟨t, ht, rfl⟩ := h.near hu fun i => (hx i).abs hu
  exact near_sum hu (fun i => abs_nonneg _) fun i => (ht i).mono hu (by omega)

theorem max_hundred (a : ℝ) : Max.max 100 a / 100 = Max.max 1 (a / 100) := by
  rcases le_total 100 a with h | h
  · rw [max_eq_right h, max_eq_right (by linarith)]
  · rw [max_eq_left h, max_eq_left (by linarith)]; norm_num

/-- The scale of the stationarity condition. -/
theorem near_sd {D : ℕ} (hu : R.u < 1) {vy vz ey ez : ℝ} (hy : R.Near (D + 3) vy ey) (hz : R.Near (D + 3) vz ez)
    (hy0 : 0 ≤ ey) (hz0 : 0 ≤ ez) (N : ℕ) :
    R.Near (D + 6) (R.rnd (Max.max 100 (R.rnd (R.rnd (vy + vz) / N)) / 100)) (Max.max 1 ((ey + ez) / N / 100)) := by
  have h1 := ((hy.add hu hz hy0 hz0).rnd hu).div hu (Near.refl hu (N : ℝ))
  have h2 := ((h1.rnd hu).max hu (c := 100) (by norm_num) (by positivity)).div hu (Near.refl hu (100 : ℝ))
  have h3 := h2.rnd hu
  rw [max_hundred ((ey + ez) / N)] at h3
  exact h3.mono hu (by omega)

theorem near_sc {D : ℕ} (hu : R.u < 1) {vz ez : ℝ} (hz : R.Near (D + 3) vz ez) (hz0 : 0 ≤ ez) (N : ℕ) :
    R.Near (D + 5) (R.rnd (Max.max 100 (R.rnd (vz / N)) / 100)) (Max.max 1 (ez / N / 100)) := by
  have h1 := (hz.div hu (Near.refl hu (N : ℝ))).rnd hu
  have h2 := ((h1.max hu (c := 100) (by norm_num) (by positivity)).div hu (Near.refl hu (100 : ℝ))).rnd hu
  rw [max_hundred (ez / N)] at h2
  exact h2.mono hu (by omega)

/-- The difference of two rounded numbers. -/
theorem near_diff {d : ℕ} (hu : R.u < 1) {v w a b : ℝ} (hv : R.Near d v a) (hw : R.Near d w b) :
    |v - w - (a - b)| ≤ (((1 - R.u) ^ d)⁻¹ - 1) * (|a| + |b|) := by
  have h1 := hv.sub hu
  have h2 := hw.sub hu
  calc |v - w - (a - b)| = |(v - a) - (w - b)| := by congr 1; ring
    _ ≤ |v - a| + |w - b| := abs_sub _ _
    _ ≤ _ := by rw [mul_add]; exact add_le_add h1 h2

/-- An element of the residual of the stationarity condition. -/
theorem near_residual {D : ℕ} (hu : R.u < 1) (hs : P.Scaled) (j : Fin n) {e i : ℝ} {d d' : ℕ} (hd : d ≤ D) (hd' : d' ≤ D)
    (he : R.Sum (fun r => P.Ae' R r j * P.y' R r) Finset.univ e d)
    (hi : R.Sum (fun r => P.Ai' R r j * P.z' R r) Finset.univ i d') :
    |R.rnd (R.rnd (P.g' R j - e) - i) - (P.g j - ∑ i, P.Ae i j * P.multE i - ∑ i, P.Ai i j * P.multI i)| ≤
      (((1 - R.u) ^ (D + 8))⁻¹ - 1) *
        (|P.g j| + ∑ i, |P.Ae i j * P.multE i| + ∑ i, |P.Ai i j * P.multI i|) := by
  obtain ⟨tg, htg, hg⟩ := near_g hu hs j
  obtain ⟨te, hte, he⟩ := he.near hu fun r => (near_unscale hu (hs.de r).ne' (P.Ae r j)).mul hu
    (near_mult hu (P.de r) P.f (P.y r))
  obtain ⟨ti, hti, hi⟩ := hi.near hu fun r => (near_unscale hu (hs.di r).ne' (P.Ai r j)).mul hu
    (near_mult hu (P.di r) P.f (P.z r))
  obtain ⟨r1, hr1, h1⟩ := rnd_fac hu (P.g' R j - e)
  obtain ⟨r2, hr2, h2⟩ := rnd_fac hu (R.rnd (P.g' R j - e) - i)
  have hg' : P.g' R j = P.g j * tg := hg
  have e1 : R.rnd (R.rnd (P.g' R j - e) - i) - (P.g j - ∑ i, P.Ae i j * P.multE i - ∑ i, P.Ai i j * P.multI i) =
      P.g j * (tg * r1 * r2 - 1) - (∑ i, P.Ae i j * P.multE i * (te i * r1 * r2) - ∑ i, P.Ae i j * P.multE i) -
        (∑ i, P.Ai i j * P.multI i * (ti i * r2) - ∑ i, P.Ai i j * P.multI i) := by
    have a1 : ∑ i, P.Ae i j * P.multE i * (te i * r1 * r2) = e * r1 * r2 := by
      rw [he, Finset.sum_mul, Finset.sum_mul]
      exact Finset.sum_congr rfl fun i _ => by unfold multE; ring
    have a2 : ∑ r, P.Ai r j * P.multI r * (ti r * r2) = i * r2 := by
      rw [hi, Finset.sum_mul]
      exact Finset.sum_congr rfl fun i _ => by unfold multI; ring
    rw [h2, h1, hg', a1, a2]; ring
  rw [e1]
  have b1 : |P.g j * (tg * r1 * r2 - 1)| ≤ (((1 - R.u) ^ (D + 8))⁻¹ - 1) * |P.g j| := by
    rw [abs_mul, mul_comm]
    exact mul_le_mul_of_nonneg_right ((((htg.mul hu hr1).mul hu hr2).mono hu (by omega)).sub_one hu) (abs_nonneg _)
  have b2 := abs_sum_sub (R := R) (d := D + 8) (e := fun i => P.Ae i j * P.multE i) hu (S := Finset.univ)
    fun i => (((hte i).mul hu hr1).mul hu hr2).mono hu (by omega)
  have b3 := abs_sum_sub (R := R) (d := D + 8) (e := fun i => P.Ai i j * P.multI i) hu (S := Finset.univ)
    fun i => ((hti i).mul hu hr2).mono hu (by omega)
  calc _ ≤ _ := (abs_sub _ _).trans (add_le_add_left (abs_sub _ _) _)
    _ ≤ _ := add_le_add (add_le_add b1 b2) b3
    _ = _ := by ring

end KktData

open Rounding KktData

/-- A stopping test that passes in rounded arithmetic passes exactly for the user's problem, with a tolerance that is
larger by the factor `θ = (1 - u)^-(D + 13)` and by `θ - 1` times the magnitude of the terms. With positive slacks the
inequality constraints hold up to `θ` times the tolerance itself. -/
theorem rounded_success (R : Rounding) (hu : R.u < 1) (P : KktData n m k) (hs : P.Scaled) {D : ℕ} {E tol M : ℝ}
    (hE : P.Computes R D E) (htol : E ≤ tol) (hM : P.Magnitude M) :
    let θ := ((1 - R.u) ^ (D + 13))⁻¹
    KktWithin (θ * tol + (θ - 1) * M) P.g P.Ae P.ce P.Ai P.ci P.slack P.multE P.multI ∧
      (∀ i, |P.ce i| ≤ θ * tol) ∧ ((∀ i, 0 < P.s i) → ∀ i, -(θ * tol) ≤ P.ci i) := by
  intro θ
  obtain ⟨e, i, vy, vz, he, hi, ⟨dy, hdy, hy⟩, ⟨dz, hdz, hz⟩, hE⟩ := hE
  have hθ : ∀ d ≤ D + 13, ((1 - R.u) ^ d)⁻¹ ≤ θ := fun d hd =>
    inv_anti₀ (pow_pos' hu _) (pow_le_pow_of_le_one (by linarith) (by linarith [R.nonneg]) hd)
  have hθ1 : 1 ≤ θ := by simpa using hθ 0 (by omega)
  have nY := near_norm hu (fun r => near_mult hu (P.de r) P.f (P.y r)) hdy hy
  have nZ := near_norm hu (fun r => near_mult hu (P.di r) P.f (P.z r)) hdz hz
  have hY0 : 0 ≤ ∑ i, |P.multE i| := Finset.sum_nonneg fun _ _ => abs_nonneg _
  have hZ0 : 0 ≤ ∑ i, |P.multI i| := Finset.sum_nonneg fun _ _ => abs_nonneg _
  have nsd := near_sd hu nY nZ hY0 hZ0 (m + k)
  have nsc := near_sc hu nZ hZ0 k
  dsimp only at hE
  subst hE
  set sd := R.rnd (Max.max 100 (R.rnd (R.rnd (vy + vz) / (m + k : ℕ))) / 100) with hsd
  set sc := R.rnd (Max.max 100 (R.rnd (vz / k)) / 100) with hsc
  set SD := Max.max 1 ((∑ i, |P.multE i| + ∑ i, |P.multI i|) / (m + k : ℕ) / 100) with hSD
  set SC := Max.max 1 ((∑ i, |P.multI i|) / k / 100) with hSC
  have hSD1 : 1 ≤ SD := le_max_left _ _
  have hSC1 : 1 ≤ SC := le_max_left _ _
  have nsd : R.Near (D + 6) sd SD := nsd
  have nsc : R.Near (D + 5) sc SC := nsc
  have hsd0 : 0 < sd := nsd.pos hu (by linarith)
  have hsc0 : 0 < sc := nsc.pos hu (by linarith)
  rw [max_le_iff, max_le_iff, max_le_iff] at htol
  obtain ⟨⟨⟨h1, h2⟩, h3⟩, h4⟩ := htol
  have htol0 : 0 ≤ tol := (largest_nonneg _).trans h3
  rw [largest_le htol0] at h3 h4
  -- a quotient that is rounded to at most the tolerance
  have quot : ∀ {N s S : ℝ} {d : ℕ}, 0 ≤ N → 0 < s → 0 < S → R.Near d s S → R.rnd (N / s) ≤ tol →
      N ≤ ((1 - R.u) ^ (d + 1))⁻¹ * tol * S := by
    intro N s S d hN hs hS hn h
    have a1 := ((near_rnd hu (N / s)).symm hu).le hu (R := R)
      (((near_rnd hu (N / s))).nonneg hu (div_nonneg hN hs.le))
    have a2 : N / s ≤ ((1 - R.u) ^ 1)⁻¹ * tol :=
      a1.trans (mul_le_mul_of_nonneg_left h (inv_nonneg.mpr (pow_pos' hu _).le))
    rw [div_le_iff₀ hs] at a2
    have a3 := hn.le hu hS.le
    calc N ≤ _ := a2
      _ ≤ ((1 - R.u) ^ 1)⁻¹ * tol * (((1 - R.u) ^ d)⁻¹ * S) :=
          mul_le_mul_of_nonneg_left a3 (mul_nonneg (inv_nonneg.mpr (pow_pos' hu _).le) htol0)
      _ = _ := by rw [pow_add, mul_inv]; ring
  have hM0 := hM.nonneg
  have hMθ : 0 ≤ (θ - 1) * M := mul_nonneg (by linarith) hM0
  have heq : ∀ i, |P.ce i| ≤ θ * tol := fun r => by
    have a := (((near_unscale hu (hs.de r).ne' (P.ce r)).abs hu).symm hu).le hu (abs_nonneg _)
    refine a.trans ((mul_le_mul_of_nonneg_left (h3 r) (inv_nonneg.mpr (pow_pos' hu _).le)).trans ?_)
    exact mul_le_mul_of_nonneg_right (hθ 3 (by omega)) htol0
  refine ⟨⟨fun j => ?_, fun r => ?_, fun r => (heq r).trans (by linarith), fun r => ?_⟩, heq, fun hpos r => ?_⟩
  · obtain ⟨d, hd, he⟩ := he j
    obtain ⟨d', hd', hi⟩ := hi j
    have a1 := near_residual hu hs j hd hd' he hi
    have a2 := quot (largest_nonneg _) hsd0 (by linarith) nsd h1
    have a3 := (abs_le_largest (fun j => R.rnd (R.rnd (P.g' R j - e j) - i j)) j).trans a2
    have a4 : ((1 - R.u) ^ (D + 6 + 1))⁻¹ * tol * SD ≤ θ * tol * SD := by
      refine mul_le_mul_of_nonneg_right (mul_le_mul_of_nonneg_right (hθ _ (by omega)) htol0) (by linarith)
    have a5 : (((1 - R.u) ^ (D + 8))⁻¹ - 1) * (|P.g j| + ∑ i, |P.Ae i j * P.multE i| + ∑ i, |P.Ai i j * P.multI i|) ≤
        (θ - 1) * M := by
      refine mul_le_mul (by linarith [hθ (D + 8) (by omega)]) (hM.stationary j) (by positivity) (by linarith)
    have a6 : (θ - 1) * M ≤ (θ - 1) * M * SD := le_mul_of_one_le_right hMθ hSD1
    have e1 : SD = Max.max 1 ((∑ i, |P.multE i| + ∑ i, |P.multI i|) / (m + k) / 100) := by rw [hSD]; push_cast; rfl
    rw [← e1, add_mul]
    have a7 := abs_sub_abs_le_abs_sub (P.g j - ∑ i, P.Ae i j * P.multE i - ∑ i, P.Ai i j * P.multI i)
      (R.rnd (R.rnd (P.g' R j - e j) - i j))
    rw [abs_sub_comm] at a1
    linarith
  · have a2 := quot (largest_nonneg _) hsc0 (by linarith) nsc h2
    have a3 := (abs_le_largest (fun r => R.rnd (R.rnd (P.s' R r * P.z' R r) - 0)) r).trans a2
    have n1 := (((near_slack hu (P.di r) (P.s r)).mul hu (near_mult hu (P.di r) P.f (P.z r))).rnd hu)
    have n2 : R.Near 7 (R.rnd (R.rnd (P.s' R r * P.z' R r) - 0)) (P.slack r * P.multI r) := by
      rw [sub_zero]; exact n1.rnd hu
    have a4 := ((n2.abs hu).symm hu).le hu (abs_nonneg _)
    have a5 : ((1 - R.u) ^ 7)⁻¹ * (((1 - R.u) ^ (D + 5 + 1))⁻¹ * tol * SC) = θ * tol * SC := by
      change _ = ((1 - R.u) ^ (D + 13))⁻¹ * tol * SC
      rw [show D + 13 = 7 + (D + 5 + 1) by ring, pow_add _ 7, mul_inv]; ring
    have a6 : 0 ≤ (θ - 1) * M * SC := mul_nonneg hMθ (by linarith)
    rw [add_mul]
    have a7 := mul_le_mul_of_nonneg_left a3 (inv_nonneg.mpr (pow_pos' hu 7).le)
    linarith
  · have n1 := near_diff hu (near_unscale hu (hs.di r).ne' (P.ci r)) ((near_slack hu (P.di r) (P.s r)).mono hu (by omega : 2 ≤ 3))
    have a1 := ((((near_rnd hu (P.ci' R r - P.s' R r)).abs hu).symm hu).le hu (abs_nonneg _)).trans
      (mul_le_mul_of_nonneg_left (h4 r) (inv_nonneg.mpr (pow_pos' hu _).le))
    have a2 : ((1 - R.u) ^ 1)⁻¹ * tol ≤ θ * tol := mul_le_mul_of_nonneg_right (hθ 1 (by omega)) htol0
    have a3 : (((1 - R.u) ^ 3)⁻¹ - 1) * (|P.ci r| + |P.slack r|) ≤ (θ - 1) * M :=
      mul_le_mul (by linarith [hθ 3 (by omega)]) (hM.ineq r) (by positivity) (by linarith)
    have a4 := abs_sub_abs_le_abs_sub (P.ci r - P.slack r) (P.ci' R r - P.s' R r)
    rw [abs_sub_comm] at n1
    have n1 : |P.ci r - P.slack r - (P.ci' R r - P.s' R r)| ≤ _ := n1
    change |P.ci r - P.slack r| - |P.ci' R r - P.s' R r| ≤ _ at a4
    have a3 : (((1 - R.u) ^ 3)⁻¹ - 1) * (|P.ci r| + |P.s r / P.di r|) ≤ (θ - 1) * M := a3
    linarith
  · have a1 := ((((near_rnd hu (P.ci' R r - P.s' R r)).abs hu).symm hu).le hu (abs_nonneg _)).trans
      (mul_le_mul_of_nonneg_left (h4 r) (inv_nonneg.mpr (pow_pos' hu _).le))
    have hs0 : 0 < P.s' R r := (near_slack hu (P.di r) (P.s r)).pos hu (div_pos (hpos r) (hs.di r))
    have a2 : -(((1 - R.u) ^ 1)⁻¹ * tol) ≤ P.ci' R r := by linarith [(abs_le.mp a1).1]
    rcases le_or_gt 0 (P.ci r) with hc | hc
    · have : 0 ≤ θ * tol := mul_nonneg (by linarith) htol0
      linarith
    · have n := near_unscale hu (hs.di r).ne' (P.ci r)
      have a3 := ((n.abs hu).symm hu).le hu (abs_nonneg _)
      obtain ⟨t, ht, hv⟩ := n
      have hneg : P.ci' R r < 0 := by
        have := mul_neg_of_neg_of_pos hc (ht.pos hu)
        rw [← hv] at this; exact this
      change |P.ci r| ≤ ((1 - R.u) ^ 3)⁻¹ * |P.ci' R r| at a3
      rw [abs_of_neg hc, abs_of_neg hneg] at a3
      have a4 : ((1 - R.u) ^ 3)⁻¹ * -P.ci' R r ≤ ((1 - R.u) ^ 3)⁻¹ * (((1 - R.u) ^ 1)⁻¹ * tol) :=
        mul_le_mul_of_nonneg_left (by linarith) (inv_nonneg.mpr (pow_pos' hu _).le)
      have a5 : ((1 - R.u) ^ 3)⁻¹ * (((1 - R.u) ^ 1)⁻¹ * tol) = ((1 - R.u) ^ 4)⁻¹ * tol := by
        rw [show (4 : ℕ) = 3 + 1 by rfl, pow_add _ 3 1, mul_inv]; ring
      have a6 : ((1 - R.u) ^ 4)⁻¹ * tol ≤ θ * tol := mul_le_mul_of_nonneg_right (hθ 4 (by omega)) htol0
      linarith

/-- Conversely, the stopping test passes in rounded arithmetic if the optimality conditions of the user's problem hold up
to an `ε` for which `θ (ε + (θ - 1) M)` is at most the tolerance. -/
theorem rounded_success_attained (R : Rounding) (hu : R.u < 1) (P : KktData n m k) (hs : P.Scaled) {D : ℕ} {E ε M : ℝ}
    (hE : P.Computes R D E) (hM : P.Magnitude M) (hε : 0 ≤ ε)
    (hk : KktWithin ε P.g P.Ae P.ce P.Ai P.ci P.slack P.multE P.multI) :
    let θ := ((1 - R.u) ^ (D + 13))⁻¹
    E ≤ θ * (ε + (θ - 1) * M) := by
  intro θ
  obtain ⟨e, i, vy, vz, he, hi, ⟨dy, hdy, hy⟩, ⟨dz, hdz, hz⟩, hE⟩ := hE
  have hθ : ∀ d ≤ D + 13, ((1 - R.u) ^ d)⁻¹ ≤ θ := fun d hd =>
    inv_anti₀ (pow_pos' hu _) (pow_le_pow_of_le_one (by linarith) (by linarith [R.nonneg]) hd)
  have hθ1 : 1 ≤ θ := by simpa using hθ 0 (by omega)
  have nY := near_norm hu (fun r => near_mult hu (P.de r) P.f (P.y r)) hdy hy
  have nZ := near_norm hu (fun r => near_mult hu (P.di r) P.f (P.z r)) hdz hz
  have hY0 : 0 ≤ ∑ i, |P.multE i| := Finset.sum_nonneg fun _ _ => abs_nonneg _
  have hZ0 : 0 ≤ ∑ i, |P.multI i| := Finset.sum_nonneg fun _ _ => abs_nonneg _
  have nsd := near_sd hu nY nZ hY0 hZ0 (m + k)
  have nsc := near_sc hu nZ hZ0 k
  dsimp only at hE
  subst hE
  set sd := R.rnd (Max.max 100 (R.rnd (R.rnd (vy + vz) / (m + k : ℕ))) / 100) with hsd
  set sc := R.rnd (Max.max 100 (R.rnd (vz / k)) / 100) with hsc
  set SD := Max.max 1 ((∑ i, |P.multE i| + ∑ i, |P.multI i|) / (m + k : ℕ) / 100) with hSD
  set SC := Max.max 1 ((∑ i, |P.multI i|) / k / 100) with hSC
  have hSD1 : 1 ≤ SD := le_max_left _ _
  have hSC1 : 1 ≤ SC := le_max_left _ _
  have nsd : R.Near (D + 6) sd SD := nsd
  have nsc : R.Near (D + 5) sc SC := nsc
  have hsd0 : 0 < sd := nsd.pos hu (by linarith)
  have hsc0 : 0 < sc := nsc.pos hu (by linarith)
  have hMθ : 0 ≤ (θ - 1) * M := mul_nonneg (by linarith) hM.nonneg
  have hb : 0 ≤ ε + (θ - 1) * M := by linarith
  -- a quotient of a number that is at most `b S`
  have quot : ∀ {N s S b : ℝ} {d : ℕ}, 0 ≤ N → 0 < s → 0 < S → R.Near d s S → N ≤ b * S →
      R.rnd (N / s) ≤ ((1 - R.u) ^ (d + 1))⁻¹ * b := by
    intro N s S b d hN hs hS hn h
    have a1 := (((Near.refl hu N).div hu hn).rnd hu).le hu (div_nonneg hN hS.le)
    refine a1.trans ?_
    rw [zero_add]
    exact mul_le_mul_of_nonneg_left (by rwa [div_le_iff₀ hS]) (inv_nonneg.mpr (pow_pos' hu _).le)
  have lift : ∀ {d : ℕ} {b : ℝ}, d ≤ D + 13 → 0 ≤ b → b ≤ ε + (θ - 1) * M →
      ((1 - R.u) ^ d)⁻¹ * b ≤ θ * (ε + (θ - 1) * M) := fun hd h0 h =>
    mul_le_mul (hθ _ hd) h h0 (by linarith)
  refine max_le (max_le (max_le ?_ ?_) ?_) ?_
  · refine (quot (largest_nonneg _) hsd0 (by linarith) nsd (b := ε + (θ - 1) * M) ?_).trans
      (lift (by omega) hb le_rfl)
    rw [largest_le (mul_nonneg hb (by linarith))]
    intro j
    obtain ⟨d, hd, he⟩ := he j
    obtain ⟨d', hd', hi⟩ := hi j
    have a1 := near_residual hu hs j hd hd' he hi
    have a2 := hk.stationary j
    have e1 : SD = Max.max 1 ((∑ i, |P.multE i| + ∑ i, |P.multI i|) / (m + k) / 100) := by rw [hSD]; push_cast; rfl
    rw [← e1] at a2
    have a5 : (((1 - R.u) ^ (D + 8))⁻¹ - 1) * (|P.g j| + ∑ i, |P.Ae i j * P.multE i| + ∑ i, |P.Ai i j * P.multI i|) ≤
        (θ - 1) * M := by
      refine mul_le_mul (by linarith [hθ (D + 8) (by omega)]) (hM.stationary j) (by positivity) (by linarith)
    have a6 : (θ - 1) * M ≤ (θ - 1) * M * SD := le_mul_of_one_le_right hMθ hSD1
    have a7 := abs_sub_abs_le_abs_sub (R.rnd (R.rnd (P.g' R j - e j) - i j))
      (P.g j - ∑ i, P.Ae i j * P.multE i - ∑ i, P.Ai i j * P.multI i)
    rw [add_mul]
    linarith
  · have hb7 : 0 ≤ ((1 - R.u) ^ 7)⁻¹ * ε := mul_nonneg (inv_nonneg.mpr (pow_pos' hu _).le) hε
    refine (quot (largest_nonneg _) hsc0 (by linarith) nsc (b := ((1 - R.u) ^ 7)⁻¹ * ε) ?_).trans ?_
    · rw [largest_le (mul_nonneg hb7 (by linarith))]
      intro r
      have n1 := (((near_slack hu (P.di r) (P.s r)).mul hu (near_mult hu (P.di r) P.f (P.z r))).rnd hu)
      have n2 : R.Near 7 (R.rnd (R.rnd (P.s' R r * P.z' R r) - 0)) (P.slack r * P.multI r) := by
        rw [sub_zero]; exact n1.rnd hu
      refine ((n2.abs hu).le hu (abs_nonneg _)).trans ?_
      rw [mul_assoc]
      exact mul_le_mul_of_nonneg_left (hk.complementary r) (inv_nonneg.mpr (pow_pos' hu _).le)
    · have e1 : ((1 - R.u) ^ (D + 5 + 1))⁻¹ * (((1 - R.u) ^ 7)⁻¹ * ε) = ((1 - R.u) ^ (D + 13))⁻¹ * ε := by
        rw [← mul_assoc, ← mul_inv, ← pow_add]
      rw [e1]
      exact lift le_rfl hε (by linarith)
  · rw [largest_le (mul_nonneg (by linarith) hb)]
    intro r
    refine (((near_unscale hu (hs.de r).ne' (P.ce r)).abs hu).le hu (abs_nonneg _)).trans ?_
    refine (mul_le_mul_of_nonneg_left (hk.eq r) (inv_nonneg.mpr (pow_pos' hu _).le)).trans ?_
    exact lift (by omega) hε (by linarith)
  · rw [largest_le (mul_nonneg (by linarith) hb)]
    intro r
    have n1 := near_diff hu (near_unscale hu (hs.di r).ne' (P.ci r)) ((near_slack hu (P.di r) (P.s r)).mono hu (by omega : 2 ≤ 3))
    have a1 := ((near_rnd hu (P.ci' R r - P.s' R r)).abs hu).le hu (abs_nonneg _)
    have a3 : (((1 - R.u) ^ 3)⁻¹ - 1) * (|P.ci r| + |P.slack r|) ≤ (θ - 1) * M :=
      mul_le_mul (by linarith [hθ 3 (by omega)]) (hM.ineq r) (by positivity) (by linarith)
    have a4 := abs_sub_abs_le_abs_sub (P.ci' R r - P.s' R r) (P.ci r - P.slack r)
    have n1 : |P.ci' R r - P.s' R r - (P.ci r - P.slack r)| ≤ _ := n1
    have a3 : (((1 - R.u) ^ 3)⁻¹ - 1) * (|P.ci r| + |P.s r / P.di r|) ≤ (θ - 1) * M := a3
    have a5 := hk.ineq r
    exact a1.trans (lift (by omega) (abs_nonneg _) (by linarith))

/-- Sums can be computed: term by term. -/
theorem Rounding.Sum.exists (R : Rounding) {ι : Type} [DecidableEq ι] (x : ι → ℝ) (S : Finset ι) :
    ∃ v, R.Sum x S v S.card := by
  induction S using Finset.induction_on with
  | empty => exact ⟨0, .empty⟩
  | insert i S hi ih =>
    obtain ⟨v, hv⟩ := ih
    exact ⟨_, by rw [Finset.card_insert_of_notMem hi]; exact .fma i hi hv⟩

/-- The stopping test always has a value, with no more roundings than there are constraints. -/
theorem KktData.computes_exists (P : KktData n m k) (R : Rounding) : ∃ E, P.Computes R (m + k) E := by
  choose e he using fun j => Rounding.Sum.exists R (fun r => P.Ae' R r j * P.y' R r) Finset.univ
  choose i hi using fun j => Rounding.Sum.exists R (fun r => P.Ai' R r j * P.z' R r) Finset.univ
  obtain ⟨vy, hy⟩ := Rounding.Sum.exists R (fun r => |P.y' R r|) Finset.univ
  obtain ⟨vz, hz⟩ := Rounding.Sum.exists R (fun r => |P.z' R r|) Finset.univ
  refine ⟨_, e, i, vy, vz, fun j => ⟨_, ?_, he j⟩, fun j => ⟨_, ?_, hi j⟩, ⟨_, ?_, hy⟩, ⟨_, ?_, hz⟩, rfl⟩ <;>
    simp

/-- With `double`, 1000 constraints and terms of magnitude 1, a tolerance of 10⁻⁸ becomes less than 1.00003 · 10⁻⁸. -/
example : let θ := ((1 - (Rounding.binary 53).u) ^ (1000 + 13))⁻¹
    θ * 1e-8 + (θ - 1) * 1 < 1.00003e-8 := by
  have key : ∀ N : ℕ, (N : ℝ) = 1013 → ((1 - (Rounding.binary 53).u) ^ N)⁻¹ ≤ 1 + 1.2e-13 := by
    intro N hN
    have h1 := one_add_mul_le_pow (a := -(2 : ℝ) ^ (-53 : ℤ)) (by norm_num) N
    rw [hN] at h1
    have h2 : ((1 + -(2 : ℝ) ^ (-53 : ℤ)) ^ N)⁻¹ ≤ (1 + 1013 * -(2 : ℝ) ^ (-53 : ℤ))⁻¹ := inv_anti₀ (by norm_num) h1
    change ((1 - (2 : ℝ) ^ (-53 : ℤ)) ^ N)⁻¹ ≤ _
    rw [sub_eq_add_neg]
    exact h2.trans (by norm_num)
  intro θ
  have h : θ ≤ 1 + 1.2e-13 := key (1000 + 13) (by norm_num)
  clear_value θ
  norm_num at h ⊢
  linarith

/-- A problem at its solution: `f = (x₀² + x₁²) / 2`, `x₀ + x₁ ≥ 2`, `x₀ = x₁`, scaled. -/
example : ∃ E, KktData.Computes (n := 2) (m := 1) (k := 1)
    ⟨![1, 1], ![![1, -1]], ![0], ![![1, 1]], ![0], 1 / 2, ![1 / 4], ![1 / 2], ![1e-12], ![0], ![1]⟩
      (Rounding.binary 53) 2 E :=
  KktData.computes_exists _ _

end Slp
