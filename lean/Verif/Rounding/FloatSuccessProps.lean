import Verif.Rounding.FloatSuccessSpec
import Verif.Rounding.FloatProps
import Verif.Rounding.KktRoundSqpProps

/-! C68: what SUCCESS means for problems of polynomials when everything is computed in floating-point arithmetic. -/

namespace Slp

namespace Term

/-- The majorant bounds the polynomial. -/
theorem abs_eval_le {t : Term} (hp : t.Poly) (env : ℕ → ℝ) : |t.eval env| ≤ t.majorant.eval fun k => |env k| := by
  induction t with
  | lit c => exact le_rfl
  | var k => exact le_rfl
  | un f t ih => rcases hp.1 with rfl | rfl <;> simpa [eval, majorant, UnOp.eval] using ih hp.2
  | bin f s t ihs iht =>
    have h1 := ihs hp.2.1
    have h2 := iht hp.2.2
    rcases hp.1 with rfl | rfl | rfl
    · exact (abs_add_le _ _).trans (add_le_add h1 h2)
    · exact (abs_sub _ _).trans (add_le_add h1 h2)
    · simp only [eval, majorant, BinOp.eval, abs_mul]
      exact mul_le_mul h1 h2 (abs_nonneg _) ((abs_nonneg _).trans h1)
  | pd k t ih => exact hp.elim

/-- The derivative of the majorant bounds the derivative of the polynomial. -/
theorem abs_dd_le {t : Term} (hp : t.Poly) (env δ : ℕ → ℝ) :
    |t.dd env δ| ≤ t.majorant.dd (fun k => |env k|) fun k => |δ k| := by
  induction t with
  | lit c => simp [dd, majorant]
  | var k => exact le_rfl
  | un f t ih => rcases hp.1 with rfl | rfl <;> simpa [dd, majorant] using ih hp.2
  | bin f s t ihs iht =>
    have h1 := ihs hp.2.1
    have h2 := iht hp.2.2
    rcases hp.1 with rfl | rfl | rfl
    · exact (abs_add_le _ _).trans (add_le_add h1 h2)
    · exact (abs_sub _ _).trans (add_le_add h1 h2)
    · have h3 := abs_eval_le hp.2.1 env
      have h4 := abs_eval_le hp.2.2 env
      simp only [dd, majorant]
      refine (abs_add_le _ _).trans (add_le_add ?_ ?_)
      · rw [abs_mul]; exact mul_le_mul h1 h4 (abs_nonneg _) ((abs_nonneg _).trans h1)
      · rw [abs_mul]; exact mul_le_mul h3 h2 (abs_nonneg _) ((abs_nonneg _).trans h3)
  | pd k t ih => exact hp.elim

theorem abs_pd_le {t : Term} (hp : t.Poly) (env : ℕ → ℝ) (k : ℕ) :
    |(pd k t).eval env| ≤ (pd k t.majorant).eval fun k => |env k| := by
  rw [pd_eq_dd hp, pd_eq_dd (poly_majorant hp)]
  refine (abs_dd_le hp _ _).trans_eq ?_
  congr 1
  funext j
  split <;> simp

end Term

namespace FloatMath

variable {A : FloatMath} {n m k : ℕ}

theorem ValueOf.accurate {env : ℕ → ℝ} {t : Term} {v : ℝ} (h : A.ValueOf env t v) :
    |v - t.eval env| ≤ A.error t.size * t.majorant.eval fun k => |env k| := by
  obtain ⟨cs, i, y, ha, hp, rfl, ht, hr, rfl⟩ := h
  obtain ⟨x, e, hx⟩ := float_value A ha hp ht
  rw [e] at hr
  cases hr
  exact hx

theorem PartialOf.accurate {env : ℕ → ℝ} {t : Term} {k : ℕ} {v : ℝ} (h : A.PartialOf env t k v) :
    |v - (Term.pd k t).eval env| ≤ A.error (4 * t.size + 1) * (Term.pd k t.majorant).eval fun k => |env k| := by
  obtain ⟨cs, j, ts, ks, r, c, mat, row, y, ha, hp, rfl, hj, ht, hk, hr, hrow, hy, rfl⟩ := h
  obtain ⟨m, e, -, hx⟩ := float_jacobian A ha hp hj
  rw [e] at hr
  cases hr
  obtain ⟨row', e1, -, h2⟩ := hx r t ht
  rw [e1] at hrow
  cases hrow
  obtain ⟨x, e3, h4⟩ := h2 c k hk
  rw [e3] at hy
  cases hy
  exact h4

theorem error_mono (A : FloatMath) {a b : ℕ} (h : a ≤ b) : A.error a ≤ A.error b := by
  unfold error
  have : ((1 - A.u) ^ a)⁻¹ ≤ ((1 - A.u) ^ b)⁻¹ :=
    inv_anti₀ (Rounding.pow_pos' A.lt_one _)
      (pow_le_pow_of_le_one (by linarith [A.lt_one]) (by linarith [A.nonneg]) h)
  linarith

theorem error_nonneg (A : FloatMath) (a : ℕ) : 0 ≤ A.error a := by
  simpa [error] using A.error_mono (Nat.zero_le a)

/-- The data of the stopping test against the exact values and derivatives. -/
structure Close (A : FloatMath) (N : ℕ) (Q : WrittenNlp n m k) (env : ℕ → ℝ) (P : KktData n m k) : Prop where
  g : ∀ j, |P.g j - (Term.pd (Q.x j) Q.f).eval env| ≤
    A.error (4 * N + 1) * (Term.pd (Q.x j) Q.f.majorant).eval fun k => |env k|
  Ae : ∀ i j, |P.Ae i j - (Term.pd (Q.x j) (Q.ce i)).eval env| ≤
    A.error (4 * N + 1) * (Term.pd (Q.x j) (Q.ce i).majorant).eval fun k => |env k|
  ce : ∀ i, |P.ce i - (Q.ce i).eval env| ≤ A.error (4 * N + 1) * (Q.ce i).majorant.eval fun k => |env k|
  Ai : ∀ i j, |P.Ai i j - (Term.pd (Q.x j) (Q.ci i)).eval env| ≤
    A.error (4 * N + 1) * (Term.pd (Q.x j) (Q.ci i).majorant).eval fun k => |env k|
  ci : ∀ i, |P.ci i - (Q.ci i).eval env| ≤ A.error (4 * N + 1) * (Q.ci i).majorant.eval fun k => |env k|

theorem Evaluates.close {Q : WrittenNlp n m k} {env : ℕ → ℝ} {P : KktData n m k} {N : ℕ} (h : A.Evaluates Q env P)
    (hp : Q.Poly) (hN : Q.Size N) : A.Close N Q env P := by
  have pm {t : Term} (ht : t.Poly) (hs : t.size ≤ N) {v : ℝ} {k : ℕ} (h : A.PartialOf env t k v) :
      |v - (Term.pd k t).eval env| ≤ A.error (4 * N + 1) * (Term.pd k t.majorant).eval fun k => |env k| :=
    h.accurate.trans (mul_le_mul_of_nonneg_right (A.error_mono (by omega)) ((abs_nonneg _).trans (Term.abs_pd_le ht env k)))
  have vm {t : Term} (ht : t.Poly) (hs : t.size ≤ N) {v : ℝ} (h : A.ValueOf env t v) :
      |v - t.eval env| ≤ A.error (4 * N + 1) * t.majorant.eval fun k => |env k| :=
    h.accurate.trans (mul_le_mul_of_nonneg_right (A.error_mono (by omega)) ((abs_nonneg _).trans (Term.abs_eval_le ht env)))
  exact ⟨fun j => pm hp.f hN.f (h.g j), fun i j => pm (hp.ce i) (hN.ce i) (h.Ae i j),
    fun i => vm (hp.ce i) (hN.ce i) (h.ce i), fun i j => pm (hp.ci i) (hN.ci i) (h.Ai i j),
    fun i => vm (hp.ci i) (hN.ci i) (h.ci i)⟩

/-- The terms of the optimality conditions that are computed are not much larger than the exact ones. -/
theorem Close.magnitude {Q : WrittenNlp n m k} {env : ℕ → ℝ} {P : KktData n m k} {N : ℕ} {M : ℝ}
    (h : A.Close N Q env P) (hp : Q.Poly) (hM : Q.Magnitude M env P.slack P.multE P.multI) :
    P.Magnitude ((1 + A.error (4 * N + 1)) * M) := by
  set η := A.error (4 * N + 1) with hη
  have h0 : 0 ≤ η := A.error_nonneg _
  have up {v e B : ℝ} (h1 : |v - e| ≤ η * B) (h2 : |e| ≤ B) : |v| ≤ (1 + η) * B := by
    have := abs_add_le (v - e) e
    rw [sub_add_cancel] at this
    linarith
  refine ⟨fun j => ?_, fun i => ?_, mul_nonneg (by linarith) hM.nonneg⟩
  · have b1 := up (h.g j) (Term.abs_pd_le hp.f env _)
    have b2 : ∑ i, |P.Ae i j * P.multE i| ≤
        (1 + η) * ∑ i, (Term.pd (Q.x j) (Q.ce i).majorant).eval (fun k => |env k|) * |P.multE i| := by
      rw [Finset.mul_sum]
      refine Finset.sum_le_sum fun i _ => ?_
      rw [abs_mul, ← mul_assoc]
      exact mul_le_mul_of_nonneg_right (up (h.Ae i j) (Term.abs_pd_le (hp.ce i) env _)) (abs_nonneg _)
    have b3 : ∑ i, |P.Ai i j * P.multI i| ≤
        (1 + η) * ∑ i, (Term.pd (Q.x j) (Q.ci i).majorant).eval (fun k => |env k|) * |P.multI i| := by
      rw [Finset.mul_sum]
      refine Finset.sum_le_sum fun i _ => ?_
      rw [abs_mul, ← mul_assoc]
      exact mul_le_mul_of_nonneg_right (up (h.Ai i j) (Term.abs_pd_le (hp.ci i) env _)) (abs_nonneg _)
    have b4 := mul_le_mul_of_nonneg_left (hM.stationary j) (by linarith : (0 : ℝ) ≤ 1 + η)
    rw [mul_add, mul_add] at b4
    linarith
  · have b1 := up (h.ci i) (Term.abs_eval_le (hp.ci i) env)
    have b4 := mul_le_mul_of_nonneg_left (hM.ineq i) (by linarith : (0 : ℝ) ≤ 1 + η)
    rw [mul_add] at b4
    nlinarith [abs_nonneg (P.slack i)]

/-- Optimality conditions with the data of the stopping test, for the exact problem. -/
theorem Close.optimal {Q : WrittenNlp n m k} {env : ℕ → ℝ} {P : KktData n m k} {N : ℕ} {M ε : ℝ}
    (h : A.Close N Q env P) (hM : Q.Magnitude M env P.slack P.multE P.multI)
    (hk : KktWithin ε P.g P.Ae P.ce P.Ai P.ci P.slack P.multE P.multI) :
    Q.Optimal (ε + A.error (4 * N + 1) * M) env P.slack P.multE P.multI := by
  set η := A.error (4 * N + 1) with hη
  have h0 : 0 ≤ η := A.error_nonneg _
  have hηM : 0 ≤ η * M := mul_nonneg h0 hM.nonneg
  refine ⟨fun j => ?_, fun i => ?_, fun i => ?_, fun i => ?_⟩
  · have b1 := h.g j
    have b2 : |∑ i, (Term.pd (Q.x j) (Q.ce i)).eval env * P.multE i - ∑ i, P.Ae i j * P.multE i| ≤
        η * ∑ i, (Term.pd (Q.x j) (Q.ce i).majorant).eval (fun k => |env k|) * |P.multE i| := by
      rw [← Finset.sum_sub_distrib, Finset.mul_sum]
      refine (Finset.abs_sum_le_sum_abs _ _).trans (Finset.sum_le_sum fun i _ => ?_)
      rw [← sub_mul, abs_mul, ← mul_assoc, abs_sub_comm]
      exact mul_le_mul_of_nonneg_right (h.Ae i j) (abs_nonneg _)
    have b3 : |∑ i, (Term.pd (Q.x j) (Q.ci i)).eval env * P.multI i - ∑ i, P.Ai i j * P.multI i| ≤
        η * ∑ i, (Term.pd (Q.x j) (Q.ci i).majorant).eval (fun k => |env k|) * |P.multI i| := by
      rw [← Finset.sum_sub_distrib, Finset.mul_sum]
      refine (Finset.abs_sum_le_sum_abs _ _).trans (Finset.sum_le_sum fun i _ => ?_)
      rw [← sub_mul, abs_mul, ← mul_assoc, abs_sub_comm]
      exact mul_le_mul_of_nonneg_right (h.Ai i j) (abs_nonneg _)
    have b4 := mul_le_mul_of_nonneg_left (hM.stationary j) h0
    rw [mul_add, mul_add] at b4
    have b5 := hk.stationary j
    set SD := Max.max 1 ((∑ i, |P.multE i| + ∑ i, |P.multI i|) / (m + k) / 100)
    have b6 : η * M ≤ η * M * SD := le_mul_of_one_le_right hηM (le_max_left _ _)
    rw [add_mul]
    obtain ⟨c1, c2⟩ := abs_le.mp b1
    obtain ⟨c3, c4⟩ := abs_le.mp b2
    obtain ⟨c5, c6⟩ := abs_le.mp b3
    obtain ⟨c7, c8⟩ := abs_le.mp b5
    exact abs_le.mpr ⟨by linarith, by linarith⟩
  · have b6 : 0 ≤ η * M * Max.max 1 ((∑ i, |P.multI i|) / k / 100) :=
      mul_nonneg hηM (zero_le_one.trans (le_max_left _ _))
    rw [add_mul]
    exact (hk.complementary i).trans (by linarith)
  · have b4 := mul_le_mul_of_nonneg_left (hM.eq i) h0
    obtain ⟨c1, c2⟩ := abs_le.mp (h.ce i)
    obtain ⟨c3, c4⟩ := abs_le.mp (hk.eq i)
    exact abs_le.mpr ⟨by linarith, by linarith⟩
  · have b4 := mul_le_mul_of_nonneg_left (hM.ineq i) h0
    have b5 : 0 ≤ η * |P.slack i| := mul_nonneg h0 (abs_nonneg _)
    rw [mul_add] at b4
    obtain ⟨c1, c2⟩ := abs_le.mp (h.ci i)
    obtain ⟨c3, c4⟩ := abs_le.mp (hk.ineq i)
    exact abs_le.mpr ⟨by linarith, by linarith⟩

/-- The exact optimality conditions, with the data of the stopping test. -/
theorem Close.attained {Q : WrittenNlp n m k} {env : ℕ → ℝ} {P : KktData n m k} {N : ℕ} {M ε : ℝ}
    (h : A.Close N Q env P) (hM : Q.Magnitude M env P.slack P.multE P.multI)
    (hk : Q.Optimal ε env P.slack P.multE P.multI) :
    KktWithin (ε + A.error (4 * N + 1) * M) P.g P.Ae P.ce P.Ai P.ci P.slack P.multE P.multI := by
  set η := A.error (4 * N + 1) with hη
  have h0 : 0 ≤ η := A.error_nonneg _
  have hηM : 0 ≤ η * M := mul_nonneg h0 hM.nonneg
  refine ⟨fun j => ?_, fun i => ?_, fun i => ?_, fun i => ?_⟩
  · have b1 := h.g j
    have b2 : |∑ i, (Term.pd (Q.x j) (Q.ce i)).eval env * P.multE i - ∑ i, P.Ae i j * P.multE i| ≤
        η * ∑ i, (Term.pd (Q.x j) (Q.ce i).majorant).eval (fun k => |env k|) * |P.multE i| := by
      rw [← Finset.sum_sub_distrib, Finset.mul_sum]
      refine (Finset.abs_sum_le_sum_abs _ _).trans (Finset.sum_le_sum fun i _ => ?_)
      rw [← sub_mul, abs_mul, ← mul_assoc, abs_sub_comm]
      exact mul_le_mul_of_nonneg_right (h.Ae i j) (abs_nonneg _)
    have b3 : |∑ i, (Term.pd (Q.x j) (Q.ci i)).eval env * P.multI i - ∑ i, P.Ai i j * P.multI i| ≤
        η * ∑ i, (Term.pd (Q.x j) (Q.ci i).majorant).eval (fun k => |env k|) * |P.multI i| := by
      rw [← Finset.sum_sub_distrib, Finset.mul_sum]
      refine (Finset.abs_sum_le_sum_abs _ _).trans (Finset.sum_le_sum fun i _ => ?_)
      rw [← sub_mul, abs_mul, ← mul_assoc, abs_sub_comm]
      exact mul_le_mul_of_nonneg_right (h.Ai i j) (abs_nonneg _)
    have b4 := mul_le_mul_of_nonneg_left (hM.stationary j) h0
    rw [mul_add, mul_add] at b4
    have b5 := hk.stationary j
    set SD := Max.max 1 ((∑ i, |P.multE i| + ∑ i, |P.multI i|) / (m + k) / 100)
    have b6 : η * M ≤ η * M * SD := le_mul_of_one_le_right hηM (le_max_left _ _)
    rw [add_mul]
    obtain ⟨c1, c2⟩ := abs_le.mp b1
    obtain ⟨c3, c4⟩ := abs_le.mp b2
    obtain ⟨c5, c6⟩ := abs_le.mp b3
    obtain ⟨c7, c8⟩ := abs_le.mp b5
    exact abs_le.mpr ⟨by linarith, by linarith⟩
  · have b6 : 0 ≤ η * M * Max.max 1 ((∑ i, |P.multI i|) / k / 100) :=
      mul_nonneg hηM (zero_le_one.trans (le_max_left _ _))
    rw [add_mul]
    exact (hk.complementary i).trans (by linarith)
  · have b4 := mul_le_mul_of_nonneg_left (hM.eq i) h0
    obtain ⟨c1, c2⟩ := abs_le.mp (h.ce i)
    obtain ⟨c3, c4⟩ := abs_le.mp (hk.eq i)
    exact abs_le.mpr ⟨by linarith, by linarith⟩
  · have b4 := mul_le_mul_of_nonneg_left (hM.ineq i) h0
    have b5 : 0 ≤ η * |P.slack i| := mul_nonneg h0 (abs_nonneg _)
    rw [mul_add] at b4
    obtain ⟨c1, c2⟩ := abs_le.mp (h.ci i)
    obtain ⟨c3, c4⟩ := abs_le.mp (hk.ineq i)
    exact abs_le.mpr ⟨by linarith, by linarith⟩

/-- Larger tolerances are weaker. -/
theorem _root_.Slp.WrittenNlp.Optimal.mono {Q : WrittenNlp n m k} {env : ℕ → ℝ} {S : Fin k → ℝ} {Y : Fin m → ℝ}
    {Z : Fin k → ℝ} {ε ε' : ℝ} (h : Q.Optimal ε env S Y Z) (hε : ε ≤ ε') : Q.Optimal ε' env S Y Z :=
  ⟨fun j => (h.stationary j).trans (mul_le_mul_of_nonneg_right hε (zero_le_one.trans (le_max_left _ _))),
    fun i => (h.complementary i).trans (mul_le_mul_of_nonneg_right hε (zero_le_one.trans (le_max_left _ _))),
    fun i => (h.eq i).trans hε, fun i => (h.ineq i).trans hε⟩

/-- Roundings of the stopping test and of the data add up. -/
theorem theta_add (A : FloatMath) (a b : ℕ) :
    ((1 - A.u) ^ (a + b))⁻¹ = ((1 - A.u) ^ a)⁻¹ * (1 + A.error b) := by
  rw [error, pow_add, mul_inv]; ring

theorem one_le_theta (A : FloatMath) (a : ℕ) : 1 ≤ ((1 - A.u) ^ a)⁻¹ := by
  have := A.error_nonneg a
  unfold error at this
  linarith

/-- C68, interior-point method. When a problem of polynomials with at most `N` operations each is evaluated in
floating-point arithmetic and the stopping test passes in floating-point arithmetic, then the optimality conditions of
the problem as written hold exactly, with a tolerance that is larger by the factor `θ = (1 - u)^-(D + 4 N + 14)` and by
`θ - 1` times the magnitude of the terms. -/
theorem float_success (A : FloatMath) {Q : WrittenNlp n m k} (hp : Q.Poly) {N : ℕ} (hN : Q.Size N) {env : ℕ → ℝ}
    {P : KktData n m k} (he : A.Evaluates Q env P) (hs : P.Scaled) {D : ℕ} {E tol M : ℝ}
    (hM : Q.Magnitude M env P.slack P.multE P.multI) (hE : P.Computes A.toRounding D E) (htol : E ≤ tol) :
    let θ := ((1 - A.u) ^ (D + 13 + (4 * N + 1)))⁻¹
    Q.Optimal (θ * tol + (θ - 1) * M) env P.slack P.multE P.multI ∧
      ((∀ i, 0 < P.s i) → ∀ i, -(θ * tol + (θ - 1) * M) ≤ (Q.ci i).eval env) := by
  intro θ
  have hc := he.close hp hN
  obtain ⟨h1, h2, h3⟩ := rounded_success A.toRounding A.lt_one P hs hE htol (hc.magnitude hp hM)
  have e := A.theta_add (D + 13) (4 * N + 1)
  have t1 := A.one_le_theta (D + 13)
  set θ₁ := ((1 - A.u) ^ (D + 13))⁻¹ with hθ₁
  set η := A.error (4 * N + 1) with hη
  have h0 : 0 ≤ η := A.error_nonneg _
  have htol0 : 0 ≤ tol := by
    obtain ⟨_, _, _, _, _, _, _, _, rfl⟩ := hE
    exact ((Rounding.largest_nonneg _).trans (le_max_right _ _)).trans htol
  have hθ : θ = θ₁ * (1 + η) := e
  have hle : θ₁ * tol ≤ θ * tol := by rw [hθ]; nlinarith [mul_nonneg (mul_nonneg (zero_le_one.trans t1) h0) htol0]
  refine ⟨(hc.optimal hM h1).mono ?_, fun hpos i => ?_⟩
  · have : (θ₁ - 1) * ((1 + η) * M) + η * M = (θ - 1) * M := by rw [hθ]; ring
    linarith
  · have b1 := h3 hpos i
    obtain ⟨c1, c2⟩ := abs_le.mp (hc.ci i)
    have b4 := mul_le_mul_of_nonneg_left (hM.ineq i) h0
    rw [mul_add] at b4
    have b5 : 0 ≤ η * |P.slack i| := mul_nonneg h0 (abs_nonneg _)
    have b6 : η * M ≤ (θ - 1) * M := mul_le_mul_of_nonneg_right (by rw [hθ]; nlinarith) hM.nonneg
    change -(θ₁ * tol) ≤ P.ci i at b1
    linarith

/-- C68, interior-point method, the converse: close enough to an exact solution the stopping test passes. -/
theorem float_success_attained (A : FloatMath) {Q : WrittenNlp n m k} (hp : Q.Poly) {N : ℕ} (hN : Q.Size N) {env : ℕ → ℝ}
    {P : KktData n m k} (he : A.Evaluates Q env P) (hs : P.Scaled) {D : ℕ} {E ε M : ℝ}
    (hM : Q.Magnitude M env P.slack P.multE P.multI) (hE : P.Computes A.toRounding D E) (hε : 0 ≤ ε)
    (hk : Q.Optimal ε env P.slack P.multE P.multI) :
    let θ := ((1 - A.u) ^ (D + 13 + (4 * N + 1)))⁻¹
    E ≤ θ * (ε + (θ - 1) * M) := by
  intro θ
  have hc := he.close hp hN
  have h0 : 0 ≤ A.error (4 * N + 1) := A.error_nonneg _
  have h := rounded_success_attained A.toRounding A.lt_one P hs hE (hc.magnitude hp hM)
    (add_nonneg hε (mul_nonneg h0 hM.nonneg)) (hc.attained hM hk)
  have e := A.theta_add (D + 13) (4 * N + 1)
  have t1 := A.one_le_theta (D + 13)
  set θ₁ := ((1 - A.u) ^ (D + 13))⁻¹ with hθ₁
  set η := A.error (4 * N + 1) with hη
  have hθ : θ = θ₁ * (1 + η) := e
  have hle : θ₁ ≤ θ := by rw [hθ]; nlinarith
  refine h.trans ?_
  have e2 : ε + η * M + (θ₁ - 1) * ((1 + η) * M) = ε + (θ - 1) * M := by rw [hθ]; ring
  change θ₁ * (ε + η * M + (θ₁ - 1) * ((1 + η) * M)) ≤ _
  rw [e2]
  exact mul_le_mul_of_nonneg_right hle (add_nonneg hε (mul_nonneg (by linarith) hM.nonneg))

/-- C68, SQP. -/
theorem float_success_sqp (A : FloatMath) {Q : WrittenNlp n m 0} (hp : Q.Poly) {N : ℕ} (hN : Q.Size N) {env : ℕ → ℝ}
    {P : KktData n m 0} (he : A.Evaluates Q env P) (hs : P.Scaled) {D : ℕ} {E tol M : ℝ}
    (hM : Q.Magnitude M env P.slack P.multE P.multI) (hE : P.ComputesSqp A.toRounding D E) (htol : E ≤ tol) :
    let θ := ((1 - A.u) ^ (D + 7 + (4 * N + 1)))⁻¹
    Q.Optimal (θ * tol + (θ - 1) * M) env P.slack P.multE P.multI := by
  intro θ
  have hc := he.close hp hN
  obtain ⟨h1, h2⟩ := rounded_success_sqp A.toRounding A.lt_one P hs hE htol (hc.magnitude hp hM)
  have e := A.theta_add (D + 7) (4 * N + 1)
  have t1 := A.one_le_theta (D + 7)
  set θ₁ := ((1 - A.u) ^ (D + 7))⁻¹ with hθ₁
  set η := A.error (4 * N + 1) with hη
  have h0 : 0 ≤ η := A.error_nonneg _
  have htol0 : 0 ≤ tol := by
    obtain ⟨_, _, _, _, rfl⟩ := hE
    exact ((Rounding.largest_nonneg _).trans (le_max_right _ _)).trans htol
  have hθ : θ = θ₁ * (1 + η) := e
  have hle : θ₁ * tol ≤ θ * tol := by rw [hθ]; nlinarith [mul_nonneg (mul_nonneg (zero_le_one.trans t1) h0) htol0]
  refine (hc.optimal hM h1).mono ?_
  have : (θ₁ - 1) * ((1 + η) * M) + η * M = (θ - 1) * M := by rw [hθ]; ring
  linarith

/-- C68, Newton's method. -/
theorem float_success_newton (A : FloatMath) {Q : WrittenNlp n 0 0} (hp : Q.Poly) {N : ℕ} (hN : Q.Size N) {env : ℕ → ℝ}
    {P : KktData n 0 0} (he : A.Evaluates Q env P) (hs : P.Scaled) {tol M : ℝ}
    (hM : Q.Magnitude M env P.slack P.multE P.multI) (htol : P.newtonError A.toRounding ≤ tol) :
    let θ := ((1 - A.u) ^ (3 + (4 * N + 1)))⁻¹
    Q.Optimal (θ * tol + (θ - 1) * M) env P.slack P.multE P.multI := by
  intro θ
  have hc := he.close hp hN
  have h1 := rounded_success_newton A.toRounding A.lt_one P hs htol
  have e := A.theta_add 3 (4 * N + 1)
  have t1 := A.one_le_theta 3
  set θ₁ := ((1 - A.u) ^ 3)⁻¹ with hθ₁
  set η := A.error (4 * N + 1) with hη
  have h0 : 0 ≤ η := A.error_nonneg _
  have htol0 : 0 ≤ tol := (Rounding.largest_nonneg _).trans htol
  have hθ : θ = θ₁ * (1 + η) := e
  have hle : θ₁ * tol ≤ θ * tol := by rw [hθ]; nlinarith [mul_nonneg (mul_nonneg (zero_le_one.trans t1) h0) htol0]
  refine (hc.optimal hM h1).mono (add_le_add hle (mul_le_mul_of_nonneg_right ?_ hM.nonneg))
  rw [hθ]; nlinarith

/-- C68, SQP, the converse. -/
theorem float_success_attained_sqp (A : FloatMath) {Q : WrittenNlp n m 0} (hp : Q.Poly) {N : ℕ} (hN : Q.Size N)
    {env : ℕ → ℝ} {P : KktData n m 0} (he : A.Evaluates Q env P) (hs : P.Scaled) {D : ℕ} {E ε M : ℝ}
    (hM : Q.Magnitude M env P.slack P.multE P.multI) (hE : P.ComputesSqp A.toRounding D E) (hε : 0 ≤ ε)
    (hk : Q.Optimal ε env P.slack P.multE P.multI) :
    let θ := ((1 - A.u) ^ (D + 7 + (4 * N + 1)))⁻¹
    E ≤ θ * (ε + (θ - 1) * M) := by
  intro θ
  have hc := he.close hp hN
  have h0 : 0 ≤ A.error (4 * N + 1) := A.error_nonneg _
  have h := rounded_success_attained_sqp A.toRounding A.lt_one P hs hE (hc.magnitude hp hM)
    (add_nonneg hε (mul_nonneg h0 hM.nonneg)) (hc.attained hM hk)
  have e := A.theta_add (D + 7) (4 * N + 1)
  have t1 := A.one_le_theta (D + 7)
  set θ₁ := ((1 - A.u) ^ (D + 7))⁻¹ with hθ₁
  set η := A.error (4 * N + 1) with hη
  have hθ : θ = θ₁ * (1 + η) := e
  have hle : θ₁ ≤ θ := by rw [hθ]; nlinarith
  refine h.trans ?_
  have e2 : ε + η * M + (θ₁ - 1) * ((1 + η) * M) = ε + (θ - 1) * M := by rw [hθ]; ring
  change θ₁ * (ε + η * M + (θ₁ - 1) * ((1 + η) * M)) ≤ _
  rw [e2]
  exact mul_le_mul_of_nonneg_right hle (add_nonneg hε (mul_nonneg (by linarith) hM.nonneg))

/-- C68, Newton's method, the converse. -/
theorem float_success_attained_newton (A : FloatMath) {Q : WrittenNlp n 0 0} (hp : Q.Poly) {N : ℕ} (hN : Q.Size N)
    {env : ℕ → ℝ} {P : KktData n 0 0} (he : A.Evaluates Q env P) (hs : P.Scaled) {ε M : ℝ}
    (hM : Q.Magnitude M env P.slack P.multE P.multI) (hε : 0 ≤ ε)
    (hk : Q.Optimal ε env P.slack P.multE P.multI) :
    let θ := ((1 - A.u) ^ (3 + (4 * N + 1)))⁻¹
    P.newtonError A.toRounding ≤ θ * (ε + (θ - 1) * M) := by
  intro θ
  have hc := he.close hp hN
  have h0 : 0 ≤ A.error (4 * N + 1) := A.error_nonneg _
  have h := rounded_success_attained_newton A.toRounding A.lt_one P hs
    (add_nonneg hε (mul_nonneg h0 hM.nonneg)) (hc.attained hM hk)
  have e := A.theta_add 3 (4 * N + 1)
  have t1 := A.one_le_theta 3
  set θ₁ := ((1 - A.u) ^ 3)⁻¹ with hθ₁
  set η := A.error (4 * N + 1) with hη
  have hθ : θ = θ₁ * (1 + η) := e
  have hle : θ₁ ≤ θ := by rw [hθ]; nlinarith
  have b : η * M ≤ (θ - 1) * M := mul_le_mul_of_nonneg_right (by rw [hθ]; nlinarith) hM.nonneg
  exact h.trans (mul_le_mul hle (by linarith) (add_nonneg hε (mul_nonneg h0 hM.nonneg)) (by linarith))

/-- Every allowed program gives numbers that `Evaluates` is about: each value. -/
theorem valueOf_exists (A : FloatMath) {cs : List (Cmd ℝ)} {i : ℕ} {t : Term} (h : Allowed cs) (hp : ∀ c ∈ cs, c.Poly)
    (ht : (stateAfter cs).terms[i]? = some t) : ∃ v, A.ValueOf (stateAfter cs).env t v := by
  obtain ⟨x, e, -⟩ := float_value A h hp ht
  exact ⟨toReal x, cs, i, x, h, hp, rfl, ht, e, rfl⟩

/-- Every allowed program gives numbers that `Evaluates` is about: each entry of a Jacobian. -/
theorem partialOf_exists (A : FloatMath) {cs : List (Cmd ℝ)} {j r c k : ℕ} {ts : List Term} {ks : List ℕ} {t : Term}
    (h : Allowed cs) (hp : ∀ c ∈ cs, c.Poly) (hj : (stateAfter cs).jacs[j]? = some (ts, ks)) (ht : ts[r]? = some t)
    (hk : ks[c]? = some k) : ∃ v, A.PartialOf (stateAfter cs).env t k v := by
  obtain ⟨m, e, -, hx⟩ := float_jacobian A h hp hj
  obtain ⟨row, e1, -, h2⟩ := hx r t ht
  obtain ⟨x, e2, -⟩ := h2 c k hk
  exact ⟨toReal x, cs, j, ts, ks, r, c, m, row, x, h, hp, rfl, hj, ht, hk, e, e1, e2, rfl⟩

/-! ### A concrete case: minimise `x²` subject to `x ≥ 1` -/

/-- The problem, its derivatives, and the solution. -/
noncomputable def demoS : List (Cmd ℝ) :=
  [.decl, .bin .mul 0 0, .lit 1, .bin .sub 0 2, .jac [1] [0], .jac [3] [0], .setValue 0 1]

/-- The problem as it is written. -/
noncomputable def demoQ : WrittenNlp 1 0 1 :=
  ⟨fun _ => 0, .bin .mul (.var 0) (.var 0), fun i => i.elim0, fun _ => .bin .sub (.var 0) (.lit 1)⟩

theorem demoS_allowed : Allowed demoS := by
  simp [Allowed, demoS, ValidAll, Valid, Spec.next, Spec.empty, Spec.WrtOK, Spec.vars, Term.varOf]

theorem demoS_poly : ∀ c ∈ demoS, c.Poly := by simp [demoS, Cmd.Poly]

theorem demoS_state : (stateAfter demoS).terms[3]? = some (.bin .sub (.var 0) (.lit 1)) ∧
    (stateAfter demoS).jacs[0]? = some ([.bin .mul (.var 0) (.var 0)], [0]) ∧
    (stateAfter demoS).jacs[1]? = some ([.bin .sub (.var 0) (.lit 1)], [0]) ∧ (stateAfter demoS).env 0 = 1 := by
  simp [stateAfter, demoS, Spec.after, Spec.next, Spec.empty, Spec.vars, Spec.exprs, Term.varOf]

theorem demo_pd (env : ℕ → ℝ) : (Term.pd 0 (.bin .mul (.var 0) (.var 0))).eval env = env 0 + env 0 ∧
    (Term.pd 0 (.bin .sub (.var 0) (.lit 1))).eval env = 1 ∧
    (Term.pd 0 (.bin .add (.var 0) (.lit |1|))).eval env = 1 := by
  refine ⟨?_, ?_, ?_⟩ <;> rw [Term.pd_eq_dd (by simp [Term.Poly])] <;> simp [Term.dd, Term.eval]

/-- In `double`, whatever numbers the library computes at `x = 1` with the multiplier `2` and the slack `10⁻¹²`, the
stopping test passes for a tolerance of `10⁻⁸`. -/
example : ∃ P : KktData 1 0 1, (binary 53 (by norm_num)).Evaluates demoQ (stateAfter demoS).env P ∧
    ∀ E, P.Computes (Rounding.binary 53) 1 E → E ≤ 1e-8 := by
  obtain ⟨g, hg⟩ := partialOf_exists (binary 53 (by norm_num)) (r := 0) (c := 0) demoS_allowed demoS_poly
    demoS_state.2.1 rfl rfl
  obtain ⟨a, ha⟩ := partialOf_exists (binary 53 (by norm_num)) (r := 0) (c := 0) demoS_allowed demoS_poly
    demoS_state.2.2.1 rfl rfl
  obtain ⟨c, hc⟩ := valueOf_exists (binary 53 (by norm_num)) demoS_allowed demoS_poly demoS_state.1
  have he : (binary 53 (by norm_num)).Evaluates demoQ (stateAfter demoS).env
      (⟨fun _ => g, fun i => i.elim0, fun i => i.elim0, fun _ _ => a, fun _ => c, 1, fun i => i.elim0, fun _ => 1,
        fun _ => 1e-12, fun i => i.elim0, fun _ => 2⟩ : KktData 1 0 1) :=
    ⟨fun _ => hg, fun i => i.elim0, fun i => i.elim0, fun _ _ => ha, fun _ => hc⟩
  refine ⟨_, he, fun E hE => ?_⟩
  have hu : (binary 53 (by norm_num)).u = 2 ^ (-53 : ℤ) := rfl
  obtain ⟨d1, d2, d3⟩ := demo_pd (stateAfter demoS).env
  obtain ⟨m1, m2, m3⟩ := demo_pd fun k => |(stateAfter demoS).env k|
  have e1 := demoS_state.2.2.2
  refine (float_success_attained _ (N := 1) (ε := 1e-11) (M := 5) ⟨?_, fun i => i.elim0, ?_⟩
    ⟨?_, fun i => i.elim0, ?_⟩ he ⟨?_, fun i => i.elim0, ?_⟩ ⟨?_, fun i => i.elim0, ?_, ?_⟩ hE ?_
    ⟨?_, ?_, fun i => i.elim0, ?_⟩).trans ?_
  · simp [demoQ, Term.Poly]
  · simp [demoQ, Term.Poly]
  · simp [demoQ, Term.size]
  · simp [demoQ, Term.size]
  · norm_num
  · norm_num
  · intro j
    simp only [demoQ, Term.majorant, m1, m3, e1, KktData.multI]
    norm_num
  · intro i
    simp only [demoQ, Term.majorant, Term.eval, BinOp.eval, e1, KktData.slack]
    norm_num
  · norm_num
  · norm_num
  · intro j
    simp only [demoQ, d1, d2, e1, KktData.multI]
    norm_num
  · intro i
    simp only [KktData.multI, KktData.slack]
    norm_num
  · intro i
    simp only [demoQ, Term.eval, BinOp.eval, e1, KktData.slack]
    norm_num
  · rw [hu]
    norm_num

end FloatMath
end Slp
