import Verif.Rounding.FloatCalmLemmas

/-! How accurately the partial derivatives of all operations are computed near points where they are smooth. -/

set_option linter.unusedSimpArgs false

namespace Slp

open ScalarOps Topology

namespace Rounding

variable {R : Rounding}

/-- A factor close to one is a factor of so many roundings. -/
theorem fac_close (hu : R.u < 1) {q c : ℝ} {K : ℕ} (h : |q - 1| ≤ c * R.u) (hK : 2 * c ≤ K) (hKu : K * R.u ≤ 1) :
    R.Fac K q := by
  have h0 := R.nonneg
  have hc : 0 ≤ c * R.u := (abs_nonneg _).trans h
  have hq := abs_le.mp h
  have h1 : (1 - R.u) ^ K * (1 + K * R.u) ≤ 1 := by
    have hb := one_add_mul_le_pow (a := R.u) (by linarith) K
    calc (1 - R.u) ^ K * (1 + K * R.u) ≤ (1 - R.u) ^ K * (1 + R.u) ^ K :=
          mul_le_mul_of_nonneg_left hb (pow_pos' hu K).le
      _ = (1 - R.u ^ 2) ^ K := by rw [← mul_pow]; ring
      _ ≤ 1 := pow_le_one₀ (by nlinarith) (by nlinarith)
  have h2 : (1 - R.u) ^ K ≤ 1 := pow_le_one' hu K
  have hp := pow_pos' hu K
  have hKu0 : 0 ≤ K * R.u := by positivity
  have hcu : 2 * (c * R.u) ≤ K * R.u := by nlinarith
  constructor
  · -- (1 + K u) (1 - c u) ≥ 1
    have h3 : 1 ≤ (1 + K * R.u) * (1 - c * R.u) := by nlinarith
    have h4 : (1 - R.u) ^ K ≤ (1 - R.u) ^ K * ((1 + K * R.u) * (1 - c * R.u)) := by nlinarith
    have h5 : (1 - R.u) ^ K * ((1 + K * R.u) * (1 - c * R.u)) ≤ 1 * (1 - c * R.u) := by
      rw [← mul_assoc]
      exact mul_le_mul_of_nonneg_right h1 (by linarith)
    linarith
  · have : q * (1 - R.u) ^ K ≤ (1 + K * R.u) * (1 - R.u) ^ K :=
      mul_le_mul_of_nonneg_right (by linarith) hp.le
    linarith

theorem Fac.sqrt (hu : R.u < 1) {d : ℕ} {t : ℝ} (h : R.Fac d t) : R.Fac d (√t) := by
  have hp := pow_pos' hu d
  have ht := h.pos hu
  have h1 := pow_le_one' hu d
  constructor
  · rw [Real.le_sqrt hp.le]
    · nlinarith [h.1]
    · exact ht.le
  · rcases le_total t 1 with h2 | h2
    · have : √t ≤ 1 := Real.sqrt_le_one.mpr h2
      nlinarith [Real.sqrt_nonneg t]
    · have : √t ≤ t := by
        rw [Real.sqrt_le_left ht.le]; nlinarith
      exact (mul_le_mul_of_nonneg_right this hp.le).trans h.2

theorem Near.sqrt (hu : R.u < 1) {d : ℕ} {v e : ℝ} (h : R.Near d v e) : R.Near d (√v) (√e) := by
  obtain ⟨t, ht, rfl⟩ := h
  exact ⟨√t, ht.sqrt hu, Real.sqrt_mul' e (ht.pos hu).le⟩

theorem near_exp (hu : R.u < 1) {a b c : ℝ} {K : ℕ} (h : |a - b| ≤ c * R.u) (hK : 4 * c ≤ K) (hKu : K * R.u ≤ 1) :
    R.Near K (Real.exp a) (Real.exp b) := by
  have h0 := R.nonneg
  have hc : 0 ≤ c * R.u := (abs_nonneg _).trans h
  refine ⟨Real.exp (a - b), fac_close (c := 2 * c) hu ?_ (by linarith) hKu, by rw [← Real.exp_add]; congr 1; ring⟩
  have : 4 * (c * R.u) ≤ K * R.u := by nlinarith
  refine (Real.abs_exp_sub_one_le (by linarith)).trans ?_
  linarith

end Rounding

namespace FloatMath

/-- The partial derivatives are computed up to `K` roundings if `u` is at most `u0`. -/
def LocalFor (K : ℕ) (u0 : ℝ) (op : Op) (rc : Prop) (x y : ℝ) : Prop :=
  ∀ A : FloatMath, A.Lib → A.u ≤ u0 → Local A K op rc x y

theorem localFor_of_accurate {op : Op} {rc : Prop} {x y : ℝ} (h : Accurate op x y) : LocalFor 5 1 op rc x y :=
  fun A _ _ => local_of_accurate (A := A) (x := x) (y := y) h rc

theorem un_accurate {f : UnOp} (h1 : f ≠ .acos) (h2 : f ≠ .asin) (h3 : f ≠ .erf) {x : ℝ} (h : f.Smooth x) :
    Accurate f.cls x 0 := by
  cases f <;> simp only [ne_eq, not_true_eq_false, reduceCtorEq, not_false_eq_true] at h1 h2 h3 <;>
    exact ⟨by simp [UnOp.cls], by simp [UnOp.cls], by simp [UnOp.cls], by simp [UnOp.cls], h⟩

theorem bin_accurate {f : BinOp} (h1 : f ≠ .pow) {x y : ℝ} {lit : Prop} (h : f.Smooth lit x y) :
    Accurate f.cls x y := by
  cases f <;> simp only [ne_eq, not_true_eq_false, reduceCtorEq, not_false_eq_true] at h1 <;>
    exact ⟨by simp [BinOp.cls], by simp [BinOp.cls], by simp [BinOp.cls], by simp [BinOp.cls], h⟩

private theorem sqrt_near {A : FloatMath} {m x : ℝ} {K : ℕ} (hm : 0 < m) (hx : x * x ≤ 1) (hmx : m ≤ 1 - x * x)
    (hK : 2 * m⁻¹ ≤ K) (hKu : K * A.u ≤ 1) :
    A.Near (K + 2) (A.fsqrt (A.rnd (1 - A.rnd (x * x)))) (√(1 - x * x)) := by
  have hu := A.lt_one
  have h0 := A.nonneg
  have he := A.err (x * x)
  rw [abs_of_nonneg (mul_self_nonneg x)] at he
  have hd : 0 < 1 - x * x := by linarith
  -- cancellation in `1 - x * x` costs a factor
  have h1 : A.Near K (1 - A.rnd (x * x)) (1 - x * x) := by
    refine ⟨(1 - A.rnd (x * x)) / (1 - x * x), Rounding.fac_close (c := m⁻¹) hu ?_ hK hKu, (mul_div_cancel₀ _ hd.ne').symm⟩
    have : (1 - A.rnd (x * x)) / (1 - x * x) - 1 = -((A.rnd (x * x) - x * x) / (1 - x * x)) := by
      generalize hw : 1 - x * x = w at hd
      have : x * x = 1 - w := by linarith
      rw [this]
      field_simp
      ring
    rw [this, abs_neg, abs_div, abs_of_pos hd, div_le_iff₀ hd]
    have h2 : 1 ≤ m⁻¹ * (1 - x * x) := by
      rw [inv_mul_eq_div, le_div_iff₀ hm]; linarith
    nlinarith
  have h2 := h1.rnd hu
  have hpos : 0 ≤ A.rnd (1 - A.rnd (x * x)) := by
    obtain ⟨t, ht, e⟩ := h2
    rw [e]
    exact mul_nonneg hd.le (ht.pos hu).le
  have h3 := err_near (A.fsqrt_err _ hpos)
  have h4 := h2.sqrt hu
  obtain ⟨t, ht, e⟩ := h3
  obtain ⟨s, hs, e'⟩ := h4
  exact ⟨s * t, by have := hs.mul hu ht; simpa [add_assoc] using this, by rw [e, e']; ring⟩

private theorem asin_local {x : ℝ} (h : -1 < x ∧ x < 1) : ∃ K u0, 0 < u0 ∧
    ∀ᶠ y in 𝓝 x, LocalFor K u0 .acos True y 0 ∧ LocalFor K u0 .acos False y 0 ∧ LocalFor K u0 .asin True y 0 ∧
      LocalFor K u0 .asin False y 0 := by
  have hx : 0 < 1 - x * x := by nlinarith
  set m := (1 - x * x) / 2 with hm
  have hm0 : 0 < m := by positivity
  obtain ⟨K, hK⟩ := exists_nat_ge (2 * m⁻¹)
  have hK0 : (0 : ℝ) < K := lt_of_lt_of_le (by positivity) hK
  refine ⟨K + 2 + 1, (K : ℝ)⁻¹, by positivity, ?_⟩
  have hc : Filter.Tendsto (fun y : ℝ => 1 - y * y) (𝓝 x) (𝓝 (1 - x * x)) := by
    apply ContinuousAt.tendsto (f := fun y : ℝ => 1 - y * y)
    fun_prop
  have hev := hc.eventually (eventually_gt_nhds (show m < 1 - x * x by rw [hm]; linarith))
  filter_upwards [hev] with y hy
  have key : ∀ A : FloatMath, A.Lib → A.u ≤ (K : ℝ)⁻¹ → A.Near (K + 2) (A.fsqrt (A.rnd (1 - A.rnd (y * y))))
      (√(1 - y * y)) := fun A _ hA => sqrt_near hm0 (by linarith) hy.le hK (by
        have := mul_le_mul_of_nonneg_left hA hK0.le
        rwa [mul_inv_cancel₀ hK0.ne'] at this)
  have n0 : ∀ A : FloatMath, ∀ z : ℝ, A.Near 0 z z := fun A z => near_refl 0 z
  refine ⟨fun A L hA a => ⟨?_, fun h => absurd trivial h⟩, fun A L hA a => ⟨?_, fun _ => near_of_eq (by simp [gradR])⟩,
    fun A L hA a => ⟨?_, fun h => absurd trivial h⟩, fun A L hA a => ⟨?_, fun _ => near_of_eq (by simp [gradR])⟩⟩
  all_goals simp only [gradL, f_div, f_neg, f_sqrt, f_sub, f_one, f_mul, r_div, r_neg, r_sqrt, r_sub, r_one, r_mul]
  · have := (((n0 A (-toReal a)).div A.lt_one (key A L hA)).rnd A.lt_one)
    rw [zero_add] at this
    exact this.trans_eq (show -toReal a / √(1 - y * y) = toReal a * (-1 / √(1 - y * y)) by ring)
  · have := (((n0 A (-toReal a)).div A.lt_one (key A L hA)).rnd A.lt_one)
    rw [zero_add] at this
    exact this.trans_eq (show -toReal a / √(1 - y * y) = toReal a * (-1 / √(1 - y * y)) by ring)
  · have := (((n0 A (toReal a)).div A.lt_one (key A L hA)).rnd A.lt_one)
    rw [zero_add] at this
    exact this.trans_eq (show toReal a / √(1 - y * y) = toReal a * (1 / √(1 - y * y)) by ring)
  · have := (((n0 A (toReal a)).div A.lt_one (key A L hA)).rnd A.lt_one)
    rw [zero_add] at this
    exact this.trans_eq (show toReal a / √(1 - y * y) = toReal a * (1 / √(1 - y * y)) by ring)

private theorem erf_local (x : ℝ) : ∃ K u0, 0 < u0 ∧ ∀ᶠ y in 𝓝 x, ∀ rc, LocalFor K u0 .erf rc y 0 := by
  set M := x * x + 1 with hM
  have hM0 : 0 < M := by nlinarith [mul_self_nonneg x]
  obtain ⟨K, hK⟩ := exists_nat_ge (4 * M)
  have hK0 : (0 : ℝ) < K := lt_of_lt_of_le (by positivity) hK
  refine ⟨2 + (K + 1) + 1, (K : ℝ)⁻¹, by positivity, ?_⟩
  have hc : Filter.Tendsto (fun y : ℝ => y * y) (𝓝 x) (𝓝 (x * x)) := by
    apply ContinuousAt.tendsto (f := fun y : ℝ => y * y)
    fun_prop
  filter_upwards [hc.eventually (eventually_lt_nhds (show x * x < M by linarith))] with y hy rc A L hA a
  refine ⟨?_, fun _ => near_of_eq (by simp [gradR])⟩
  have hu := A.lt_one
  have h0 := A.nonneg
  simp only [gradL, f_mul, f_exp, f_neg, f_twoInvSqrtPi, r_mul, r_exp, r_neg, r_twoInvSqrtPi]
  have he : A.Near (K + 1) (A.fexp (A.rnd (-toReal (A := A) y * toReal (A := A) y))) (Real.exp (-y * y)) := by
    have h1 := err_near (A.fexp_err (A.rnd (-y * y)))
    have h2 : A.Near K (Real.exp (A.rnd (-y * y))) (Real.exp (-y * y)) := by
      refine Rounding.near_exp (c := M) hu ?_ hK (by
        have := mul_le_mul_of_nonneg_left hA hK0.le
        rwa [mul_inv_cancel₀ hK0.ne'] at this)
      refine (A.err _).trans ?_
      rw [neg_mul, abs_neg, abs_of_nonneg (mul_self_nonneg y), mul_comm]
      exact mul_le_mul_of_nonneg_right hy.le h0
    obtain ⟨t, ht, e⟩ := h1
    obtain ⟨s, hs, e'⟩ := h2
    refine ⟨s * t, hs.mul hu ht, ?_⟩
    show A.fexp (A.rnd (-y * y)) = _
    rw [e, e']; ring
  have hcst : A.Near 2 (A.rnd (toReal a * A.cerf)) (toReal a * (2 / √Real.pi)) := by
    have := ((near_refl (A := A) 0 (toReal a)).mul hu (err_near L.cerf_err)).rnd hu
    simpa using this
  exact ((hcst.mul hu he).rnd hu).trans_eq (show toReal a * (2 / √Real.pi) * Real.exp (-y * y) =
    toReal a * (1 * (2 / √Real.pi) * Real.exp (-y * y)) by ring)

/-- The derivatives of unary operations are computed up to some number of roundings near points where they are
smooth. -/
theorem local_un {f : UnOp} {x : ℝ} (hs : f.Smooth x) :
    ∃ K u0, 0 < u0 ∧ ∀ᶠ y in 𝓝 x, ∀ rc, LocalFor K u0 f.cls rc y 0 := by
  by_cases h1 : f = .acos
  · subst h1
    obtain ⟨K, u0, h0, h⟩ := asin_local hs
    refine ⟨K, u0, h0, h.mono fun y hy rc => ?_⟩
    by_cases hr : rc
    · rw [eq_true hr]; exact hy.1
    · rw [eq_false hr]; exact hy.2.1
  by_cases h2 : f = .asin
  · subst h2
    obtain ⟨K, u0, h0, h⟩ := asin_local hs
    refine ⟨K, u0, h0, h.mono fun y hy rc => ?_⟩
    by_cases hr : rc
    · rw [eq_true hr]; exact hy.2.2.1
    · rw [eq_false hr]; exact hy.2.2.2
  by_cases h3 : f = .erf
  · subst h3
    exact erf_local x
  exact ⟨5, 1, one_pos, (Calm.un_open hs).mono fun y hy rc => localFor_of_accurate (un_accurate h1 h2 h3 hy)⟩

private theorem pow_local {x y : ℝ} (h : 0 < x) : ∃ K u0, 0 < u0 ∧
    ∀ᶠ p : ℝ × ℝ in 𝓝 (x, y), ∀ rc, LocalFor K u0 .pow rc p.1 p.2 := by
  set M := |Real.log x| * |y - 1| + 1 with hM
  have hM0 : 0 < M := by positivity
  obtain ⟨K, hK⟩ := exists_nat_ge (4 * M)
  have hK0 : (0 : ℝ) < K := lt_of_lt_of_le (by positivity) hK
  refine ⟨K + 1 + 1 + 1, (K : ℝ)⁻¹, by positivity, ?_⟩
  have hc : Filter.Tendsto (fun p : ℝ × ℝ => |Real.log p.1| * |p.2 - 1|) (𝓝 (x, y))
      (𝓝 (|Real.log x| * |y - 1|)) := by
    apply ContinuousAt.tendsto (f := fun p : ℝ × ℝ => |Real.log p.1| * |p.2 - 1|)
    have := h.ne'
    fun_prop (disch := assumption)
  have c1 : Filter.Tendsto (fun p : ℝ × ℝ => p.1) (𝓝 (x, y)) (𝓝 x) := continuous_fst.tendsto _
  filter_upwards [hc.eventually (eventually_lt_nhds (show |Real.log x| * |y - 1| < M by linarith)),
    c1.eventually (eventually_gt_nhds h)] with p hp hp0 rc A L hA a
  have hu := A.lt_one
  have h0 := A.nonneg
  refine ⟨?_, fun _ => ?_⟩
  · simp only [gradL, f_mul, f_pow, f_sub, f_one, r_mul, r_pow, r_sub, r_one]
    have he : A.Near (K + 1) (A.fpow p.1 (A.rnd (p.2 - 1))) (p.1 ^ (p.2 - 1)) := by
      have h1 := err_near (L.fpow_err p.1 (A.rnd (p.2 - 1)) (Or.inl hp0))
      have h2 : A.Near K (p.1 ^ A.rnd (p.2 - 1)) (p.1 ^ (p.2 - 1)) := by
        rw [Real.rpow_def_of_pos hp0, Real.rpow_def_of_pos hp0]
        refine Rounding.near_exp (c := M) hu ?_ hK (by
          have := mul_le_mul_of_nonneg_left hA hK0.le
          rwa [mul_inv_cancel₀ hK0.ne'] at this)
        rw [← mul_sub, abs_mul]
        have := mul_le_mul_of_nonneg_left (A.err (p.2 - 1)) (abs_nonneg (Real.log p.1))
        nlinarith
      obtain ⟨t, ht, e⟩ := h1
      obtain ⟨s, hs, e'⟩ := h2
      exact ⟨s * t, hs.mul hu ht, by rw [e, e']; ring⟩
    have := (((near_refl (A := A) 0 (toReal a)).mul hu he).rnd hu).mul hu (near_refl (A := A) 0 p.2)
    have := this.rnd hu
    rw [zero_add, add_zero] at this
    exact this.trans_eq (show toReal a * p.1 ^ (p.2 - 1) * p.2 = toReal a * (1 * p.1 ^ (p.2 - 1) * p.2) by ring)
  · simp only [gradR, f_mul, f_pow, f_log, f_one, r_mul, r_pow, r_log, r_one]
    have he := err_near (L.fpow_err p.1 p.2 (Or.inl hp0))
    have hl := err_near (L.flog_err p.1 hp0)
    have := ((((near_refl (A := A) 0 (toReal a)).mul hu he).rnd hu).mul hu hl).rnd hu
    have h4 : 0 + 1 + 1 + 1 + 1 ≤ K + 1 + 1 + 1 := by
      have : 1 ≤ M := by rw [hM]; have := mul_nonneg (abs_nonneg (Real.log x)) (abs_nonneg (y - 1)); linarith
      have : (1 : ℝ) ≤ K := by linarith
      have : 1 ≤ K := by exact_mod_cast this
      omega
    exact (this.mono hu h4).trans_eq (show toReal a * p.1 ^ p.2 * Real.log p.1 =
      toReal a * (1 * p.1 ^ p.2 * Real.log p.1) by ring)

/-- The same for integer powers with a literal exponent. -/
theorem local_zpow {x : ℝ} {k : ℤ} (hs : x ≠ 0 ∨ 1 ≤ k) :
    ∃ K u0, 0 < u0 ∧ ∀ᶠ z in 𝓝 x, ∀ rc, rc → LocalFor K u0 .pow rc z k := by
  have hd : 0 < |((k - 1 : ℤ) : ℝ)| + 1 := by positivity
  refine ⟨3, (|((k - 1 : ℤ) : ℝ)| + 1)⁻¹, by positivity, ?_⟩
  have hev : ∀ᶠ z : ℝ in 𝓝 x, z ≠ 0 ∨ 1 ≤ k := by
    rcases hs with h | h
    · exact (eventually_ne_nhds h).mono fun z hz => Or.inl hz
    · exact Filter.Eventually.of_forall fun z => Or.inr h
  filter_upwards [hev] with z hz rc hrc A L hA a
  have hu := A.lt_one
  refine ⟨?_, fun h => absurd hrc h⟩
  show A.Near 3 (A.rnd (A.rnd (toReal a * A.fpow z (A.rnd ((k : ℝ) - 1))) * (k : ℝ)))
    (toReal a * (1 * z ^ ((k : ℝ) - 1) * (k : ℝ)))
  have hr : A.rnd ((k : ℝ) - 1) = (k : ℝ) - 1 := by
    have e : ((k - 1 : ℤ) : ℝ) = (k : ℝ) - 1 := by push_cast; ring
    rw [← e]
    apply L.rnd_int
    have := mul_le_mul_of_nonneg_left hA hd.le
    rw [mul_inv_cancel₀ hd.ne'] at this
    nlinarith [A.nonneg, abs_nonneg (((k - 1 : ℤ) : ℝ))]
  have he := err_near (L.fpow_err z ((k : ℝ) - 1) (Or.inr ⟨k - 1, by push_cast; ring, hz.imp_right fun h => by omega⟩))
  have := ((((near_refl (A := A) 0 (toReal a)).mul hu he).rnd hu).mul hu (near_refl (A := A) 0 (k : ℝ))).rnd hu
  rw [hr]
  exact (this.mono hu (by norm_num)).trans_eq (show toReal a * z ^ ((k : ℝ) - 1) * (k : ℝ) =
    toReal a * (1 * z ^ ((k : ℝ) - 1) * (k : ℝ)) by ring)

/-- The partial derivatives of binary operations are computed up to some number of roundings near points where they
are smooth. -/
theorem local_bin {f : BinOp} {x y : ℝ} (hs : f.Smooth False x y) :
    ∃ K u0, 0 < u0 ∧ ∀ᶠ p : ℝ × ℝ in 𝓝 (x, y), ∀ rc, LocalFor K u0 f.cls rc p.1 p.2 := by
  by_cases h : f = .pow
  · subst h
    exact pow_local (by simpa [BinOp.Smooth] using hs)
  · exact ⟨5, 1, one_pos, (Calm.bin_open hs).mono fun p hp rc => localFor_of_accurate (bin_accurate h hp)⟩

end FloatMath

end Slp
