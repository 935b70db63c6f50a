import Verif.Autodiff.DerivLemmas
import Verif.Rounding.FloatOpLemmas
import Mathlib.Analysis.SpecialFunctions.Pow.Deriv
import Mathlib.Analysis.SpecialFunctions.Sqrt
import Mathlib.Analysis.Calculus.FDeriv.Prod

/-! Where the operations and their partial derivatives are differentiable. -/

set_option linter.unusedSimpArgs false

namespace Slp

open ScalarOps Topology

namespace Calm

/-- Unary operations are differentiable where they are smooth. -/
theorem un_diff {f : UnOp} {x : ℝ} (hs : f.Smooth x) : DifferentiableAt ℝ f.eval x := by
  cases f <;> simp only [UnOp.Smooth] at hs
  case pos => exact differentiableAt_id
  case neg => exact differentiableAt_id.neg
  case abs =>
    rcases lt_or_gt_of_ne hs with h | h
    · exact (hasDerivAt_abs_neg h).differentiableAt
    · exact (hasDerivAt_abs_pos h).differentiableAt
  case acos => exact (Real.hasDerivAt_arccos hs.1.ne' hs.2.ne).differentiableAt
  case asin => exact (Real.hasDerivAt_arcsin hs.1.ne' hs.2.ne).differentiableAt
  case atan => exact (Real.hasDerivAt_arctan x).differentiableAt
  case cbrt => exact (hasDerivAt_rcbrt hs).differentiableAt
  case cos => exact Real.differentiableAt_cos
  case cosh => exact Real.differentiableAt_cosh
  case erf => exact (hasDerivAt_rerf x).differentiableAt
  case exp => exact Real.differentiableAt_exp
  case log => exact Real.differentiableAt_log hs.ne'
  case log10 => exact (Real.differentiableAt_log hs.ne').div_const _
  case sign =>
    rcases lt_or_gt_of_ne hs with h | h
    · refine (differentiableAt_const (-1)).congr_of_eventuallyEq ?_
      filter_upwards [eventually_lt_nhds h] with y hy
      simp [UnOp.eval, sgn, hy]
    · refine (differentiableAt_const 1).congr_of_eventuallyEq ?_
      filter_upwards [eventually_gt_nhds h] with y hy
      simp [UnOp.eval, sgn, not_lt.mpr hy.le, hy.ne']
  case sin => exact Real.differentiableAt_sin
  case sinh => exact Real.differentiableAt_sinh
  case sqrt => exact (Real.hasDerivAt_sqrt hs.ne').differentiableAt
  case tan => exact (Real.hasDerivAt_tan hs).differentiableAt
  case tanh => exact (hasDerivAt_tanh x).differentiableAt

/-- The derivatives of unary operations are differentiable where they are smooth. -/
theorem un_grad_diff {f : UnOp} {x : ℝ} (hs : f.Smooth x) :
    DifferentiableAt ℝ (fun x => gradL f.cls 1 x (0 : ℝ)) x := by
  have hid : DifferentiableAt ℝ (fun x : ℝ => x) x := differentiableAt_id
  cases f <;> simp only [UnOp.Smooth] at hs <;> simp only [UnOp.cls, gradL, r_neg, r_sqrt, r_sub, r_one, r_mul, r_div,
    r_add, r_cbrt, r_three, r_sin, r_cos, r_sinh, r_cosh, r_exp, r_two, r_ln10, r_zero, r_lt]
  case pos => exact differentiableAt_const _
  case neg => exact differentiableAt_const _
  case abs =>
    rcases lt_or_gt_of_ne hs with h | h
    · refine (differentiableAt_const (-1)).congr_of_eventuallyEq ?_
      filter_upwards [eventually_lt_nhds h] with y hy
      simp [hy]
    · refine (differentiableAt_const 1).congr_of_eventuallyEq ?_
      filter_upwards [eventually_gt_nhds h] with y hy
      simp [not_lt.mpr hy.le, hy]
  case acos =>
    have h : 0 < 1 - x * x := by nlinarith
    exact (differentiableAt_const _).div (((differentiableAt_const 1).sub (hid.mul hid)).sqrt h.ne')
      (Real.sqrt_pos.mpr h).ne'
  case asin =>
    have h : 0 < 1 - x * x := by nlinarith
    exact (differentiableAt_const _).div (((differentiableAt_const 1).sub (hid.mul hid)).sqrt h.ne')
      (Real.sqrt_pos.mpr h).ne'
  case atan =>
    have h : 0 < 1 + x * x := by nlinarith [mul_self_nonneg x]
    exact (differentiableAt_const _).div ((differentiableAt_const 1).add (hid.mul hid)) h.ne'
  case cbrt =>
    have hc := (hasDerivAt_rcbrt hs).differentiableAt
    have h : rcbrt x ≠ 0 := by
      intro e
      have := rcbrt_cube x
      rw [e] at this
      exact hs (by linarith)
    exact (differentiableAt_const _).div (((differentiableAt_const 3).mul hc).mul hc)
      (mul_ne_zero (mul_ne_zero (by norm_num) h) h)
  case cos => exact (differentiableAt_const _).mul Real.differentiableAt_sin.neg
  case cosh => exact (differentiableAt_const _).mul Real.differentiableAt_sinh
  case erf => exact (differentiableAt_const _).mul (hid.neg.mul hid).exp
  case exp => exact (differentiableAt_const _).mul Real.differentiableAt_exp
  case log => exact (differentiableAt_const _).div hid hs.ne'
  case log10 =>
    exact (differentiableAt_const _).div ((differentiableAt_const _).mul hid)
      (mul_ne_zero (Real.log_pos (by norm_num)).ne' hs.ne')
  case sign => exact differentiableAt_const _
  case sin => exact (differentiableAt_const _).mul Real.differentiableAt_cos
  case sinh => exact (differentiableAt_const _).mul Real.differentiableAt_cosh
  case sqrt =>
    exact (differentiableAt_const _).div ((differentiableAt_const _).mul (hid.sqrt hs.ne'))
      (mul_ne_zero (by norm_num) (Real.sqrt_pos.mpr hs).ne')
  case tan =>
    exact (differentiableAt_const _).div (Real.differentiableAt_cos.mul Real.differentiableAt_cos)
      (mul_ne_zero hs hs)
  case tanh =>
    have h := (Real.cosh_pos x).ne'
    exact (differentiableAt_const _).div (Real.differentiableAt_cosh.mul Real.differentiableAt_cosh)
      (mul_ne_zero h h)

/-- Unary operations are smooth near the points where they are smooth. -/
theorem un_open {f : UnOp} {x : ℝ} (hs : f.Smooth x) : ∀ᶠ y in 𝓝 x, f.Smooth y := by
  cases f <;> simp only [UnOp.Smooth] at hs ⊢
  case abs => exact eventually_ne_nhds hs
  case cbrt => exact eventually_ne_nhds hs
  case sign => exact eventually_ne_nhds hs
  case acos => exact (eventually_gt_nhds hs.1).and (eventually_lt_nhds hs.2)
  case asin => exact (eventually_gt_nhds hs.1).and (eventually_lt_nhds hs.2)
  case log => exact eventually_gt_nhds hs
  case log10 => exact eventually_gt_nhds hs
  case sqrt => exact eventually_gt_nhds hs
  case tan => exact Real.continuous_cos.continuousAt.eventually_ne hs
  all_goals simp

section bin
variable {x y : ℝ}

private theorem d1 : DifferentiableAt ℝ (fun p : ℝ × ℝ => p.1) (x, y) := differentiableAt_fst
private theorem d2 : DifferentiableAt ℝ (fun p : ℝ × ℝ => p.2) (x, y) := differentiableAt_snd

private theorem ddiv {f g : ℝ × ℝ → ℝ} {p : ℝ × ℝ} (hf : DifferentiableAt ℝ f p) (hg : DifferentiableAt ℝ g p)
    (h : g p ≠ 0) : DifferentiableAt ℝ (fun p => f p / g p) p := by
  simp only [div_eq_mul_inv]
  exact hf.mul (hg.inv h)

private theorem lt_near {x y : ℝ} (h : x < y) : ∀ᶠ p : ℝ × ℝ in 𝓝 (x, y), p.1 < p.2 :=
  (isOpen_lt continuous_fst continuous_snd).mem_nhds h

private theorem gt_near {x y : ℝ} (h : y < x) : ∀ᶠ p : ℝ × ℝ in 𝓝 (x, y), p.2 < p.1 :=
  (isOpen_lt continuous_snd continuous_fst).mem_nhds h

private theorem atan2_diff (h : x ≠ 0 ∨ 0 < y) : DifferentiableAt ℝ (fun p : ℝ × ℝ => ratan2 p.1 p.2) (x, y) := by
  have hz : DifferentiableAt ℝ (fun p : ℝ × ℝ => ((p.2 : ℂ) + (p.1 : ℂ) * Complex.I)) (x, y) :=
    (Complex.ofRealCLM.differentiableAt.comp (x, y) d2).add
      ((Complex.ofRealCLM.differentiableAt.comp (x, y) d1).mul_const _)
  have hs : (((x, y) : ℝ × ℝ).2 : ℂ) + ((((x, y) : ℝ × ℝ).1 : ℝ) : ℂ) * Complex.I ∈ Complex.slitPlane := by
    rw [Complex.mem_slitPlane_iff]
    simp
    tauto
  have hl : DifferentiableAt ℝ (fun p : ℝ × ℝ => Complex.log ((p.2 : ℂ) + (p.1 : ℂ) * Complex.I)) (x, y) :=
    DifferentiableAt.comp (g := Complex.log) (x, y)
      ((Complex.hasStrictDerivAt_log hs).hasDerivAt.differentiableAt.restrictScalars ℝ) hz
  have := Complex.imCLM.differentiableAt.comp (x, y) hl
  refine this.congr_of_eventuallyEq (Filter.Eventually.of_forall fun p => ?_)
  simp only [Function.comp, Complex.imCLM_apply, Complex.log_im, ratan2]
  congr 1
  apply Complex.ext <;> simp

private theorem hyp_pos (h : x ≠ 0 ∨ y ≠ 0) : 0 < x ^ 2 + y ^ 2 := by rcases h with h | h <;> positivity

private theorem hypot_diff (h : x ≠ 0 ∨ y ≠ 0) : DifferentiableAt ℝ (fun p : ℝ × ℝ => √(p.1 ^ 2 + p.2 ^ 2)) (x, y) :=
  ((d1.pow 2).add (d2.pow 2)).sqrt (hyp_pos h).ne'

/-- Binary operations are differentiable where they are smooth. -/
theorem bin_diff {f : BinOp} (hs : f.Smooth False x y) :
    DifferentiableAt ℝ (fun p : ℝ × ℝ => f.eval p.1 p.2) (x, y) := by
  cases f <;> simp only [BinOp.Smooth, false_and, or_false] at hs <;> simp only [BinOp.eval]
  case add => exact d1.add d2
  case sub => exact d1.sub d2
  case mul => exact d1.mul d2
  case div => exact ddiv d1 d2 hs
  case atan2 => exact atan2_diff hs
  case hypot => exact hypot_diff hs
  case max =>
    rcases lt_or_gt_of_ne hs with h | h
    · exact d2.congr_of_eventuallyEq ((lt_near h).mono fun p hp => max_eq_right hp.le)
    · exact d1.congr_of_eventuallyEq ((gt_near h).mono fun p hp => max_eq_left hp.le)
  case min =>
    rcases lt_or_gt_of_ne hs with h | h
    · exact d1.congr_of_eventuallyEq ((lt_near h).mono fun p hp => min_eq_left hp.le)
    · exact d2.congr_of_eventuallyEq ((gt_near h).mono fun p hp => min_eq_right hp.le)
  case pow => exact d1.rpow d2 hs.ne'

/-- The partial derivatives of binary operations are differentiable where they are smooth. -/
theorem bin_gradL_diff {f : BinOp} (hs : f.Smooth False x y) :
    DifferentiableAt ℝ (fun p : ℝ × ℝ => gradL f.cls 1 p.1 p.2) (x, y) := by
  cases f <;> simp only [BinOp.Smooth, false_and, or_false] at hs <;> simp only [BinOp.cls, gradL, r_mul, r_div,
    r_add, r_hypot, r_le, r_zero, r_pow, r_sub, r_one]
  case add => exact differentiableAt_const _
  case sub => exact differentiableAt_const _
  case mul => exact (differentiableAt_const _).mul d2
  case div => exact ddiv (differentiableAt_const _) d2 hs
  case atan2 =>
    refine ddiv ((differentiableAt_const _).mul d2) ((d1.mul d1).add (d2.mul d2)) ?_
    have : 0 < x ^ 2 + y ^ 2 := hyp_pos (hs.imp_right fun h => h.ne')
    exact (by nlinarith : 0 < x * x + y * y).ne'
  case hypot => exact ddiv ((differentiableAt_const _).mul d1) (hypot_diff hs) (Real.sqrt_pos.mpr (hyp_pos hs)).ne'
  case max =>
    rcases lt_or_gt_of_ne hs with h | h
    · exact (differentiableAt_const 0).congr_of_eventuallyEq ((lt_near h).mono fun p hp => by simp [not_le.mpr hp])
    · exact (differentiableAt_const 1).congr_of_eventuallyEq ((gt_near h).mono fun p hp => by simp [hp.le])
  case min =>
    rcases lt_or_gt_of_ne hs with h | h
    · exact (differentiableAt_const 1).congr_of_eventuallyEq ((lt_near h).mono fun p hp => by simp [hp.le])
    · exact (differentiableAt_const 0).congr_of_eventuallyEq ((gt_near h).mono fun p hp => by simp [not_le.mpr hp])
  case pow => exact ((differentiableAt_const _).mul (d1.rpow (d2.sub (differentiableAt_const _)) hs.ne')).mul d2

theorem bin_gradR_diff {f : BinOp} (hs : f.Smooth False x y) :
    DifferentiableAt ℝ (fun p : ℝ × ℝ => gradR f.cls 1 p.1 p.2) (x, y) := by
  cases f <;> simp only [BinOp.Smooth, false_and, or_false] at hs <;> simp only [BinOp.cls, gradR, r_mul, r_div,
    r_add, r_hypot, r_le, r_zero, r_pow, r_sub, r_one, r_neg, r_log]
  case add => exact differentiableAt_const _
  case sub => exact differentiableAt_const _
  case mul => exact (differentiableAt_const _).mul d1
  case div => exact ddiv ((differentiableAt_const _).mul d1.neg) (d2.mul d2) (mul_ne_zero hs hs)
  case atan2 =>
    refine ddiv ((differentiableAt_const _).mul d1.neg) ((d1.mul d1).add (d2.mul d2)) ?_
    have : 0 < x ^ 2 + y ^ 2 := hyp_pos (hs.imp_right fun h => h.ne')
    exact (by nlinarith : 0 < x * x + y * y).ne'
  case hypot => exact ddiv ((differentiableAt_const _).mul d2) (hypot_diff hs) (Real.sqrt_pos.mpr (hyp_pos hs)).ne'
  case max =>
    rcases lt_or_gt_of_ne hs with h | h
    · exact (differentiableAt_const 1).congr_of_eventuallyEq ((lt_near h).mono fun p hp => by simp [not_le.mpr hp])
    · exact (differentiableAt_const 0).congr_of_eventuallyEq ((gt_near h).mono fun p hp => by simp [hp.le])
  case min =>
    rcases lt_or_gt_of_ne hs with h | h
    · exact (differentiableAt_const 0).congr_of_eventuallyEq ((lt_near h).mono fun p hp => by simp [hp.le])
    · exact (differentiableAt_const 1).congr_of_eventuallyEq ((gt_near h).mono fun p hp => by simp [not_le.mpr hp])
  case pow => exact ((differentiableAt_const _).mul (d1.rpow d2 hs.ne')).mul (d1.log hs.ne')

/-- Binary operations are smooth near the points where they are smooth. -/
theorem bin_open {f : BinOp} (hs : f.Smooth False x y) : ∀ᶠ p : ℝ × ℝ in 𝓝 (x, y), f.Smooth False p.1 p.2 := by
  have c1 : Filter.Tendsto (fun p : ℝ × ℝ => p.1) (𝓝 (x, y)) (𝓝 x) := continuous_fst.tendsto _
  have c2 : Filter.Tendsto (fun p : ℝ × ℝ => p.2) (𝓝 (x, y)) (𝓝 y) := continuous_snd.tendsto _
  cases f <;> simp only [BinOp.Smooth, false_and, or_false] at hs ⊢
  case div => exact c2.eventually (eventually_ne_nhds hs)
  case atan2 =>
    rcases hs with h | h
    · exact (c1.eventually (eventually_ne_nhds h)).mono fun p hp => Or.inl hp
    · exact (c2.eventually (eventually_gt_nhds h)).mono fun p hp => Or.inr hp
  case hypot =>
    rcases hs with h | h
    · exact (c1.eventually (eventually_ne_nhds h)).mono fun p hp => Or.inl hp
    · exact (c2.eventually (eventually_ne_nhds h)).mono fun p hp => Or.inr hp
  case max =>
    rcases lt_or_gt_of_ne hs with h | h
    · exact (lt_near h).mono fun p hp => hp.ne
    · exact (gt_near h).mono fun p hp => hp.ne'
  case min =>
    rcases lt_or_gt_of_ne hs with h | h
    · exact (lt_near h).mono fun p hp => hp.ne
    · exact (gt_near h).mono fun p hp => hp.ne'
  case pow => exact c1.eventually (eventually_gt_nhds hs)
  all_goals simp

/-- Integer powers. -/
theorem zpow_diff {k : ℤ} (h : x ≠ 0 ∨ 1 ≤ k) : DifferentiableAt ℝ (fun x : ℝ => x ^ (k : ℝ)) x :=
  (Real.hasDerivAt_rpow_const (h.imp_right fun h => by exact_mod_cast h)).differentiableAt

theorem zpow_grad_diff {k : ℤ} (h : x ≠ 0 ∨ 1 ≤ k) :
    DifferentiableAt ℝ (fun x : ℝ => gradL Op.pow 1 x (k : ℝ)) x := by
  simp only [gradL, r_mul, r_pow, r_sub, r_one]
  refine ((differentiableAt_const _).mul ?_).mul (differentiableAt_const _)
  by_cases h1 : k = 1
  · subst h1
    simp only [Int.cast_one, sub_self, Real.rpow_zero]
    exact differentiableAt_const _
  · refine (Real.hasDerivAt_rpow_const (h.imp_right fun h => ?_)).differentiableAt
    have : (2 : ℤ) ≤ k := by omega
    have : (2 : ℝ) ≤ k := by exact_mod_cast this
    linarith

end bin

end Calm

end Slp
