import Verif.Autodiff.AdjointLemmas
import Mathlib.Analysis.SpecialFunctions.Pow.Deriv
import Mathlib.Analysis.SpecialFunctions.Complex.LogDeriv
import Mathlib.Analysis.SpecialFunctions.Trigonometric.ArctanDeriv
import Mathlib.Analysis.SpecialFunctions.Trigonometric.InverseDeriv
import Mathlib.Analysis.SpecialFunctions.Trigonometric.DerivHyp
import Mathlib.Analysis.SpecialFunctions.Sqrt
import Mathlib.Analysis.SpecialFunctions.Log.Deriv
import Mathlib.Analysis.Calculus.Deriv.Abs
import Mathlib.Analysis.Calculus.Deriv.Inv
import Mathlib.MeasureTheory.Integral.IntervalIntegral.FundThmCalculus

/-! The local derivatives coded in `grad_l` / `grad_r` are the true ones, and forward propagation is
the chain rule. -/

namespace Slp

open ScalarOps Filter Topology

theorem hasDerivAt_rcbrt {x : ℝ} (hx : x ≠ 0) :
    HasDerivAt rcbrt (1 / (3 * rcbrt x * rcbrt x)) x := by
  rcases lt_or_gt_of_ne hx with hneg | hpos
  · have h1 : HasDerivAt (fun y : ℝ => -((-y) ^ (1 / 3 : ℝ)))
        (-(-1 * (1 / 3) * (-x) ^ ((1 / 3 : ℝ) - 1))) x :=
      ((hasDerivAt_id x).neg.rpow_const (Or.inl (by simpa using hx))).neg
    have h2 : rcbrt =ᶠ[𝓝 x] fun y : ℝ => -((-y) ^ (1 / 3 : ℝ)) := by
      filter_upwards [eventually_lt_nhds hneg] with y hy
      simp [rcbrt, hy]
    refine (h1.congr_of_eventuallyEq h2).congr_deriv ?_
    have hp : 0 < -x := by linarith
    have e : rcbrt x = -((-x) ^ (1 / 3 : ℝ)) := by simp [rcbrt, hneg]
    have e2 : (-x) ^ ((1 / 3 : ℝ) - 1) = ((-x) ^ (1 / 3 : ℝ) * (-x) ^ (1 / 3 : ℝ))⁻¹ := by
      rw [← Real.rpow_add hp, ← Real.rpow_neg hp.le]; norm_num
    rw [e2, e]
    have : (-x) ^ (1 / 3 : ℝ) ≠ 0 := (Real.rpow_pos_of_pos hp _).ne'
    field_simp
  · have h1 : HasDerivAt (fun y : ℝ => y ^ (1 / 3 : ℝ)) (1 / 3 * x ^ ((1 / 3 : ℝ) - 1)) x :=
      Real.hasDerivAt_rpow_const (Or.inl hx)
    have h2 : rcbrt =ᶠ[𝓝 x] fun y : ℝ => y ^ (1 / 3 : ℝ) := by
      filter_upwards [eventually_gt_nhds hpos] with y hy
      simp [rcbrt, not_lt.mpr hy.le]
    refine (h1.congr_of_eventuallyEq h2).congr_deriv ?_
    have e : rcbrt x = x ^ (1 / 3 : ℝ) := by simp [rcbrt, not_lt.mpr hpos.le]
    have e2 : x ^ ((1 / 3 : ℝ) - 1) = (x ^ (1 / 3 : ℝ) * x ^ (1 / 3 : ℝ))⁻¹ := by
      rw [← Real.rpow_add hpos, ← Real.rpow_neg hpos.le]; norm_num
    rw [e2, e]
    have : x ^ (1 / 3 : ℝ) ≠ 0 := (Real.rpow_pos_of_pos hpos _).ne'
    field_simp

theorem hasDerivAt_rerf (x : ℝ) : HasDerivAt rerf (2 / √Real.pi * Real.exp (-x * x)) x := by
  have hc : Continuous fun t : ℝ => Real.exp (-t ^ 2) := by fun_prop
  have h := (hc.integral_hasStrictDerivAt 0 x).hasDerivAt.const_mul (2 / √Real.pi)
  refine h.congr_deriv ?_
  congr 2; ring

theorem hasDerivAt_tanh (x : ℝ) : HasDerivAt Real.tanh (1 / (Real.cosh x * Real.cosh x)) x := by
  have h := (Real.hasDerivAt_sinh x).div (Real.hasDerivAt_cosh x) (Real.cosh_pos x).ne'
  have e : Real.tanh = Real.sinh / Real.cosh := by
    funext y; simp [Real.tanh_eq_sinh_div_cosh]
  rw [e]
  refine h.congr_deriv ?_
  have := Real.cosh_sq x
  have h2 : Real.cosh x * Real.cosh x - Real.sinh x * Real.sinh x = 1 := by nlinarith
  rw [h2, pow_two]

theorem hasDerivAt_atan2 {f g : ℝ → ℝ} {f' g' t : ℝ} (hf : HasDerivAt f f' t)
    (hg : HasDerivAt g g' t) (h : f t ≠ 0 ∨ 0 < g t) :
    HasDerivAt (fun s => ratan2 (f s) (g s))
      ((g t * f' - f t * g') / (f t * f t + g t * g t)) t := by
  have hz : HasDerivAt (fun s => ((g s : ℂ) + (f s : ℂ) * Complex.I))
      ((g' : ℂ) + (f' : ℂ) * Complex.I) t :=
    hg.ofReal_comp.add (hf.ofReal_comp.mul_const _)
  have hs : ((g t : ℂ) + (f t : ℂ) * Complex.I) ∈ Complex.slitPlane := by
    rw [Complex.mem_slitPlane_iff]
    simp
    tauto
  have hl := hz.clog_real hs
  have him := Complex.imCLM.hasFDerivAt.comp_hasDerivAt t hl
  have e : (fun s => ratan2 (f s) (g s)) =
      (Complex.imCLM ∘ fun s => Complex.log ((g s : ℂ) + (f s : ℂ) * Complex.I)) := by
    funext s
    simp only [Function.comp, Complex.imCLM_apply, Complex.log_im, ratan2]
    congr 1
    apply Complex.ext <;> simp
  rw [e]
  refine him.congr_deriv ?_
  have hne : f t * f t + g t * g t ≠ 0 := by
    apply ne_of_gt
    rcases h with h | h
    · nlinarith [mul_self_pos.mpr h, mul_self_nonneg (g t)]
    · nlinarith [mul_pos h h, mul_self_nonneg (f t)]
  rw [Complex.imCLM_apply, Complex.div_im]
  simp [Complex.normSq_apply]
  have hne' : g t * g t + f t * f t ≠ 0 := by rwa [add_comm]
  rw [add_comm (f t * f t)]
  field_simp

theorem eventually_const {f : ℝ → ℝ} {f' t : ℝ} (hf : HasDerivAt f f' t) {φ : ℝ → ℝ} {c : ℝ}
    (h : ∀ᶠ y in 𝓝 (f t), φ y = c) : HasDerivAt (fun s => φ (f s)) 0 t := by
  have : (fun s => φ (f s)) =ᶠ[𝓝 t] fun _ => c := hf.continuousAt.eventually h
  exact (hasDerivAt_const t c).congr_of_eventuallyEq this

theorem hasDerivAt_op_un {op : Op} (har : op.arity = 1) {f : ℝ → ℝ} {f' t : ℝ}
    (hf : HasDerivAt f f' t) (hs : SmoothOp op False (f t) 0) :
    HasDerivAt (fun s => opVal op (f s) (0 : ℝ)) (gradL op 1 (f t) 0 * f') t := by
  cases op <;> simp only [Op.arity] at har <;> try omega
  case neg => exact hf.neg.congr_deriv (by simp [gradL])
  case abs =>
    have hs' : f t ≠ 0 := hs
    rcases lt_or_gt_of_ne hs' with h | h
    · refine ((hasDerivAt_abs_neg h).comp t hf).congr_deriv ?_
      simp [gradL, h]
    · refine ((hasDerivAt_abs_pos h).comp t hf).congr_deriv ?_
      simp [gradL, h, not_lt.mpr h.le]
  case acos =>
    have hs' : -1 < f t ∧ f t < 1 := hs
    refine ((Real.hasDerivAt_arccos hs'.1.ne' hs'.2.ne).comp t hf).congr_deriv ?_
    simp only [gradL, r_neg, r_sqrt, r_sub, r_one, r_mul, r_div]
    rw [pow_two]; ring
  case asin =>
    have hs' : -1 < f t ∧ f t < 1 := hs
    refine ((Real.hasDerivAt_arcsin hs'.1.ne' hs'.2.ne).comp t hf).congr_deriv ?_
    simp only [gradL, r_sqrt, r_sub, r_one, r_mul, r_div]
    rw [pow_two]
  case atan =>
    refine hf.arctan.congr_deriv ?_
    simp only [gradL, r_add, r_one, r_mul, r_div]
    rw [pow_two]
  case cbrt =>
    refine ((hasDerivAt_rcbrt hs).comp t hf).congr_deriv ?_
    simp [gradL]
  case cos =>
    refine hf.cos.congr_deriv ?_
    simp [gradL]
  case cosh =>
    refine hf.cosh.congr_deriv ?_
    simp [gradL]
  case erf =>
    refine ((hasDerivAt_rerf (f t)).comp t hf).congr_deriv ?_
    simp [gradL]
  case exp =>
    refine hf.exp.congr_deriv ?_
    simp [gradL]
  case isNonneg =>
    have hs' : f t ≠ 0 := hs
    refine HasDerivAt.congr_deriv (f' := 0) ?_ (by simp [gradL])
    rcases lt_or_gt_of_ne hs' with h | h
    · apply eventually_const hf (φ := fun x => opVal Op.isNonneg x (0 : ℝ)) (c := 0)
      filter_upwards [eventually_lt_nhds h] with y hy
      simp [opVal, hy]
    · apply eventually_const hf (φ := fun x => opVal Op.isNonneg x (0 : ℝ)) (c := 1)
      filter_upwards [eventually_gt_nhds h] with y hy
      simp [opVal, hy.le]
  case isPos =>
    have hs' : f t ≠ 0 := hs
    refine HasDerivAt.congr_deriv (f' := 0) ?_ (by simp [gradL])
    rcases lt_or_gt_of_ne hs' with h | h
    · apply eventually_const hf (φ := fun x => opVal Op.isPos x (0 : ℝ)) (c := 0)
      filter_upwards [eventually_lt_nhds h] with y hy
      simp [opVal, hy.le]
    · apply eventually_const hf (φ := fun x => opVal Op.isPos x (0 : ℝ)) (c := 1)
      filter_upwards [eventually_gt_nhds h] with y hy
      simp [opVal, hy]
  case sign =>
    have hs' : f t ≠ 0 := hs
    refine HasDerivAt.congr_deriv (f' := 0) ?_ (by simp [gradL])
    rcases lt_or_gt_of_ne hs' with h | h
    · apply eventually_const hf (φ := fun x => opVal Op.sign x (0 : ℝ)) (c := -1)
      filter_upwards [eventually_lt_nhds h] with y hy
      simp [opVal, hy]
    · apply eventually_const hf (φ := fun x => opVal Op.sign x (0 : ℝ)) (c := 1)
      filter_upwards [eventually_gt_nhds h] with y hy
      simp [opVal, not_lt.mpr hy.le, hy.ne']
  case log =>
    have hs' : 0 < f t := hs
    refine (hf.log hs'.ne').congr_deriv ?_
    simp [gradL]; ring
  case log10 =>
    have hs' : 0 < f t := hs
    refine ((hf.log hs'.ne').div_const (Real.log 10)).congr_deriv ?_
    simp [gradL]; ring
  case sin =>
    refine hf.sin.congr_deriv ?_
    simp [gradL]
  case sinh =>
    refine hf.sinh.congr_deriv ?_
    simp [gradL]
  case sqrt =>
    have hs' : 0 < f t := hs
    refine (hf.sqrt hs'.ne').congr_deriv ?_
    simp [gradL]; ring
  case tan =>
    refine ((Real.hasDerivAt_tan hs).comp t hf).congr_deriv ?_
    simp [gradL, pow_two]
  case tanh =>
    refine ((hasDerivAt_tanh (f t)).comp t hf).congr_deriv ?_
    simp [gradL]

theorem hasDerivAt_op_bin {op : Op} (har : op.arity = 2) {f g : ℝ → ℝ} {f' g' t : ℝ} {rc : Prop}
    (hf : HasDerivAt f f' t) (hg : HasDerivAt g g' t) (hrc : rc → ∀ s, g s = g t)
    (hs : SmoothOp op rc (f t) (g t)) :
    HasDerivAt (fun s => opVal op (f s) (g s))
      (gradL op 1 (f t) (g t) * f' + gradR op 1 (f t) (g t) * g') t := by
  cases op <;> simp only [Op.arity] at har <;> try omega
  case add => exact (hf.add hg).congr_deriv (by simp [gradL, gradR])
  case sub => exact (hf.sub hg).congr_deriv (by simp [gradL, gradR]; ring)
  case mul => exact (hf.mul hg).congr_deriv (by simp [gradL, gradR]; ring)
  case div =>
    have hs' : g t ≠ 0 := hs
    exact (hf.div hg hs').congr_deriv (by simp [gradL, gradR]; field_simp; ring)
  case atan2 =>
    have hs' : f t ≠ 0 ∨ 0 < g t := hs
    refine (hasDerivAt_atan2 hf hg hs').congr_deriv ?_
    simp [gradL, gradR]; ring
  case hypot =>
    have hs' : f t ≠ 0 ∨ g t ≠ 0 := hs
    have hpos : 0 < f t ^ 2 + g t ^ 2 := by rcases hs' with h | h <;> positivity
    refine (((hf.pow 2).add (hg.pow 2)).sqrt hpos.ne').congr_deriv ?_
    simp [gradL, gradR]
    have := Real.sqrt_pos.mpr hpos
    field_simp
  case max =>
    have hs' : f t ≠ g t := hs
    rcases lt_or_gt_of_ne hs' with h | h
    · have e : (fun s => opVal Op.max (f s) (g s)) =ᶠ[𝓝 t] g := by
        filter_upwards [hf.continuousAt.eventually_lt hg.continuousAt h] with s hs
        simp [opVal, hs.le]
      refine (hg.congr_of_eventuallyEq e).congr_deriv ?_
      simp [gradL, gradR, not_le.mpr h]
    · have e : (fun s => opVal Op.max (f s) (g s)) =ᶠ[𝓝 t] f := by
        filter_upwards [hg.continuousAt.eventually_lt hf.continuousAt h] with s hs
        simp [opVal, hs.le]
      refine (hf.congr_of_eventuallyEq e).congr_deriv ?_
      simp [gradL, gradR, h.le]
  case min =>
    have hs' : f t ≠ g t := hs
    rcases lt_or_gt_of_ne hs' with h | h
    · have e : (fun s => opVal Op.min (f s) (g s)) =ᶠ[𝓝 t] f := by
        filter_upwards [hf.continuousAt.eventually_lt hg.continuousAt h] with s hs
        simp [opVal, hs.le]
      refine (hf.congr_of_eventuallyEq e).congr_deriv ?_
      simp [gradL, gradR, h.le]
    · have e : (fun s => opVal Op.min (f s) (g s)) =ᶠ[𝓝 t] g := by
        filter_upwards [hg.continuousAt.eventually_lt hf.continuousAt h] with s hs
        simp [opVal, hs.le]
      refine (hg.congr_of_eventuallyEq e).congr_deriv ?_
      simp [gradL, gradR, not_le.mpr h]
  case pow =>
    rcases hs with h | ⟨hc, k, hk, hk'⟩
    · refine (hf.rpow hg h).congr_deriv ?_
      simp [gradL, gradR]; ring
    · have hg0 : g' = 0 := by
        have : g = fun _ => g t := funext (hrc hc)
        rw [this] at hg
        exact hg.unique (hasDerivAt_const t (g t))
      have e : (fun s => opVal Op.pow (f s) (g s)) = fun s => f s ^ g t := by
        funext s; simp only [opVal, r_pow]; rw [hrc hc s]
      rw [e]
      have hx : f t ≠ 0 ∨ 1 ≤ g t := by
        rcases hk' with h | h
        · exact Or.inl h
        · right; rw [hk]; have : (1 : ℤ) ≤ k := by omega
          exact_mod_cast this
      refine (hf.rpow_const hx).congr_deriv ?_
      simp [gradL, hg0]; ring

/-- The chain rule over the graph: along any differentiable curve of variable values, the value of a
node whose operations are smooth there is differentiable, with the propagated tangent as
derivative. -/
theorem hasDerivAt_ev {h : Heap ℝ} (wf : WF h) (η : ℝ → ℕ → ℝ) (d : ℕ → ℝ) (t : ℝ)
    (hη : ∀ n, HasDerivAt (fun s => η s n) (d n) t) (n : ℕ) (hn : n < h.next)
    (hs : Sm h (η t) n) :
    HasDerivAt (fun s => ev h (η s) n) (tgv h (ev h (η t)) d n) t := by
  induction n using Nat.strong_induction_on with
  | _ n ih =>
    have har := wf.arity n hn
    rcases hh : h.args n with ⟨a, b⟩
    cases a with
    | none =>
      have e : (fun s => ev h (η s) n) = fun s => if h.op n = .constant then h.val n else η s n := by
        funext s; rw [ev_leaf (by rw [hh])]
      rw [e, tgv_leaf (by rw [hh])]
      split
      · exact hasDerivAt_const _ _
      · exact hη n
    | some l =>
      have hl : l < n := wf.acyc n l (mem_kids_left (by rw [hh]))
      cases b with
      | none =>
        have h1 : (h.op n).arity = 1 := by
          unfold ArityOK at har
          split at har
          · rw [hh] at har; simp at har
          · assumption
          · obtain ⟨x, y, har⟩ := har; rw [hh] at har; simp at har
        rw [Sm_un wf.acyc hh] at hs
        have e : (fun s => ev h (η s) n) = fun s => opVal (h.op n) (ev h (η s) l) 0 := by
          funext s; rw [ev_un wf.acyc hh]; rfl
        rw [e, tgv_un wf.acyc hh]
        exact hasDerivAt_op_un h1 (ih l hl (hl.trans hn) hs.1) hs.2
      | some r =>
        have hr : r < n := wf.acyc n r (mem_kids_right (by rw [hh]))
        have h2 : (h.op n).arity = 2 := by
          unfold ArityOK at har
          split at har
          · rw [hh] at har; simp at har
          · obtain ⟨x, har⟩ := har; rw [hh] at har; simp at har
          · cases hop : h.op n <;> simp_all [Op.arity]
        rw [Sm_bin wf.acyc hh] at hs
        have e : (fun s => ev h (η s) n) =
            fun s => opVal (h.op n) (ev h (η s) l) (ev h (η s) r) := by
          funext s; rw [ev_bin wf.acyc hh]
        rw [e, tgv_bin wf.acyc hh]
        refine hasDerivAt_op_bin (f := fun s => ev h (η s) l) (g := fun s => ev h (η s) r) h2
          (ih l hl (hl.trans hn) hs.1) (ih r hr (hr.trans hn) hs.2.1) ?_ hs.2.2
        intro hc s
        have hk := (ty_constant_iff wf (hr.trans hn)).mpr hc
        show ev h (η s) r = ev h (η t) r
        rw [ev_const wf (hr.trans hn) hk, ev_const wf (hr.trans hn) hk]

end Slp
