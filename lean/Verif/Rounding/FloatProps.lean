import Verif.Autodiff.ApiProps
import Verif.Rounding.FloatStepLemmas
import Verif.Rounding.BinaryModel

/-!
C67: values and derivatives in floating-point arithmetic. The programs are those of `ApiProps`, restricted to
polynomials (`Cmd.Poly`); they are the same calls, run on numbers whose arithmetic rounds.
-/

namespace Slp

namespace FloatMath

/-- C67. Every allowed program that builds polynomials runs to completion in floating-point arithmetic, and everything
it returns is accurate: values up to one rounding per operation written, entries of Jacobians up to four per operation
and one more, both relative to what the expression would be without cancellation. -/
theorem float_programs_accurate (A : FloatMath) (cs : List (Cmd ℝ)) (h : Allowed cs) (hp : ∀ c ∈ cs, c.Poly) :
    ∃ os s, run (cs.map (Cmd.float A)) Api.empty = some (os, s) ∧ A.ReturnsAll cs Spec.empty os := by
  obtain ⟨os, s, e, r, _⟩ := frun_ok (A := A) finv_empty polySpec_empty cs h hp
  exact ⟨os, s, e, r⟩

theorem float_last (A : FloatMath) {cs : List (Cmd ℝ)} {c : Cmd ℝ} (h : Allowed (cs ++ [c]))
    (hp : ∀ d ∈ cs ++ [c], d.Poly) :
    ∃ o, result ((cs ++ [c]).map (Cmd.float A)) = some o ∧ A.Returns c (stateAfter cs) o := by
  obtain ⟨hcs, hc⟩ := allowed_snoc.mp h
  obtain ⟨os, s, e, _, I, hσ⟩ := frun_ok (A := A) finv_empty polySpec_empty cs hcs fun d hd => hp d (by simp [hd])
  obtain ⟨o, s', e', r, _⟩ := fstep_ok I hσ c hc (hp c (by simp))
  refine ⟨o, ?_, r⟩
  rw [List.map_append, List.map_singleton, result_of_run e, e']
  rfl

/-- C67 for `value()`, at the end of any program. -/
theorem float_value (A : FloatMath) {cs : List (Cmd ℝ)} {i : ℕ} {t : Term} (h : Allowed cs)
    (hp : ∀ c ∈ cs, c.Poly) (ht : (stateAfter cs).terms[i]? = some t) :
    ∃ x : A.Num, result ((cs ++ [Cmd.value i]).map (Cmd.float A)) = some (.num x) ∧
      |toReal x - t.eval (stateAfter cs).env| ≤
        A.error t.size * t.majorant.eval fun k => |(stateAfter cs).env k| := by
  have hi : i < (stateAfter cs).terms.length := (List.getElem?_eq_some_iff.mp ht).1
  obtain ⟨o, e, x, rfl, hx⟩ := A.float_last (c := .value i) (allowed_snoc.mpr ⟨h, hi⟩) (by
    intro d hd
    rcases List.mem_append.mp hd with h1 | h1
    · exact hp d h1
    · rw [List.mem_singleton] at h1; subst h1; trivial)
  exact ⟨x, e, hx t ht⟩

/-- C67 for the entries of `Jacobian::value()`, at the end of any program. -/
theorem float_jacobian (A : FloatMath) {cs : List (Cmd ℝ)} {j : ℕ} {ts : List Term} {ks : List ℕ} (h : Allowed cs)
    (hp : ∀ c ∈ cs, c.Poly) (hj : (stateAfter cs).jacs[j]? = some (ts, ks)) :
    ∃ m : List (List A.Num), result ((cs ++ [Cmd.jacValue j]).map (Cmd.float A)) = some (.mat m) ∧
      m.length = ts.length ∧ ∀ (r : ℕ) (t : Term), ts[r]? = some t → ∃ row : List A.Num, m[r]? = some row ∧ row.length = ks.length ∧
        ∀ c k : ℕ, ks[c]? = some k → ∃ x, row[c]? = some x ∧
          |toReal x - (Term.pd k t).eval (stateAfter cs).env| ≤
            A.error (4 * t.size + 1) * (Term.pd k t.majorant).eval fun k => |(stateAfter cs).env k| := by
  have hi : j < (stateAfter cs).jacs.length := (List.getElem?_eq_some_iff.mp hj).1
  obtain ⟨o, e, m, rfl, hx⟩ := A.float_last (c := .jacValue j) (allowed_snoc.mpr ⟨h, hi⟩) (by
    intro d hd
    rcases List.mem_append.mp hd with h1 | h1
    · exact hp d h1
    · rw [List.mem_singleton] at h1; subst h1; trivial)
  obtain ⟨h1, h2⟩ := hx ts ks hj
  refine ⟨m, e, by simpa using h1, fun r t ht => ?_⟩
  obtain ⟨row, e1, l1, h3⟩ := h2 r (List.getElem?_eq_some_iff.mp ht).1
  rw [List.getElem?_map, Option.map_eq_some_iff] at e1
  obtain ⟨row', e2, rfl⟩ := e1
  refine ⟨row', e2, by simpa using l1, fun c k hk => ?_⟩
  obtain ⟨x, e3, h4⟩ := h3 c (List.getElem?_eq_some_iff.mp hk).1
  rw [List.getElem?_map, Option.map_eq_some_iff] at e3
  obtain ⟨x', e4, rfl⟩ := e3
  exact ⟨x', e4, h4 t k ht hk⟩

/-- The error bounds are about `k` units of roundoff. -/
theorem error_le (A : FloatMath) (k : ℕ) (hk : k * A.u < 1) : A.error k ≤ k * A.u / (1 - k * A.u) := by
  have hb : 1 - k * A.u ≤ (1 - A.u) ^ k := by
    have := one_add_mul_le_pow (a := -A.u) (by linarith [A.lt_one]) k
    calc 1 - k * A.u = 1 + k * (-A.u) := by ring
      _ ≤ (1 + -A.u) ^ k := this
      _ = (1 - A.u) ^ k := by rw [← sub_eq_add_neg]
  have h0 : 0 < 1 - k * A.u := by linarith
  unfold error
  have : ((1 - A.u) ^ k)⁻¹ ≤ (1 - k * A.u)⁻¹ := inv_anti₀ h0 hb
  calc ((1 - A.u) ^ k)⁻¹ - 1 ≤ (1 - k * A.u)⁻¹ - 1 := by linarith
    _ = k * A.u / (1 - k * A.u) := by field_simp; ring

/-- Without rounding, nothing is lost. -/
theorem error_exact (A : FloatMath) (h : A.u = 0) (k : ℕ) : A.error k = 0 := by simp [error, h]

end FloatMath

/-- Built from variables and nonnegative numbers with `+` and `*`. -/
def Term.NoCancel : Term → Prop
  | .lit c => 0 ≤ c
  | .var _ => True
  | .bin f s t => (f = .add ∨ f = .mul) ∧ NoCancel s ∧ NoCancel t
  | _ => False

/-- Where nothing can cancel, the bounds are bounds on the relative error. -/
theorem Term.majorant_noCancel {t : Term} (h : t.NoCancel) (env : ℕ → ℝ) (he : ∀ k, 0 ≤ env k) :
    (t.majorant.eval fun k => |env k|) = t.eval env := by
  induction t with
  | lit c => exact abs_of_nonneg h
  | var k => exact abs_of_nonneg (he k)
  | un f t ih => exact h.elim
  | bin f s t ihs iht =>
    rcases h.1 with rfl | rfl <;> simp [majorant, eval, BinOp.eval, ihs h.2.1, iht h.2.2]
  | pd k t ih => exact h.elim

/-! ### A concrete case: `double` -/

namespace FloatMath

/-- Arithmetic with `p` bits, and library functions rounded correctly. -/
noncomputable def binary (p : ℕ) (hp : 0 < p) : FloatMath where
  toRounding := Rounding.binary p
  lt_one := by
    show (2 : ℝ) ^ (-p : ℤ) < 1
    rw [zpow_neg, zpow_natCast]
    exact inv_lt_one_of_one_lt₀ (one_lt_pow₀ (by norm_num) hp.ne')
  cpi := (Rounding.binary p).rnd Real.pi
  cerf := (Rounding.binary p).rnd (2 / √Real.pi)
  cln10 := (Rounding.binary p).rnd (Real.log 10)
  facos x := (Rounding.binary p).rnd (Real.arccos x)
  fasin x := (Rounding.binary p).rnd (Real.arcsin x)
  fatan x := (Rounding.binary p).rnd (Real.arctan x)
  fatan2 y x := (Rounding.binary p).rnd (ratan2 y x)
  fcbrt x := (Rounding.binary p).rnd (rcbrt x)
  fcos x := (Rounding.binary p).rnd (Real.cos x)
  fcosh x := (Rounding.binary p).rnd (Real.cosh x)
  ferf x := (Rounding.binary p).rnd (rerf x)
  fexp x := (Rounding.binary p).rnd (Real.exp x)
  fhypot x y := (Rounding.binary p).rnd (√(x ^ 2 + y ^ 2))
  flog x := (Rounding.binary p).rnd (Real.log x)
  flog10 x := (Rounding.binary p).rnd (Real.logb 10 x)
  fpow x y := (Rounding.binary p).rnd (x ^ y)
  fsin x := (Rounding.binary p).rnd (Real.sin x)
  fsinh x := (Rounding.binary p).rnd (Real.sinh x)
  fsqrt x := (Rounding.binary p).rnd (√x)
  ftan x := (Rounding.binary p).rnd (Real.tan x)
  ftanh x := (Rounding.binary p).rnd (Real.tanh x)
  cln10_err := (Rounding.binary p).err _
  fcbrt_err _ := (Rounding.binary p).err _
  fcos_err _ := (Rounding.binary p).err _
  fcosh_err _ := (Rounding.binary p).err _
  fexp_err _ := (Rounding.binary p).err _
  fhypot_err _ _ := (Rounding.binary p).err _
  fsin_err _ := (Rounding.binary p).err _
  fsinh_err _ := (Rounding.binary p).err _
  fsqrt_err _ _ := (Rounding.binary p).err _

/-- `x * (x - y)` and its gradient, before and after the variables are set. -/
noncomputable def demoF : List (Cmd ℝ) :=
  [.decl, .decl, .bin .sub 0 1, .bin .mul 0 2, .jac [3] [0, 1], .jacValue 0, .setValue 0 3, .setValue 1 (1 / 3)]

theorem demoF_allowed : Allowed demoF := by
  simp [Allowed, demoF, ValidAll, Valid, Spec.next, Spec.empty, Spec.WrtOK, Spec.vars, Term.varOf]

theorem demoF_poly : ∀ c ∈ demoF, c.Poly := by simp [demoF, Cmd.Poly]

theorem demoF_state : (stateAfter demoF).terms[3]? = some (.bin .mul (.var 0) (.bin .sub (.var 0) (.var 1))) ∧
    (stateAfter demoF).jacs[0]? = some ([.bin .mul (.var 0) (.bin .sub (.var 0) (.var 1))], [0, 1]) ∧
    (stateAfter demoF).env 0 = 3 ∧ (stateAfter demoF).env 1 = 1 / 3 := by
  simp [stateAfter, demoF, Spec.after, Spec.next, Spec.empty, Spec.vars, Spec.exprs, Term.varOf]

/-- In `double`, `value()` is within `2⁻⁴⁸` of `3 (3 - 1/3) = 8`. -/
example : ∃ x : (binary 53 (by norm_num)).Num,
    result ((demoF ++ [Cmd.value 3]).map (Cmd.float (binary 53 (by norm_num)))) = some (.num x) ∧
      |toReal x - 8| ≤ 2 ^ (-48 : ℤ) := by
  obtain ⟨x, e, hx⟩ := float_value (binary 53 (by norm_num)) demoF_allowed demoF_poly demoF_state.1
  refine ⟨x, e, ?_⟩
  have hu : (binary 53 (by norm_num)).u = 2 ^ (-53 : ℤ) := rfl
  have he := error_le (binary 53 (by norm_num)) 2 (by rw [hu]; norm_num)
  rw [hu] at he
  simp only [Term.eval, BinOp.eval, Term.majorant, Term.size, demoF_state.2.2.1, demoF_state.2.2.2] at hx
  have h8 : (3 : ℝ) * (3 - 1 / 3) = 8 := by norm_num
  have h10 : |(3 : ℝ)| * (|3| + |1 / 3|) = 10 := by norm_num [abs_of_pos]
  rw [h8, h10] at hx
  norm_num at he hx ⊢
  linarith

/-- The gradient at the end is `(2 · 3 - 1/3, -3)` up to roundoff. -/
example : ∃ m : List (List (binary 53 (by norm_num)).Num),
    result ((demoF ++ [Cmd.jacValue 0]).map (Cmd.float (binary 53 (by norm_num)))) = some (.mat m) ∧ m.length = 1 := by
  obtain ⟨m, e, h, _⟩ := float_jacobian (binary 53 (by norm_num)) demoF_allowed demoF_poly demoF_state.2.1
  exact ⟨m, e, h⟩

end FloatMath

end Slp
